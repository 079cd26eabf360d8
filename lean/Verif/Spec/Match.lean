import Verif.Spec.Derivation
import Verif.Model.Tree
/-! Specification vocabulary for matches: narrowed tokens, trimmed trees, heads. -/
namespace Yargy.Spec

variable {P T : Type}

/-- `t'` is `t` with some of its forms removed, but not all. -/
structure Narrowed (t t' : Token) : Prop where
  value : t'.value = t.value
  span : t'.span = t.span
  type : t'.type = t.type
  tag : t'.tag = t.tag
  plain : t.forms = none → t'.forms = none
  morph : ∀ fs, t.forms = some fs → ∃ fs', t'.forms = some fs' ∧ (∀ f ∈ fs', f ∈ fs) ∧
    (fs ≠ [] → fs' ≠ [])

/-- Every predicate only narrows the tokens it accepts. -/
def ConstrainNarrows (G : Grammar P Token) : Prop :=
  ∀ p t, G.accepts p t = true → Narrowed t (G.constrain p t)

mutual
/-- `d'` is `d` without its empty nodes and with narrowed tokens. -/
inductive Trims : DTree P Token → DTree P Token → Prop
  | leaf {p t t'} : Narrowed t t' → Trims (.leaf p t) (.leaf p t')
  | node {r prod cs cs'} : TrimsAll cs cs' → cs' ≠ [] → Trims (.node r prod cs) (.node r prod cs')
inductive TrimsAll : List (DTree P Token) → List (DTree P Token) → Prop
  | nil : TrimsAll [] []
  | keep {c c' cs cs'} : Trims c c' → TrimsAll cs cs' → TrimsAll (c :: cs) (c' :: cs')
  | drop {c cs cs'} : c.yield = [] → TrimsAll cs cs' → TrimsAll (c :: cs) cs'
end

/-- `x` is a part of the tree `t`. -/
inductive Sub : PTree P T → PTree P T → Prop
  | refl {t} : Sub t t
  | child {x n r prod rank cs c} : c ∈ cs → Sub x c → Sub x (.node n r prod rank cs)

/-- The head word of a tree: of a node, the head of the child its production designates. -/
inductive HeadOf : PTree P T → Nat → T → Prop
  | leaf {l p t} : HeadOf (.leaf l p t) l t
  | node {n r prod rank cs c l t} : cs[prod.main]? = some c → HeadOf c l t →
      HeadOf (.node n r prod rank cs) l t

/-- The leaf `l` with token `t` is related by `rel`: it is the head of a part of the tree whose
rule carries the relation. -/
def Related (A : Agreement) (tree : PTree P T) (rel l : Nat) (t : T) : Prop :=
  ∃ n r prod rank cs, Sub (.node n r prod rank cs) tree ∧ A.relationOf r = some rel ∧
    HeadOf (.node n r prod rank cs) l t

/-- Every part of the tree that carries a relation has a head, and the head is a word with forms:
the condition under which the agreement check does not raise. -/
def HeadsOK (A : Agreement) (tree : PTree P Token) : Prop :=
  ∀ n r prod rank cs, Sub (.node n r prod rank cs) tree → A.relationOf r ≠ none →
    ∃ l t fs, HeadOf (.node n r prod rank cs) l t ∧ t.forms = some fs

/-- The part carries the relation `rel`. -/
def carries (A : Agreement) (rel : Nat) : PTree P T → Bool
  | .leaf _ _ _ => false
  | .node _ r _ _ _ => decide (A.relationOf r = some rel)

/-- A consistent reading of the tree: for every related word one of its forms, such that every
relation holds between the heads of every two parts that carry it, in the order of the text (a part
before the parts inside it). -/
structure Reading (A : Agreement) (tree : PTree P Token) (c : Nat → Form) : Prop where
  form : ∀ rel l w fs, Related A tree rel l w → w.forms = some fs → c l ∈ fs
  agree : ∀ rel, (tree.walk.filter (carries A rel)).Pairwise (fun x y =>
    ∀ l w l' w', HeadOf x l w → HeadOf y l' w' → (A.relation rel).call (c l) (c l') = true)

/-- Every relation is carried by no part of the tree or by two, and the words it relates are two
different words that no other relation relates. -/
structure Couples (A : Agreement) (tree : PTree P Token) : Prop where
  two : ∀ rel, tree.walk.filter (carries A rel) = [] ∨ ∃ x y,
    tree.walk.filter (carries A rel) = [x, y] ∧
      ∀ l w l' w', HeadOf x l w → HeadOf y l' w' → l ≠ l'
  apart : ∀ rel rel' l w w', Related A tree rel l w → Related A tree rel' l w' → rel = rel'

/-- Before the designated child, on the way to the head, no child is empty. -/
inductive HeadSafe : PTree P T → Prop
  | leaf {l p t} : HeadSafe (.leaf l p t)
  | node {n r prod rank cs c} : cs[prod.main]? = some c →
      (∀ k c', k < prod.main → cs[k]? = some c' → c'.leaves ≠ []) → HeadSafe c →
      HeadSafe (.node n r prod rank cs)

end Yargy.Spec
