import Verif.Spec.Choices
import Verif.Spec.Match
/-!
The structure of what a rule says: which parts belong together, which of them is the main one, and which
parts stand for lines of dictionaries. This is said about the rule objects a user builds.
-/
namespace Yargy

variable {P : Type}

/-- A word, or parts that belong together with the number of the main one, or what stands for a line of a
dictionary. -/
inductive Outline (P : Type) where
  | leaf (p : P)
  | node (main : Nat) (parts : List (Outline P))
  | entry (line : Str) (words : Outline P)

/-- Parts that belong together; a single part is just that part. -/
def group (main : Nat) : List (Outline P) → Outline P
  | [s] => s
  | ss => .node main ss

/-- A line of a dictionary: its words. -/
def lineOf (line : Str) (ps : List P) : Outline P := .entry line (group 0 (ps.map .leaf))

/-- Repetitions: the first one, and the rest of them. -/
def chain : List (Outline P) → Outline P
  | [] => .node 0 []
  | [s] => s
  | s :: t :: ss => .node 0 [s, chain (t :: ss)]

/-- Repetitions of which so many are required: those before the last required one come first. -/
def chainFrom (least : Nat) (ss : List (Outline P)) : Outline P :=
  group 0 (ss.take (least - 1) ++ [chain (ss.drop (least - 1))])

mutual
/-- The structures of what a rule, or an activated predicate, says in a context. -/
inductive Forms (A : Activation P) (h : Heap P) : Term P → Outline P → Prop
  | pred {p} : Forms A h (.pred p) (.leaf p)
  | prod {a : Nat} {ts us m ss} : h[a]? = some (.prod ts m) → ActivatedAll A ts us →
      FormsAll A h us ss → Forms A h (.rule a) (group m ss)
  | emptyProd {a : Nat} : h[a]? = some .emptyProd → Forms A h (.rule a) (.node 0 [])
  | pipeProd {a : Nat} {v ps} : h[a]? = some (.pipeProd v ps) →
      Forms A h (.rule a) (lineOf v ps)
  | rule {a : Nat} {ps p s} : h[a]? = some (.rule ps) → p ∈ ps → Forms A h (.rule p) s →
      Forms A h (.rule a) s
  | bnf {a : Nat} {ps n i r k p s} : h[a]? = some (.bnf ps n i r k) → p ∈ ps → Forms A h (.rule p) s →
      Forms A h (.rule a) s
  | or {a : Nat} {rs r s} : h[a]? = some (.or rs) → r ∈ rs → Forms A h (.rule r) s → Forms A h (.rule a) s
  | named {a r : Nat} {n s} : h[a]? = some (.named r n) → Forms A h (.rule r) s → Forms A h (.rule a) s
  | interp {a r : Nat} {i s} : h[a]? = some (.interp r i) → Forms A h (.rule r) s → Forms A h (.rule a) s
  | relation {a r : Nat} {x s} : h[a]? = some (.relation r x) → Forms A h (.rule r) s →
      Forms A h (.rule a) s
  | forward {a r : Nat} {s} : h[a]? = some (.forward (some r)) → Forms A h (.rule r) s →
      Forms A h (.rule a) s
  | empty {a : Nat} : h[a]? = some .empty → Forms A h (.rule a) (.node 0 [])
  | line {a : Nat} {kind lines l ps} : h[a]? = some (.pipe (.scheme kind lines)) → l ∈ lines →
      A.key kind l = .ok ps → Forms A h (.rule a) (lineOf l ps)
  | key {a : Nat} {kind} {keys : List (Str × List P)} {k} : h[a]? = some (.pipe (.keys kind keys)) →
      k ∈ keys → Forms A h (.rule a) (lineOf k.1 k.2)
  | absent {a r : Nat} {v} : h[a]? = some (.optional r v) → Forms A h (.rule a) (.node 0 [])
  | present {a r : Nat} {v s} : h[a]? = some (.optional r v) → Forms A h (.rule r) s → Forms A h (.rule a) s
  | repeated {a : Nat} {o : Obj P} {r v least most n ss} : h[a]? = some o →
      o.repetition = some (r, v, least, most) → least ≤ n → (∀ m, most = some m → n ≤ m) →
      FormsAll A h (List.replicate n (.rule r)) ss → Forms A h (.rule a) (chainFrom least ss)
  | some {a r : Nat} {v u n ss} : h[a]? = some (.repOptional r v u) →
      FormsAll A h (List.replicate n (.rule r)) ss → Forms A h (.rule a) (chain ss)
  | someEnded {a r : Nat} {v u n ss} : h[a]? = some (.repOptional r v u) →
      FormsAll A h (List.replicate n (.rule r)) ss → Forms A h (.rule a) (chain (ss ++ [.node 0 []]))
/-- The same of a sequence of terms. -/
inductive FormsAll (A : Activation P) (h : Heap P) : List (Term P) → List (Outline P) → Prop
  | nil : FormsAll A h [] []
  | cons {t ts s ss} : Forms A h t s → FormsAll A h ts ss → FormsAll A h (t :: ts) (s :: ss)
end

mutual
/-- The predicates at the leaves. -/
def Outline.preds : Outline P → List P
  | .leaf p => [p]
  | .node _ ss => predsAll ss
  | .entry _ s => s.preds
def predsAll : List (Outline P) → List P
  | [] => []
  | s :: ss => s.preds ++ predsAll ss
end

/-- The main word, by its number from the left. -/
inductive MainWord : Outline P → Nat → Prop
  | leaf {p} : MainWord (.leaf p) 0
  | node {m : Nat} {ss : List (Outline P)} {s k} : ss[m]? = some s → MainWord s k →
      MainWord (.node m ss) ((predsAll (ss.take m)).length + k)
  | entry {v s k} : MainWord s k → MainWord (.entry v s) k

/-- What stands for a line of a dictionary, or for none. -/
def titled : Option Str → Outline P → Outline P
  | none, s => s
  | some v, s => .entry v s

mutual
/-- The structure of a derivation: a node with one child is just the child, unless it stands for a line
of a dictionary. -/
def outline {T : Type} : Spec.DTree P T → Outline P
  | .leaf p _ => .leaf p
  | .node _ prod cs => titled prod.key (group prod.main (outlineAll cs))
def outlineAll {T : Type} : List (Spec.DTree P T) → List (Outline P)
  | [] => []
  | c :: cs => outline c :: outlineAll cs
end

/-- The tokens `i, …, j-1` are accepted by predicates, one by one. -/
inductive AcceptedBy (accepts : P → Token → Bool) (toks : List Token) : List P → Nat → Nat → Prop
  | nil {i} : AcceptedBy accepts toks [] i i
  | cons {p ps t i j} : toks[i]? = some t → accepts p t = true → AcceptedBy accepts toks ps (i + 1) j →
      AcceptedBy accepts toks (p :: ps) i j

end Yargy
