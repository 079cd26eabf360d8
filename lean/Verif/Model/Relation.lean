import Verif.Model.Token
/-! Agreement relations (`yargy/relations/*.py`, grammeme views of `yargy/morph.py`). -/
namespace Yargy

/-- `value in form.grams` (`Grams.__contains__`, `yargy/morph.py:78-79`). -/
def Form.has (f : Form) (g : String) : Bool := decide (g.toList ∈ f.grams)

/-- `gender_relation.__call__` (`yargy/relations/bank.py:16-32`) over `Gender`
(`yargy/morph.py:27-36`). -/
def genderRel (a b : Form) : Bool :=
  let bi (f : Form) := f.has "Ms-f" || f.has "ms-f"
  if a.has "plur" && b.has "plur" then true
  else (a.has "masc" && b.has "masc") || (a.has "femn" && b.has "femn")
    || (a.has "neut" && b.has "neut")
    || (bi a && (b.has "masc" || b.has "femn"))
    || (bi b && (a.has "masc" || a.has "femn"))
    || a.has "GNdr" || b.has "GNdr"

/-- `number_relation.__call__` (`yargy/relations/bank.py:38-51`) over `Number`
(`yargy/morph.py:39-46`). -/
def numberRel (a b : Form) : Bool :=
  (a.has "sing" && b.has "sing") || (a.has "plur" && b.has "plur")
    || (a.has "Sgtm" && b.has "sing") || (a.has "Pltm" && b.has "plur")
    || (b.has "Sgtm" && a.has "sing") || (b.has "Pltm" && a.has "plur")

/-- `Case.mask` (`yargy/morph.py:52-56`). -/
def caseMask (f : Form) : List Bool :=
  ["nomn", "gent", "datv", "accs", "ablt", "loct", "voct"].map f.has

/-- `case_relation.__call__` (`yargy/relations/bank.py:57-64`) over `Case`
(`yargy/morph.py:49-57`). -/
def caseRel (a b : Form) : Bool :=
  caseMask a == caseMask b || a.has "Fixd" || b.has "Fixd"

/-- Relation objects: the bank (`yargy/relations/bank.py`), the combinators
(`yargy/relations/constructors.py:30-79`), and user-defined subclasses of `Relation`. -/
inductive Relation where
  | gender
  | number
  | case
  | gnc
  | and (rs : List Relation)
  | or (rs : List Relation)
  | not (r : Relation)
  | user (f : Form → Form → Bool)

mutual
/-- `relation(form, other)` (`yargy/relations/bank.py:16-75`,
`yargy/relations/constructors.py:43-44,72-73`). -/
def Relation.call : Relation → Form → Form → Bool
  | .gender, a, b => genderRel a b
  | .number, a, b => numberRel a b
  | .case, a, b => caseRel a b
  | .gnc, a, b => genderRel a b && numberRel a b && caseRel a b
  | .and rs, a, b => Relation.callAll rs a b
  | .or rs, a, b => Relation.callAny rs a b
  | .not r, a, b => !r.call a b
  | .user f, a, b => f a b
/-- `all(_(form, other) for _ in self.relations)` -/
def Relation.callAll : List Relation → Form → Form → Bool
  | [], _, _ => true
  | r :: rs, a, b => r.call a b && Relation.callAll rs a b
/-- `any(_(form, other) for _ in self.relations)` -/
def Relation.callAny : List Relation → Form → Form → Bool
  | [], _, _ => false
  | r :: rs, a, b => r.call a b || Relation.callAny rs a b
end

/-- `combinations(items, 2)` (`yargy/relations/graph.py:31`). -/
def pairs {α} : List α → List (α × α)
  | [] => []
  | x :: xs => xs.map (fun y => (x, y)) ++ pairs xs

/-- `TokenRelationsGraph` (`yargy/relations/graph.py:17-47`). `relation_items` is an
insertion-ordered dictionary from relation identities to token lists. In one tree every token
object sits in one leaf, so tokens are keyed by the identity of their leaf instead of their own. -/
structure RelGraph where
  items : List (Nat × List Nat)
  tokens : List (Nat × Token)
  forms : Nat → List Form

def RelGraph.empty : RelGraph := ⟨[], [], fun _ => []⟩

/-- `self.relation_items[relation_id].append(item)` (`yargy/relations/graph.py:25`). -/
def addItem (rel leaf : Nat) : List (Nat × List Nat) → List (Nat × List Nat)
  | [] => [(rel, [leaf])]
  | (r, ls) :: rest =>
    if r = rel then (r, ls ++ [leaf]) :: rest else (r, ls) :: addItem rel leaf rest

/-- Dictionary assignment. -/
def update {α} (f : Nat → α) (k : Nat) (v : α) : Nat → α := fun n => if n = k then v else f n

/-- `TokenRelationsGraph.add` (`yargy/relations/graph.py:41-47`). -/
def RelGraph.add (g : RelGraph) (rel leaf : Nat) (t : Token) : Except Err RelGraph :=
  match t.forms with
  | none => .error .attributeError
  | some fs => .ok (
    if g.tokens.any (fun e => e.1 == leaf) then { g with items := addItem rel leaf g.items }
    else
      { items := addItem rel leaf g.items
        tokens := g.tokens ++ [(leaf, t)]
        forms := update g.forms leaf fs })

/-- `RelationsGraph.edges` (`yargy/relations/graph.py:28-32`): relation, first, second. -/
def RelGraph.edges (g : RelGraph) : List (Nat × Nat × Nat) :=
  g.items.flatMap (fun e => (pairs e.2).map (fun p => (e.1, p.1, p.2)))

/-- `if form not in checked: checked.append(form)` -/
def addForm (f : Form) (l : List Form) : List Form := if f.isIn l then l else l ++ [f]

/-- The two nested loops of `validate` (`yargy/relations/graph.py:57-63`). -/
def checkEdge (rel : Form → Form → Bool) (fs gs : List Form) : List Form × List Form :=
  fs.foldl (fun acc f => gs.foldl (fun acc g =>
    if rel f g then (addForm f acc.1, addForm g acc.2) else acc) acc) ([], [])

/-- The body of the loop over edges (`yargy/relations/graph.py:50-65`); `R` gives the relation
object for an identity. -/
def stepEdge (R : Nat → Relation) (forms : Nat → List Form) (e : Nat × Nat × Nat) : Nat → List Form :=
  let c := checkEdge (R e.1).call (forms e.2.1) (forms e.2.2)
  update (update forms e.2.1 c.1) e.2.2 c.2

/-- `TokenRelationsGraph.validate` (`yargy/relations/graph.py:49-70`): the narrowed forms and the
verdict. -/
def RelGraph.validate (R : Nat → Relation) (g : RelGraph) : RelGraph × Bool :=
  let forms := g.edges.foldl (stepEdge R) g.forms
  ({ g with forms := forms }, g.tokens.all (fun e => !(forms e.1).isEmpty))

/-- `TokenRelationsGraph.constrain` (`yargy/relations/graph.py:72-78`). -/
def RelGraph.constrain (g : RelGraph) (leaf : Nat) (t : Token) : Except Err Token :=
  match g.tokens.find? (fun e => e.1 == leaf) with
  | some e => e.2.constrained (g.forms leaf)
  | none => .ok t

end Yargy
