import Verif.Model.Relation
/-! Specification: agreement between words. -/
namespace Yargy.Spec

/-- A relation that gives the same answer in both directions. -/
def Symmetric (rel : Form → Form → Bool) : Prop := ∀ a b, rel a b = rel b a

/-- A relation that does not distinguish equal forms. -/
def Respects (rel : Form → Form → Bool) : Prop :=
  ∀ a a' b b', a.normalized = a'.normalized → a.grams = a'.grams →
    b.normalized = b'.normalized → b.grams = b'.grams → rel a b = rel a' b'

mutual
/-- Every user-defined part of the relation satisfies `P`. -/
def UserParts (P : (Form → Form → Bool) → Prop) : Relation → Prop
  | .user f => P f
  | .and rs => AllUserParts P rs
  | .or rs => AllUserParts P rs
  | .not r => UserParts P r
  | .gender => True
  | .number => True
  | .case => True
  | .gnc => True
def AllUserParts (P : (Form → Form → Bool) → Prop) : List Relation → Prop
  | [] => True
  | r :: rs => UserParts P r ∧ AllUserParts P rs
end

/-- Words (numbers) that must agree: `groups` lists, for every relation, its words; every two words
listed under one relation must satisfy it. `c` chooses one of its forms for every word. -/
def Consistent (rel : Nat → Form → Form → Bool) (groups : List (Nat × List Nat))
    (forms : Nat → List Form) (c : Nat → Form) : Prop :=
  ∀ e ∈ groups, (∀ w ∈ e.2, c w ∈ forms w) ∧ e.2.Pairwise (fun a b => rel e.1 (c a) (c b) = true)

/-- `kept` are forms of `all`, and every form of `all` satisfying `must` has an equal one in
`kept`. -/
def Keeps (must : Form → Prop) (all kept : List Form) : Prop :=
  (∀ f ∈ kept, f ∈ all) ∧
    ∀ f ∈ all, must f → ∃ g ∈ kept, f.normalized = g.normalized ∧ f.grams = g.grams

/-- Requirements (relation, word, word) are between different words, and no two of them share a
word. -/
def Separate (es : List (Nat × Nat × Nat)) : Prop :=
  (∀ e ∈ es, e.2.1 ≠ e.2.2) ∧
    es.Pairwise (fun e e' => e.2.1 ≠ e'.2.1 ∧ e.2.1 ≠ e'.2.2 ∧ e.2.2 ≠ e'.2.1 ∧ e.2.2 ≠ e'.2.2)

end Yargy.Spec
