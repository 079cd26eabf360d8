import Verif.Model.Span
/-!
Specification vocabulary for span resolution (C01–C04). Uses only `Range`.
-/
namespace Yargy.Spec

/-- Two ranges share no token. -/
def Apart (a b : Range) : Prop := a.2 ≤ b.1 ∨ b.2 ≤ a.1

instance (a b : Range) : Decidable (Apart a b) := inferInstanceAs (Decidable (_ ∨ _))

/-- Number of tokens covered by a list of ranges. -/
def coverage (l : List Range) : Int := (l.map (fun s => (s.2 : Int) - (s.1 : Int))).sum

/-- `sel` picks some of the candidates (in candidate order), no two of which overlap. -/
def Selection (spans sel : List Range) : Prop :=
  sel.Sublist spans ∧ sel.Pairwise Apart

instance (spans sel : List Range) : Decidable (Selection spans sel) :=
  inferInstanceAs (Decidable (_ ∧ _))

/-- What `findall` guarantees about its candidate list (`sorted(trees)`): starts are
non-decreasing and no range is empty. -/
def Candidates (spans : List Range) : Prop :=
  spans.Pairwise (fun a b => a.1 ≤ b.1) ∧ ∀ s ∈ spans, s.1 < s.2

instance (spans : List Range) : Decidable (Candidates spans) :=
  inferInstanceAs (Decidable (_ ∧ _))

/-- A choice of candidates given by positions in the candidate list. -/
def Positions (spans : List Range) (idx : List Nat) : Prop :=
  idx.Pairwise (· < ·) ∧ (∀ i ∈ idx, i < spans.length) ∧
    (idx.map (fun i => spans.getD i (0, 0))).Pairwise Apart

instance (spans : List Range) (idx : List Nat) : Decidable (Positions spans idx) :=
  inferInstanceAs (Decidable (_ ∧ _ ∧ _))

/-- Dictionary order on position lists. -/
def FirstInOrder (a b : List Nat) : Prop := a = b ∨ List.Lex (· < ·) a b

end Yargy.Spec
