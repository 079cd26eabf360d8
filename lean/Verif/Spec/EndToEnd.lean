import Verif.Spec.Span
import Verif.Spec.Thin
/-!
What `findall` returns, said in terms of the ranges of tokens that a rule accepts.
-/
namespace Yargy.Spec

/-- The ranges are chosen among those that are accepted: no two overlap, no other choice covers more tokens, and
among choices that cover as many this is the one that comes first, candidates being ordered by their start and then
longest first. -/
def Chosen (accepted : Nat → Nat → Prop) (rs : List Range) : Prop :=
  ∃ cands : List Range, cands.Pairwise (fun a b => a.1 < b.1 ∨ (a.1 = b.1 ∧ b.2 < a.2)) ∧
    (∀ i j, (i, j) ∈ cands ↔ accepted i j) ∧ Selection cands rs ∧
    (∀ sel, Selection cands sel → coverage sel ≤ coverage rs) ∧
    ∃ idx, Positions cands idx ∧ rs = idx.map (fun i => cands.getD i (0, 0)) ∧
      ∀ other, Positions cands other →
        coverage (other.map (fun i => cands.getD i (0, 0))) = coverage rs → FirstInOrder idx other

end Yargy.Spec
