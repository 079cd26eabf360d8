import Verif.Proofs.Span
/-!
C01–C04 at the level of `resolve_spans`. `Verif/Properties/Findall.lean` lifts them to
`Parser.findall`.
-/
namespace Yargy
open Spec SpanProof

/-- A candidate list with overlaps used to show that hypotheses are met: ties, nesting and
a non-greedy optimum occur. -/
def sampleSpans : List Range := [(0, 3), (0, 1), (1, 4), (2, 5), (4, 5), (5, 9), (6, 7)]

example : Candidates sampleSpans := by decide
example : resolveSpans sampleSpans = [(0, 1), (1, 4), (4, 5), (5, 9)] := by decide

/-- C01: the result is in text order and each range ends no later than the next starts. -/
theorem resolve_ordered (spans : List Range) (h : Candidates spans) :
    (resolveSpans spans).Pairwise (fun a b => a.2 ≤ b.1) := by
  have hv := resolve_valid h
  unfold resolveSpans
  rw [List.pairwise_map]
  exact hv.1.imp (fun h => h.2)

/-- C01: the result is a selection of the candidates, no two of which overlap. -/
theorem resolve_selection (spans : List Range) (h : Candidates spans) :
    Selection spans (resolveSpans spans) := by
  refine ⟨?_, (resolve_ordered spans h).imp Or.inl⟩
  have hv := resolve_valid h
  exact map_sublist spans _ (hv.1.imp (fun h => h.1)) hv.2

/-- C02: no selection covers more tokens. -/
theorem resolve_max_coverage (spans : List Range) (h : Candidates spans)
    (sel : List Range) (hsel : Selection spans sel) :
    coverage sel ≤ coverage (resolveSpans spans) := by
  obtain ⟨idx, h1, h2, rfl⟩ := sublist_positions hsel.1
  have hv := valid_of_apart h h1 h2 hsel.2
  by_cases hne : spans = []
  · subst hne
    cases idx with
    | nil => exact Int.le_refl _
    | cons a l => have := h2 a List.mem_cons_self; simp at this
  · obtain ⟨c, hg⟩ := resolve_good h hne
    have h3 := hg.best idx hv (fun _ _ => Nat.zero_le _)
    rw [← hg.cov_eq, cov_eq_coverage, cov_eq_coverage] at h3
    exact h3

example : Selection sampleSpans [(0, 3), (4, 5), (5, 9)] ∧
    coverage [(0, 3), (4, 5), (5, 9)] < coverage (resolveSpans sampleSpans) := by decide

/-- C03: the result is given by positions that come first, in dictionary order, among all
selections that cover as many tokens. -/
theorem resolve_leftmost (spans : List Range) (h : Candidates spans) :
    ∃ idx, Positions spans idx ∧ resolveSpans spans = idx.map (fun i => spans.getD i (0, 0)) ∧
      ∀ other, Positions spans other →
        coverage (other.map (fun i => spans.getD i (0, 0))) = coverage (resolveSpans spans) →
        FirstInOrder idx other := by
  have hv := resolve_valid h
  refine ⟨resolveIndexes spans, ⟨hv.1.imp (fun h => h.1), hv.2, ?_⟩, rfl, ?_⟩
  · exact (resolve_ordered spans h).imp Or.inl
  · intro other ho hc
    have hvo := valid_of_apart h ho.1 ho.2.1 ho.2.2
    by_cases hne : spans = []
    · subst hne
      cases other with
      | nil => exact Or.inl rfl
      | cons a l => have := ho.2.1 a List.mem_cons_self; simp at this
    · obtain ⟨c, hg⟩ := resolve_good h hne
      refine hg.first other hvo (fun _ _ => Nat.zero_le _) ?_
      rw [← hg.cov_eq, cov_eq_coverage, cov_eq_coverage]
      exact hc

example : Positions sampleSpans [1, 2, 4, 5] ∧ Positions sampleSpans [0, 4, 5] := by
  decide

/-- Two ties: `(0,2)(2,4)` and `(0,4)` cover the same; the longer candidate comes first. -/
example : resolveSpans [(0, 4), (0, 2), (2, 4)] = [(0, 4)] := by decide

/-- C04: a candidate that is not returned overlaps a returned one. -/
theorem resolve_drops_only_overlapping (spans : List Range) (h : Candidates spans)
    (s : Range) (hs : s ∈ spans) (hn : s ∉ resolveSpans spans) :
    ∃ t ∈ resolveSpans spans, ¬ Apart s t := by
  apply Classical.byContradiction
  intro hcon
  have hap : ∀ t ∈ resolveSpans spans, Apart s t := by
    intro t ht
    apply Classical.byContradiction
    intro hna
    exact hcon ⟨t, ht, hna⟩
  have hsel := resolve_selection spans h
  obtain ⟨sel, h1, h2⟩ := sublist_insert hsel.1 hs hn
  have h3 : sel.Pairwise Apart :=
    h2.symm.pairwise (List.pairwise_cons.2 ⟨hap, hsel.2⟩) (fun h => h.symm)
  have h4 := resolve_max_coverage spans h sel ⟨h1, h3⟩
  have h5 := h.2 s hs
  rw [coverage_perm h2, coverage_cons] at h4
  omega

example : (2, 5) ∈ sampleSpans ∧ (2, 5) ∉ resolveSpans sampleSpans := by decide

/-- C04: disjoint candidates are all returned. -/
theorem resolve_keeps_disjoint (spans : List Range) (h : Candidates spans)
    (hd : spans.Pairwise Apart) : resolveSpans spans = spans := by
  have h1 := resolve_max_coverage spans h spans ⟨List.Sublist.refl _, hd⟩
  exact sublist_full (resolve_selection spans h).1 h.2 h1

example : Candidates [(0, 3), (3, 4), (6, 7)] ∧ [((0, 3) : Range), (3, 4), (6, 7)].Pairwise Apart := by
  decide

end Yargy
