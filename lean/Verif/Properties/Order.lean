import Verif.Proofs.TreeOrder
import Verif.Proofs.Sort
import Verif.Properties.Chart
/-! C12: parses are totally ordered, following the order of alternatives in the grammar. -/
set_option linter.unusedSectionVars false
namespace Yargy
open Spec

variable {P T H : Type} [DecidableEq H] {G : Grammar P T} {hash : Key → H} {toks : List T} {all : Bool}

/-- The tree of a state (`prepare_trees`). -/
def State.tree (s : State P T) : Tree P T := ⟨s.node, s.range⟩

/-- What the order looks at: range and derivation. -/
def Tree.view (t : Tree P T) : (Nat × Nat) × DTree P T := (t.range, t.root.erase)

theorem orderInv_chart (hG : PredictSound G) {fuel : Nat} {cols : List (Column P T H)}
    (h : chart G hash toks all fuel = some cols) :
    ∃ c : Config P T H, OrderInv G hash toks c ∧ c.cols = cols := by
  obtain ⟨_, rfl⟩ := chart_runN h
  exact ⟨_, orderInv_runN hG fuel, rfl⟩

/-- C12: comparing two reported trees never raises and decides `Preferred`: earlier start, then
longer range, then the alternative offered earlier at the leftmost difference. -/
theorem treeLt_preferred (hG : PredictSound G) {fuel : Nat} {cols : List (Column P T H)}
    (h : chart G hash toks all fuel = some cols) (s t : State P T)
    (hs : s ∈ chartMatches G.start all cols) (ht : t ∈ chartMatches G.start all cols) :
    ∃ b, treeLt s.tree t.tree = .ok b ∧
      (b = true ↔ Preferred G toks s.tree.view t.tree.view) := by
  obtain ⟨c, hc, rfl⟩ := orderInv_chart hG h
  obtain ⟨k, h1, h2, h3, _⟩ := mem_chartMatches hs
  obtain ⟨k', g1, g2, g3, _⟩ := mem_chartMatches ht
  have e1 : s.tree.range = (s.start, s.stop) := rfl
  have e2 : t.tree.range = (t.start, t.stop) := rfl
  by_cases hr : s.tree.range = t.tree.range
  · have hst : s.start = t.start := congrArg Prod.fst hr
    obtain ⟨b, k1, k2⟩ := nodeLt_spec hc h1 g1 h2 g2 (by rw [h3, g3]) hst
    refine ⟨b, ?_, ?_⟩
    · unfold treeLt
      rw [if_pos hr]
      exact k1
    · rw [k2]
      constructor
      · intro hh; exact .same hr hh
      · intro hh
        cases hh with
        | start h5 => exact absurd h5 (by show ¬ s.start < t.start; omega)
        | longer _ h5 =>
          have : s.stop = t.stop := congrArg Prod.snd hr
          exact absurd h5 (by show ¬ t.stop < s.stop; omega)
        | same _ h5 => exact h5
  · unfold treeLt
    rw [if_neg hr]
    by_cases hst : s.start = t.start
    · refine ⟨decide (s.stop > t.stop), by rw [e1, e2]; simp [hst], ?_⟩
      rw [decide_eq_true_iff]
      constructor
      · intro hh; exact .longer hst hh
      · intro hh
        cases hh with
        | start h5 => exact absurd h5 (by show ¬ s.start < t.start; omega)
        | longer _ h5 => exact h5
        | same h5 _ => exact absurd h5 hr
    · refine ⟨decide (s.start < t.start), by rw [e1, e2]; simp [hst], ?_⟩
      rw [decide_eq_true_iff]
      constructor
      · intro hh; exact .start hh
      · intro hh
        cases hh with
        | start h5 => exact h5
        | longer h5 _ => exact absurd h5 hst
        | same h5 _ => exact absurd h5 hr

/-- C12: the order is irreflexive. -/
theorem preferred_irrefl (a : (Nat × Nat) × DTree P T) : ¬ Preferred G toks a a := fun h => h.irrefl

/-- C12: the order is transitive. -/
theorem preferred_trans (a b c : (Nat × Nat) × DTree P T) (h : Preferred G toks a b)
    (h' : Preferred G toks b c) : Preferred G toks a c := h.trans h'

/-- C12: the order is total on derivations of one rule, reported or not. -/
theorem preferred_total (hL : PredictLossless G) (r : Nat) (a b : (Nat × Nat) × DTree P T)
    (ha : Derives G toks (.rule r) a.1.1 a.1.2 a.2) (hb : Derives G toks (.rule r) b.1.1 b.1.2 b.2)
    (hne : a ≠ b) : Preferred G toks a b ∨ Preferred G toks b a := Preferred.total hL ha hb hne

/-- The reported trees are comparable in pairs. -/
theorem reported_comparable (hG : PredictSound G) (hL : PredictLossless G) {fuel : Nat}
    {cols : List (Column P T H)} (h : chart G hash toks all fuel = some cols) :
    (prepareTrees (chartMatches G.start all cols)).Pairwise
      (fun a b => Preferred G toks a.view b.view ∨ Preferred G toks b.view a.view) := by
  unfold prepareTrees
  rw [List.pairwise_map]
  refine List.Pairwise.imp_of_mem ?_ (chart_matches_unique hG h)
  intro s t hs ht hne
  refine preferred_total hL G.start _ _ (chart_matches_sound hG h s hs)
    (chart_matches_sound hG h t ht) ?_
  intro he
  exact hne (congrArg Prod.fst he) (congrArg Prod.snd he)

/-- C12: sorting the reported trees succeeds; the result is a rearrangement in order of
preference, and every rearrangement without inversions (whatever the algorithm, whatever order the
chart produced the trees in) is this one. -/
theorem sorted_trees_unique (hG : PredictSound G) (hL : PredictLossless G) {fuel : Nat}
    {cols : List (Column P T H)} (h : chart G hash toks all fuel = some cols) :
    ∃ l, sortBy treeLt [] (prepareTrees (chartMatches G.start all cols)) = .ok l ∧
      l.Perm (prepareTrees (chartMatches G.start all cols)) ∧
      l.Pairwise (fun a b => Preferred G toks a.view b.view) ∧
      ∀ l' : List (Tree P T), l'.Perm (prepareTrees (chartMatches G.start all cols)) →
        l'.Pairwise (fun a b => treeLt b a = .ok false) → l' = l := by
  have hcmp := reported_comparable hG hL h
  have hdec : ∀ a ∈ prepareTrees (chartMatches G.start all cols),
      ∀ b ∈ prepareTrees (chartMatches G.start all cols),
      Decides treeLt (fun a b => Preferred G toks a.view b.view) a b := by
    intro a ha b hb
    obtain ⟨s, hs, rfl⟩ := List.mem_map.1 ha
    obtain ⟨t, ht, rfl⟩ := List.mem_map.1 hb
    exact treeLt_preferred hG h s t hs ht
  obtain ⟨l, h1, h2, h3⟩ := sortBy_spec (lt := treeLt)
    (R := fun a b => Preferred G toks a.view b.view) (fun a b c => Preferred.trans)
    (prepareTrees (chartMatches G.start all cols)) [] List.Pairwise.nil
    (by simpa using hcmp) (by simpa using hdec)
  rw [List.nil_append] at h2
  refine ⟨l, h1, h2, h3, ?_⟩
  intro l' hp hl'
  refine sorted_unique (R := fun a b : Tree P T => Preferred G toks a.view b.view)
    (fun a => preferred_irrefl _) (fun a b c => Preferred.trans)
    (hp.trans h2.symm) ?_ h3
  have hcmp' := hcmp.perm hp.symm (fun h => h.symm)
  refine List.Pairwise.imp_of_mem ?_ (hl'.and hcmp')
  rintro a b ha hb ⟨h5, h6⟩
  rcases h6 with h6 | h6
  · exact h6
  · obtain ⟨v, h7, h8⟩ := hdec b (hp.mem_iff.1 hb) a (hp.mem_iff.1 ha)
    rw [h5] at h7; cases h7
    exact absurd (h8.2 h6) (by simp)

mutual
/-- The ranks of the nodes in pre-order (for display in the example). -/
def ranks : PTree P T → List Nat
  | .leaf _ _ _ => []
  | .node _ _ _ rank cs => rank :: ranksAll cs
def ranksAll : List (PTree P T) → List Nat
  | [] => []
  | c :: cs => ranks c ++ ranksAll cs
end

/-- Non-trivial case: the five trees of `aaaa` under `S → S S | 'a'`, in order of
preference; the first one branches to the left. -/
example : ((chart ambiguousGrammar (id : Key → Key) "aaaa".toList false 400).map
    (fun cols => match sortBy treeLt [] (prepareTrees (chartMatches 0 false cols)) with
      | .ok l => (l.map (fun t : Tree Char Char => ranks t.root)).take 5
      | .error _ => [])) =
    some [[0, 0, 0, 1, 1, 1, 1], [0, 0, 1, 0, 1, 1, 1], [0, 0, 1, 1, 0, 1, 1],
      [0, 1, 0, 0, 1, 1, 1], [0, 1, 0, 1, 0, 1, 1]] := by
  decide +kernel

end Yargy
