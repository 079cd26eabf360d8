import Verif.Proofs.Front
import Verif.Proofs.Samples
/-!
C01–C08, C11, C13, C26, C28 for `extract`, `findall` and `match`.
-/
set_option linter.unusedSectionVars false
namespace Yargy
open Spec

variable {P H : Type} [DecidableEq H] {G : Grammar P Token} {A : Agreement} {hash : Key → H}
  {toks : List Token} {all : Bool}

theorem reported_of {fuel : Nat} {cols : List (Column P Token H)}
    (h : chart G hash toks all fuel = some cols) {t : Tree P Token} :
    Reported G hash toks all fuel t ↔ t ∈ prepareTrees (chartMatches G.start all cols) := by
  unfold Reported matchStates
  rw [h]
  simp

theorem narrowsIn_of {home : Home P Token} {n : Nat} {t : Tree P Token} (hl : Laid home n t)
    {σ : Store} (hσ : StoreOK home σ) : NarrowsIn σ t :=
  fun _ h => cur_narrowed hl hσ h

theorem Made.accepted {home : Home P Token} {n : Nat} {t : Tree P Token} (hl : Laid home n t)
    {m : Match P} (h : Made A home t m) : AcceptedAfter A t := by
  obtain ⟨σ, σ', h1, h2⟩ := h
  exact ⟨σ, m, σ', narrowsIn_of hl h1, h2⟩

theorem findall_cands (hG : PredictSound G) (hL : PredictLossless G) {fuel : Nat} {ms : List (Match P)}
    {σ : Store} (h : findall G A hash toks fuel = some (.ok (ms, σ))) :
    ∃ cands, CandidatesOf G A hash toks fuel cands ∧ Candidates cands ∧
      ms.map (fun m => m.tree.range) = resolveSpans cands := by
  obtain ⟨cols, home, n, acc, h1, h2, h3, h4, h5, h6, h7, h8, h9, _⟩ := findall_acc hG hL h
  refine ⟨acc.map Prod.fst, ⟨h4, ?_, ?_⟩, h8, h7⟩
  · intro ρ hρ
    obtain ⟨e, he, rfl⟩ := List.mem_map.1 hρ
    obtain ⟨t, ht, hr, hm⟩ := h5 e he
    exact ⟨t, (reported_of h1).2 ht, hr, hm.accepted (h2 t ht)⟩
  · intro t ht
    rw [reported_of h1] at ht
    rcases h6 t ht with h | ⟨σ1, σ2, k1, k2⟩
    · exact Or.inl h
    · exact Or.inr ⟨σ1, σ2, narrowsIn_of (h2 t ht) k1, k2⟩

/-! ### C01–C04 -/

/-- C01: the matches come in text order and do not overlap. -/
theorem findall_ordered (hG : PredictSound G) (hL : PredictLossless G) {fuel : Nat}
    {ms : List (Match P)} {σ : Store} (h : findall G A hash toks fuel = some (.ok (ms, σ))) :
    ms.Pairwise (fun a b => a.tree.range.2 ≤ b.tree.range.1) := by
  obtain ⟨cands, _, h2, h3⟩ := findall_cands hG hL h
  have := resolve_ordered cands h2
  rw [← h3, List.pairwise_map] at this
  exact this

/-- C11: `find` gives the leftmost match of `findall`, and nothing only if there is none; it raises when
`findall` does. -/
theorem find_leftmost (hG : PredictSound G) (hL : PredictLossless G) {fuel : Nat} :
    (∀ ms σ, findall G A hash toks fuel = some (.ok (ms, σ)) →
      ∃ r, find G A hash toks fuel = some (.ok r) ∧ (r = none ↔ ms = []) ∧
        ∀ m, r = some m → m ∈ ms ∧ ∀ m' ∈ ms, m' = m ∨ m.tree.range.2 ≤ m'.tree.range.1) ∧
    (∀ e, findall G A hash toks fuel = some (.error e) → find G A hash toks fuel = some (.error e)) := by
  refine ⟨fun ms σ h => ⟨ms.head?, by unfold find; rw [h]; rfl, List.head?_eq_none_iff, ?_⟩,
    fun e h => by unfold find; rw [h]; rfl⟩
  intro m hm
  have ho := findall_ordered hG hL h
  cases ms with
  | nil => cases hm
  | cons x xs =>
    cases hm
    refine ⟨List.mem_cons_self, fun m' hm' => ?_⟩
    rcases List.mem_cons.1 hm' with rfl | hm'
    · exact Or.inl rfl
    · exact Or.inr ((List.pairwise_cons.1 ho).1 m' hm')

/-- C01, C02, C03, C04: there is a list of candidates (the ranges of the reported trees that were
accepted, leftmost first and then longest first) such that the ranges of the matches are a
selection of it, no selection covers more tokens, among those that cover as many it comes first,
every candidate left out overlaps a returned one, and if the candidates are disjoint nothing is
left out. -/
theorem findall_selects (hG : PredictSound G) (hL : PredictLossless G) {fuel : Nat}
    {ms : List (Match P)} {σ : Store} (h : findall G A hash toks fuel = some (.ok (ms, σ))) :
    ∃ cands, CandidatesOf G A hash toks fuel cands ∧
      Selection cands (ms.map (fun m => m.tree.range)) ∧
      (∀ sel, Selection cands sel → coverage sel ≤ coverage (ms.map (fun m => m.tree.range))) ∧
      (∃ idx, Positions cands idx ∧
        ms.map (fun m => m.tree.range) = idx.map (fun i => cands.getD i (0, 0)) ∧
        ∀ other, Positions cands other →
          coverage (other.map (fun i => cands.getD i (0, 0))) =
            coverage (ms.map (fun m => m.tree.range)) → FirstInOrder idx other) ∧
      (∀ ρ ∈ cands, ρ ∉ ms.map (fun m => m.tree.range) →
        ∃ m ∈ ms, ¬ Apart ρ m.tree.range) ∧
      (cands.Pairwise Apart → ms.map (fun m => m.tree.range) = cands) := by
  obtain ⟨cands, h1, h2, h3⟩ := findall_cands hG hL h
  refine ⟨cands, h1, ?_⟩
  rw [h3]
  refine ⟨resolve_selection _ h2, fun sel hs => resolve_max_coverage _ h2 sel hs,
    resolve_leftmost _ h2, ?_, fun hd => resolve_keeps_disjoint _ h2 hd⟩
  intro ρ hρ hn
  obtain ⟨t, ht, hna⟩ := resolve_drops_only_overlapping _ h2 ρ hρ hn
  rw [← h3] at ht
  obtain ⟨m, hm, rfl⟩ := List.mem_map.1 ht
  exact ⟨m, hm, hna⟩

/-- Two words that agree in gender, in a text of four: of the three candidate pairs the middle one
is rejected, the others are returned. -/
example : PredictSound coupleGrammar ∧ PredictLossless coupleGrammar ∧
    ∃ ms σ, findall coupleGrammar coupleAgreement (id : Key → Key) coupleText 200 = some (.ok (ms, σ)) ∧
      ms.map (fun m => m.tree.range) = [(0, 2), (2, 4)] :=
  ⟨word_sound _, word_lossless _, couple_findall⟩

/-! ### C05, C06, C28 -/

/-- C05, C06, C28: every match of `findall` is a derivation of the start rule (without its empty
nodes), its tokens are those of its range with nothing but some forms removed, and its span runs
from the first to the last of them. -/
theorem findall_matches (hG : PredictSound G) (hL : PredictLossless G) (hC : ConstrainNarrows G)
    {fuel : Nat} {ms : List (Match P)} {σ : Store}
    (h : findall G A hash toks fuel = some (.ok (ms, σ))) (m : Match P) (hm : m ∈ ms) :
    MatchOK G toks σ m := by
  obtain ⟨cols, home, n, acc, h1, h2, h3, h4, h5, h6, h7, h8, h9, _⟩ := findall_acc hG hL h
  obtain ⟨e, he, rfl⟩ := h9 m hm
  obtain ⟨t, ht, _, hmd⟩ := h5 e he
  exact made_ok hG hC h1 ht (h2 t ht) hmd h3

/-- C05, C06, C28 for `match`. -/
theorem match_matches (hG : PredictSound G) (hL : PredictLossless G) (hC : ConstrainNarrows G)
    {fuel : Nat} {m : Match P} {σ : Store}
    (h : matchText G A hash toks fuel = some (.ok (some m, σ))) : MatchOK G toks σ m := by
  obtain ⟨cols, l, h1, h2, h3, h4⟩ := match_run hG hL h
  obtain ⟨home, n, hl⟩ := chart_laid (all := false) hG h1
  have hl' : ∀ t ∈ l, Laid home n t := fun t ht => hl t (h2.mem_iff.1 ht)
  obtain ⟨pre, t, post, k1, k2, _⟩ := firstMatch_spec l _ _ _
    (fun t ht => layout_nodup (hl' t ht)) h4
  have ht : t ∈ l := by rw [k1]; simp
  exact made_ok hG hC h1 (h2.mem_iff.1 ht) (hl' t ht) ⟨_, _, storeOK_init, k2⟩
    (prepareMatch_accepted (hl' t ht) storeOK_init k2).store

/-- C05, C06, C28 for `extract`, also when it ends with an exception. -/
theorem extract_matches (hG : PredictSound G) (hC : ConstrainNarrows G)
    {fuel : Nat} {ms : List (Match P)} {σ : Store} {e : Option Err}
    (h : extract G A hash toks all fuel = some (ms, σ, e)) (m : Match P) (hm : m ∈ ms) :
    MatchOK G toks σ m := by
  obtain ⟨cols, h1, h2⟩ := extract_run h
  obtain ⟨home, n, hl⟩ := chart_laid hG h1
  obtain ⟨picks, k1, k2, k3, ⟨rest, k4, _⟩, _⟩ := prepareMatches_spec (loopInv_ok A home n)
    (prepareTrees (chartMatches G.start all cols)) Store.init ⟨storeOK_init, hl⟩
  rw [← h2] at k1 k4
  dsimp only at k1
  rw [← k1] at hm
  obtain ⟨x, hx, rfl⟩ := List.mem_map.1 hm
  obtain ⟨post, σ1, σ2, c1, c2⟩ := k3 x hx
  have ht := k2.subset (List.mem_map.2 ⟨x, hx, rfl⟩)
  exact made_ok hG hC h1 ht (hl _ ht) ⟨σ1, σ2, c1.1, c2⟩ k4.1

example : ∃ ms σ, extract coupleGrammar coupleAgreement (id : Key → Key) coupleText true 200
      = some (ms, σ, none) ∧ ms.length = 2 ∧ ∀ m ∈ ms, MatchOK coupleGrammar coupleText σ m := by
  obtain ⟨ms, σ, h, hr⟩ := couple_extract
  refine ⟨ms, σ, h, ?_, extract_matches (word_sound _) (word_narrows _) h⟩
  simpa using congrArg List.length hr

example : ∃ m σ, matchText coupleGrammar coupleAgreement (id : Key → Key) (coupleText.take 2) 200
      = some (.ok (some m, σ)) ∧ MatchOK coupleGrammar (coupleText.take 2) σ m := by
  obtain ⟨m, σ, h, _⟩ := couple_match
  exact ⟨m, σ, h, match_matches (word_sound _) (word_lossless _) (word_narrows _) h⟩

/-! ### C07, C08, C26 -/

theorem reported_distinct (hG : PredictSound G) {fuel : Nat} {cols : List (Column P Token H)}
    (h : chart G hash toks all fuel = some cols) :
    (prepareTrees (chartMatches G.start all cols)).Pairwise
      (fun a b => a.range = b.range → a.root.erase ≠ b.root.erase) := by
  unfold prepareTrees
  rw [List.pairwise_map]
  exact chart_matches_unique hG h

theorem reported_ne (hG : PredictSound G) {fuel : Nat} {cols : List (Column P Token H)}
    (h : chart G hash toks all fuel = some cols) :
    (prepareTrees (chartMatches G.start all cols)).Pairwise (fun a b => a ≠ b) :=
  (reported_distinct hG h).imp (fun hab he => by subst he; exact hab rfl rfl)

/-- C08: the matches of `extract` belong to different derivations. -/
theorem extract_distinct (hG : PredictSound G) {fuel : Nat} {ms : List (Match P)} {σ : Store}
    {e : Option Err} (h : extract G A hash toks all fuel = some (ms, σ, e)) :
    ∃ ds : List ((Nat × Nat) × DTree P Token), ds.Nodup ∧ ds.length = ms.length ∧
      ∀ (k : Nat) (d : (Nat × Nat) × DTree P Token), ds[k]? = some d → ∃ m, ms[k]? = some m ∧
        m.tree.range = d.1 ∧ Derives G toks (.rule G.start) d.1.1 d.1.2 d.2 ∧
        Trims d.2 (m.tree.root.load σ).erase := by
  obtain ⟨cols, h1, h2⟩ := extract_run h
  obtain ⟨home, n, hl⟩ := chart_laid hG h1
  obtain ⟨picks, k1, k2, k3, ⟨rest, k4, _⟩, _⟩ := prepareMatches_spec (loopInv_ok A home n)
    (prepareTrees (chartMatches G.start all cols)) Store.init ⟨storeOK_init, hl⟩
  rw [← h2] at k1 k4
  dsimp only at k1
  refine ⟨picks.map (fun x => x.1.view), ?_, ?_, ?_⟩
  · have h3 := (reported_distinct hG h1).sublist k2
    rw [List.pairwise_map] at h3
    rw [List.nodup_iff_pairwise_ne, List.pairwise_map]
    refine h3.imp ?_
    intro a b hab he
    exact hab (congrArg Prod.fst he) (congrArg Prod.snd he)
  · rw [← k1]; simp
  · intro k d hd
    rw [List.getElem?_map] at hd
    obtain ⟨x, hx, rfl⟩ := Option.map_eq_some_iff.1 hd
    have hxm := List.mem_of_getElem? hx
    obtain ⟨post, σ1, σ2, c1, c2⟩ := k3 x hxm
    have ht := k2.subset (List.mem_map.2 ⟨x, hxm, rfl⟩)
    have hmd : Made A home x.1 x.2 := ⟨σ1, σ2, c1.1, c2⟩
    refine ⟨x.2, by rw [← k1, List.getElem?_map, hx]; rfl, hmd.range (hl _ ht), ?_,
      hmd.trims (hl _ ht) k4.1⟩
    obtain ⟨s, hs, hse⟩ := List.mem_map.1 ht
    rw [← hse]
    exact chart_matches_sound hG h1 s hs

/-- C07 for `extract` (partial): every derivation of the start rule whose empty subtrees are at the
places of `EmptyFound` (see `chart_complete_partial`) leads to a match unless its agreement check fails.
Missing: empty subtrees at other places (`chart_complete_false`). -/
theorem extract_complete_partial (hG : PredictSound G) (hL : PredictLossless G)
    (hD : DistinctProductions G) (hh : ∀ a b, hash a = hash b → a = b) {w : Nat → Nat} (hw : Waits G w)
    {fuel : Nat}
    {ms : List (Match P)} {σ : Store} (h : extract G A hash toks all fuel = some (ms, σ, none))
    (i j n : Nat) (d : DTree P Token) (hi : i = 0 ∨ all = true) (hil : i ≤ toks.length)
    (hj : all = true ∨ j = toks.length) (hd : DerivesRounds G w toks (.rule G.start) i j 0 n d) :
    (∃ m ∈ ms, m.tree.range = (i, j) ∧ Trims d (m.tree.root.load σ).erase) ∨
    ∃ t, Reported G hash toks all fuel t ∧ t.range = (i, j) ∧ t.root.erase = d ∧
      RejectedAfter A t := by
  obtain ⟨cols, h1, h2⟩ := extract_run h
  obtain ⟨home, size, hl⟩ := chart_laid hG h1
  obtain ⟨picks, k1, k2, k3, ⟨rest, k4, _⟩, k5⟩ := prepareMatches_spec (loopInv_ok A home size)
    (prepareTrees (chartMatches G.start all cols)) Store.init ⟨storeOK_init, hl⟩
  rw [← h2] at k1 k4 k5
  dsimp only at k1
  obtain ⟨s, hs, s1, s2⟩ := chart_complete_partial hG hL hD hh hw h1 i j n d hi hil hj hd
  have ht : s.tree ∈ prepareTrees (chartMatches G.start all cols) := List.mem_map.2 ⟨s, hs, rfl⟩
  rcases k5 rfl _ ht with h3 | ⟨σ1, post, σ2, c1, c2⟩
  · left
    obtain ⟨x, hx, hxe⟩ := List.mem_map.1 h3
    obtain ⟨post, σ1, σ2, c1, c2⟩ := k3 x hx
    rw [hxe] at c1 c2
    have hmd : Made A home s.tree x.2 := ⟨σ1, σ2, c1.1, c2⟩
    refine ⟨x.2, by rw [← k1]; exact List.mem_map.2 ⟨x, hx, rfl⟩,
      (hmd.range (hl _ ht)).trans s1, ?_⟩
    rw [← s2]; exact hmd.trims (hl _ ht) k4.1
  · right
    exact ⟨s.tree, (reported_of h1).2 ht, s1, s2, σ1, σ2, narrowsIn_of (hl _ ht) c1.1, c2⟩

/-- The derivation of the first two words meets the hypotheses. -/
example : PredictSound coupleGrammar ∧ PredictLossless coupleGrammar ∧
    DistinctProductions coupleGrammar ∧
    DerivesSafe coupleGrammar coupleText (.rule 0) 0 2
      (.node 0 ⟨0, [.rule 1, .rule 2], 0, none⟩
        [.node 1 ⟨1, [.pred "*"], 0, none⟩ [.leaf "*" (word "a" 0 [masc, femn])],
         .node 2 ⟨2, [.pred "*"], 0, none⟩ [.leaf "*" (word "b" 2 [masc])]]) := by
  refine ⟨word_sound _, word_lossless _, couple_distinct, ?_⟩
  refine .node (by decide +kernel) (.consNode (j := 1) ?_ (Or.inl (by decide))
    (.consNode (j := 2) ?_ (Or.inl (by decide)) .nil))
  · exact .node (by decide +kernel) (.consLeaf (.leaf (t := word "a" 0 [masc, femn]) rfl rfl) .nil)
  · exact .node (by decide +kernel) (.consLeaf (.leaf (t := word "b" 2 [masc]) rfl rfl) .nil)

theorem independent_pairwise (hG : PredictSound G) {fuel : Nat} {cols : List (Column P Token H)}
    (h : chart G hash toks all fuel = some cols) (hI : Independent G A hash toks all fuel)
    {l : List (Tree P Token)} (hl : l.Perm (prepareTrees (chartMatches G.start all cols))) :
    l.Pairwise (LeavesAlone A) := by
  have h1 := (reported_ne hG h).perm hl.symm (fun h => Ne.symm h)
  refine List.Pairwise.imp_of_mem ?_ h1
  intro a b ha hb hab
  exact hI a b ((reported_of h).2 (hl.mem_iff.1 ha)) ((reported_of h).2 (hl.mem_iff.1 hb)) hab

theorem passes_of_alone {home : Home P Token} {n : Nat} {σ : Store} {t : Tree P Token}
    {post : List (Tree P Token)} (h : AloneInv A home n σ (t :: post)) {x : Option (Match P)} {σ' : Store}
    (hx : prepareMatch A σ t = .ok (x, σ')) : ∃ σ'', prepareMatch A Store.init t = .ok (x, σ'') := by
  obtain ⟨_, h2, _, h4⟩ := h
  have e := h4 t List.mem_cons_self
  exact prepareMatch_congr (layout_nodup (h2 t List.mem_cons_self))
    (by rw [e, load_init]) x ⟨σ', hx⟩

/-- C26 (partial): when no reported tree has a related word that belongs to another reported tree,
`extract` treats every tree as if it were the only one. Missing: trees that share related words,
for which it is false (`matches_influence_each_other`). -/
theorem extract_independent_partial (hG : PredictSound G) {fuel : Nat} {ms : List (Match P)}
    {σ : Store} (h : extract G A hash toks all fuel = some (ms, σ, none))
    (hI : Independent G A hash toks all fuel) (m : Match P) :
    m ∈ ms ↔ ∃ t, Reported G hash toks all fuel t ∧
      ∃ σ', prepareMatch A Store.init t = .ok (some m, σ') := by
  obtain ⟨cols, h1, h2⟩ := extract_run h
  obtain ⟨home, n, hl⟩ := chart_laid hG h1
  obtain ⟨picks, k1, k2, k3, _, k5⟩ := prepareMatches_spec (loopInv_alone A home n)
    (prepareTrees (chartMatches G.start all cols)) Store.init
    ⟨storeOK_init, hl, independent_pairwise hG h1 hI (List.Perm.refl _), fun t _ => load_init _⟩
  rw [← h2] at k1 k5
  dsimp only at k1
  constructor
  · intro hm
    rw [← k1] at hm
    obtain ⟨x, hx, rfl⟩ := List.mem_map.1 hm
    obtain ⟨post, σ1, σ2, c1, c2⟩ := k3 x hx
    exact ⟨x.1, (reported_of h1).2 (k2.subset (List.mem_map.2 ⟨x, hx, rfl⟩)), passes_of_alone c1 c2⟩
  · rintro ⟨t, ht, σ', hp⟩
    rcases k5 rfl t ((reported_of h1).1 ht) with h3 | ⟨σ1, post, σ2, c1, c2⟩
    · obtain ⟨x, hx, rfl⟩ := List.mem_map.1 h3
      obtain ⟨post, σ1, σ2, c1, c2⟩ := k3 x hx
      obtain ⟨σ'', hp'⟩ := passes_of_alone c1 c2
      rw [hp] at hp'
      simp only [Except.ok.injEq, Prod.mk.injEq, Option.some.injEq] at hp'
      rw [← k1, hp'.1]
      exact List.mem_map.2 ⟨x, hx, rfl⟩
    · obtain ⟨σ'', hp'⟩ := passes_of_alone c1 c2
      rw [hp] at hp'; simp at hp'

/-- Rules without agreement: every tree is independent. -/
theorem independent_of_no_relations (hA : ∀ r, A.relationOf r = none) (fuel : Nat) :
    Independent G A hash toks all fuel := by
  intro t t' _ _ _ r0 _ rel l w hr
  obtain ⟨n, r, prod, rank, cs, _, h2, _⟩ := hr
  rw [hA] at h2; simp at h2

/-- Trees without common words are independent. -/
theorem independent_of_apart (hG : PredictSound G) {fuel : Nat} {cols : List (Column P Token H)}
    (h : chart G hash toks all fuel = some cols)
    (hd : ((prepareTrees (chartMatches G.start all cols)).map (fun t => t.root.leaves.map Prod.fst)).Pairwise
      (fun a b => ∀ x ∈ a, x ∉ b)) : Independent G A hash toks all fuel := by
  intro t t' ht ht' hne r0 hr0 rel l w hrel hl
  rw [reported_of h] at ht ht'
  have hl0 : l ∈ t.root.leaves.map Prod.fst := by
    obtain ⟨n, r', prod, rank, cs, h3, _, h4⟩ := hrel
    rw [← prune_leaves_some hr0]
    exact List.mem_map.2 ⟨(l, w), sub_leaves h3 _ (head_mem h4), rfl⟩
  rw [List.pairwise_map] at hd
  have : ∀ a ∈ prepareTrees (chartMatches G.start all cols),
      ∀ b ∈ prepareTrees (chartMatches G.start all cols), a ≠ b →
      ∀ x ∈ a.root.leaves.map Prod.fst, x ∉ b.root.leaves.map Prod.fst := by
    intro a ha b hb hab
    obtain ⟨m, hm⟩ := List.getElem?_of_mem ha
    obtain ⟨k, hk⟩ := List.getElem?_of_mem hb
    rcases Nat.lt_trichotomy m k with hlt | rfl | hlt
    · have := List.pairwise_iff_getElem.1 hd m k (List.getElem?_eq_some_iff.1 hm).1
        (List.getElem?_eq_some_iff.1 hk).1 hlt
      rwa [(List.getElem?_eq_some_iff.1 hm).2, (List.getElem?_eq_some_iff.1 hk).2] at this
    · rw [hm] at hk; simp at hk; exact absurd hk hab
    · have := List.pairwise_iff_getElem.1 hd k m (List.getElem?_eq_some_iff.1 hk).1
        (List.getElem?_eq_some_iff.1 hm).1 hlt
      rw [(List.getElem?_eq_some_iff.1 hm).2, (List.getElem?_eq_some_iff.1 hk).2] at this
      exact fun x hx hx' => this x hx' hx
  exact this t ht t' ht' hne l hl0 hl

/-- The sample text, with its agreement relations, meets the hypotheses. -/
theorem couple_independent :
    Independent coupleGrammar coupleAgreement (id : Key → Key) coupleText true 200 := by
  obtain ⟨cols, h1, h2⟩ := Option.map_eq_some_iff.1 couple_apart
  simp only [Bool.and_eq_true, decide_eq_true_eq] at h2
  exact independent_of_apart (word_sound _) h1 h2.1

example : ∃ ms σ, extract coupleGrammar coupleAgreement (id : Key → Key) coupleText true 200
      = some (ms, σ, none) ∧ ms.map (fun m => m.tree.range) = [(0, 2), (2, 4)] ∧
      Independent coupleGrammar coupleAgreement (id : Key → Key) coupleText true 200 := by
  obtain ⟨ms, σ, h, hr⟩ := couple_extract
  exact ⟨ms, σ, h, hr, couple_independent⟩

/-! ### C02–C04, C13 for independent trees -/

/-- C02, C04, C13, C26 (partial) for `findall`: when no reported tree has a related word that
belongs to another one, the candidates are the ranges of the reported trees that pass on their own;
no set of disjoint such ranges covers more tokens; every such range overlaps a returned one; and
the match of a range is made from the least tree of that range that passes. -/
theorem findall_independent_partial (hG : PredictSound G) (hL : PredictLossless G) {fuel : Nat}
    {ms : List (Match P)} {σ : Store} (h : findall G A hash toks fuel = some (.ok (ms, σ)))
    (hI : Independent G A hash toks true fuel) :
    (∀ sel : List Range, sel.Pairwise Apart →
      (∀ ρ ∈ sel, ∃ t, Reported G hash toks true fuel t ∧ t.range = ρ ∧ Passes A t) →
      coverage sel ≤ coverage (ms.map (fun m => m.tree.range))) ∧
    (∀ t, Reported G hash toks true fuel t → Passes A t → ∃ m ∈ ms, ¬ Apart t.range m.tree.range) ∧
    (∀ m ∈ ms, ∃ t, Reported G hash toks true fuel t ∧ t.range = m.tree.range ∧
      (∃ σ', prepareMatch A Store.init t = .ok (some m, σ')) ∧
      ∀ t', Reported G hash toks true fuel t' → t'.range = t.range → Passes A t' → t' ≠ t →
        Preferred G toks t.view t'.view) := by
  obtain ⟨cols, home, n, acc, h1, hl, _, hord, _, _, hres, hcand, hmem, l, h2, h3, h4⟩ :=
    findall_acc hG hL h
  have hl' : ∀ t ∈ l, Laid home n t := fun t ht => hl t (h2.mem_iff.1 ht)
  have hrep : ∀ t, Reported G hash toks true fuel t ↔ t ∈ l := fun t => by
    rw [reported_of h1, h2.mem_iff]
  obtain ⟨_, new, e1, e2, _, e3, e4, e5⟩ := collect_spec (loopInv_alone A home n) l Store.init [] acc σ
    ⟨storeOK_init, hl', independent_pairwise hG h1 hI h2, fun t _ => load_init _⟩ h4
  rw [List.nil_append] at e1
  subst e1
  have hpass : ∀ t ∈ l, Passes A t → t.range ∈ acc.map Prod.fst := by
    rintro t ht ⟨m, σ', hp⟩
    rcases e5 t ht with h6 | ⟨σ3, post, σ4, c1, c2⟩
    · exact h6
    · obtain ⟨σ'', hp'⟩ := passes_of_alone c1 c2
      rw [hp] at hp'; simp at hp'
  refine ⟨?_, ?_, ?_⟩
  · intro sel hap hsel
    have hin : ∀ ρ ∈ sel, ρ ∈ acc.map Prod.fst := by
      intro ρ hρ
      obtain ⟨t, ht, rfl, hp⟩ := hsel ρ hρ
      exact hpass t ((hrep t).1 ht) hp
    rw [hres]
    exact disjoint_covers_less hcand e3 hap hin
  · intro t ht hp
    have hr := hpass t ((hrep t).1 ht) hp
    by_cases hk : t.range ∈ ms.map (fun m => m.tree.range)
    · obtain ⟨m, hm, hmr⟩ := List.mem_map.1 hk
      refine ⟨m, hm, ?_⟩
      have := hcand.2 _ hr
      rw [hmr]
      unfold Apart
      omega
    · rw [hres] at hk
      obtain ⟨ρ, hρ, hna⟩ := resolve_drops_only_overlapping _ hcand _ hr hk
      rw [← hres] at hρ
      obtain ⟨m, hm, rfl⟩ := List.mem_map.1 hρ
      exact ⟨m, hm, hna⟩
  · intro m hm
    obtain ⟨e, he, rfl⟩ := hmem m hm
    obtain ⟨pre, t, post, σ1, σ2, b1, b2, b3, b4, b5⟩ := e4 e he
    have htl : t ∈ l := by rw [b1]; simp
    obtain ⟨σ'', hp⟩ := passes_of_alone b3 b4
    have hmd : Made A home t e.2 := ⟨σ1, σ2, b3.1, b4⟩
    refine ⟨t, (hrep t).2 htl, (hmd.range (hl' t htl)).symm, ⟨σ'', hp⟩, ?_⟩
    rintro t' ht' hr' ⟨m', σ4, hp'⟩ hne
    have := (hrep t').1 ht'
    rw [b1] at this h3
    rcases List.mem_append.1 this with h6 | h6
    · exfalso
      obtain ⟨σ3, post', σ5, c1, c2⟩ := b5 t' h6 (hr'.trans b2)
      obtain ⟨σ6, c3⟩ := passes_of_alone c1 c2
      rw [hp'] at c3; simp at c3
    · rcases List.mem_cons.1 h6 with h7 | h7
      · exact absurd h7 hne
      · exact (List.pairwise_cons.1 (List.pairwise_append.1 h3).2.1).1 t' h7

example : ∃ ms σ, findall coupleGrammar coupleAgreement (id : Key → Key) coupleText 200
      = some (.ok (ms, σ)) ∧
      Independent coupleGrammar coupleAgreement (id : Key → Key) coupleText true 200 := by
  obtain ⟨ms, σ, h, _⟩ := couple_findall
  exact ⟨ms, σ, h, couple_independent⟩

end Yargy
