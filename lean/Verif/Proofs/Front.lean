import Verif.Proofs.Collect
import Verif.Properties.Order
import Verif.Properties.Spans
import Verif.Spec.Parser
/-! The front end run on a chart. -/
set_option linter.unusedSectionVars false
namespace Yargy
open Spec

variable {P H : Type} [DecidableEq H] {G : Grammar P Token} {A : Agreement} {hash : Key → H}
  {toks : List Token} {all : Bool}

/-! ### Reported trees -/

theorem chart_laid (hG : PredictSound G) {fuel : Nat} {cols : List (Column P Token H)}
    (h : chart G hash toks all fuel = some cols) :
    ∃ home n, ∀ t ∈ prepareTrees (chartMatches G.start all cols), Laid home n t := by
  obtain ⟨_, rfl⟩ := chart_runN h
  obtain ⟨home, hl⟩ := layout_runN (hash := hash) (toks := toks) (all := all) hG fuel
  refine ⟨home, (runN G hash toks all fuel).ctr, ?_⟩
  intro t ht
  obtain ⟨s, hs, rfl⟩ := List.mem_map.1 ht
  obtain ⟨k, h1, h2, h3, _⟩ := mem_chartMatches hs
  have := (soundInv_runN (all := all) (toks := toks) (hash := hash) hG fuel).states k s h1
  show Layout home _ s.node s.start s.stop
  rw [this.stop]
  exact .node (hl _ _ h1)

theorem made_ok (hG : PredictSound G) (hC : ConstrainNarrows G) {fuel : Nat}
    {cols : List (Column P Token H)} (h : chart G hash toks all fuel = some cols)
    {home : Home P Token} {n : Nat} {t : Tree P Token}
    (ht : t ∈ prepareTrees (chartMatches G.start all cols)) (hl : Laid home n t) {m : Match P}
    (hm : Made A home t m) {σ : Store} (hσ : StoreOK home σ) : MatchOK G toks σ m := by
  obtain ⟨s, hs, rfl⟩ := List.mem_map.1 ht
  have hr := hm.range hl
  have hne := hm.nonempty hl
  have hd := chart_matches_sound hG h s hs
  obtain ⟨y1, y2, y3⟩ := chart_matches_yield hG h s hs
  obtain ⟨t1, t2, a, b, t3, t4, t5⟩ := hm.tokens hl
  change s.start < s.stop at hne
  have hlen : m.tokens.length = s.stop - s.start := t1.trans y2
  have htok : ∀ k, k < s.stop - s.start → ∃ t t',
      toks[s.start + k]? = some t ∧ m.tokens[k]? = some t' ∧ Narrowed t t' := by
    intro k hk
    obtain ⟨p, tok, h1, h2, h3⟩ := y3 k hk
    obtain ⟨t', h4, h5⟩ := t2 k _ h3
    exact ⟨tok, t', h1, h4, (hC p tok h2).trans h5⟩
  have hin : s.stop ≤ toks.length := by
    obtain ⟨t, _, h1, _⟩ := htok (s.stop - s.start - 1) (by omega)
    have := (List.getElem?_eq_some_iff.1 h1).1
    omega
  change m.tree.range = (s.start, s.stop) at hr
  refine ⟨by rw [hr]; exact hne, by rw [hr]; exact hin, ?_, by rw [hr]; exact hlen,
    by rw [hr]; exact htok, ?_⟩
  · rw [hr]; exact ⟨s.dtree, hd, hm.trims hl hσ⟩
  · rw [hr]
    obtain ⟨u, u', h1, h2, h3⟩ := htok 0 (by omega)
    obtain ⟨v, v', g1, g2, g3⟩ := htok (s.stop - s.start - 1) (by omega)
    refine ⟨u, v, by simpa using h1, ?_, ?_⟩
    · rw [show s.start + (s.stop - s.start - 1) = s.stop - 1 by omega] at g1; exact g1
    · rw [List.head?_eq_getElem?, h2] at t3
      rw [List.getLast?_eq_getElem?, hlen, g2] at t4
      simp only [Option.some.injEq] at t3 t4
      rw [t5, ← t3, ← t4, h3.span, g3.span]

/-! ### Running the front end -/

theorem bind_ok {ε α β : Type} {x : Except ε α} {f : α → Except ε β} {b : β}
    (h : x.bind f = .ok b) : ∃ a, x = .ok a ∧ f a = .ok b := by
  cases x with
  | error e => simp [Except.bind] at h
  | ok a => exact ⟨a, rfl, h⟩

theorem findall_run (hG : PredictSound G) (hL : PredictLossless G) {fuel : Nat} {ms : List (Match P)}
    {σ : Store} (h : findall G A hash toks fuel = some (.ok (ms, σ))) :
    ∃ cols l acc, chart G hash toks true fuel = some cols ∧
      l.Perm (prepareTrees (chartMatches G.start true cols)) ∧
      l.Pairwise (fun a b => Preferred G toks a.view b.view) ∧
      collectMatches A Store.init [] l = .ok (acc, σ) ∧
      ms = (resolveSpans (acc.map Prod.fst)).filterMap
        (fun s => (acc.find? (fun e => e.1 == s)).map Prod.snd) := by
  unfold findall matchStates at h
  rw [Option.map_map] at h
  obtain ⟨cols, h1, h2⟩ := Option.map_eq_some_iff.1 h
  obtain ⟨l, s1, s2, s3, _⟩ := sorted_trees_unique hG hL h1
  simp only [Function.comp] at h2
  rw [s1] at h2
  simp only [bind, Except.bind, resolvedMatches] at h2
  cases hc : collectMatches A Store.init [] l with
  | error e => rw [hc] at h2; simp at h2
  | ok r =>
    rw [hc] at h2
    simp only [pure, Except.pure, Except.ok.injEq, Prod.mk.injEq] at h2
    obtain ⟨acc, σ'⟩ := r
    exact ⟨cols, l, acc, h1, s2, s3, by rw [← h2.2]; exact hc, h2.1.symm⟩

theorem match_run (hG : PredictSound G) (hL : PredictLossless G) {fuel : Nat} {x : Option (Match P)}
    {σ : Store} (h : matchText G A hash toks fuel = some (.ok (x, σ))) :
    ∃ cols l, chart G hash toks false fuel = some cols ∧
      l.Perm (prepareTrees (chartMatches G.start false cols)) ∧
      l.Pairwise (fun a b => Preferred G toks a.view b.view) ∧
      firstMatch A Store.init l = .ok (x, σ) := by
  unfold matchText matchStates at h
  rw [Option.map_map] at h
  obtain ⟨cols, h1, h2⟩ := Option.map_eq_some_iff.1 h
  obtain ⟨l, s1, s2, s3, _⟩ := sorted_trees_unique hG hL h1
  simp only [Function.comp] at h2
  rw [s1] at h2
  exact ⟨cols, l, h1, s2, s3, h2⟩

theorem extract_run {fuel : Nat} {r : List (Match P) × Store × Option Err}
    (h : extract G A hash toks all fuel = some r) :
    ∃ cols, chart G hash toks all fuel = some cols ∧
      r = prepareMatches A Store.init (prepareTrees (chartMatches G.start all cols)) := by
  unfold extract matchStates at h
  rw [Option.map_map] at h
  obtain ⟨cols, h1, h2⟩ := Option.map_eq_some_iff.1 h
  exact ⟨cols, h1, h2.symm⟩

theorem coverage_perm {a b : List Range} (h : a.Perm b) : coverage a = coverage b := by
  unfold coverage
  induction h with
  | nil => rfl
  | cons _ _ ih => simp only [List.map_cons, List.sum_cons, ih]
  | swap x y l => simp only [List.map_cons, List.sum_cons]; omega
  | trans _ _ ih1 ih2 => exact ih1.trans ih2

theorem disjoint_covers_less {cands sel : List Range} (hc : Candidates cands) (hn : cands.Nodup)
    (hap : sel.Pairwise Apart) (hin : ∀ ρ ∈ sel, ρ ∈ cands) :
    coverage sel ≤ coverage (resolveSpans cands) := by
  have hsn : sel.Nodup := by
    rw [List.nodup_iff_pairwise_ne]
    refine List.Pairwise.imp_of_mem ?_ hap
    intro a b ha _ hab he
    subst he
    have := hc.2 a (hin a ha)
    unfold Apart at hab
    omega
  have hp : (cands.filter (fun ρ => decide (ρ ∈ sel))).Perm sel := by
    rw [List.perm_ext_iff_of_nodup (hn.sublist List.filter_sublist) hsn]
    intro a
    rw [List.mem_filter]
    constructor
    · rintro ⟨_, h⟩; simpa using h
    · intro h; exact ⟨hin a h, by simpa using h⟩
  rw [← coverage_perm hp]
  refine resolve_max_coverage _ hc _ ⟨List.filter_sublist, ?_⟩
  exact hap.perm hp.symm (fun h => h.symm)

/-- The accepted candidates of a run of `findall`. -/
theorem findall_acc (hG : PredictSound G) (hL : PredictLossless G) {fuel : Nat} {ms : List (Match P)}
    {σ : Store} (h : findall G A hash toks fuel = some (.ok (ms, σ))) :
    ∃ (cols : List (Column P Token H)) (home : Home P Token) (n : Nat)
      (acc : List ((Nat × Nat) × Match P)),
      chart G hash toks true fuel = some cols ∧
      (∀ t ∈ prepareTrees (chartMatches G.start true cols), Laid home n t) ∧
      StoreOK home σ ∧
      (acc.map Prod.fst).Pairwise (fun a b => a.1 < b.1 ∨ (a.1 = b.1 ∧ b.2 < a.2)) ∧
      (∀ e ∈ acc, ∃ t ∈ prepareTrees (chartMatches G.start true cols), t.range = e.1 ∧
        Made A home t e.2) ∧
      (∀ t ∈ prepareTrees (chartMatches G.start true cols), t.range ∈ acc.map Prod.fst ∨
        ∃ σ' σ'', StoreOK home σ' ∧ prepareMatch A σ' t = .ok (none, σ'')) ∧
      ms.map (fun m => m.tree.range) = resolveSpans (acc.map Prod.fst) ∧
      Candidates (acc.map Prod.fst) ∧ (∀ m ∈ ms, ∃ e ∈ acc, e.2 = m) ∧
      ∃ l, l.Perm (prepareTrees (chartMatches G.start true cols)) ∧
        l.Pairwise (fun a b => Preferred G toks a.view b.view) ∧
        collectMatches A Store.init [] l = .ok (acc, σ) := by
  obtain ⟨cols, l, acc, h1, h2, h3, h4, h5⟩ := findall_run hG hL h
  obtain ⟨home, n, hl⟩ := chart_laid (all := true) hG h1
  have hl' : ∀ t ∈ l, Laid home n t := fun t ht => hl t (h2.mem_iff.1 ht)
  obtain ⟨⟨hσ, _⟩, new, e1, e2, _, e3, e4, e5⟩ := collect_spec (loopInv_ok A home n) l Store.init [] acc σ
    ⟨storeOK_init, hl'⟩ h4
  rw [List.nil_append] at e1
  subst e1
  have hmade : ∀ e ∈ acc, ∃ t ∈ l, t.range = e.1 ∧ Made A home t e.2 := by
    intro e he
    obtain ⟨pre, t, post, σ1, σ2, b1, b2, b3, b4, _⟩ := e4 e he
    exact ⟨t, by rw [b1]; simp, b2, σ1, σ2, b3.1, b4⟩
  have hord : (acc.map Prod.fst).Pairwise (fun a b => a.1 < b.1 ∨ (a.1 = b.1 ∧ b.2 < a.2)) := by
    have h6 : (l.map Tree.range).Pairwise (fun a b => a.1 < b.1 ∨ (a.1 = b.1 ∧ b.2 ≤ a.2)) := by
      rw [List.pairwise_map]
      refine h3.imp ?_
      intro a b hab
      cases hab with
      | start h => exact Or.inl h
      | longer h h' => exact Or.inr ⟨h, Nat.le_of_lt h'⟩
      | same h _ =>
        have h : a.range = b.range := h
        rw [h]; exact Or.inr ⟨rfl, Nat.le_refl _⟩
    have h7 := h6.sublist e2
    rw [List.nodup_iff_pairwise_ne] at e3
    refine (h7.and e3).imp ?_
    rintro a b ⟨ha, hb⟩
    rcases ha with ha | ⟨ha, ha'⟩
    · exact Or.inl ha
    · refine Or.inr ⟨ha, ?_⟩
      rcases Nat.lt_or_eq_of_le ha' with h | h
      · exact h
      · exact absurd (Prod.ext ha h.symm) hb
  have hcand : Candidates (acc.map Prod.fst) := by
    refine ⟨hord.imp ?_, ?_⟩
    · rintro a b (h | h)
      · exact Nat.le_of_lt h
      · exact Nat.le_of_eq h.1
    · intro s hs
      obtain ⟨e, he, rfl⟩ := List.mem_map.1 hs
      obtain ⟨t, ht, hr, hm⟩ := hmade e he
      rw [← hr]; exact hm.nonempty (hl' t ht)
  have hlook : ∀ s ∈ acc.map Prod.fst, ∃ e ∈ acc,
      (acc.find? (fun e => e.1 == s)).map Prod.snd = some e.2 ∧ e.2.tree.range = s := by
    intro s hs
    cases hf : acc.find? (fun e => e.1 == s) with
    | none =>
      exfalso
      obtain ⟨e, he, hes⟩ := List.mem_map.1 hs
      have := List.find?_eq_none.1 hf e he
      simp [hes] at this
    | some e =>
      have he := List.mem_of_find?_eq_some hf
      have hes : e.1 = s := by simpa using List.find?_some hf
      obtain ⟨t, ht, hr, hm⟩ := hmade e he
      exact ⟨e, he, rfl, by rw [hm.range (hl' t ht), hr, hes]⟩
  have hsub := (resolve_selection _ hcand).1
  refine ⟨cols, home, n, acc, h1, hl, hσ, hord, ?_, ?_, ?_, hcand, ?_, l, h2, h3, h4⟩
  · intro e he
    obtain ⟨t, ht, hr⟩ := hmade e he
    exact ⟨t, h2.mem_iff.1 ht, hr⟩
  · intro t ht
    rcases e5 t (h2.mem_iff.2 ht) with h6 | ⟨σ3, post, σ4, h6, h7⟩
    · exact Or.inl h6
    · exact Or.inr ⟨σ3, σ4, h6.1, h7⟩
  · rw [h5]
    have key : ∀ (sp : List Range), (∀ s ∈ sp, s ∈ acc.map Prod.fst) →
        (sp.filterMap (fun s => (acc.find? (fun e => e.1 == s)).map Prod.snd)).map
          (fun m => m.tree.range) = sp := by
      intro sp
      induction sp with
      | nil => intro _; rfl
      | cons s sp ih =>
        intro hs
        obtain ⟨e, _, k1, k2⟩ := hlook s (hs s List.mem_cons_self)
        rw [List.filterMap_cons_some (f := fun s => (acc.find? (fun e => e.1 == s)).map Prod.snd) k1, List.map_cons, k2,
          ih (fun s' hs' => hs s' (List.mem_cons_of_mem _ hs'))]
    exact key _ (fun s hs => hsub.subset hs)
  · intro m hm
    rw [h5] at hm
    obtain ⟨s, hs, hm⟩ := List.mem_filterMap.1 hm
    obtain ⟨e, he, k1, _⟩ := hlook s (hsub.subset hs)
    rw [k1] at hm
    exact ⟨e, he, by simpa using hm⟩

end Yargy
