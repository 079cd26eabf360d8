import Verif.Properties.Findall
import Verif.Properties.Termination
import Verif.Proofs.Items
/-!
C09–C11, C13, C24–C27, C39, C45 for `extract`, `findall` and `match`.
-/
set_option linter.unusedSectionVars false
namespace Yargy
open Spec

variable {P H : Type} [DecidableEq H] {G : Grammar P Token} {A : Agreement} {hash : Key → H}
  {toks : List Token} {all : Bool}

/-! ### C09 -/

/-- C09: for a grammar in which no rule derives itself over the same tokens of the text, `findall`,
`match` and `extract` come to an end (with a result or an exception). -/
theorem findall_terminates (hG : PredictSound G) (hA : Acyclic G toks) :
    ∃ fuel r, findall G A hash toks fuel = some r := by
  obtain ⟨fuel, cols, h⟩ := chart_terminates (hash := hash) (all := true) hG hA
  exact ⟨fuel, _, by unfold findall matchStates; rw [h]; rfl⟩

theorem match_terminates (hG : PredictSound G) (hA : Acyclic G toks) :
    ∃ fuel r, matchText G A hash toks fuel = some r := by
  obtain ⟨fuel, cols, h⟩ := chart_terminates (hash := hash) (all := false) hG hA
  exact ⟨fuel, _, by unfold matchText matchStates; rw [h]; rfl⟩

theorem extract_terminates (hG : PredictSound G) (hA : Acyclic G toks) :
    ∃ fuel r, extract G A hash toks all fuel = some r := by
  obtain ⟨fuel, cols, h⟩ := chart_terminates (hash := hash) (all := all) hG hA
  exact ⟨fuel, _, by unfold extract matchStates; rw [h]; rfl⟩

example (toks : List Token) :
    ∃ fuel r, findall coupleGrammar coupleAgreement (id : Key → Key) toks fuel = some r :=
  findall_terminates (word_sound _) (couple_acyclic toks)

/-! ### C10 -/

/-- No production mentions the start rule. -/
def StartAlone (G : Grammar P Token) : Prop :=
  ∀ r prod, prod ∈ G.productions r → .rule G.start ∉ prod.terms

theorem start_zero (hG : PredictSound G) (hS : StartAlone G) (n : Nat) :
    ∀ k s, InCol (runN G hash toks false n).cols k s → s.rule = G.start → s.start = 0 := by
  refine (runN_induct (M := fun c => SoundInv G toks c ∧ ∀ k s, InCol c.cols k s →
    s.rule = G.start → s.start = 0) G hash toks false
    ⟨soundInv_init, fun _ _ h => absurd h not_inCol_init⟩ ?_ n).2
  rintro c c' ht ⟨hI, h⟩
  refine ⟨soundInv_trans hG _ _ ht hI, ?_⟩
  have hpred : ∀ (cols : List (Column P Token H)) ctr k r, (r = G.start → k = 0) →
      (∀ k s, InCol cols k s → s.rule = G.start → s.start = 0) →
      ∀ k' s, InCol (Yargy.predict G hash toks k r cols ctr).1 k' s → s.rule = G.start → s.start = 0 := by
    intro cols ctr k r hr hc
    refine predict_induct (M := fun cols _ => ∀ k s, InCol cols k s → s.rule = G.start → s.start = 0)
      G hash toks k r cols ctr hc ?_
    intro cols ctr prod rank _ hc k' s hs hsr
    rcases inCol_appendAt hs with h1 | ⟨rfl, rfl⟩
    · exact hc _ _ h1 hsr
    · exact hr hsr
  cases ht with
  | @enterPredict cols ctr k hk =>
    exact hpred _ _ _ _ (fun _ => hk.elim (fun h => h) (fun h => by simp at h)) h
  | enterSkip => exact h
  | nextColumn => exact h
  | finish => exact h
  | startComplete => exact h
  | @predictRule cols ctr k i col s r hc hs hr =>
    refine hpred _ _ _ _ ?_ h
    rintro rfl
    have hok := hI.states _ _ (inCol_of_get hc hs)
    exact absurd (List.mem_of_getElem? hr) (hS _ _ hok.prod)
  | @scanAccept cols ctr k i col s p t hc hs hn ht ha =>
    intro k' s' hs' hsr
    rcases inCol_appendAt hs' with h1 | ⟨rfl, rfl⟩
    · exact h _ _ h1 hsr
    · exact h k s (inCol_of_get hc hs) hsr
  | scanReject => exact h
  | @completeNext cols ctr k i s j p hp =>
    obtain ⟨h3, _⟩ := hI.cols.mem_parents (List.mem_of_getElem? hp)
    intro k' s' hs' hsr
    rcases inCol_appendAt hs' with h1 | ⟨rfl, rfl⟩
    · exact h _ _ h1 hsr
    · exact h _ p h3 hsr
  | completeEnd => exact h
  | done => exact h

theorem reported_stop (hG : PredictSound G) {fuel : Nat} {t : Tree P Token}
    (h : Reported G hash toks false fuel t) : t.range.2 = toks.length := by
  obtain ⟨ss, h1, h2⟩ := h
  obtain ⟨cols, h3, rfl⟩ := Option.map_eq_some_iff.1 h1
  obtain ⟨_, rfl⟩ := chart_runN h3
  obtain ⟨s, hs, rfl⟩ := List.mem_map.1 h2
  obtain ⟨k, k1, k2, k3, k4⟩ := mem_chartMatches hs
  have hI := soundInv_runN (all := false) (toks := toks) (hash := hash) hG fuel
  have := (hI.states k s k1).stop
  have hlen := hI.len
  have := k4 rfl
  show s.stop = toks.length
  omega

/-- The tree a successful `match` was made from. -/
theorem match_from (hG : PredictSound G) (hL : PredictLossless G) {fuel : Nat} {m : Match P}
    {σ : Store} (h : matchText G A hash toks fuel = some (.ok (some m, σ))) :
    ∃ t, Reported G hash toks false fuel t ∧ t.range = m.tree.range ∧
      prepareMatch A Store.init t = .ok (some m, σ) ∧
      ∀ t', Reported G hash toks false fuel t' → Passes A t' → t' ≠ t →
        Preferred G toks t.view t'.view := by
  obtain ⟨cols, l, h1, h2, h3, h4⟩ := match_run hG hL h
  obtain ⟨home, n, hl⟩ := chart_laid (all := false) hG h1
  have hl' : ∀ t ∈ l, Laid home n t := fun t ht => hl t (h2.mem_iff.1 ht)
  obtain ⟨pre, t, post, k1, k2, k3⟩ := firstMatch_spec l _ _ _
    (fun t ht => layout_nodup (hl' t ht)) h4
  have ht : t ∈ l := by rw [k1]; simp
  have hmd : Made A home t m := ⟨_, _, storeOK_init, k2⟩
  refine ⟨t, (reported_of h1).2 (h2.mem_iff.1 ht), (hmd.range (hl' t ht)).symm, k2, ?_⟩
  rintro t' ht' ⟨m', σ4, hp'⟩ hne
  have := h2.mem_iff.2 ((reported_of h1).1 ht')
  rw [k1] at this h3
  rcases List.mem_append.1 this with h6 | h6
  · exfalso
    obtain ⟨σ5, c2⟩ := k3 t' h6
    rw [hp'] at c2; simp at c2
  · rcases List.mem_cons.1 h6 with h7 | h7
    · exact absurd h7 hne
    · exact (List.pairwise_cons.1 (List.pairwise_append.1 h3).2.1).1 t' h7

/-- C10 (partial): a match returned by `match` ends at the end of the text; if no production
mentions the start rule it covers all tokens. Missing: recursive start rules, for which it is
false (`match_covers_false`). -/
theorem match_covers_partial (hG : PredictSound G) (hL : PredictLossless G) {fuel : Nat}
    {m : Match P} {σ : Store} (h : matchText G A hash toks fuel = some (.ok (some m, σ))) :
    m.tree.range.2 = toks.length ∧ (StartAlone G → m.tree.range = (0, toks.length)) := by
  obtain ⟨t, h1, h2, _⟩ := match_from hG hL h
  have hst := reported_stop hG h1
  rw [h2] at hst
  refine ⟨hst, fun hS => ?_⟩
  obtain ⟨ss, g1, g2⟩ := h1
  obtain ⟨cols, g3, rfl⟩ := Option.map_eq_some_iff.1 g1
  obtain ⟨_, rfl⟩ := chart_runN g3
  obtain ⟨s, hs, rfl⟩ := List.mem_map.1 g2
  obtain ⟨k, k1, _, k3, _⟩ := mem_chartMatches hs
  have := start_zero hG hS fuel k s k1 k3
  refine Prod.ext ?_ hst
  rw [← h2]; exact this

example : StartAlone coupleGrammar ∧ ∃ m σ, matchText coupleGrammar coupleAgreement (id : Key → Key)
      (coupleText.take 2) 200 = some (.ok (some m, σ)) ∧ m.tree.range = (0, 2) := by
  refine ⟨?_, couple_match⟩
  intro r prod hp hr
  obtain ⟨ps, h1, h2⟩ := word_productions hp
  have := couple_forward r ps h1 prod h2 _ hr
  exact absurd this (Nat.not_lt_zero _)

/-- `S → '(' S ')' | 'x'`. -/
def bracketGrammar : Grammar String Token := wordGrammar
  [[⟨0, [.pred "(", .rule 0, .pred ")"], 0, none⟩, ⟨1, [.pred "x"], 0, none⟩]]

/-- C10 is false for recursive start rules: with `S → '(' S ')' | 'x'`, `match('( x')` returns a
match whose only token is `x`. -/
theorem match_covers_false :
    ∃ m σ, matchText bracketGrammar noAgreement (id : Key → Key) [word "(" 0 [], word "x" 2 []] 100
        = some (.ok (some m, σ)) ∧
      m.tree.range = (1, 2) ∧ m.tokens = [word "x" 2 []] := by
  have h : (matchText bracketGrammar noAgreement (id : Key → Key) [word "(" 0 [], word "x" 2 []] 100).map
      (fun r => match r with
        | .ok (some m, _) => decide (m.tree.range = (1, 2)) && decide (m.tokens = [word "x" 2 []])
        | _ => false) = some true := by decide +kernel
  obtain ⟨r, h1, h2⟩ := Option.map_eq_some_iff.1 h
  match r, h2 with
  | .ok (some m, σ), h2 =>
    simp only [Bool.and_eq_true, decide_eq_true_eq] at h2
    exact ⟨m, σ, h1, h2⟩

/-! ### C11, C13 -/

/-- C11: `match` returns a match exactly if one of the reported trees passes its agreement check. -/
theorem match_iff (hG : PredictSound G) (hL : PredictLossless G) {fuel : Nat}
    {x : Option (Match P)} {σ : Store} (h : matchText G A hash toks fuel = some (.ok (x, σ))) :
    (∃ m, x = some m) ↔ ∃ t, Reported G hash toks false fuel t ∧ Passes A t := by
  constructor
  · rintro ⟨m, rfl⟩
    obtain ⟨t, h1, _, h2, _⟩ := match_from hG hL h
    exact ⟨t, h1, m, σ, h2⟩
  · rintro ⟨t, h1, m, σ', h2⟩
    cases x with
    | some m => exact ⟨m, rfl⟩
    | none =>
      exfalso
      obtain ⟨cols, l, g1, g2, g3, g4⟩ := match_run hG hL h
      obtain ⟨home, n, hl⟩ := chart_laid (all := false) hG g1
      have hx := firstMatch_spec l _ _ _
        (fun t ht => layout_nodup (hl t (g2.mem_iff.1 ht))) g4
      obtain ⟨σ2, h3⟩ := hx t (g2.mem_iff.2 ((reported_of g1).1 h1))
      rw [h2] at h3; simp at h3

theorem resolve_nil_iff {spans : List Range} (h : Candidates spans) : resolveSpans spans = [] ↔ spans = [] := by
  constructor
  · intro he
    cases spans with
    | nil => rfl
    | cons s spans =>
      have := resolve_drops_only_overlapping _ h s List.mem_cons_self (by rw [he]; simp)
      rw [he] at this; simp at this
  · rintro rfl
    have := (resolve_selection [] h).1
    simpa using this

/-- C11: `findall` returns something exactly if one of the reported trees passes its agreement
check. -/
theorem findall_iff (hG : PredictSound G) (hL : PredictLossless G) {fuel : Nat}
    {ms : List (Match P)} {σ : Store} (h : findall G A hash toks fuel = some (.ok (ms, σ))) :
    ms ≠ [] ↔ ∃ t, Reported G hash toks true fuel t ∧ Passes A t := by
  obtain ⟨cols, home, n, acc, h1, hl, _, hord, _, _, hres, hcand, hmem, l, h2, h3, h4⟩ :=
    findall_acc hG hL h
  have hrep : ∀ t, Reported G hash toks true fuel t ↔ t ∈ l := fun t => by
    rw [reported_of h1, h2.mem_iff]
  have hms : ms ≠ [] ↔ acc ≠ [] := by
    have : ms.map (fun m => m.tree.range) = [] ↔ acc.map Prod.fst = [] := by
      rw [hres]; exact resolve_nil_iff hcand
    simpa using not_congr this
  rw [hms]
  have hinv : LoopInv A (fun σ ts => (∀ t ∈ ts, t ∈ l ∧ Laid home n t) ∧
      (σ = Store.init ∨ ∃ t ∈ l, Passes A t)) := by
    refine ⟨?_, ?_⟩
    · rintro σ t ts ⟨a, b⟩
      exact ⟨fun t ht => a t (List.mem_cons_of_mem _ ht), b⟩
    · rintro σ t ts x σ' ⟨a, b⟩ hp
      refine ⟨fun t ht => a t (List.mem_cons_of_mem _ ht), ?_⟩
      rcases b with rfl | b
      · cases x with
        | none =>
          exact Or.inl (prepareMatch_rejected (layout_nodup (a t List.mem_cons_self).2) hp)
        | some m => exact Or.inr ⟨t, (a t List.mem_cons_self).1, m, σ', hp⟩
      · exact Or.inr b
  obtain ⟨_, new, e1, _, _, _, e4, e5⟩ := collect_spec hinv l Store.init [] acc σ
    ⟨fun t ht => ⟨ht, hl t (h2.mem_iff.1 ht)⟩, Or.inl rfl⟩ h4
  rw [List.nil_append] at e1
  subst e1
  constructor
  · intro hne
    obtain ⟨e, he⟩ := List.exists_mem_of_ne_nil _ hne
    obtain ⟨pre, t, post, σ1, σ2, b1, b2, ⟨b3, b4⟩, b5, _⟩ := e4 e he
    rcases b4 with rfl | ⟨t', c1, c2⟩
    · exact ⟨t, (hrep t).2 (b3 t List.mem_cons_self).1, e.2, σ2, b5⟩
    · exact ⟨t', (hrep t').2 c1, c2⟩
  · rintro ⟨t, ht, m, σ', hp⟩ he
    have hfst : ∀ (ts : List (Tree P Token)), (∀ t ∈ ts, Laid home n t) →
        collectMatches A Store.init [] ts = .ok ([], σ) →
        ∀ t ∈ ts, ∃ σ', prepareMatch A Store.init t = .ok (none, σ') := by
      intro ts
      induction ts with
      | nil => intro _ _ t ht; simp at ht
      | cons t0 ts ih =>
        intro hl0 hc t ht
        simp only [collectMatches, List.any_nil, Bool.false_eq_true, if_false] at hc
        cases hx : prepareMatch A Store.init t0 with
        | error e => rw [hx] at hc; simp at hc
        | ok r =>
          obtain ⟨x, σ1⟩ := r
          rw [hx] at hc
          cases x with
          | none =>
            simp only [] at hc
            have hσ := prepareMatch_rejected (layout_nodup (hl0 t0 List.mem_cons_self)) hx
            subst hσ
            rcases List.mem_cons.1 ht with rfl | ht
            · exact ⟨_, hx⟩
            · exact ih (fun t ht => hl0 t (List.mem_cons_of_mem _ ht)) hc t ht
          | some m0 =>
            exfalso
            simp only [List.nil_append] at hc
            obtain ⟨_, new, k1, _⟩ := collect_spec (A := A) (Q := fun _ _ => True)
              ⟨fun _ _ _ _ => trivial, fun _ _ _ _ _ _ _ => trivial⟩ ts _ _ _ _ trivial hc
            simp at k1
    rw [he] at h4
    obtain ⟨σ2, h5⟩ := hfst l (fun t ht => hl t (h2.mem_iff.1 ht)) h4 t ((hrep t).1 ht)
    rw [hp] at h5; simp at h5

/-- C11: the only way for `extract` to raise is a reported tree that cannot be checked: one without
tokens, or one in which a part with an agreement relation has no head word with forms. -/
theorem extract_raises_iff (hG : PredictSound G) {fuel : Nat} {ms : List (Match P)} {σ : Store}
    {e : Option Err} (h : extract G A hash toks all fuel = some (ms, σ, e)) :
    e = none ↔ ∀ t, Reported G hash toks all fuel t → Checkable A t := by
  obtain ⟨cols, h1, h2⟩ := extract_run h
  obtain ⟨home, n, hl⟩ := chart_laid hG h1
  constructor
  · rintro rfl t ht
    obtain ⟨picks, k1, k2, k3, _, k5⟩ := prepareMatches_spec (loopInv_ok A home n)
      (prepareTrees (chartMatches G.start all cols)) Store.init ⟨storeOK_init, hl⟩
    rw [← h2] at k5
    have ht' := (reported_of h1).1 ht
    rcases k5 rfl t ht' with h3 | ⟨σ1, post, σ2, c1, c2⟩
    · obtain ⟨x, hx, rfl⟩ := List.mem_map.1 h3
      obtain ⟨post, σ1, σ2, c1, c2⟩ := k3 x hx
      exact (prepareMatch_total (hl _ ht') c1.1).1 ⟨_, c2⟩
    · exact (prepareMatch_total (hl _ ht') c1.1).1 ⟨_, c2⟩
  · intro hc
    have := prepareMatches_total (A := A) (home := home) (n := n)
      (prepareTrees (chartMatches G.start all cols)) Store.init storeOK_init hl
      (fun t ht => hc t ((reported_of h1).2 ht))
    rw [← h2] at this
    exact this

/-- C11: `findall` succeeds when every reported tree can be checked. -/
theorem findall_ok (hG : PredictSound G) (hL : PredictLossless G) {fuel : Nat}
    {r : Except Err (List (Match P) × Store)} (h : findall G A hash toks fuel = some r)
    (hc : ∀ t, Reported G hash toks true fuel t → Checkable A t) : ∃ ms σ, r = .ok (ms, σ) := by
  unfold findall matchStates at h
  rw [Option.map_map] at h
  obtain ⟨cols, h1, h2⟩ := Option.map_eq_some_iff.1 h
  obtain ⟨l, s1, s2, s3, _⟩ := sorted_trees_unique hG hL h1
  obtain ⟨home, n, hl⟩ := chart_laid (all := true) hG h1
  simp only [Function.comp] at h2
  rw [s1] at h2
  simp only [bind, Except.bind, resolvedMatches] at h2
  obtain ⟨x, hx⟩ := collect_total (A := A) (home := home) (n := n) l Store.init [] storeOK_init
    (fun t ht => hl t (s2.mem_iff.1 ht))
    (fun t ht => hc t ((reported_of h1).2 (s2.mem_iff.1 ht)))
  rw [hx] at h2
  simp only [pure, Except.pure] at h2
  exact ⟨_, _, h2.symm⟩

/-- C11: `match` succeeds when every reported tree can be checked. -/
theorem match_ok (hG : PredictSound G) (hL : PredictLossless G) {fuel : Nat}
    {r : Except Err (Option (Match P) × Store)} (h : matchText G A hash toks fuel = some r)
    (hc : ∀ t, Reported G hash toks false fuel t → Checkable A t) : ∃ x σ, r = .ok (x, σ) := by
  unfold matchText matchStates at h
  rw [Option.map_map] at h
  obtain ⟨cols, h1, h2⟩ := Option.map_eq_some_iff.1 h
  obtain ⟨l, s1, s2, s3, _⟩ := sorted_trees_unique hG hL h1
  obtain ⟨home, n, hl⟩ := chart_laid (all := false) hG h1
  simp only [Function.comp] at h2
  rw [s1] at h2
  simp only [bind, Except.bind] at h2
  obtain ⟨x, hx⟩ := firstMatch_total (A := A) (home := home) (n := n) l Store.init storeOK_init
    (fun t ht => hl t (s2.mem_iff.1 ht))
    (fun t ht => hc t ((reported_of h1).2 (s2.mem_iff.1 ht)))
  rw [hx] at h2
  exact ⟨_, _, h2.symm⟩

/-- The sample text: every reported tree can be checked, so `findall` has a result. -/
example : ∃ ms σ, findall coupleGrammar coupleAgreement (id : Key → Key) coupleText 200
      = some (.ok (ms, σ)) ∧ ms ≠ [] ∧
      ∃ t, Reported coupleGrammar (id : Key → Key) coupleText true 200 t ∧ Passes coupleAgreement t := by
  obtain ⟨ms, σ, h, hr⟩ := couple_findall
  have hne : ms ≠ [] := by rintro rfl; simp at hr
  exact ⟨ms, σ, h, hne, (findall_iff (word_sound _) (word_lossless _) h).1 hne⟩

example : ∀ t, Reported coupleGrammar (id : Key → Key) coupleText true 200 t →
    Checkable coupleAgreement t := by
  obtain ⟨ms, σ, h, _⟩ := couple_extract
  exact (extract_raises_iff (word_sound _) h).1 rfl

/-- C13: `match` returns the match made from the least reported tree that passes, as if it were
the only one. -/
theorem match_least (hG : PredictSound G) (hL : PredictLossless G) {fuel : Nat} {m : Match P}
    {σ : Store} (h : matchText G A hash toks fuel = some (.ok (some m, σ))) :
    ∃ t, Reported G hash toks false fuel t ∧ prepareMatch A Store.init t = .ok (some m, σ) ∧
      ∀ t', Reported G hash toks false fuel t' → Passes A t' → t' ≠ t →
        Preferred G toks t.view t'.view := by
  obtain ⟨t, h1, _, h2, h3⟩ := match_from hG hL h
  exact ⟨t, h1, h2, h3⟩

/-- C13 for `findall`: the match of a range is made from a reported tree of that range, and every
tree of that range that is preferred to it was rejected. -/
theorem findall_least (hG : PredictSound G) (hL : PredictLossless G) {fuel : Nat}
    {ms : List (Match P)} {σ : Store} (h : findall G A hash toks fuel = some (.ok (ms, σ)))
    (m : Match P) (hm : m ∈ ms) :
    ∃ t, Reported G hash toks true fuel t ∧ t.range = m.tree.range ∧
      (∃ σ1 σ2, NarrowsIn σ1 t ∧ prepareMatch A σ1 t = .ok (some m, σ2)) ∧
      ∀ t', Reported G hash toks true fuel t' → t'.range = t.range →
        Preferred G toks t'.view t.view → RejectedAfter A t' := by
  obtain ⟨cols, home, n, acc, h1, hl, _, hord, _, _, hres, hcand, hmem, l, h2, h3, h4⟩ :=
    findall_acc hG hL h
  have hrep : ∀ t, Reported G hash toks true fuel t ↔ t ∈ l := fun t => by
    rw [reported_of h1, h2.mem_iff]
  have hl' : ∀ t ∈ l, Laid home n t := fun t ht => hl t (h2.mem_iff.1 ht)
  obtain ⟨_, new, e1, e2, _, e3, e4, e5⟩ := collect_spec (loopInv_ok A home n) l Store.init [] acc σ
    ⟨storeOK_init, hl'⟩ h4
  rw [List.nil_append] at e1
  subst e1
  obtain ⟨e, he, rfl⟩ := hmem m hm
  obtain ⟨pre, t, post, σ1, σ2, b1, b2, b3, b4, b5⟩ := e4 e he
  have htl : t ∈ l := by rw [b1]; simp
  have hmd : Made A home t e.2 := ⟨σ1, σ2, b3.1, b4⟩
  refine ⟨t, (hrep t).2 htl, (hmd.range (hl' t htl)).symm,
    ⟨σ1, σ2, narrowsIn_of (hl' t htl) b3.1, b4⟩, ?_⟩
  intro t' ht' hr hp
  have ht'l := (hrep t').1 ht'
  have := ht'l
  rw [b1] at this h3
  rcases List.mem_append.1 this with h6 | h6
  · obtain ⟨σ3, post', σ5, c1, c2⟩ := b5 t' h6 (hr.trans b2)
    exact ⟨σ3, σ5, narrowsIn_of (hl' t' ht'l) c1.1, c2⟩
  · exfalso
    rcases List.mem_cons.1 h6 with h7 | h7
    · subst h7; exact preferred_irrefl _ hp
    · have := (List.pairwise_cons.1 (List.pairwise_append.1 h3).2.1).1 t' h7
      exact preferred_irrefl _ (preferred_trans _ _ _ hp this)

/-! ### C39 -/

/-- C39: a reported tree over no tokens makes `findall` raise. -/
theorem findall_empty_raises (hG : PredictSound G) (hL : PredictLossless G) {fuel : Nat}
    {r : Except Err (List (Match P) × Store)} (h : findall G A hash toks fuel = some r)
    (t : Tree P Token) (ht : Reported G hash toks true fuel t) (he : t.range.1 = t.range.2) :
    ∃ e, r = .error e := by
  cases r with
  | error e => exact ⟨e, rfl⟩
  | ok x =>
    exfalso
    obtain ⟨ms, σ⟩ := x
    obtain ⟨cols, home, n, acc, h1, h2, h3, h4, h5, h6, h7, h8, h9, _⟩ := findall_acc hG hL h
    rw [reported_of h1] at ht
    rcases h6 t ht with h10 | ⟨σ1, σ2, k1, k2⟩
    · have := h8.2 _ h10
      omega
    · obtain ⟨q1, q2, _⟩ := layout_leaves (h2 t ht)
      have : t.root.leaves = [] := by
        cases hx : t.root.leaves with
        | nil => rfl
        | cons a b => rw [hx] at q2; simp at q2; omega
      rw [prepareMatch_empty this] at k2; simp at k2

/-- C39: the property holds whenever there is a result (see `findall_matches`: every match is
non-empty), but if the start rule has an empty alternative `findall` raises on every text. -/
theorem findall_nullable_start (hG : PredictSound G) (hL : PredictLossless G)
    (hD : DistinctProductions G) (hh : ∀ a b, hash a = hash b → a = b) {fuel : Nat}
    {r : Except Err (List (Match P) × Store)} (h : findall G A hash toks fuel = some r)
    (prod : Production P) (hp : prod ∈ G.productions G.start) (he : prod.terms = []) :
    ∃ e, r = .error e := by
  have h' := h
  unfold findall matchStates at h'
  rw [Option.map_map] at h'
  obtain ⟨cols, h1, _⟩ := Option.map_eq_some_iff.1 h'
  obtain ⟨s, hs, s1, s2⟩ := chart_complete_partial hG hL hD hh (waits_zero G) h1 0 0 0
    (.node G.start prod []) (Or.inl rfl) (Nat.zero_le _) (Or.inl rfl) (.node hp (by rw [he]; exact .nil))
  refine findall_empty_raises hG hL h s.tree ((reported_of h1).2 (List.mem_map.2 ⟨s, hs, rfl⟩)) ?_
  show s.range.1 = s.range.2
  rw [s1]

/-- `S → ε | 'x'`: what `rule('x').optional()` compiles to. -/
def optionalGrammar : Grammar String Token := wordGrammar
  [[⟨0, [], 0, none⟩, ⟨1, [.pred "x"], 0, none⟩]]

/-- C39 is false: `Parser(rule('x').optional())` raises `ValueError` on the text `x`. -/
theorem findall_nullable_false :
    (findall optionalGrammar noAgreement (id : Key → Key) [word "x" 0 []] 100).map
      (fun r => match r with
        | .error e => decide (e = .valueError)
        | .ok _ => false) = some true := by
  decide +kernel

/-! ### C24, C25, C45 -/

theorem reading_accepted_laid {home : Home P Token} {n : Nat} {t : Tree P Token} (hl : Laid home n t)
    {r0 : TTree P} (h0 : t.root.prune = some r0) (hk : HeadsOK A r0)
    (hR : ∀ rel, Respects (A.relation rel).call) (c : Nat → Form) (hc : Reading A r0 c) :
    ∃ m σ, prepareMatch A Store.init t = .ok (some m, σ) ∧
      ∀ rel l w, Related A r0 rel l w → ∃ w' fs f, σ l = some w' ∧ w'.forms = some fs ∧ f ∈ fs ∧
        (c l).normalized = f.normalized ∧ (c l).grams = f.grams := by
  have hnd := layout_nodup hl
  have hne : t.root.leaves ≠ [] := by
    intro he; rw [(prune_none_iff _).2 he] at h0; simp at h0
  obtain ⟨r1, h1, ho⟩ := prepareMatch_outcome (A := A) (σ := Store.init) hnd hne
  rw [h0] at h1; simp only [Option.some.injEq] at h1; subst h1
  rw [load_init] at ho
  have hnd0 : (r0.leaves.map Prod.fst).Nodup := by rw [prune_leaves_some h0]; exact hnd
  obtain ⟨g, hg⟩ := treeRelations_ok_iff.2 hk
  obtain ⟨k1, k2, k3, k4⟩ := treeRelations_ok hnd0 hg
  obtain ⟨v1, v2⟩ := validate_keeps_consistent A.relation g k2 (fun e _ => hR e.1) c
    ((reading_consistent hnd0 hg c).1 hc)
  generalize hy : prepareMatch A Store.init t = y at ho
  cases ho with
  | raised q => rw [hg] at q; simp at q
  | rejected q1 q2 => rw [hg] at q1; cases q1; rw [v1] at q2; simp at q2
  | @accepted g' σ' span q1 q2 q3 q4 q5 =>
    rw [hg] at q1; cases q1
    refine ⟨_, _, rfl, ?_⟩
    intro rel l w hrel
    have hlw : (l, w) ∈ r0.leaves := by
      obtain ⟨n, r', prod, rank, cs, h3, _, h4⟩ := hrel
      exact sub_leaves h3 _ (head_mem h4)
    have hin : l ∈ g.tokens.map Prod.fst := by
      obtain ⟨e, he, _, hle⟩ := (k3 rel l).2 ⟨w, hrel⟩
      exact (k2 l).2 ⟨e, he, hle⟩
    obtain ⟨f, f1, f2, f3⟩ := v2 l hin
    refine ⟨_, (g.validate A.relation).1.forms l, f, q3 (l, w) hlw, ?_, f1, f2, f3⟩
    have hin' : (l, w).1 ∈ (g.validate A.relation).1.tokens.map Prod.fst := hin
    unfold newTok
    rw [if_pos hin']

theorem reported_laid (hG : PredictSound G) {fuel : Nat} {t : Tree P Token}
    (ht : Reported G hash toks all fuel t) : ∃ (home : Home P Token) (n : Nat), Laid home n t := by
  obtain ⟨ss, h1, h2⟩ := ht
  obtain ⟨cols, h3, rfl⟩ := Option.map_eq_some_iff.1 h1
  obtain ⟨home, n, hl⟩ := chart_laid hG h3
  exact ⟨home, n, hl t h2⟩

/-- C24: a reported tree that has a consistent reading passes, and every related word keeps the
form of the reading. -/
theorem reading_accepted (hG : PredictSound G) {fuel : Nat} {t : Tree P Token}
    (ht : Reported G hash toks all fuel t)
    {r0 : TTree P} (h0 : t.root.prune = some r0) (hk : HeadsOK A r0)
    (hR : ∀ rel, Respects (A.relation rel).call) (c : Nat → Form) (hc : Reading A r0 c) :
    ∃ m σ, prepareMatch A Store.init t = .ok (some m, σ) ∧
      ∀ rel l w, Related A r0 rel l w → ∃ w' fs f, σ l = some w' ∧ w'.forms = some fs ∧ f ∈ fs ∧
        (c l).normalized = f.normalized ∧ (c l).grams = f.grams := by
  obtain ⟨home, n, hl⟩ := reported_laid hG ht
  exact reading_accepted_laid hl h0 hk hR c hc

/-- The two words of the sample, both read as masculine. -/
theorem couple_reading {n n1 n2 k k1 k2 l1 l2 : Nat} (hne : l1 ≠ l2) :
    let t : TTree String := .node n 0 ⟨0, [.rule 1, .rule 2], 0, none⟩ k
        [.node n1 1 ⟨1, [.pred "*"], 0, none⟩ k1 [.leaf l1 "*" (word "a" 0 [masc, femn])],
         .node n2 2 ⟨2, [.pred "*"], 0, none⟩ k2 [.leaf l2 "*" (word "b" 2 [masc])]]
    t.prune = some t ∧ HeadsOK coupleAgreement t ∧ Reading coupleAgreement t (fun _ => masc) ∧
      Couples coupleAgreement t := by
  intro t
  have hsub : ∀ n' r prod rank cs, Sub (.node n' r prod rank cs) t →
      coupleAgreement.relationOf r ≠ none →
      (r = 1 ∧ prod.main = 0 ∧ cs = [.leaf l1 "*" (word "a" 0 [masc, femn])]) ∨
      (r = 2 ∧ prod.main = 0 ∧ cs = [.leaf l2 "*" (word "b" 2 [masc])]) := by
    intro n' r prod rank cs hs hr
    have := mem_walk_iff.2 hs
    simp only [t, PTree.walk, walkAll, List.mem_cons, List.cons_append, List.nil_append,
      PTree.node.injEq, List.not_mem_nil, or_false, reduceCtorEq, false_or] at this
    rcases this with ⟨_, rfl, _⟩ | ⟨_, rfl, rfl, _, rfl⟩ | ⟨_, rfl, rfl, _, rfl⟩
    · simp [coupleAgreement] at hr
    · exact Or.inl ⟨rfl, rfl, rfl⟩
    · exact Or.inr ⟨rfl, rfl, rfl⟩
  have hhead : ∀ {n' r prod rank} {c : TTree String} {l w}, prod.main = 0 →
      HeadOf (.node n' r prod rank [c]) l w → HeadOf c l w := by
    intro n' r prod rank c l w hm hh
    cases hh with
    | node h1 h2 => rw [hm] at h1; simp at h1; subst h1; exact h2
  have hleaf : ∀ {i p} {w0 : Token} {l w}, HeadOf (.leaf i p w0 : TTree String) l w → l = i ∧ w = w0 := by
    intro i p w0 l w hh; cases hh; exact ⟨rfl, rfl⟩
  have hrel : ∀ rel l w, Related coupleAgreement t rel l w → rel = 0 ∧
      ((l = l1 ∧ w = word "a" 0 [masc, femn]) ∨ (l = l2 ∧ w = word "b" 2 [masc])) := by
    rintro rel l w ⟨n', r, prod, rank, cs, hs, h1, h2⟩
    rcases hsub _ _ _ _ _ hs (by rw [h1]; simp) with ⟨rfl, hm, rfl⟩ | ⟨rfl, hm, rfl⟩
    · simp [coupleAgreement] at h1
      exact ⟨h1.symm, Or.inl (hleaf (hhead hm h2))⟩
    · simp [coupleAgreement] at h1
      exact ⟨h1.symm, Or.inr (hleaf (hhead hm h2))⟩
  have hwalk : ∀ rel, t.walk.filter (carries coupleAgreement rel) = [] ∨
      (t.walk.filter (carries coupleAgreement rel) =
        [.node n1 1 ⟨1, [.pred "*"], 0, none⟩ k1 [.leaf l1 "*" (word "a" 0 [masc, femn])],
         .node n2 2 ⟨2, [.pred "*"], 0, none⟩ k2 [.leaf l2 "*" (word "b" 2 [masc])]]) := by
    intro rel
    by_cases h : rel = 0
    · subst h; right; rfl
    · left
      have h' : ¬ (0 = rel) := fun e => h e.symm
      simp [t, PTree.walk, walkAll, carries, coupleAgreement, h']
  refine ⟨rfl, ?_, ⟨?_, ?_⟩, ⟨?_, ?_⟩⟩
  · intro n' r prod rank cs hs hr
    rcases hsub _ _ _ _ _ hs hr with ⟨rfl, hm, rfl⟩ | ⟨rfl, hm, rfl⟩
    · exact ⟨_, _, _, .node (by rw [hm]; rfl) .leaf, rfl⟩
    · exact ⟨_, _, _, .node (by rw [hm]; rfl) .leaf, rfl⟩
  · intro rel l w fs hr hf
    rcases (hrel rel l w hr).2 with ⟨_, rfl⟩ | ⟨_, rfl⟩
    · simp [word] at hf; subst hf; simp
    · simp [word] at hf; subst hf; simp
  · intro rel
    rcases hwalk rel with h | h
    · rw [h]; exact .nil
    · rw [h]
      refine List.pairwise_cons.2 ⟨fun y _ l w l' w' _ _ => ?_, List.pairwise_singleton ..⟩
      show Relation.gender.call masc masc = true
      decide
  · intro rel
    rcases hwalk rel with h | h
    · exact Or.inl h
    · refine Or.inr ⟨_, _, h, ?_⟩
      intro l w l' w' h1 h2
      rw [(hleaf (hhead rfl h1)).1, (hleaf (hhead rfl h2)).1]; exact hne
  · intro rel rel' l w w' h1 h2
    rw [(hrel _ _ _ h1).1, (hrel _ _ _ h2).1]

/-- A reported tree of the sample text meets the hypotheses of the theorems on readings. -/
example : ∃ t r0 c, Reported coupleGrammar (id : Key → Key) coupleText true 200 t ∧
    t.root.prune = some r0 ∧ HeadsOK coupleAgreement r0 ∧ Reading coupleAgreement r0 c ∧
    Couples coupleAgreement r0 ∧ ∀ rel, Respects (coupleAgreement.relation rel).call := by
  obtain ⟨n, n1, n2, k, k1, k2, l1, l2, hne, h⟩ := couple_tree
  obtain ⟨h1, h2, h3, h4⟩ := couple_reading (n := n) (n1 := n1) (n2 := n2) (k := k) (k1 := k1)
    (k2 := k2) hne
  exact ⟨_, _, _, h, h1, h2, h3, h4, fun _ => relation_respects _ trivial⟩

/-- C45 (partial): when the relations of a reported tree relate separate pairs of words, the tree passes
exactly if it has a consistent reading. Missing: relations between three or more words, for which
the tree may pass without one (`accepted_inconsistent`). -/
theorem passes_iff_reading_partial (hG : PredictSound G) {fuel : Nat} {t : Tree P Token}
    (ht : Reported G hash toks all fuel t) {r0 : TTree P} (h0 : t.root.prune = some r0) (hk : HeadsOK A r0)
    (hR : ∀ rel, Respects (A.relation rel).call) (hc : Couples A r0) :
    Passes A t ↔ ∃ c, Reading A r0 c := by
  obtain ⟨home, n, hl⟩ := reported_laid hG ht
  constructor
  · rintro ⟨m, σ, hp⟩
    have hnd := layout_nodup hl
    have hne : t.root.leaves ≠ [] := by
      intro he; rw [(prune_none_iff _).2 he] at h0; simp at h0
    obtain ⟨r1, h1, ho⟩ := prepareMatch_outcome (A := A) (σ := Store.init) hnd hne
    rw [h0] at h1; simp only [Option.some.injEq] at h1; subst h1
    rw [load_init, hp] at ho
    have hnd0 : (r0.leaves.map Prod.fst).Nodup := by rw [prune_leaves_some h0]; exact hnd
    obtain ⟨g, hg⟩ := treeRelations_ok_iff.2 hk
    obtain ⟨_, k2, _, _⟩ := treeRelations_ok hnd0 hg
    obtain ⟨s1, s2⟩ := couples_separate hnd0 hg hc
    cases ho with
    | accepted q1 q2 =>
      rw [hg] at q1; cases q1
      obtain ⟨c, hc⟩ := (accepted_iff_consistent_partial A.relation g k2 s1 s2 (fun e _ => hR e.1)).1 q2
      exact ⟨c, (reading_consistent hnd0 hg c).2 hc⟩
  · rintro ⟨c, hc⟩
    obtain ⟨m, σ, h, _⟩ := reading_accepted_laid hl h0 hk hR c hc
    exact ⟨m, σ, h⟩

/-- C25 (partial): when the relations of a reported tree relate separate pairs of words, after acceptance
every remaining form of a related word agrees with a remaining form of the other. Missing: relations
between three or more words, for which it is false (`agreement_not_mutual`). -/
theorem accepted_forms_agree_partial (hG : PredictSound G) {fuel : Nat} {t : Tree P Token}
    (ht : Reported G hash toks all fuel t) {r0 : TTree P} (h0 : t.root.prune = some r0)
    (hR : ∀ rel, Respects (A.relation rel).call) (hc : Couples A r0) {m : Match P} {σ : Store}
    (h : prepareMatch A Store.init t = .ok (some m, σ)) (rel : Nat) (x y : TTree P)
    (hxy : r0.walk.filter (carries A rel) = [x, y]) (l l' : Nat) (w w' : Token)
    (hx : HeadOf x l w) (hy : HeadOf y l' w') :
    ∃ u fs u' fs', σ l = some u ∧ u.forms = some fs ∧ σ l' = some u' ∧ u'.forms = some fs' ∧
      (∀ f ∈ fs, ∃ f' ∈ fs', (A.relation rel).call f f' = true) ∧
      (∀ f' ∈ fs', ∃ f ∈ fs, (A.relation rel).call f f' = true) := by
  obtain ⟨home, n, hl⟩ := reported_laid hG ht
  have hnd := layout_nodup hl
  have hne : t.root.leaves ≠ [] := by
    intro he; rw [(prune_none_iff _).2 he] at h0; simp at h0
  obtain ⟨r1, h1, ho⟩ := prepareMatch_outcome (A := A) (σ := Store.init) hnd hne
  rw [h0] at h1; simp only [Option.some.injEq] at h1; subst h1
  rw [load_init, h] at ho
  have hnd0 : (r0.leaves.map Prod.fst).Nodup := by rw [prune_leaves_some h0]; exact hnd
  cases ho with
  | @accepted g _ _ hg q2 q3 q4 q5 =>
    obtain ⟨k1, k2, k3, k4⟩ := treeRelations_ok hnd0 hg
    obtain ⟨s1, s2⟩ := couples_separate hnd0 hg hc
    have ki := treeRelations_items hg
    have hkey : rel ∈ g.items.map Prod.fst := by
      apply Classical.byContradiction
      intro hno
      rw [ki.rest rel hno] at hxy; simp at hxy
    obtain ⟨e, he, rfl⟩ := List.mem_map.1 hkey
    have hp := ki.lists e he
    rw [hxy] at hp
    have he2 : e.2 = [l, l'] := by
      generalize e.2 = b at hp
      cases hp with
      | cons a1 a2 =>
        cases a2 with
        | cons b1 b2 =>
          cases b2
          obtain ⟨_, a1⟩ := a1
          obtain ⟨_, b1⟩ := b1
          rw [(head_unique a1 hx).1, (head_unique b1 hy).1]
    have hedge : (e.1, l, l') ∈ g.edges := by
      refine List.mem_flatMap.2 ⟨e, he, ?_⟩
      rw [he2]; simp [pairs]
    obtain ⟨m1, m2⟩ := validate_mutual_partial A.relation g s2 (fun e _ => hR e.1) _ _ _ hedge
    have hmem : ∀ z, z ∈ [x, y] → ∀ l w, HeadOf z l w → (l, w) ∈ r0.leaves := by
      intro z hz l w hh
      rw [← hxy] at hz
      exact sub_leaves (mem_walk_iff.1 (List.mem_filter.1 hz).1) _ (head_mem hh)
    have hin : ∀ z ∈ [l, l'], z ∈ g.tokens.map Prod.fst := by
      intro z hz
      rw [← he2] at hz
      exact (k2 z).2 ⟨e, he, hz⟩
    refine ⟨_, _, _, _, q3 (l, w) (hmem x (by simp) _ _ hx), ?_,
      q3 (l', w') (hmem y (by simp) _ _ hy), ?_, m1, m2⟩
    · have hin' : (l, w).1 ∈ (g.validate A.relation).1.tokens.map Prod.fst := hin l (by simp)
      unfold newTok; rw [if_pos hin']
    · have hin' : (l', w').1 ∈ (g.validate A.relation).1.tokens.map Prod.fst := hin l' (by simp)
      unfold newTok; rw [if_pos hin']

/-! ### C26 -/

/-- `S → X Y | X * Y` with gender agreement between `X` and `Y`. -/
def sharedGrammar : Grammar String Token := wordGrammar
  [[⟨0, [.rule 1, .rule 2], 0, none⟩, ⟨1, [.rule 1, .pred "*", .rule 2], 0, none⟩],
   [⟨2, [.pred "a"], 0, none⟩],
   [⟨3, [.pred "*"], 0, none⟩]]

def sharedAgreement : Agreement :=
  ⟨fun r => if r = 1 ∨ r = 2 then some 0 else none, fun _ => .gender⟩

def sharedText : List Token :=
  [word "a" 0 [masc, femn], word "b" 2 [masc], word "c" 4 [femn]]

/-- C26 is false: over a word of two genders, a masculine and a feminine word, `extract` reports
the first two words and rejects all three, although the latter tree passes when checked on its own:
accepting the first has removed the feminine reading from the shared word. -/
theorem matches_influence_each_other :
    ∃ ms σ, extract sharedGrammar sharedAgreement (id : Key → Key) sharedText true 200
        = some (ms, σ, none) ∧
      (∃ m ∈ ms, m.tree.range = (0, 2)) ∧ (∀ m ∈ ms, m.tree.range ≠ (0, 3)) ∧
      ∃ t, Reported sharedGrammar (id : Key → Key) sharedText true 200 t ∧ t.range = (0, 3) ∧
        Passes sharedAgreement t := by
  have h : (chart sharedGrammar (id : Key → Key) sharedText true 200).map (fun cols =>
      let ts := prepareTrees (chartMatches 0 true cols)
      let r := prepareMatches sharedAgreement Store.init ts
      decide (r.2.2 = none) && r.1.any (fun m => decide (m.tree.range = (0, 2))) &&
      r.1.all (fun m => decide (m.tree.range ≠ (0, 3))) &&
      ts.any (fun t => decide (t.range = (0, 3)) &&
        match prepareMatch sharedAgreement Store.init t with
        | .ok (some _, _) => true
        | _ => false)) = some true := by decide +kernel
  obtain ⟨cols, h1, h2⟩ := Option.map_eq_some_iff.1 h
  simp only [Bool.and_eq_true, decide_eq_true_eq] at h2
  obtain ⟨⟨⟨h2, h3⟩, h4⟩, h5⟩ := h2
  refine ⟨(prepareMatches sharedAgreement Store.init (prepareTrees (chartMatches 0 true cols))).1,
    (prepareMatches sharedAgreement Store.init (prepareTrees (chartMatches 0 true cols))).2.1,
    ?_, ?_, ?_, ?_⟩
  · unfold extract matchStates
    rw [h1]
    show some _ = some _
    rw [← h2]
    rfl
  · obtain ⟨m, hm, hr⟩ := List.any_eq_true.1 h3
    exact ⟨m, hm, by simpa using hr⟩
  · intro m hm
    have := List.all_eq_true.1 h4 m hm
    simpa using this
  · obtain ⟨t, ht, hr⟩ := List.any_eq_true.1 h5
    simp only [Bool.and_eq_true, decide_eq_true_eq] at hr
    refine ⟨t, (reported_of h1).2 ht, hr.1, ?_⟩
    have h6 := hr.2
    unfold Passes
    split at h6
    · rename_i m σ e; exact ⟨m, σ, e⟩
    · simp at h6

/-! ### C27 -/

/-- C27 (partial): if no part on the way to the head is preceded, before the designated term, by an
empty part, the words related by agreement are exactly the heads (following the designated terms of
the productions) of the non-empty parts with that relation. Missing: phrases in which an optional
part before the designated term is absent (`main_shifts`). -/
theorem related_heads_partial {T : Type} {t t' : PTree P T} (h : t.prune = some t')
    (hs : ∀ n r prod rank cs, Sub (.node n r prod rank cs) t → A.relationOf r ≠ none →
      (PTree.node n r prod rank cs).leaves ≠ [] → HeadSafe (PTree.node n r prod rank cs))
    (rel l : Nat) (w : T) :
    Related A t' rel l w ↔ ∃ n r prod rank cs, Sub (.node n r prod rank cs) t ∧
      A.relationOf r = some rel ∧ (PTree.node n r prod rank cs).leaves ≠ [] ∧
      HeadOf (.node n r prod rank cs) l w := by
  constructor
  · rintro ⟨n, r, prod, rank, cs, h1, h2, h3⟩
    obtain ⟨x0, h4, h5⟩ := (sub_prune h).1 h1
    cases x0 with
    | leaf a b c => simp [PTree.prune] at h5
    | node n' r' prod' rank' cs' =>
      have h5' := h5
      rw [prune_node] at h5
      split at h5
      · simp at h5
      · simp only [Option.some.injEq, PTree.node.injEq] at h5
        obtain ⟨rfl, rfl, rfl, rfl, rfl⟩ := h5
        have hne : (PTree.node n' r' prod' rank' cs').leaves ≠ [] := by
          intro he
          rw [(prune_none_iff _).2 he] at h5'; simp at h5'
        obtain ⟨t1, l1, w1, g1, g2, g3⟩ := head_prune (hs _ _ _ _ _ h4 (by rw [h2]; simp) hne)
        rw [h5'] at g1
        simp only [Option.some.injEq] at g1
        subst g1
        obtain ⟨rfl, rfl⟩ := head_unique h3 g3
        exact ⟨_, _, _, _, _, h4, h2, hne, g2⟩
  · rintro ⟨n, r, prod, rank, cs, h1, h2, hne, h3⟩
    obtain ⟨t1, l1, w1, g1, g2, g3⟩ := head_prune (hs _ _ _ _ _ h1 (by rw [h2]; simp) hne)
    obtain ⟨rfl, rfl⟩ := head_unique h3 g2
    have := (sub_prune h).2 ⟨_, h1, g1⟩
    rw [prune_node] at g1
    split at g1
    · simp at g1
    · simp only [Option.some.injEq] at g1
      subst g1
      exact ⟨_, _, _, _, _, this, h2, g3⟩

/-- The tree of `x a` from `X → 'x' main(A) R`, `A → 'a'`, `R → ε`. -/
def safeTree : TTree String := .node 0 0 ⟨0, [.pred "x", .rule 1, .rule 2], 1, none⟩ 0
  [.leaf 1 "x" (word "x" 0 []), .node 2 1 ⟨1, [.pred "a"], 0, none⟩ 0 [.leaf 3 "a" (word "a" 2 [])],
   .node 4 2 ⟨2, [], 0, none⟩ 0 []]

example : (∃ t', safeTree.prune = some t') ∧ HeadSafe safeTree := by
  refine ⟨⟨_, rfl⟩, .node (c := .node 2 1 ⟨1, [.pred "a"], 0, none⟩ 0 [.leaf 3 "a" (word "a" 2 [])])
    rfl ?_ (.node (c := .leaf 3 "a" (word "a" 2 [])) rfl ?_ .leaf)⟩
  · intro k c' hk hc
    have : k = 0 := by dsimp at hk; omega
    subst this
    simp at hc; subst hc; simp [PTree.leaves, PTree.walk, PTree.leaf?]
  · intro k c' hk; exact absurd hk (Nat.not_lt_zero _)

/-- `X → R 'a' 'b'`, `R → ε | 'c'`, the second term of `X` marked as main. -/
def shiftedTree : TTree String :=
  .node 0 0 ⟨0, [.rule 1, .pred "a", .pred "b"], 1, none⟩ 0
    [.node 1 1 ⟨1, [], 0, none⟩ 0 [], .leaf 2 "a" (word "a" 0 []), .leaf 3 "b" (word "b" 2 [])]

/-- C27 is false: with `rule(rule('c').optional(), main('a'), 'b')` and the optional part absent the
head is `b`, not `a`. -/
theorem main_shifts :
    HeadOf shiftedTree 2 (word "a" 0 []) ∧
      ∃ t', shiftedTree.prune = some t' ∧ t'.main = .ok (3, word "b" 2 []) := by
  refine ⟨.node (c := .leaf 2 "a" (word "a" 0 [])) rfl .leaf, ?_⟩
  exact ⟨_, rfl, rfl⟩

/-- C27: with the designated term last, the agreement check even raises `IndexError`. -/
theorem main_raises :
    let t : TTree String := .node 0 0 ⟨0, [.rule 1, .pred "a"], 1, none⟩ 0
      [.node 1 1 ⟨1, [], 0, none⟩ 0 [], .leaf 2 "a" (word "a" 0 [])]
    HeadOf t 2 (word "a" 0 []) ∧
      (match prepareMatch ⟨fun r => if r = 0 then some 0 else none, fun _ => .gender⟩ Store.init
          ⟨t, (0, 1)⟩ with
        | .error e => decide (e = .indexError)
        | _ => false) = true := by
  refine ⟨.node (c := .leaf 2 "a" (word "a" 0 [])) rfl .leaf, ?_⟩
  decide +kernel

end Yargy
