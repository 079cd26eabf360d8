import Verif.Spec.Raise
import Verif.Proofs.EarleyComplete
/-! The chart with predicates that raise: the same as without, up to the first exception. -/
namespace Yargy
open Spec

variable {P T H : Type} [DecidableEq H] {M : Methods P T} {G : Grammar P T} {hash : Key → H} {toks : List T} {all : Bool}

/-- The machine is about to ask the predicate about the token. -/
def Asks (toks : List T) (c : Config P T H) (p : P) (t : T) : Prop :=
  ∃ i col s, c.phase = .at i ∧ c.cols[c.k]? = some col ∧ col.states[i]? = some s ∧ s.next = some (.pred p) ∧
    toks[c.k]? = some t

theorem scanE_cases (hM : Tamed M G) (k : Nat) (p : P) (t : T) (s : State P T) (cols : List (Column P T H)) (ctr : Nat) :
    (∃ e, Raises M p t e ∧ scanE M hash k p t s cols ctr = .error e) ∨
      (∀ e, ¬ Raises M p t e) ∧ scanE M hash k p t s cols ctr = .ok (scan G hash k p t s cols ctr) := by
  have ha := hM.yes p t
  unfold scanE
  rw [scan_eq]
  cases h1 : M.call p t with
  | error e => exact .inl ⟨e, .inl h1, rfl⟩
  | ok b =>
    cases b with
    | false =>
      have hf : G.accepts p t = false := by
        cases hx : G.accepts p t with
        | false => rfl
        | true =>
          have := ha.1 hx
          rw [h1] at this
          cases this
      refine .inr ⟨?_, by rw [hf]; rfl⟩
      rintro e (h | ⟨h, _⟩) <;> rw [h1] at h <;> cases h
    | true =>
      have ht : G.accepts p t = true := ha.2 h1
      cases h2 : M.constrain p t with
      | error e => exact .inl ⟨e, .inr ⟨h1, h2⟩, rfl⟩
      | ok t' =>
        refine .inr ⟨?_, ?_⟩
        · rintro e (h | ⟨_, h⟩)
          · rw [h1] at h; cases h
          · rw [h2] at h; cases h
        · rw [ht, if_pos rfl]
          unfold scanState
          rw [hM.token p t t' h2]

theorem stepE_cases (hM : Tamed M G) (c : Config P T H) :
    (∃ p t e, Asks toks c p t ∧ Raises M p t e ∧ stepE M G hash toks all c = .error e) ∨
      (∀ p t e, Asks toks c p t → ¬ Raises M p t e) ∧ stepE M G hash toks all c = .ok (step G hash toks all c) := by
  obtain ⟨cols, ctr, k, ph⟩ := c
  have other : (∀ i, ph ≠ .at i) → ∀ p t e, Asks toks (⟨cols, ctr, k, ph⟩ : Config P T H) p t → ¬ Raises M p t e := by
    rintro h p t e ⟨i, _, _, hi, _⟩
    exact absurd hi (h i)
  unfold stepE step
  cases ph with
  | done => exact .inr ⟨other (by intros; exact fun e => nomatch e), rfl⟩
  | enter =>
    refine .inr ⟨other (by intros; exact fun e => nomatch e), ?_⟩
    dsimp only
    split <;> rfl
  | complete i s j =>
    refine .inr ⟨other (by intros; exact fun e => nomatch e), ?_⟩
    dsimp only
    cases (parentsOf cols s)[j]? <;> rfl
  | «at» i =>
    dsimp only
    cases hs : (cols[k]?).bind (fun col => col.states[i]?) with
    | none =>
      refine .inr ⟨?_, ?_⟩
      · rintro p t e ⟨i', col, s, hi, hc, hst, _⟩
        cases hi
        rw [show cols[k]? = some col from hc] at hs
        rw [Option.bind_some, hst] at hs
        cases hs
      · dsimp only
        split <;> rfl
    | some s =>
      rw [Option.bind_eq_some_iff] at hs
      obtain ⟨col, hc, hst⟩ := hs
      have only : ∀ p t, Asks toks (⟨cols, ctr, k, .at i⟩ : Config P T H) p t → s.next = some (.pred p) ∧ toks[k]? = some t := by
        rintro p t ⟨i', col', s', hi, hc', hst', hn, ht⟩
        cases hi
        rw [show cols[k]? = some col' from hc'] at hc
        cases hc
        rw [hst'] at hst
        cases hst
        exact ⟨hn, ht⟩
      dsimp only
      cases hcomp : s.completed with
      | true =>
        refine .inr ⟨?_, rfl⟩
        intro p t e h
        obtain ⟨h1, _⟩ := only p t h
        rw [State.not_completed_of_next h1] at hcomp
        cases hcomp
      | false =>
        simp only [Bool.false_eq_true, if_false]
        cases hn : s.next with
        | none =>
          refine .inr ⟨?_, rfl⟩
          intro p t e h
          obtain ⟨h1, _⟩ := only p t h
          rw [hn] at h1
          cases h1
        | some x =>
          cases x with
          | rule r =>
            refine .inr ⟨?_, rfl⟩
            intro p t e h
            obtain ⟨h1, _⟩ := only p t h
            rw [hn] at h1
            cases h1
          | pred p =>
            dsimp only
            cases ht : toks[k]? with
            | none =>
              refine .inr ⟨?_, rfl⟩
              intro p t e h
              obtain ⟨_, h1⟩ := only p t h
              rw [ht] at h1
              cases h1
            | some t =>
              dsimp only
              rcases scanE_cases (hash := hash) hM k p t s cols ctr with ⟨e, h1, h2⟩ | ⟨h1, h2⟩
              · refine .inl ⟨p, t, e, ⟨i, col, s, rfl, hc, hst, hn, ht⟩, h1, ?_⟩
                rw [h2]
              · refine .inr ⟨?_, ?_⟩
                · intro p' t' e h
                  obtain ⟨g1, g2⟩ := only p' t' h
                  rw [hn] at g1
                  rw [ht] at g2
                  cases g1
                  cases g2
                  exact h1 e
                · rw [h2]

/-- Either nothing has raised, and the machine is where it would be, or the first exception is the result. -/
theorem runE_cases (hM : Tamed M G) (n : Nat) :
    (runE M G hash toks all n = .ok (runN G hash toks all n) ∧
      ∀ m, m < n → ∀ p t e, Asks toks (runN G hash toks all m) p t → ¬ Raises M p t e) ∨
    ∃ m p t e, m < n ∧ Asks toks (runN G hash toks all m) p t ∧ Raises M p t e ∧
      runE M G hash toks all n = .error e := by
  induction n with
  | zero => exact .inl ⟨rfl, fun m hm => absurd hm (by omega)⟩
  | succ n ih =>
    unfold runE
    rcases ih with ⟨h1, h2⟩ | ⟨m, p, t, e, h1, h2, h3, h4⟩
    · rw [h1]
      dsimp only
      rcases stepE_cases (hash := hash) (toks := toks) (all := all) hM (runN G hash toks all n) with
        ⟨p, t, e, g1, g2, g3⟩ | ⟨g1, g2⟩
      · exact .inr ⟨n, p, t, e, by omega, g1, g2, g3⟩
      · refine .inl ⟨g2, fun m hm => ?_⟩
        by_cases e : m = n
        · subst e; exact g1
        · exact h2 m (by omega)
    · rw [h4]
      exact .inr ⟨m, p, t, e, by omega, h2, h3, rfl⟩

/-! ### What is asked -/

/-- Only column `k` has changed, and it has grown. -/
structure Grown (k : Nat) (cols cols' : List (Column P T H)) : Prop where
  other : ∀ k', k' ≠ k → cols'[k']? = cols[k']?
  same : ∀ col', cols'[k]? = some col' → ∃ col, cols[k]? = some col ∧ col.states <+: col'.states

theorem grown_refl (k : Nat) (cols : List (Column P T H)) : Grown k cols cols :=
  ⟨fun _ _ => rfl, fun c h => ⟨c, h, List.prefix_rfl⟩⟩

theorem grown_append {k : Nat} {cols cols' : List (Column P T H)} (h : Grown k cols cols') (s : State P T) :
    Grown k cols (appendAt hash cols' k s) := by
  refine ⟨fun k' hk => ?_, fun col' h' => ?_⟩
  · rw [appendAt_get?, if_neg (fun e => hk e.symm)]
    exact h.other k' hk
  · rw [appendAt_get?, if_pos rfl] at h'
    obtain ⟨c0, h3, rfl⟩ := Option.map_eq_some_iff.1 h'
    obtain ⟨c1, h4, h5⟩ := h.same c0 h3
    exact ⟨c1, h4, h5.trans (append_prefix hash c0 s)⟩

theorem grown_predict (k r : Nat) (cols : List (Column P T H)) (ctr : Nat) :
    Grown k cols (predict G hash toks k r cols ctr).1 :=
  predict_induct (M := fun cols' _ => Grown k cols cols') G hash toks k r cols ctr (grown_refl k cols)
    (fun _ _ _ _ _ h => grown_append h _)

/-- The number of states of the current column that have been looked at. -/
def Phase.pos : Phase P T → Nat
  | .enter => 0
  | .at i => i
  | .complete i _ _ => i + 1
  | .done => 0

/-- The predicates that states which have been looked at wait for have been asked. -/
structure Looked (A : P → T → Prop) (toks : List T) (c : Config P T H) : Prop where
  before : ∀ k' s p t, k' < c.k → InCol c.cols k' s → s.next = some (.pred p) → toks[k']? = some t → A p t
  here : ∀ col s p t j, c.cols[c.k]? = some col → (j < c.phase.pos ∨ c.phase = .done) → col.states[j]? = some s →
    s.next = some (.pred p) → toks[c.k]? = some t → A p t
  ready : ∀ col, c.cols[c.k]? = some col → c.phase.pos ≤ col.states.length
  last : c.phase = .done → c.cols.length ≤ c.k + 1

theorem looked_grown {A : P → T → Prop} {cols cols' : List (Column P T H)} {ctr ctr' k : Nat} {ph ph' : Phase P T}
    (hl : Looked A toks ⟨cols, ctr, k, ph⟩) (hg : Grown k cols cols') (hd : ph ≠ .done) (hd' : ph' ≠ .done)
    (hp : ph'.pos ≤ ph.pos ∨ ph'.pos = ph.pos + 1 ∧ ∃ col s, cols[k]? = some col ∧ col.states[ph.pos]? = some s ∧
      ∀ p t, s.next = some (.pred p) → toks[k]? = some t → A p t) : Looked A toks ⟨cols', ctr', k, ph'⟩ := by
  have len : ∀ col, cols[k]? = some col → ph'.pos ≤ col.states.length := by
    intro col hc
    rcases hp with hp | ⟨hp, col', s, h1, h2, _⟩
    · exact Nat.le_trans hp (hl.ready col hc)
    · rw [h1] at hc
      cases hc
      have := (List.getElem?_eq_some_iff.1 h2).1
      omega
  refine ⟨fun k' s p t hk hi hn ht => ?_, fun col s p t j hc hj hs hn ht => ?_, fun col hc => ?_, fun e => absurd e hd'⟩
  · obtain ⟨c, h1, h2⟩ := hi
    have hk' : k' < k := hk
    have h1' : cols'[k']? = some c := h1
    rw [hg.other k' (by omega)] at h1'
    exact hl.before k' s p t hk ⟨c, h1', h2⟩ hn ht
  · obtain ⟨c0, h1, h2⟩ := hg.same col hc
    have hj' : j < ph'.pos := hj.elim id (fun e => absurd e hd')
    have hlen := len c0 h1
    obtain ⟨rest, e⟩ := h2
    rw [← e, List.getElem?_append_left (by omega)] at hs
    by_cases hj2 : j < ph.pos
    · exact hl.here c0 s p t j h1 (.inl hj2) hs hn ht
    · rcases hp with hp | ⟨hp, col', s', g1, g2, g3⟩
      · omega
      · rw [g1] at h1
        cases h1
        have : j = ph.pos := by omega
        subst this
        rw [g2] at hs
        cases hs
        exact g3 p t hn ht
  · obtain ⟨c0, h1, h2⟩ := hg.same col hc
    exact Nat.le_trans (len c0 h1) h2.length_le

theorem looked_step {A : P → T → Prop} {c c' : Config P T H} (ht : Trans G hash toks all c c') (hl : Looked A toks c)
    (ha : ∀ p t, Asks toks c p t → A p t) : Looked A toks c' := by
  cases ht with
  | enterPredict _ =>
    exact looked_grown hl (grown_predict _ _ _ _) (fun e => nomatch e) (fun e => nomatch e) (.inl (Nat.le_refl _))
  | enterSkip _ =>
    exact looked_grown hl (grown_refl _ _) (fun e => nomatch e) (fun e => nomatch e) (.inl (Nat.le_refl _))
  | nextColumn hs hk =>
    rename_i cols ctr k i
    refine ⟨fun k' s p t hk' hi hn ht => ?_, fun col s p t j hc hj hs hn ht => ?_, fun col hc => Nat.zero_le _,
      fun e => nomatch e⟩
    · by_cases e : k' = k
      · subst e
        obtain ⟨col, h1, h2⟩ := hi
        obtain ⟨j, hj, hj2⟩ := List.getElem_of_mem h2
        have h1' : cols[k']? = some col := h1
        rw [h1', Option.bind_some, List.getElem?_eq_none_iff] at hs
        exact hl.here col s p t j h1 (.inl (by show j < i; omega)) (List.getElem?_eq_some_iff.2 ⟨hj, hj2⟩) hn ht
      · have hk2 : k' < k + 1 := hk'
        exact hl.before k' s p t (by show k' < k; omega) hi hn ht
    · rcases hj with hj | hj
      · exact absurd hj (Nat.not_lt_zero _)
      · cases hj
  | finish hs hk =>
    rename_i cols ctr k i
    refine ⟨fun k' s p t hk' hi hn ht => hl.before k' s p t hk' hi hn ht, fun col s p t j hc hj hst hn ht => ?_,
      fun col hc => Nat.zero_le _, fun _ => by show cols.length ≤ k + 1; omega⟩
    have hc' : cols[k]? = some col := hc
    rw [hc', Option.bind_some, List.getElem?_eq_none_iff] at hs
    have := (List.getElem?_eq_some_iff.1 hst).1
    exact hl.here col s p t j hc (.inl (by show j < i; omega)) hst hn ht
  | startComplete hc hs hcomp =>
    refine looked_grown hl (grown_refl _ _) (fun e => nomatch e) (fun e => nomatch e) (.inr ⟨rfl, _, _, hc, hs, ?_⟩)
    intro p t hn _
    rw [State.not_completed_of_next hn] at hcomp
    cases hcomp
  | predictRule hc hs hn =>
    refine looked_grown hl (grown_predict _ _ _ _) (fun e => nomatch e) (fun e => nomatch e)
      (.inr ⟨rfl, _, _, hc, hs, ?_⟩)
    intro p t hn' _
    rw [hn] at hn'
    cases hn'
  | scanAccept hc hs hn ht hacc =>
    rename_i cols ctr k i col s p t
    have h1 : Looked A toks ⟨cols, ctr, k, .at (i + 1)⟩ :=
      looked_grown hl (grown_refl _ _) (fun e => nomatch e) (fun e => nomatch e) (.inr ⟨rfl, _, _, hc, hs,
        fun p' t' hn' ht' => ha p' t' ⟨i, col, s, rfl, hc, hs, hn', ht'⟩⟩)
    have other : ∀ k', k' ≠ k + 1 → (appendAt hash cols (k + 1) (scanState G k p t s ctr))[k']? = cols[k']? := by
      intro k' hk'
      rw [appendAt_get?, if_neg (fun e => hk' e.symm)]
    refine ⟨fun k' s' p' t' hk' hi hn' ht' => ?_, fun col' s' p' t' j hc' hj hs' hn' ht' => ?_, fun col' hc' => ?_,
      fun e => nomatch e⟩
    · obtain ⟨c0, g1, g2⟩ := hi
      have hk2 : k' < k := hk'
      have g1' : (appendAt hash cols (k + 1) (scanState G k p t s ctr))[k']? = some c0 := g1
      rw [other k' (by omega)] at g1'
      exact h1.before k' s' p' t' hk' ⟨c0, g1', g2⟩ hn' ht'
    · have hc2 : (appendAt hash cols (k + 1) (scanState G k p t s ctr))[k]? = some col' := hc'
      rw [other k (by omega)] at hc2
      exact h1.here col' s' p' t' j hc2 hj hs' hn' ht'
    · have hc2 : (appendAt hash cols (k + 1) (scanState G k p t s ctr))[k]? = some col' := hc'
      rw [other k (by omega)] at hc2
      exact h1.ready col' hc2
  | scanReject hc hs hn hacc =>
    rename_i cols ctr k i col s p
    exact looked_grown hl (grown_refl _ _) (fun e => nomatch e) (fun e => nomatch e) (.inr ⟨rfl, _, _, hc, hs,
      fun p' t' hn' ht' => ha p' t' ⟨i, col, s, rfl, hc, hs, hn', ht'⟩⟩)
  | completeNext hp =>
    exact looked_grown hl (grown_append (grown_refl _ _) _) (fun e => nomatch e) (fun e => nomatch e)
      (.inl (Nat.le_refl _))
  | completeEnd hp =>
    exact looked_grown hl (grown_refl _ _) (fun e => nomatch e) (fun e => nomatch e) (.inl (Nat.le_refl _))
  | done => exact hl

/-- In a finished chart every predicate that a state waits for has been asked about the next token. -/
theorem finished_asked (n : Nat) (hd : (runN G hash toks all n).phase = .done) {k : Nat} {s : State P T} {p : P} {t : T}
    (hi : InCol (runN G hash toks all n).cols k s) (hn : s.next = some (.pred p)) (ht : toks[k]? = some t) :
    ∃ m, m < n ∧ Asks toks (runN G hash toks all m) p t := by
  have key : ∀ n, Looked (fun p t => ∃ m, m < n ∧ Asks toks (runN G hash toks all m) p t) toks (runN G hash toks all n) := by
    intro n
    induction n with
    | zero =>
      refine ⟨fun k' s p t hk => absurd hk (Nat.not_lt_zero _), fun col s p t j _ hj => ?_, fun _ _ => Nat.zero_le _,
        fun e => nomatch e⟩
      rcases hj with hj | hj
      · exact absurd hj (Nat.not_lt_zero _)
      · cases hj
    | succ n ih =>
      have up : Looked (fun p t => ∃ m, m < n + 1 ∧ Asks toks (runN G hash toks all m) p t) toks
          (runN G hash toks all n) :=
        ⟨fun k' s p t a b c d => (ih.before k' s p t a b c d).imp (fun _ h => ⟨by omega, h.2⟩),
          fun col s p t j a b c d e => (ih.here col s p t j a b c d e).imp (fun _ h => ⟨by omega, h.2⟩), ih.ready, ih.last⟩
      exact looked_step (step_trans G hash toks all _) up (fun p t h => ⟨n, by omega, h⟩)
  have hl := key n
  have hlast := hl.last hd
  obtain ⟨col, h1, h2⟩ := hi
  have hk := (List.getElem?_eq_some_iff.1 h1).1
  by_cases hk2 : k = (runN G hash toks all n).k
  · subst hk2
    obtain ⟨j, hj, hj2⟩ := List.getElem_of_mem h2
    exact hl.here col s p t j h1 (.inr hd) (List.getElem?_eq_some_iff.2 ⟨hj, hj2⟩) hn ht
  · exact hl.before k s p t (by omega) ⟨col, h1, h2⟩ hn ht

/-- What is asked belongs to a state of the chart. -/
theorem asked_state {c : Config P T H} {p : P} {t : T} (h : Asks toks c p t) :
    ∃ s, InCol c.cols c.k s ∧ s.next = some (.pred p) ∧ toks[c.k]? = some t := by
  obtain ⟨i, col, s, _, h1, h2, h3, h4⟩ := h
  exact ⟨s, ⟨col, h1, List.mem_of_getElem? h2⟩, h3, h4⟩

/-! ### Why it is asked -/

theorem next_split {s : State P T} {x : Term P} (h : s.next = some x) :
    s.prod.terms = s.prod.terms.take s.dot ++ x :: s.prod.terms.drop (s.dot + 1) := by
  unfold State.next at h
  obtain ⟨h1, h2⟩ := List.getElem?_eq_some_iff.1 h
  rw [← h2, ← List.drop_eq_getElem_cons h1, List.take_append_drop]

/-- Every state is of a rule that is of interest where the state begins. -/
def Aimed (G : Grammar P T) (toks : List T) (all : Bool) (cols : List (Column P T H)) : Prop :=
  ∀ k s, InCol cols k s → Expects G toks all s.start s.rule

theorem aimed_append {cols : List (Column P T H)} (h : Aimed G toks all cols) {k : Nat} {s : State P T}
    (hs : Expects G toks all s.start s.rule) : Aimed G toks all (appendAt hash cols k s) := by
  intro k' s' h'
  rcases inCol_appendAt h' with h1 | ⟨_, rfl⟩
  · exact h k' s' h1
  · exact hs

theorem aimed_predict {cols : List (Column P T H)} (h : Aimed G toks all cols) {k r : Nat}
    (hr : Expects G toks all k r) (ctr : Nat) : Aimed G toks all (predict G hash toks k r cols ctr).1 :=
  predict_induct (M := fun cols _ => Aimed G toks all cols) G hash toks k r cols ctr h
    (fun _ _ _ _ _ h => aimed_append h hr)

theorem expects_next {k r : Nat} {s : State P T} (ho : StateOK G toks k s) (he : Expects G toks all s.start s.rule)
    (hn : s.next = some (.rule r)) : Expects G toks all k r :=
  .part he ho.prod (next_split hn) ho.derives

theorem aimed_trans {c c' : Config P T H} (ht : Trans G hash toks all c c') (hs : SoundInv G toks c)
    (h : Aimed G toks all c.cols) : Aimed G toks all c'.cols := by
  cases ht with
  | enterPredict hk => exact aimed_predict h (.start hk) _
  | predictRule hc hst hn =>
    have hi := inCol_of_get hc hst
    exact aimed_predict h (expects_next (hs.states _ _ hi) (h _ _ hi) hn) _
  | scanAccept hc hst hn ht hacc =>
    have := h _ _ (inCol_of_get hc hst)
    exact aimed_append h this
  | completeNext hp =>
    have := h _ _ (hs.cols.mem_parents (List.mem_of_getElem? hp)).1
    exact aimed_append h this
  | _ => exact h

theorem aimed_runN (hG : PredictSound G) (n : Nat) :
    SoundInv G toks (runN G hash toks all n) ∧ Aimed G toks all (runN G hash toks all n).cols := by
  refine runN_induct (M := fun c => SoundInv G toks c ∧ Aimed G toks all c.cols) G hash toks all ⟨soundInv_init, ?_⟩
    (fun c c' ht h => ⟨soundInv_trans hG c c' ht h.1, aimed_trans ht h.1 h.2⟩) n
  rintro k s ⟨col, h1, h2⟩
  have := List.mem_of_getElem? h1
  simp only [initConfig, List.mem_replicate] at this
  rw [this.2] at h2
  simp [Column.empty] at h2

/-- What is asked is of interest. -/
theorem asks_wanted (hG : PredictSound G) {n : Nat} {p : P} {t : T} (h : Asks toks (runN G hash toks all n) p t) :
    ∃ k, toks[k]? = some t ∧ Wanted G toks all k p := by
  obtain ⟨s, h1, h2, h3⟩ := asked_state h
  obtain ⟨g1, g2⟩ := aimed_runN (hash := hash) (toks := toks) (all := all) hG n
  have ho := g1.states _ _ h1
  exact ⟨_, h3, s.start, s.rule, s.prod, _, _, _, g2 _ _ h1, ho.prod, next_split h2, ho.derives⟩

/-! ### What must be asked -/

theorem predicted_of {k r : Nat} {prod : Production P} (h1 : prod ∈ G.productions r)
    (h2 : ∀ t, toks[k]? = some t → prod ∈ G.predict r t) : prod ∈ predicted G toks k r := by
  unfold predicted
  split
  · next t ht => exact h2 t ht
  · exact h1

theorem begins_pred {cols : List (Column P T H)} (hc : Closed G toks all cols) {k r : Nat} (hk : k ≤ toks.length)
    (h : Begins G toks all k r) : HasPred G toks cols k r := by
  induction h with
  | start h => exact hc.start k hk h
  | first _ h2 h3 h4 ih =>
    obtain ⟨s, g1, g2, g3, g4, g5, g6⟩ := ih _ (predicted_of h2 h3)
    refine (hc.handled k s g1).pred _ ?_
    unfold State.next
    rw [g3, g4, ← List.head?_eq_getElem?]
    exact h4

theorem led_state {cols : List (Column P T H)} (hc : Closed G toks all cols) {prod : Production P} :
    ∀ (xs : List P) {i d r : Nat} {rest : List (Term P)}, (∃ s, InCol cols i s ∧ s.rule = r ∧ s.prod = prod ∧ s.dot = d) →
      prod.terms.drop d = xs.map .pred ++ rest →
      (∀ (j : Nat) x, xs[j]? = some x → ∃ t, toks[i + j]? = some t ∧ G.accepts x t = true) →
      ∃ s, InCol cols (i + xs.length) s ∧ s.rule = r ∧ s.prod = prod ∧ s.dot = d + xs.length
  | [], i, d, r, rest, h, _, _ => h
  | x :: xs, i, d, r, rest, ⟨s, h1, h2, h3, h4⟩, hx, ha => by
    obtain ⟨t, ht, hacc⟩ := ha 0 x rfl
    have hn : s.next = some (.pred x) := by
      unfold State.next
      rw [h3, h4]
      have := congrArg List.head? hx
      rw [List.head?_drop] at this
      rw [this]
      rfl
    obtain ⟨s', g1, g2, g3, g4, _⟩ := (hc.handled i s h1).scan x t hn ht hacc
    obtain ⟨u, u1, u2, u3, u4⟩ := led_state hc xs (i := i + 1) (d := d + 1) (r := r) (rest := rest)
      ⟨s', g1, g2.trans h2, g3.trans h3, by rw [g4, h4]⟩ (by
        have := congrArg (List.drop 1) hx
        rw [List.drop_drop] at this
        rw [this]
        rfl) (fun j y hy => by
        obtain ⟨t', e1, e2⟩ := ha (j + 1) y hy
        exact ⟨t', by rw [← e1]; congr 1; omega, e2⟩)
    refine ⟨u, ?_, u2, u3, by rw [u4, List.length_cons]; omega⟩
    rw [List.length_cons]
    have e : i + 1 + xs.length = i + (xs.length + 1) := by omega
    rw [← e]
    exact u1

end Yargy
