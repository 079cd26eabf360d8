import Verif.Proofs.EarleyIds
/-! Closure of the finished chart, and completeness for derivations without empty nodes. -/
set_option linter.unusedSectionVars false
set_option linter.unusedVariables false
namespace Yargy
open Spec

variable {P T H : Type} [DecidableEq H] {G : Grammar P T} {hash : Key → H} {toks : List T} {all : Bool}

/-- column `k` has the initial states of all predicted productions of rule `r` -/
def HasPred (G : Grammar P T) (toks : List T) (cols : List (Column P T H)) (k r : Nat) : Prop :=
  ∀ prod ∈ predicted G toks k r, ∃ s0, InCol cols k s0 ∧ s0.rule = r ∧ s0.prod = prod ∧
    s0.dot = 0 ∧ s0.start = k ∧ s0.children = []

/-- column `m` has the state `p` advanced over a tree that reads `d` -/
def HasAdv (cols : List (Column P T H)) (m : Nat) (p : State P T) (d : DTree P T) : Prop :=
  ∃ s0, InCol cols m s0 ∧ s0.rule = p.rule ∧ s0.prod = p.prod ∧ s0.dot = p.dot + 1 ∧
    s0.start = p.start ∧ s0.children.map PTree.erase = p.children.map PTree.erase ++ [d]

theorem HasPred.mono {cols : List (Column P T H)} {k r m : Nat} {s : State P T}
    (h : HasPred G toks cols k r) : HasPred G toks (appendAt hash cols m s) k r := by
  intro prod hp
  obtain ⟨s0, h1, h2⟩ := h prod hp
  exact ⟨s0, inCol_mono h1, h2⟩

theorem HasAdv.mono {cols : List (Column P T H)} {m m' : Nat} {p s : State P T} {d : DTree P T}
    (h : HasAdv cols m p d) : HasAdv (appendAt hash cols m' s) m p d := by
  obtain ⟨s0, h1, h2⟩ := h
  exact ⟨s0, inCol_mono h1, h2⟩

/-- parents of `R` that are in their column before any completed state of `R` is processed -/
def Early (G : Grammar P T) (R : Nat) (p : State P T) : Prop :=
  (∃ cs l q t, p.children = cs ++ [.leaf l q t]) ∨
    (p.dot = 0 ∧ UsedOnceFirst G R p.rule p.prod)

/-- everything the main loop owes to a state of column `k` once it has been processed -/
structure Handled (G : Grammar P T) (toks : List T) (cols : List (Column P T H)) (k : Nat)
    (s : State P T) : Prop where
  pred : ∀ r, s.next = some (.rule r) → HasPred G toks cols k r
  scan : ∀ p t, s.next = some (.pred p) → toks[k]? = some t → G.accepts p t = true →
    HasAdv cols (k + 1) s (.leaf p (G.constrain p t))
  comp : s.completed = true → ∀ p, InCol cols s.start p →
    p.next = some (.rule s.rule) → (s.start < k ∨ Early G s.rule p) → HasAdv cols k p s.dtree

/-- position `i` of column `k` has been processed -/
def Processed (c : Config P T H) (k i : Nat) : Prop :=
  k < c.k ∨ (k = c.k ∧ match c.phase with
    | .enter => False
    | .at i' => i < i'
    | .complete i' _ _ => i < i'
    | .done => True)

/-- the start rule has been predicted in column `k` -/
def Entered (c : Config P T H) (k : Nat) : Prop :=
  k < c.k ∨ (k = c.k ∧ c.phase ≠ .enter)

structure ClosInv (G : Grammar P T) (toks : List T) (all : Bool) (c : Config P T H) : Prop where
  entered : ∀ k, Entered c k → (k = 0 ∨ all = true) → HasPred G toks c.cols k G.start
  handled : ∀ (k i : Nat) (col : Column P T H) (s : State P T), c.cols[k]? = some col →
    col.states[i]? = some s → Processed c k i → Handled G toks c.cols k s
  posAt : ∀ i, c.phase = .at i → ∀ col, c.cols[c.k]? = some col → i ≤ col.states.length
  posComplete : ∀ i s j, c.phase = .complete i s j →
    ∃ col, c.cols[c.k]? = some col ∧ col.states[i]? = some s
  looping : ∀ i s j, c.phase = .complete i s j → ∀ j' p, j' < j →
    (parentsOf c.cols s)[j']? = some p → HasAdv c.cols c.k p s.dtree
  finished : c.phase = .done → c.k + 1 = c.cols.length

/-- appending to the current or a later column keeps what was owed -/
theorem Handled.mono {cols : List (Column P T H)} {k m : Nat} {s s' : State P T}
    (h : Handled G toks cols k s) (hm : k ≤ m) (hle : s.start ≤ k)
    (he : m = k → s.start = k → Early G s.rule s' → ∀ k', InCol (appendAt hash cols m s') k' s' →
      InCol cols k' s') :
    Handled G toks (appendAt hash cols m s') k s := by
  refine ⟨fun r hr => (h.pred r hr).mono, fun p t h1 h2 h3 => (h.scan p t h1 h2 h3).mono, ?_⟩
  intro h1 p hp hn h2
  refine (h.comp h1 p ?_ hn h2).mono
  rcases inCol_appendAt hp with h3 | ⟨h3, rfl⟩
  · exact h3
  · rcases h2 with h2 | h2
    · omega
    · exact he (by omega) (by omega) h2 _ hp

/-- rules are predicted only because some state of the column waits for them -/
def RefCols (G : Grammar P T) (cols : List (Column P T H)) : Prop :=
  ∀ k s, InCol cols k s → s.rule = G.start ∨
    ∃ p, InCol cols s.start p ∧ p.next = some (.rule s.rule)

theorem RefCols.append {cols : List (Column P T H)} (h : RefCols G cols) {k : Nat} {s : State P T}
    (hs : s.rule = G.start ∨ ∃ p, InCol cols s.start p ∧ p.next = some (.rule s.rule)) :
    RefCols G (appendAt hash cols k s) := by
  have key : ∀ s0 : State P T, (s0.rule = G.start ∨
      ∃ p, InCol cols s0.start p ∧ p.next = some (.rule s0.rule)) →
      s0.rule = G.start ∨ ∃ p, InCol (appendAt hash cols k s) s0.start p ∧
        p.next = some (.rule s0.rule) := by
    rintro s0 (h1 | ⟨p, h1, h2⟩)
    · exact Or.inl h1
    · exact Or.inr ⟨p, inCol_mono h1, h2⟩
  intro k' s' h'
  rcases inCol_appendAt h' with h1 | ⟨_, rfl⟩
  · exact key _ (h _ _ h1)
  · exact key _ hs

theorem StateOK.dot_zero {k : Nat} {s : State P T} (h : StateOK G toks k s) (h0 : s.dot = 0) :
    s.start = k ∧ s.children = [] := by
  have hd := h.derives
  rw [h0, List.take_zero] at hd
  cases hc : s.children with
  | nil => rw [hc] at hd; cases hd; exact ⟨rfl, rfl⟩
  | cons c cs => rw [hc] at hd; cases hd

/-- a predicted state that counts as an early parent is already there -/
theorem early_predict {cols : List (Column P T H)} (hS : SoundCols G toks cols)
    (hH : HashCols hash cols) (hR : RefCols G cols) {k r rank ctr : Nat} {prod : Production P}
    {s : State P T} (hs : InCol cols k s) (hst : s.start = k)
    (he : Early G s.rule (predictState (T := T) k r prod rank ctr)) (k' : Nat)
    (hin : InCol (appendAt hash cols k (predictState k r prod rank ctr)) k'
      (predictState k r prod rank ctr)) : InCol cols k' (predictState k r prod rank ctr) := by
  rcases he with ⟨cs, l, q, t, h1⟩ | ⟨_, hne, huse⟩
  · simp [predictState] at h1
  · rcases hR _ _ hs with h1 | ⟨p0, h1, h2⟩
    · exact absurd h1 hne
    · rw [hst] at h1
      have hok := hS.states _ _ h1
      obtain ⟨e1, e2, e3⟩ := huse p0.rule p0.prod p0.dot hok.prod h2
      obtain ⟨e4, e5⟩ := hok.dot_zero e3
      have hkey : (predictState (T := T) k r prod rank ctr).key = p0.key := by
        simp only [State.key, predictState] at e1 e2 ⊢
        rw [e1, e2, e3, e4, e5, hok.stop]
      obtain ⟨c, hc, hp⟩ := h1
      have hmem : hash (predictState (T := T) k r prod rank ctr).key ∈ c.hashes := by
        rw [hkey]; exact ((hH _ _ hc).mem _).2 ⟨p0, hp, rfl⟩
      obtain ⟨c', hc', hin'⟩ := hin
      rw [appendAt_get?] at hc'
      split at hc'
      · rename_i hk; subst hk
        rw [hc] at hc'
        simp only [Option.map_some, Option.some.injEq] at hc'
        subst hc'
        rw [append_states] at hin'
        simp only [hmem, if_true] at hin'
        exact ⟨c, hc, hin'⟩
      · exact ⟨c', hc', hin'⟩

theorem not_early_complete {R k ctr : Nat} {s p : State P T} :
    ¬ Early G R (completeState k s p ctr) := by
  rintro (⟨cs, l, q, t, h⟩ | ⟨h, _⟩)
  · have := List.append_inj' (show p.children ++ [s.node] = cs ++ [.leaf l q t] from h) rfl
    simp [State.node] at this
  · simp [completeState] at h

/-- the columns-only part used while several states are appended in one step -/
structure ClosCols (G : Grammar P T) (toks : List T) (all : Bool) (c : Config P T H)
    (cols : List (Column P T H)) : Prop where
  len : cols.length = c.cols.length
  entered : ∀ k, Entered c k → (k = 0 ∨ all = true) → HasPred G toks cols k G.start
  old : ∀ (k i : Nat) (col : Column P T H) (s : State P T), c.cols[k]? = some col →
    col.states[i]? = some s → ∃ col', cols[k]? = some col' ∧ col'.states[i]? = some s
  new : ∀ (k i : Nat) (col : Column P T H) (s : State P T), cols[k]? = some col →
    col.states[i]? = some s → (∃ col', c.cols[k]? = some col' ∧ col'.states[i]? = some s) ∨
      (c.k ≤ k ∧ ∃ col', c.cols[k]? = some col' ∧ col'.states.length ≤ i)
  handled : ∀ (k i : Nat) (col : Column P T H) (s : State P T), c.cols[k]? = some col →
    col.states[i]? = some s → Processed c k i → Handled G toks cols k s
  same : ∀ k, k < c.k → cols[k]? = c.cols[k]?

theorem ClosInv.cols {c : Config P T H} (h : ClosInv G toks all c) : ClosCols G toks all c c.cols :=
  ⟨rfl, h.entered, fun k i col s h1 h2 => ⟨col, h1, h2⟩, fun k i col s h1 h2 => Or.inl ⟨col, h1, h2⟩,
    h.handled, fun _ _ => rfl⟩

theorem processed_le {c : Config P T H} {k i : Nat} (h : Processed c k i) : k ≤ c.k := by
  rcases h with h | h
  · omega
  · omega

theorem ClosCols.append {c : Config P T H} {cols : List (Column P T H)}
    (h : ClosCols G toks all c cols) {m : Nat} (hm : c.k ≤ m) (s' : State P T)
    (hle : ∀ k s, InCol cols k s → s.start ≤ k)
    (hE : ∀ s, InCol cols m s → m ≤ c.k → s.start = m → Early G s.rule s' →
      ∀ k', InCol (appendAt hash cols m s') k' s' → InCol cols k' s') :
    ClosCols G toks all c (appendAt hash cols m s') := by
  refine ⟨by rw [appendAt_length]; exact h.len, fun k h1 h2 => (h.entered k h1 h2).mono, ?_, ?_, ?_, ?_⟩
  · intro k i col s h1 h2
    obtain ⟨col', h3, h4⟩ := h.old k i col s h1 h2
    by_cases hk : m = k
    · subst hk
      refine ⟨col'.append hash s', by rw [appendAt_get?]; simp [h3], ?_⟩
      obtain ⟨l, hl⟩ := append_prefix hash col' s'
      rw [← hl, List.getElem?_append_left (List.getElem?_eq_some_iff.1 h4).1]
      exact h4
    · exact ⟨col', by rw [appendAt_get?]; simp [hk, h3], h4⟩
  · intro k i col s h1 h2
    rw [appendAt_get?] at h1
    split at h1
    · rename_i hk
      subst hk
      obtain ⟨c0, h3, rfl⟩ := Option.map_eq_some_iff.1 h1
      rw [append_states] at h2
      split at h2
      · exact h.new _ _ _ _ h3 h2
      · by_cases hi : i < c0.states.length
        · rw [List.getElem?_append_left hi] at h2
          exact h.new _ _ _ _ h3 h2
        · right
          refine ⟨hm, ?_⟩
          have hml : m < c.cols.length := by
            have := List.getElem?_eq_some_iff.1 h3
            obtain ⟨h4, _⟩ := this
            rw [← h.len]; exact h4
          refine ⟨c.cols[m], by simp [hml], ?_⟩
          -- the original column is a prefix of the current one
          have hpre : ∀ x, x < c.cols[m].states.length → x < c0.states.length := by
            intro x hx
            obtain ⟨col', h5, h6⟩ := h.old m x c.cols[m] c.cols[m].states[x] (by simp [hml]) (by simp [hx])
            rw [h3] at h5; cases h5
            exact (List.getElem?_eq_some_iff.1 h6).1
          by_cases hle : c.cols[m].states.length ≤ i
          · exact hle
          · have := hpre i (by omega); omega
    · exact h.new _ _ _ _ h1 h2
  · intro k i col s h1 h2 h3
    obtain ⟨col', h4, h5⟩ := h.old k i col s h1 h2
    have hin := inCol_of_get h4 h5
    have hle' := processed_le h3
    refine (h.handled k i col s h1 h2 h3).mono (Nat.le_trans hle' hm) (hle _ _ hin) ?_
    intro hmk hst he
    subst hmk
    exact hE s hin hle' hst he
  · intro k hk
    rw [appendAt_get?]
    have : m ≠ k := by omega
    simp [this, h.same k hk]

structure PredInv (G : Grammar P T) (hash : Key → H) (toks : List T) (all : Bool)
    (c : Config P T H) (r : Nat) (cols : List (Column P T H)) : Prop where
  clos : ClosCols G toks all c cols
  sound : SoundCols G toks cols
  hashes : HashCols hash cols
  refs : RefCols G cols
  why : r = G.start ∨ ∃ p, InCol cols c.k p ∧ p.next = some (.rule r)

theorem ClosCols.predict (hG : PredictSound G) {c : Config P T H} {cols : List (Column P T H)}
    (h : ClosCols G toks all c cols) (hS : SoundCols G toks cols)
    (hH : HashCols hash cols) (hR : RefCols G cols) (r ctr : Nat)
    (hr : r = G.start ∨ ∃ p, InCol cols c.k p ∧ p.next = some (.rule r)) :
    PredInv G hash toks all c r (Yargy.predict G hash toks c.k r cols ctr).1 := by
  refine predict_induct (M := fun cols _ => PredInv G hash toks all c r cols)
    G hash toks c.k r cols ctr ⟨h, hS, hH, hR, hr⟩ ?_
  intro cols ctr prod rank hp hc
  refine ⟨hc.clos.append (Nat.le_refl _) _ (fun k s hs => (hc.sound.states _ _ hs).le) ?_,
    hc.sound.append (StateOK.predictState hG hp), hc.hashes.append _ _, hc.refs.append ?_, ?_⟩
  · intro s hs _ hst he k' hin
    exact early_predict hc.sound hc.hashes hc.refs hs hst he k' hin
  · exact hc.why
  · rcases hc.why with h1 | ⟨p, h1, h2⟩
    · exact Or.inl h1
    · exact Or.inr ⟨p, inCol_mono h1, h2⟩

theorem refCols_trans (hG : PredictSound G) (c c' : Config P T H)
    (ht : Trans G hash toks all c c') (hS : SoundInv G toks c) (h : RefCols G c.cols) :
    RefCols G c'.cols := by
  have hpred : ∀ (cols : List (Column P T H)) ctr k r, RefCols G cols →
      (r = G.start ∨ ∃ p, InCol cols k p ∧ p.next = some (.rule r)) →
      RefCols G (Yargy.predict G hash toks k r cols ctr).1 := by
    intro cols ctr k r hc hr
    refine (predict_induct (M := fun cols _ => RefCols G cols ∧
      (r = G.start ∨ ∃ p, InCol cols k p ∧ p.next = some (.rule r))) G hash toks k r cols ctr ⟨hc, hr⟩ ?_).1
    rintro cols ctr prod rank _ ⟨h1, h2⟩
    refine ⟨h1.append h2, ?_⟩
    rcases h2 with h2 | ⟨p, h3, h4⟩
    · exact Or.inl h2
    · exact Or.inr ⟨p, inCol_mono h3, h4⟩
  cases ht with
  | enterPredict => exact hpred _ _ _ _ h (Or.inl rfl)
  | enterSkip => exact h
  | nextColumn => exact h
  | finish => exact h
  | startComplete => exact h
  | @predictRule cols ctr k i col s r hc hs hr =>
    exact hpred _ _ _ _ h (Or.inr ⟨s, inCol_of_get hc hs, hr⟩)
  | @scanAccept cols ctr k i col s p t hc hs hn ht ha =>
    have := h _ _ (inCol_of_get hc hs)
    exact h.append this
  | scanReject => exact h
  | @completeNext cols ctr k i s j p hp =>
    obtain ⟨h3, h4⟩ := hS.cols.mem_parents (List.mem_of_getElem? hp)
    have := h _ _ h3
    exact h.append this
  | completeEnd => exact h
  | done => exact h

theorem refCols_init : RefCols G (initConfig (P := P) (H := H) toks).cols :=
  fun _ _ h => absurd h not_inCol_init

theorem production_unique (hD : DistinctProductions G) {k k' : Nat} {s s' : State P T}
    (h : StateOK G toks k s) (h' : StateOK G toks k' s') (he : s.prod.id = s'.prod.id) :
    s.prod = s'.prod := hD _ _ _ _ h.prod h'.prod he

/-- after `predict` the column has all initial states -/
theorem hasPred_predict (hG : PredictSound G) (hD : DistinctProductions G)
    (hh : ∀ a b, hash a = hash b → a = b) {cols : List (Column P T H)} (hS : SoundCols G toks cols)
    (hH : HashCols hash cols) {k : Nat} (hk : k < cols.length) (r ctr : Nat) :
    HasPred G toks (Yargy.predict G hash toks k r cols ctr).1 k r := by
  unfold Yargy.predict
  have key : ∀ (l : List (Production P × Nat)), (∀ e ∈ l, (predicted G toks k r)[e.2]? = some e.1) →
      ∀ acc : List (Column P T H) × Nat, SoundCols G toks acc.1 → HashCols hash acc.1 → k < acc.1.length →
        (∀ k' s0, InCol acc.1 k' s0 → InCol (l.foldl (predictOne hash k r) acc).1 k' s0) ∧
        ∀ e ∈ l, ∃ s0, InCol (l.foldl (predictOne hash k r) acc).1 k s0 ∧ s0.rule = r ∧
          s0.prod = e.1 ∧ s0.dot = 0 ∧ s0.start = k ∧ s0.children = [] := by
    intro l
    induction l with
    | nil => intro _ acc _ _ _; exact ⟨fun _ _ h => h, by simp⟩
    | cons e l ih =>
      intro hl acc hS hH hk
      rw [List.foldl_cons]
      have hok : StateOK G toks k (predictState (T := T) k r e.1 e.2 acc.2) :=
        StateOK.predictState hG (hl e List.mem_cons_self)
      have hS' : SoundCols G toks (predictOne hash k r acc e).1 := hS.append hok
      have hH' : HashCols hash (predictOne hash k r acc e).1 := hH.append _ _
      have hk' : k < (predictOne hash k r acc e).1.length := by
        rw [predictOne_eq]; rw [appendAt_length]; exact hk
      obtain ⟨h1, h2⟩ := ih (fun e' he' => hl e' (List.mem_cons_of_mem _ he')) _ hS' hH' hk'
      refine ⟨fun k' s0 hs => h1 k' s0 (inCol_mono hs), ?_⟩
      intro e' he'
      rcases List.mem_cons.1 he' with rfl | he'
      · obtain ⟨s0, h3, h4, _⟩ := append_exists hH hk (predictState k r e'.1 e'.2 acc.2)
        have h5 := hh _ _ h4
        have h6 := hS'.states _ _ h3
        refine ⟨s0, h1 _ _ h3, ?_, ?_, ?_, ?_, ?_⟩
        · exact congrArg Key.rule h5
        · exact production_unique hD h6 hok (congrArg Key.prod h5)
        · exact congrArg Key.dot h5
        · exact congrArg Key.start h5
        · have := congrArg Key.children h5
          exact List.map_eq_nil_iff.1 this
      · exact h2 e' he'
  intro prod hp
  obtain ⟨i, hi⟩ := List.getElem?_of_mem hp
  exact (key _ (fun e he => List.mem_zipIdx_iff_getElem?.1 he) (cols, ctr) hS hH hk).2 (prod, i)
    (List.mem_zipIdx_iff_getElem?.2 hi)

theorem map_oid_inj {cols : List (Column P T H)} {ctr : Nat} (h : IdCols cols ctr) :
    ∀ {a b : List (PTree P T)}, (∀ c ∈ a, ChartObj cols c) → (∀ c ∈ b, ChartObj cols c) →
      a.map PTree.oid = b.map PTree.oid → a = b
  | [], [], _, _, _ => rfl
  | [], _ :: _, _, _, h' => by simp at h'
  | _ :: _, [], _, _, h' => by simp at h'
  | x :: a, y :: b, ha, hb, h' => by
    simp only [List.map_cons, List.cons.injEq] at h'
    rw [h.inj x y (ha x List.mem_cons_self) (hb y List.mem_cons_self) h'.1,
      map_oid_inj h (fun c hc => ha c (List.mem_cons_of_mem _ hc))
        (fun c hc => hb c (List.mem_cons_of_mem _ hc)) h'.2]

/-- after the body of `complete` the advanced state is there -/
theorem hasAdv_complete (hD : DistinctProductions G)
    (hh : ∀ a b, hash a = hash b → a = b) {cols : List (Column P T H)} (hS : SoundCols G toks cols)
    (hH : HashCols hash cols) {ctr : Nat} (hI : IdCols cols ctr) {k : Nat} (hk : k < cols.length)
    {k1 k2 : Nat} {s p : State P T} (hs : InCol cols k1 s) (hp : InCol cols k2 p)
    (hok : StateOK G toks k (completeState k s p ctr)) :
    HasAdv (appendAt hash cols k (completeState k s p ctr)) k p s.dtree := by
  obtain ⟨s0, h3, h4, h5⟩ := append_exists hH hk (completeState k s p ctr)
  have h6 := hh _ _ h4
  refine ⟨s0, h3, congrArg Key.rule h6, ?_, congrArg Key.dot h6, congrArg Key.start h6, ?_⟩
  · rcases h5 with rfl | h5
    · rfl
    · exact production_unique (s' := completeState k s p ctr) hD (hS.states _ _ h5) hok (congrArg Key.prod h6)
  · have hch : s0.children = p.children ++ [s.node] := by
      rcases h5 with rfl | h5
      · rfl
      · refine map_oid_inj hI ?_ ?_ (congrArg Key.children h6)
        · intro c hc; exact ⟨_, _, h5, Or.inr hc⟩
        · intro c hc
          rcases List.mem_append.1 hc with h1 | h1
          · exact ⟨_, _, hp, Or.inr h1⟩
          · simp only [List.mem_singleton] at h1
            subst h1
            exact ⟨_, _, hs, Or.inl rfl⟩
    rw [hch, List.map_append]; rfl

theorem hasAdv_scan (hh : ∀ a b, hash a = hash b → a = b) {cols : List (Column P T H)}
    (hH : HashCols hash cols) {ctr : Nat} (hI : IdCols cols ctr) {k : Nat} (hk : k + 1 < cols.length)
    {s : State P T} {p : P} {t : T} :
    HasAdv (appendAt hash cols (k + 1) (scanState G k p t s ctr)) (k + 1) s
      (.leaf p (G.constrain p t)) := by
  obtain ⟨s0, h3, h4, h5⟩ := append_exists hH hk (scanState G k p t s ctr)
  rcases h5 with rfl | h5
  · exact ⟨_, h3, rfl, rfl, rfl, rfl, by simp [scanState, PTree.erase]⟩
  · exfalso
    have h6 := congrArg Key.children (hh _ _ h4)
    have : ctr ∈ s0.children.map PTree.oid := by
      have h7 : s0.children.map PTree.oid = (scanState G k p t s ctr).children.map PTree.oid := h6
      rw [h7]; simp [scanState, PTree.oid]
    obtain ⟨c, hc, he⟩ := List.mem_map.1 this
    have := hI.lt c ⟨_, _, h5, Or.inr hc⟩
    omega

/-- the processed part of the new configuration, given that of the old one and what is owed to
the state just dealt with -/
theorem handled_next {cols' : List (Column P T H)} {c : Config P T H} {i : Nat}
    {col : Column P T H} {s : State P T} (hC : ClosCols G toks all c cols')
    (hph : c.phase = .at i ∨ ∃ s j, c.phase = .complete i s j)
    (hc : c.cols[c.k]? = some col) (hs : col.states[i]? = some s)
    (hnew : Handled G toks cols' c.k s) {ctr' : Nat} :
    ∀ (k i' : Nat) (col' : Column P T H) (s' : State P T), cols'[k]? = some col' →
      col'.states[i']? = some s' → Processed ⟨cols', ctr', c.k, .at (i + 1)⟩ k i' →
      Handled G toks cols' k s' := by
  have hproc : ∀ k i', Processed (H := H) ⟨cols', ctr', c.k, .at (i + 1)⟩ k i' →
      (k = c.k ∧ i' = i) ∨ Processed c k i' := by
    intro k i' h
    rcases h with h | ⟨h, h2⟩
    · exact Or.inr (Or.inl h)
    · dsimp only at h h2
      by_cases he : i' = i
      · exact Or.inl ⟨h, he⟩
      · right; right
        refine ⟨h, ?_⟩
        rcases hph with hp | ⟨_, _, hp⟩ <;> rw [hp] <;> dsimp only <;> omega
  intro k i' col' s' h1 h2 h3
  rcases hproc k i' h3 with ⟨rfl, rfl⟩ | h4
  · obtain ⟨col2, h5, h6⟩ := hC.old _ _ _ _ hc hs
    rw [h1] at h5; cases h5
    rw [h2] at h6; cases h6
    exact hnew
  · rcases hC.new _ _ _ _ h1 h2 with ⟨col2, h5, h6⟩ | ⟨h5, col2, h6, h7⟩
    · exact hC.handled _ _ _ _ h5 h6 h4
    · exfalso
      have hle := processed_le h4
      have hk : k = c.k := by omega
      subst hk
      rw [hc] at h6; cases h6
      have hi : i < col.states.length := (List.getElem?_eq_some_iff.1 hs).1
      rcases h4 with h4 | ⟨_, h4⟩
      · omega
      · rcases hph with hp | ⟨_, _, hp⟩ <;> rw [hp] at h4 <;> dsimp only at h4 <;> omega

/-- generic closure for a step from `at i` that appends to columns `≥ k` and moves on -/
theorem closInv_at {c : Config P T H} {cols' : List (Column P T H)} {i ctr' : Nat}
    {col : Column P T H} {s : State P T} (h : ClosInv G toks all c)
    (hC : ClosCols G toks all c cols') (hph : c.phase = .at i ∨ ∃ s j, c.phase = .complete i s j)
    (hc : c.cols[c.k]? = some col) (hs : col.states[i]? = some s)
    (hnew : Handled G toks cols' c.k s) :
    ClosInv G toks all ⟨cols', ctr', c.k, .at (i + 1)⟩ := by
  have hne : c.phase ≠ .enter := by
    rcases hph with hp | ⟨_, _, hp⟩ <;> rw [hp] <;> simp
  refine ⟨?_, handled_next hC hph hc hs hnew, ?_, by simp, by simp, by simp⟩
  · intro k h1 h2
    refine hC.entered k ?_ h2
    rcases h1 with h1 | ⟨h1, _⟩
    · exact Or.inl h1
    · exact Or.inr ⟨h1, hne⟩
  · intro i' he col' hcol'
    simp only [Phase.at.injEq] at he
    subst he
    obtain ⟨col2, h5, h6⟩ := hC.old _ _ _ _ hc hs
    rw [hcol'] at h5; cases h5
    exact (List.getElem?_eq_some_iff.1 h6).1

theorem parentsOf_prefix (cols : List (Column P T H)) (k : Nat) (s' s : State P T) :
    parentsOf cols s <+: parentsOf (appendAt hash cols k s') s := by
  unfold parentsOf
  rw [appendAt_get?]
  cases hc : cols[s.start]? with
  | none => exact List.nil_prefix
  | some c =>
    by_cases hk : k = s.start
    · simp only [hk, if_true, Option.map_some]
      unfold Column.append
      split
      · exact List.prefix_rfl
      · unfold Column.updateIndex
        split
        · simp [Column.parents, List.filter_append]
        · simp [Column.parents]
    · simp only [hk, if_false]
      exact List.prefix_rfl

theorem Handled.of_next_none {cols : List (Column P T H)} {k : Nat} {s : State P T} {x : Term P}
    (hx : s.next = some x) (h1 : ∀ r, x = .rule r → HasPred G toks cols k r)
    (h2 : ∀ p t, x = .pred p → toks[k]? = some t → G.accepts p t = true →
      HasAdv cols (k + 1) s (.leaf p (G.constrain p t))) : Handled G toks cols k s := by
  refine ⟨fun r hr => h1 r (by rw [hx] at hr; exact Option.some.inj hr),
    fun p t hp => h2 p t (by rw [hx] at hp; exact Option.some.inj hp), ?_⟩
  intro hc
  rw [State.not_completed_of_next hx] at hc
  cases hc

theorem closInv_trans (hG : PredictSound G) (hD : DistinctProductions G)
    (hh : ∀ a b, hash a = hash b → a = b) (c c' : Config P T H)
    (ht : Trans G hash toks all c c') (hS : SoundInv G toks c) (hI : IdCols c.cols c.ctr)
    (hH : HashCols hash c.cols) (hR : RefCols G c.cols) (h : ClosInv G toks all c) :
    ClosInv G toks all c' := by
  cases ht with
  | @enterPredict cols ctr k hk =>
    have hC := (h.cols.predict (hash := hash) hG hS.cols hH hR G.start ctr (Or.inl rfl)).clos
    have hp := hasPred_predict hG hD hh hS.cols hH (hS.pos) G.start ctr
    refine ⟨?_, ?_, ?_, by simp, by simp, by simp⟩
    · intro k' h1 h2
      rcases h1 with h1 | ⟨h1, _⟩
      · exact hC.entered k' (Or.inl h1) h2
      · dsimp only at h1; subst h1; exact hp
    · intro k' i' col s' h1 h2 h3
      rcases h3 with h3 | ⟨_, h3⟩
      · rcases hC.new _ _ _ _ h1 h2 with ⟨col2, h5, h6⟩ | ⟨h5, _⟩
        · exact hC.handled _ _ _ _ h5 h6 (Or.inl h3)
        · dsimp only at h5 h3; omega
      · dsimp only at h3; omega
    · intro i he col _
      simp only [Phase.at.injEq] at he; subst he; omega
  | @enterSkip cols ctr k hk =>
    refine ⟨?_, ?_, ?_, by simp, by simp, by simp⟩
    · intro k' h1 h2
      rcases h1 with h1 | ⟨h1, _⟩
      · exact h.entered k' (Or.inl h1) h2
      · dsimp only at h1; subst h1; exact absurd h2 hk
    · intro k' i' col s' h1 h2 h3
      rcases h3 with h3 | ⟨_, h3⟩
      · exact h.handled _ _ _ _ h1 h2 (Or.inl h3)
      · dsimp only at h3; omega
    · intro i he col _
      simp only [Phase.at.injEq] at he; subst he; omega
  | @nextColumn cols ctr k i hn hk =>
    have hend : ∀ col, cols[k]? = some col → col.states.length ≤ i := by
      intro col hc
      rw [hc] at hn
      simpa using hn
    refine ⟨?_, ?_, by simp, by simp, by simp, by simp⟩
    · intro k' h1 h2
      rcases h1 with h1 | ⟨_, h1⟩
      · dsimp only at h1
        by_cases he : k' = k
        · exact h.entered k' (Or.inr ⟨he, by simp⟩) h2
        · exact h.entered k' (Or.inl (by dsimp only; omega)) h2
      · simp at h1
    · intro k' i' col s' h1 h2 h3
      rcases h3 with h3 | ⟨_, h3⟩
      · dsimp only at h3
        by_cases he : k' = k
        · subst he
          have h4 := hend _ h1
          have h5 := (List.getElem?_eq_some_iff.1 h2).1
          exact h.handled _ _ _ _ h1 h2 (Or.inr ⟨rfl, by dsimp only; omega⟩)
        · exact h.handled _ _ _ _ h1 h2 (Or.inl (by dsimp only; omega))
      · exact absurd h3 (by simp)
  | @finish cols ctr k i hn hk =>
    have hend : ∀ col, cols[k]? = some col → col.states.length ≤ i := by
      intro col hc
      rw [hc] at hn
      simpa using hn
    refine ⟨?_, ?_, by simp, by simp, by simp, ?_⟩
    · intro k' h1 h2
      rcases h1 with h1 | ⟨h1, _⟩
      · exact h.entered k' (Or.inl h1) h2
      · exact h.entered k' (Or.inr ⟨h1, by simp⟩) h2
    · intro k' i' col s' h1 h2 h3
      rcases h3 with h3 | ⟨h3, _⟩
      · exact h.handled _ _ _ _ h1 h2 (Or.inl h3)
      · dsimp only at h3
        subst h3
        have h4 := hend _ h1
        have h5 := (List.getElem?_eq_some_iff.1 h2).1
        exact h.handled _ _ _ _ h1 h2 (Or.inr ⟨rfl, by dsimp only; omega⟩)
    · intro _
      have := hS.pos
      dsimp only at *; omega
  | @startComplete cols ctr k i col s hc hs hcomp =>
    refine ⟨?_, ?_, by simp, ?_, ?_, by simp⟩
    · intro k' h1 h2
      rcases h1 with h1 | ⟨h1, _⟩
      · exact h.entered k' (Or.inl h1) h2
      · exact h.entered k' (Or.inr ⟨h1, by simp⟩) h2
    · intro k' i' col s' h1 h2 h3
      exact h.handled _ _ _ _ h1 h2 h3
    · intro i' s' j' he
      simp only [Phase.complete.injEq] at he
      obtain ⟨rfl, rfl, _⟩ := he
      exact ⟨col, hc, hs⟩
    · intro i' s' j' he j'' p hj
      simp only [Phase.complete.injEq] at he
      omega
  | @predictRule cols ctr k i col s r hc hs hr =>
    have hC := (h.cols.predict (hash := hash) hG hS.cols hH hR r ctr
      (Or.inr ⟨s, inCol_of_get hc hs, hr⟩)).clos
    have hp := hasPred_predict hG hD hh hS.cols hH hS.pos r ctr
    refine closInv_at h hC (Or.inl rfl) hc hs ?_
    exact Handled.of_next_none hr (fun r' he => by cases he; exact hp) (fun p t he => by cases he)
  | @scanAccept cols ctr k i col s p t hc hs hn ht ha =>
    have hC := h.cols.append (hash := hash) (Nat.le_succ k) (scanState G k p t s ctr)
      (fun k s hs => (hS.states _ _ hs).le) (fun s _ hle => by dsimp only at hle; omega)
    have hlen : k + 1 < cols.length := by
      have h1 := (List.getElem?_eq_some_iff.1 ht).1
      have h2 := hS.len
      dsimp only at h2; omega
    refine closInv_at h hC (Or.inl rfl) hc hs ?_
    refine Handled.of_next_none hn (fun r' he => by cases he) ?_
    intro p' t' he ht' _
    cases he
    rw [ht] at ht'; cases ht'
    exact hasAdv_scan hh hH hI hlen
  | @scanReject cols ctr k i col s p hc hs hn hrej =>
    refine closInv_at h h.cols (Or.inl rfl) hc hs ?_
    refine Handled.of_next_none hn (fun r' he => by cases he) ?_
    intro p' t' he ht' ha
    cases he
    rw [hrej t' ht'] at ha; cases ha
  | @completeNext cols ctr k i s j p hp =>
    obtain ⟨h1, h2⟩ := hS.phase i s j rfl
    have hok := hS.states _ _ h1
    obtain ⟨h3, h4⟩ := hS.cols.mem_parents (List.mem_of_getElem? hp)
    have hpok := hS.states _ _ h3
    have hnew : StateOK G toks k (completeState k s p ctr) :=
      hpok.advance h4 hok.le (hok.derives_node h2) _
    have hC := h.cols.append (hash := hash) (Nat.le_refl k) (completeState k s p ctr)
      (fun k s hs => (hS.states _ _ hs).le) (fun s _ _ _ he => absurd he not_early_complete)
    have hadv := hasAdv_complete hD hh hS.cols hH hI hS.pos h1 h3 hnew
    obtain ⟨col, hc, hs⟩ := h.posComplete i s j rfl
    refine ⟨?_, ?_, by simp, ?_, ?_, by simp⟩
    · intro k' h1 h2
      rcases h1 with h1 | ⟨h1, _⟩
      · exact hC.entered k' (Or.inl h1) h2
      · exact hC.entered k' (Or.inr ⟨h1, by simp⟩) h2
    · intro k' i' col' s' h5 h6 h7
      rcases hC.new _ _ _ _ h5 h6 with ⟨col2, h8, h9⟩ | ⟨h8, col2, h9, h10⟩
      · exact hC.handled _ _ _ _ h8 h9 h7
      · exfalso
        have hle := processed_le h7
        have hk : k' = k := by dsimp only at *; omega
        subst hk
        dsimp only at hc h9
        rw [hc] at h9; cases h9
        have hi : i < col.states.length := (List.getElem?_eq_some_iff.1 hs).1
        rcases h7 with h7 | ⟨_, h7⟩
        · dsimp only at h7; omega
        · dsimp only at h7; omega
    · intro i' s' j' he
      simp only [Phase.complete.injEq] at he
      obtain ⟨rfl, rfl, _⟩ := he
      exact hC.old _ _ _ _ hc hs
    · intro i' s' j' he j'' p' hj hp'
      simp only [Phase.complete.injEq] at he
      obtain ⟨rfl, rfl, rfl⟩ := he
      have hlen : j'' < (parentsOf cols s).length := by
        have := (List.getElem?_eq_some_iff.1 hp).1
        omega
      have hpre := parentsOf_prefix (hash := hash) cols k (completeState k s p ctr) s
      obtain ⟨l, hl⟩ := hpre
      dsimp only at hp'
      rw [← hl, List.getElem?_append_left hlen] at hp'
      by_cases he : j'' = j
      · subst he
        rw [hp] at hp'; cases hp'
        exact hadv
      · exact (h.looping i s j rfl j'' p' (by omega) hp').mono
  | @completeEnd cols ctr k i s j hp =>
    obtain ⟨col, hc, hs⟩ := h.posComplete i s j rfl
    obtain ⟨h1, h2⟩ := hS.phase i s j rfl
    refine closInv_at h h.cols (Or.inr ⟨s, j, rfl⟩) hc hs ?_
    have hnone : s.next = none := by
      unfold State.next
      rw [List.getElem?_eq_none_iff]
      simpa [State.completed] using h2
    refine ⟨by simp [hnone], by simp [hnone], ?_⟩
    intro _ p hpc hpn _
    have hm := hH.mem_parentsOf hpc hpn
    obtain ⟨j', hj'⟩ := List.getElem?_of_mem hm
    have hjl : j' < j := by
      have h5 := (List.getElem?_eq_some_iff.1 hj').1
      have h6 := List.getElem?_eq_none_iff.1 hp
      dsimp only at h5
      omega
    exact h.looping i s j rfl j' p hjl hj'
  | @done cols ctr k =>
    exact ⟨h.entered, h.handled, by simp, by simp, by simp, fun _ => h.finished rfl⟩

theorem closInv_init : ClosInv (H := H) G toks all (initConfig toks) := by
  refine ⟨?_, ?_, by simp [initConfig], by simp [initConfig], by simp [initConfig], by simp [initConfig]⟩
  · intro k h
    rcases h with h | ⟨_, h⟩
    · simp [initConfig] at h
    · simp [initConfig] at h
  · intro k i col s h1 h2
    exact absurd (inCol_of_get h1 h2) not_inCol_init

structure FullInv (G : Grammar P T) (hash : Key → H) (toks : List T) (all : Bool) (c : Config P T H) : Prop where
  sound : SoundInv G toks c
  ids : IdCols c.cols c.ctr
  hashes : HashCols hash c.cols
  refs : RefCols G c.cols
  clos : ClosInv G toks all c

theorem fullInv_runN (hG : PredictSound G) (hD : DistinctProductions G)
    (hh : ∀ a b, hash a = hash b → a = b) (n : Nat) :
    FullInv G hash toks all (runN G hash toks all n) := by
  refine runN_induct (M := FullInv G hash toks all) G hash toks all ?_ ?_ n
  · exact ⟨soundInv_init, idCols_init, hashCols_init, refCols_init, closInv_init⟩
  · intro c c' ht h
    exact ⟨soundInv_trans hG _ _ ht h.sound, idCols_trans hG _ _ ht h.sound h.ids,
      hashCols_trans _ _ ht h.hashes, refCols_trans hG _ _ ht h.sound h.refs,
      closInv_trans hG hD hh _ _ ht h.sound h.ids h.hashes h.refs h.clos⟩

/-- a finished chart -/
structure Closed (G : Grammar P T) (toks : List T) (all : Bool) (cols : List (Column P T H)) : Prop where
  len : cols.length = toks.length + 1
  sound : SoundCols G toks cols
  start : ∀ k, k ≤ toks.length → (k = 0 ∨ all = true) → HasPred G toks cols k G.start
  handled : ∀ k s, InCol cols k s → Handled G toks cols k s

theorem closed_of_done (hG : PredictSound G) (hD : DistinctProductions G)
    (hh : ∀ a b, hash a = hash b → a = b) {n : Nat}
    (hd : (runN G hash toks all n).phase = .done) : Closed G toks all (runN G hash toks all n).cols := by
  have h := fullInv_runN (all := all) (toks := toks) hG hD hh n
  have hk := h.clos.finished hd
  have hl := h.sound.len
  refine ⟨hl, h.sound.cols, ?_, ?_⟩
  · intro k hkl hall
    refine h.clos.entered k ?_ hall
    by_cases he : k = (runN G hash toks all n).k
    · exact Or.inr ⟨he, by rw [hd]; simp⟩
    · exact Or.inl (by omega)
  · rintro k s ⟨col, hc, hs⟩
    obtain ⟨i, hi⟩ := List.getElem?_of_mem hs
    refine h.clos.handled k i col s hc hi ?_
    have hkl := (List.getElem?_eq_some_iff.1 hc).1
    by_cases he : k = (runN G hash toks all n).k
    · exact Or.inr ⟨he, by rw [hd]; trivial⟩
    · exact Or.inl (by omega)

/-- the first term of a sequence that derives something accepts the token at which it starts -/
theorem head_accepts {xs : List (Term P)} {b : Before P} {i j : Nat} {cs : List (DTree P T)} {t : T}
    (h : DerivesAllSafe G toks b xs i j cs) (ht : toks[i]? = some t) :
    ∀ p, xs.head? = some (.pred p) → G.accepts p t = true := by
  intro p hp
  cases xs with
  | nil => simp at hp
  | cons x xs =>
    simp only [List.head?_cons, Option.some.injEq] at hp
    subst hp
    cases h with
    | consLeaf h1 h2 =>
      cases h1 with
      | leaf h3 h4 => rw [ht] at h3; cases h3; exact h4

/-- what the context says about the state that waits for the next term -/
def CtxOK (b : Before P) (s : State P T) : Prop :=
  match b with
  | .nothing r prod => s.rule = r ∧ s.prod = prod ∧ s.dot = 0
  | .token => ∃ cs l q t, s.children = cs ++ [.leaf l q t]
  | .subtree => True

theorem CtxOK.early {b : Before P} {s : State P T} (h : CtxOK b s) {R : Nat} (hb : EmptyOK G R b) :
    Early G R s := by
  cases b with
  | nothing r prod =>
    obtain ⟨h1, h2, h3⟩ := h
    subst h1; subst h2
    exact Or.inr ⟨h3, hb⟩
  | token => exact Or.inl h
  | subtree => exact hb.elim

theorem erase_leaf {c : PTree P T} {p : P} {t : T} (h : c.erase = .leaf p t) :
    ∃ l, c = .leaf l p t := by
  cases c with
  | leaf l q t' => simp only [PTree.erase, DTree.leaf.injEq] at h; obtain ⟨rfl, rfl⟩ := h; exact ⟨l, rfl⟩
  | node => simp [PTree.erase] at h

/-- Completeness of a closed chart: a safe derivation of a rule that has been predicted at its
start is found; so is every advance of a state. -/
theorem closed_both (hL : PredictLossless G) {cols : List (Column P T H)}
    (hC : Closed G toks all cols) :
    (∀ x i j d, DerivesSafe G toks x i j d → ∀ r, x = .rule r → HasPred G toks cols i r →
      ∃ s, InCol cols j s ∧ s.completed = true ∧ s.rule = r ∧ s.start = i ∧ s.dtree = d) ∧
    (∀ b xs i j ds, DerivesAllSafe G toks b xs i j ds → ∀ s rest, InCol cols i s →
      s.prod.terms.drop s.dot = xs ++ rest → CtxOK b s →
      ∃ s', InCol cols j s' ∧ s'.dot = s.dot + xs.length ∧ s'.rule = s.rule ∧ s'.start = s.start ∧
        s'.prod = s.prod ∧ s'.children.map PTree.erase = s.children.map PTree.erase ++ ds) := by
  have drop1 : ∀ (s : State P T) x (xs : List (Term P)), s.prod.terms.drop s.dot = x :: xs →
      s.next = some x ∧ s.prod.terms.drop (s.dot + 1) = xs := by
    intro s x xs hdrop
    constructor
    · unfold State.next
      have : s.prod.terms[s.dot]? = (s.prod.terms.drop s.dot)[0]? := by simp
      rw [this, hdrop]; rfl
    · have : s.prod.terms.drop (s.dot + 1) = (s.prod.terms.drop s.dot).drop 1 := by
        rw [List.drop_drop]
      rw [this, hdrop]; rfl
  have hleaf : ∀ {p i t} (a : toks[i]? = some t) (b : G.accepts p t = true), ∀ r, Term.pred p = .rule r →
      HasPred G toks cols i r → ∃ s, InCol cols (i + 1) s ∧ s.completed = true ∧ s.rule = r ∧
        s.start = i ∧ s.dtree = .leaf p (G.constrain p t) := by
    intro p i t _ _ r hr; cases hr
  have hnode : ∀ {r i j prod cs} (hprod : prod ∈ G.productions r)
      (hall : DerivesAllSafe G toks (.nothing r prod) prod.terms i j cs),
      (∀ s rest, InCol cols i s → s.prod.terms.drop s.dot = prod.terms ++ rest →
        CtxOK (.nothing r prod) s →
      ∃ s', InCol cols j s' ∧ s'.dot = s.dot + prod.terms.length ∧ s'.rule = s.rule ∧
        s'.start = s.start ∧ s'.prod = s.prod ∧
        s'.children.map PTree.erase = s.children.map PTree.erase ++ cs) →
      ∀ r', Term.rule (P := P) r = .rule r' → HasPred G toks cols i r' →
      ∃ s, InCol cols j s ∧ s.completed = true ∧ s.rule = r' ∧ s.start = i ∧
        s.dtree = .node r prod cs := by
    intro r i j prod cs hprod hall ih r' hr hpred
    cases hr
    have hmem : prod ∈ predicted G toks i r := by
      unfold predicted
      cases ht : toks[i]? with
      | none => exact hprod
      | some t => exact hL _ _ _ hprod (head_accepts hall ht)
    obtain ⟨s0, h1, h2, h3, h4, h5, h6⟩ := hpred prod hmem
    obtain ⟨s', g1, g2, g3, g4, g5, g6⟩ := ih s0 [] h1 (by rw [h3, h4]; simp) ⟨h2, h3, h4⟩
    refine ⟨s', g1, ?_, by rw [g3, h2], by rw [g4, h5], ?_⟩
    · simp [State.completed, g5, h3, g2]
    · rw [s'.dtree_eq, g3, g5, g6, h2, h3, h6]; rfl
  have hnil : ∀ {b : Before P} {i}, ∀ (s : State P T) (rest : List (Term P)), InCol cols i s →
      s.prod.terms.drop s.dot = [] ++ rest → CtxOK b s →
      ∃ s', InCol cols i s' ∧ s'.dot = s.dot + ([] : List (Term P)).length ∧ s'.rule = s.rule ∧
        s'.start = s.start ∧ s'.prod = s.prod ∧
        s'.children.map PTree.erase = s.children.map PTree.erase ++ [] := by
    intro b i s rest hs hdrop _
    exact ⟨s, hs, rfl, rfl, rfl, rfl, by simp⟩
  have hconsLeaf : ∀ {b : Before P} {p xs i j k t ts} (hx : DerivesSafe G toks (.pred p) i j t)
      (hxs : DerivesAllSafe G toks .token xs j k ts),
      (∀ s rest, InCol cols j s → s.prod.terms.drop s.dot = xs ++ rest → CtxOK .token s →
        ∃ s', InCol cols k s' ∧ s'.dot = s.dot + xs.length ∧ s'.rule = s.rule ∧ s'.start = s.start ∧
          s'.prod = s.prod ∧ s'.children.map PTree.erase = s.children.map PTree.erase ++ ts) →
      ∀ s rest, InCol cols i s → s.prod.terms.drop s.dot = (.pred p :: xs) ++ rest → CtxOK b s →
        ∃ s', InCol cols k s' ∧ s'.dot = s.dot + (Term.pred p :: xs).length ∧ s'.rule = s.rule ∧
          s'.start = s.start ∧ s'.prod = s.prod ∧
          s'.children.map PTree.erase = s.children.map PTree.erase ++ (t :: ts) := by
    intro b p xs i j k t ts hx hxs ih2 s rest hs hdrop _
    obtain ⟨hnext, hdrop'⟩ := drop1 s _ _ hdrop
    have hH := hC.handled _ _ hs
    cases hx with
    | @leaf p i t h1 h2 =>
    obtain ⟨s0, a1, a2, a3, a4, a5, a6⟩ := hH.scan _ _ hnext h1 h2
    have hctx : CtxOK .token s0 := by
      have hlen := congrArg List.length a6
      simp only [List.length_map, List.length_append, List.length_cons, List.length_nil] at hlen
      rcases List.eq_nil_or_concat s0.children with hn | ⟨cs, c, hcs⟩
      · rw [hn] at hlen; simp at hlen
      · rw [hcs] at a6
        simp only [List.concat_eq_append, List.map_append, List.map_cons, List.map_nil] at a6
        have := (List.append_inj' a6 rfl).2
        simp only [List.cons.injEq, and_true] at this
        obtain ⟨l, rfl⟩ := erase_leaf this
        exact ⟨cs, l, p, G.constrain p t, by rw [hcs]; simp⟩
    obtain ⟨s', g1, g2, g3, g4, g5, g6⟩ := ih2 s0 rest a1 (by rw [a3, a4]; exact hdrop') hctx
    refine ⟨s', g1, by rw [g2, a4, List.length_cons]; omega, by rw [g3, a2], by rw [g4, a5],
      by rw [g5, a3], ?_⟩
    rw [g6, a6]; simp
  have hconsNode : ∀ {b : Before P} {r xs i j k t ts} (hx : DerivesSafe G toks (.rule r) i j t)
      (hij : i < j ∨ EmptyOK G r b) (hxs : DerivesAllSafe G toks .subtree xs j k ts),
      (∀ r', Term.rule (P := P) r = .rule r' → HasPred G toks cols i r' →
        ∃ s, InCol cols j s ∧ s.completed = true ∧ s.rule = r' ∧ s.start = i ∧ s.dtree = t) →
      (∀ s rest, InCol cols j s → s.prod.terms.drop s.dot = xs ++ rest → CtxOK .subtree s →
        ∃ s', InCol cols k s' ∧ s'.dot = s.dot + xs.length ∧ s'.rule = s.rule ∧ s'.start = s.start ∧
          s'.prod = s.prod ∧ s'.children.map PTree.erase = s.children.map PTree.erase ++ ts) →
      ∀ s rest, InCol cols i s → s.prod.terms.drop s.dot = (.rule r :: xs) ++ rest → CtxOK b s →
        ∃ s', InCol cols k s' ∧ s'.dot = s.dot + (Term.rule (P := P) r :: xs).length ∧ s'.rule = s.rule ∧
          s'.start = s.start ∧ s'.prod = s.prod ∧
          s'.children.map PTree.erase = s.children.map PTree.erase ++ (t :: ts) := by
    intro b r xs i j k t ts hx hij hxs ih1 ih2 s rest hs hdrop hctx
    obtain ⟨hnext, hdrop'⟩ := drop1 s _ _ hdrop
    have hH := hC.handled _ _ hs
    obtain ⟨s1, g1, g2, g3, g4, g5⟩ := ih1 _ rfl (hH.pred _ hnext)
    have hadv := (hC.handled _ _ g1).comp g2 s (by rw [g4]; exact hs) (by rw [g3]; exact hnext) (by
      rcases hij with hij | hij
      · exact Or.inl (by omega)
      · right; rw [g3]; exact hctx.early hij)
    rw [g5] at hadv
    obtain ⟨s0, a1, a2, a3, a4, a5, a6⟩ := hadv
    obtain ⟨s', g1, g2, g3, g4, g5, g6⟩ := ih2 s0 rest a1 (by rw [a3, a4]; exact hdrop') trivial
    refine ⟨s', g1, by rw [g2, a4, List.length_cons]; omega, by rw [g3, a2], by rw [g4, a5],
      by rw [g5, a3], ?_⟩
    rw [g6, a6]; simp
  constructor
  · intro x i j d h
    exact DerivesSafe.rec
      (motive_1 := fun x i j d _ => ∀ r, x = .rule r → HasPred G toks cols i r →
        ∃ s, InCol cols j s ∧ s.completed = true ∧ s.rule = r ∧ s.start = i ∧ s.dtree = d)
      (motive_2 := fun b xs i j ds _ => ∀ s rest, InCol cols i s →
        s.prod.terms.drop s.dot = xs ++ rest → CtxOK b s →
        ∃ s', InCol cols j s' ∧ s'.dot = s.dot + xs.length ∧ s'.rule = s.rule ∧ s'.start = s.start ∧
          s'.prod = s.prod ∧ s'.children.map PTree.erase = s.children.map PTree.erase ++ ds)
      hleaf hnode hnil (fun a b _ => hconsLeaf a b) hconsNode h
  · intro b xs i j ds h
    exact DerivesAllSafe.rec
      (motive_1 := fun x i j d _ => ∀ r, x = .rule r → HasPred G toks cols i r →
        ∃ s, InCol cols j s ∧ s.completed = true ∧ s.rule = r ∧ s.start = i ∧ s.dtree = d)
      (motive_2 := fun b xs i j ds _ => ∀ s rest, InCol cols i s →
        s.prod.terms.drop s.dot = xs ++ rest → CtxOK b s →
        ∃ s', InCol cols j s' ∧ s'.dot = s.dot + xs.length ∧ s'.rule = s.rule ∧ s'.start = s.start ∧
          s'.prod = s.prod ∧ s'.children.map PTree.erase = s.children.map PTree.erase ++ ds)
      hleaf hnode hnil (fun a b _ => hconsLeaf a b) hconsNode h

theorem closed_complete (hL : PredictLossless G) {cols : List (Column P T H)}
    (hC : Closed G toks all cols) (x : Term P) (i j : Nat) (d : DTree P T)
    (h : DerivesSafe G toks x i j d) :
    ∀ r, x = .rule r → HasPred G toks cols i r →
      ∃ s, InCol cols j s ∧ s.completed = true ∧ s.rule = r ∧ s.start = i ∧ s.dtree = d :=
  (closed_both hL hC).1 x i j d h

end Yargy
