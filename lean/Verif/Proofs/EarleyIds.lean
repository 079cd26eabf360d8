import Verif.Proofs.EarleySound
/-! Identities of tree objects, hash sets, origins of states. -/
set_option linter.unusedSectionVars false
namespace Yargy
open Spec

variable {P T H : Type} [DecidableEq H] {G : Grammar P T} {hash : Key → H} {toks : List T} {all : Bool}

/-- `o` is the node of a state, or a child of the node of a state -/
def ChartObj (cols : List (Column P T H)) (o : PTree P T) : Prop :=
  ∃ k s, InCol cols k s ∧ (o = s.node ∨ o ∈ s.children)

structure IdCols (cols : List (Column P T H)) (ctr : Nat) : Prop where
  lt : ∀ o, ChartObj cols o → o.oid < ctr
  inj : ∀ o o', ChartObj cols o → ChartObj cols o' → o.oid = o'.oid → o = o'
  uniq : ∀ k k' s s', InCol cols k s → InCol cols k' s' → s.nid = s'.nid → k = k' ∧ s = s'

theorem obj_mono {cols : List (Column P T H)} {k : Nat} {s : State P T} {o : PTree P T}
    (h : ChartObj cols o) : ChartObj (appendAt hash cols k s) o := by
  obtain ⟨k', s', h1, h2⟩ := h
  exact ⟨k', s', inCol_mono h1, h2⟩

theorem obj_append {cols : List (Column P T H)} {k : Nat} {s : State P T} {o : PTree P T}
    (h : ChartObj (appendAt hash cols k s) o) : ChartObj cols o ∨ o = s.node ∨ o ∈ s.children := by
  obtain ⟨k', s', h1, h2⟩ := h
  rcases inCol_appendAt h1 with h3 | ⟨_, rfl⟩
  · exact Or.inl ⟨k', s', h3, h2⟩
  · exact Or.inr h2

theorem IdCols.append {cols : List (Column P T H)} {ctr ctr' : Nat} (h : IdCols cols ctr) {k : Nat}
    {s : State P T} (hn : ctr ≤ s.nid) (hn' : s.nid < ctr')
    (hch : ∀ c ∈ s.children, ChartObj cols c ∨ (ctr ≤ c.oid ∧ c.oid < s.nid))
    (hu : ∀ c ∈ s.children, ∀ c' ∈ s.children, ctr ≤ c.oid → c.oid = c'.oid → c = c') :
    IdCols (appendAt hash cols k s) ctr' := by
  have hnode : s.node.oid = s.nid := rfl
  refine ⟨?_, ?_, ?_⟩
  · intro o ho
    rcases obj_append ho with h1 | rfl | h1
    · have := h.lt _ h1; omega
    · omega
    · rcases hch _ h1 with h2 | h2
      · have := h.lt _ h2; omega
      · omega
  · have key : ∀ o o', ChartObj (appendAt hash cols k s) o → ChartObj (appendAt hash cols k s) o' →
        o.oid = o'.oid → ctr ≤ o.oid → o = o' := by
      intro o o' ho ho' he hge
      rcases obj_append ho with h1 | rfl | h1
      · have := h.lt _ h1; omega
      · rcases obj_append ho' with h2 | rfl | h2
        · have := h.lt _ h2; omega
        · rfl
        · rcases hch _ h2 with h3 | h3
          · have := h.lt _ h3; omega
          · omega
      · rcases obj_append ho' with h2 | rfl | h2
        · have := h.lt _ h2; omega
        · rcases hch _ h1 with h3 | h3
          · have := h.lt _ h3; omega
          · omega
        · exact hu _ h1 _ h2 hge he
    intro o o' ho ho' he
    by_cases hge : ctr ≤ o.oid
    · exact key o o' ho ho' he hge
    · have old : ∀ x, ChartObj (appendAt hash cols k s) x → ¬ ctr ≤ x.oid → ChartObj cols x := by
        intro x hx hlt
        rcases obj_append hx with h1 | rfl | h1
        · exact h1
        · exact absurd hn hlt
        · rcases hch _ h1 with h2 | h2
          · exact h2
          · exact absurd h2.1 hlt
      exact h.inj o o' (old o ho hge) (old o' ho' (by omega)) he
  · intro k1 k2 s1 s2 h1 h2 he
    have old : ∀ k' s', InCol cols k' s' → s'.nid < ctr := fun k' s' hs =>
      h.lt s'.node ⟨k', s', hs, Or.inl rfl⟩
    rcases inCol_appendAt h1 with h3 | ⟨rfl, rfl⟩
    · rcases inCol_appendAt h2 with h4 | ⟨rfl, rfl⟩
      · exact h.uniq _ _ _ _ h3 h4 he
      · have := old _ _ h3; omega
    · rcases inCol_appendAt h2 with h4 | ⟨rfl, rfl⟩
      · have := old _ _ h4; omega
      · exact ⟨rfl, rfl⟩

theorem IdCols.mono_ctr {cols : List (Column P T H)} {ctr ctr' : Nat} (h : IdCols cols ctr)
    (hle : ctr ≤ ctr') : IdCols cols ctr' :=
  ⟨fun o ho => Nat.lt_of_lt_of_le (h.lt o ho) hle, h.inj, h.uniq⟩

theorem IdCols.append_predict {cols : List (Column P T H)} {ctr : Nat} (h : IdCols cols ctr)
    (k r : Nat) (prod : Production P) (rank : Nat) :
    IdCols (appendAt hash cols k (predictState k r prod rank ctr)) (ctr + 1) :=
  h.append (Nat.le_refl _) (Nat.lt_succ_self _) (by simp [predictState]) (by simp [predictState])

theorem IdCols.append_scan {cols : List (Column P T H)} {ctr : Nat} (h : IdCols cols ctr)
    {k k' : Nat} {s : State P T} (hs : InCol cols k' s) (p : P) (t : T) :
    IdCols (appendAt hash cols (k + 1) (scanState G k p t s ctr)) (ctr + 2) := by
  have hold : ∀ c ∈ s.children, ChartObj cols c := fun c hc => ⟨k', s, hs, Or.inr hc⟩
  refine h.append (s := scanState G k p t s ctr) (Nat.le_succ _) (Nat.lt_succ_self _) ?_ ?_
  · intro c hc
    rcases List.mem_append.1 hc with h1 | h1
    · exact Or.inl (hold c h1)
    · simp only [List.mem_singleton] at h1
      subst h1
      exact Or.inr ⟨Nat.le_refl _, Nat.lt_succ_self _⟩
  · intro c hc c' hc' hge he
    rcases List.mem_append.1 hc with h1 | h1
    · have := h.lt _ (hold c h1); omega
    · rcases List.mem_append.1 hc' with h2 | h2
      · have := h.lt _ (hold c' h2); omega
      · simp only [List.mem_singleton] at h1 h2; rw [h1, h2]

theorem IdCols.append_complete {cols : List (Column P T H)} {ctr : Nat} (h : IdCols cols ctr)
    {k k1 k2 : Nat} {s p : State P T} (hs : InCol cols k1 s) (hp : InCol cols k2 p) :
    IdCols (appendAt hash cols k (completeState k s p ctr)) (ctr + 1) := by
  have hold : ∀ c ∈ (completeState k s p ctr).children, ChartObj cols c := by
    intro c hc
    rcases List.mem_append.1 hc with h1 | h1
    · exact ⟨k2, p, hp, Or.inr h1⟩
    · simp only [List.mem_singleton] at h1
      subst h1
      exact ⟨k1, s, hs, Or.inl rfl⟩
  refine h.append (s := completeState k s p ctr) (Nat.le_refl _) (Nat.lt_succ_self _)
    (fun c hc => Or.inl (hold c hc)) ?_
  intro c hc c' _ hge _
  have := h.lt _ (hold c hc); omega

theorem idCols_trans (hG : PredictSound G) (c c' : Config P T H)
    (ht : Trans G hash toks all c c') (hS : SoundInv G toks c) (h : IdCols c.cols c.ctr) :
    IdCols c'.cols c'.ctr := by
  have hpred : ∀ (cols : List (Column P T H)) ctr k r, IdCols cols ctr →
      IdCols (Yargy.predict G hash toks k r cols ctr).1 (Yargy.predict G hash toks k r cols ctr).2 := by
    intro cols ctr k r hc
    exact predict_induct (M := fun cols ctr => IdCols cols ctr) G hash toks k r cols ctr hc
      (fun cols ctr prod rank _ hc => hc.append_predict k r prod rank)
  cases ht with
  | enterPredict => exact hpred _ _ _ _ h
  | enterSkip => exact h
  | nextColumn => exact h
  | finish => exact h
  | startComplete => exact h
  | predictRule => exact hpred _ _ _ _ h
  | scanAccept hc hs => exact h.append_scan (inCol_of_get hc hs) _ _
  | scanReject => exact h
  | @completeNext cols ctr k i s j p hp =>
    obtain ⟨h1, _⟩ := hS.phase i s j rfl
    obtain ⟨h3, _⟩ := hS.cols.mem_parents (List.mem_of_getElem? hp)
    exact h.append_complete h1 h3
  | completeEnd => exact h
  | done => exact h

theorem not_inCol_init {k : Nat} {s : State P T} :
    ¬ InCol (initConfig (P := P) (H := H) toks).cols k s := by
  rintro ⟨c, hc, hs⟩
  have := List.mem_of_getElem? hc
  simp only [initConfig, List.mem_replicate] at this
  rw [this.2] at hs; simp [Column.empty] at hs

theorem idCols_init : IdCols (P := P) (H := H) (initConfig toks).cols (initConfig (P := P) (H := H) toks).ctr := by
  refine ⟨?_, ?_, ?_⟩
  · rintro o ⟨k, s, h, _⟩; exact absurd h not_inCol_init
  · rintro o o' ⟨k, s, h, _⟩; exact absurd h not_inCol_init
  · intro k k' s s' h; exact absurd h not_inCol_init

/-! ### hash sets -/

structure HashCol (hash : Key → H) (c : Column P T H) : Prop where
  mem : ∀ h, h ∈ c.hashes ↔ ∃ s ∈ c.states, hash s.key = h
  nodup : c.states.Pairwise (fun a b => hash a.key ≠ hash b.key)
  index : c.index = c.states.filterMap (fun s =>
    match s.next with
    | some (.rule r) => some (r, s)
    | _ => none)

def HashCols (hash : Key → H) (cols : List (Column P T H)) : Prop :=
  ∀ (k : Nat) (c : Column P T H), cols[k]? = some c → HashCol hash c

theorem HashCol.append {c : Column P T H} (h : HashCol hash c) (s : State P T) :
    HashCol hash (c.append hash s) := by
  by_cases hm : hash s.key ∈ c.hashes
  · have : c.append hash s = c := by simp [Column.append, hm]
    rw [this]; exact h
  · refine ⟨?_, ?_, ?_⟩
    · intro x
      rw [append_hashes, append_states]
      simp only [hm, if_false, List.mem_cons, h.mem, List.mem_append, List.not_mem_nil, or_false]
      constructor
      · rintro (rfl | ⟨s', h1, h2⟩)
        · exact ⟨s, Or.inr rfl, rfl⟩
        · exact ⟨s', Or.inl h1, h2⟩
      · rintro ⟨s', h1 | rfl, h2⟩
        · exact Or.inr ⟨s', h1, h2⟩
        · exact Or.inl h2.symm
    · rw [append_states]
      simp only [hm, if_false]
      rw [List.pairwise_append]
      refine ⟨h.nodup, by simp, ?_⟩
      intro a ha b hb
      simp only [List.mem_singleton] at hb
      subst hb
      intro he
      exact hm ((h.mem _).2 ⟨a, ha, he⟩)
    · rw [append_states]
      simp only [hm, if_false, List.filterMap_append]
      unfold Column.append
      simp only [hm, if_false]
      unfold Column.updateIndex
      cases hn : s.next with
      | none => simp [List.filterMap, hn, h.index]
      | some x =>
        cases x with
        | pred p => simp [List.filterMap, hn, h.index]
        | rule r => simp [List.filterMap, hn, h.index]

theorem HashCols.append {cols : List (Column P T H)} (h : HashCols hash cols) (k : Nat)
    (s : State P T) : HashCols hash (appendAt hash cols k s) := by
  intro k' c hc
  rw [appendAt_get?] at hc
  split at hc
  · obtain ⟨c0, h1, rfl⟩ := Option.map_eq_some_iff.1 hc
    exact (h _ _ h1).append s
  · exact h _ _ hc

theorem hashCols_trans (c c' : Config P T H)
    (ht : Trans G hash toks all c c') (h : HashCols hash c.cols) : HashCols hash c'.cols := by
  have hpred : ∀ (cols : List (Column P T H)) ctr k r, HashCols hash cols →
      HashCols hash (Yargy.predict G hash toks k r cols ctr).1 := by
    intro cols ctr k r hc
    exact predict_induct (M := fun cols _ => HashCols hash cols) G hash toks k r cols ctr hc
      (fun cols ctr prod rank _ hc => hc.append _ _)
  cases ht with
  | enterPredict => exact hpred _ _ _ _ h
  | enterSkip => exact h
  | nextColumn => exact h
  | finish => exact h
  | startComplete => exact h
  | predictRule => exact hpred _ _ _ _ h
  | scanAccept hc hs => exact h.append _ _
  | scanReject => exact h
  | completeNext => exact h.append _ _
  | completeEnd => exact h
  | done => exact h

theorem hashCols_init : HashCols (P := P) (T := T) hash (initConfig toks).cols := by
  intro k c hc
  have := List.mem_of_getElem? hc
  simp only [initConfig, List.mem_replicate] at this
  rw [this.2]
  exact ⟨by simp [Column.empty], by simp [Column.empty], by simp [Column.empty]⟩

/-- after an `append` the column contains a state with that hash -/
theorem append_exists {cols : List (Column P T H)} (h : HashCols hash cols) {k : Nat}
    (hk : k < cols.length) (s : State P T) :
    ∃ s0, InCol (appendAt hash cols k s) k s0 ∧ hash s0.key = hash s.key ∧
      (s0 = s ∨ InCol cols k s0) := by
  have hc : cols[k]? = some cols[k] := by simp [hk]
  have hc' : (appendAt hash cols k s)[k]? = some (cols[k].append hash s) := by
    rw [appendAt_get?]; simp [hc]
  by_cases hm : hash s.key ∈ cols[k].hashes
  · obtain ⟨s0, h1, h2⟩ := ((h _ _ hc).mem _).1 hm
    have : InCol cols k s0 := ⟨_, hc, h1⟩
    exact ⟨s0, inCol_mono this, h2, Or.inr this⟩
  · refine ⟨s, ⟨_, hc', ?_⟩, rfl, Or.inl rfl⟩
    rw [append_states]; simp [hm]

/-- all states waiting for a rule are in the index -/
theorem HashCols.mem_parentsOf {cols : List (Column P T H)} (h : HashCols hash cols)
    {s p : State P T} (hp : InCol cols s.start p) (hn : p.next = some (.rule s.rule)) :
    p ∈ parentsOf cols s := by
  obtain ⟨c, hc, hs⟩ := hp
  unfold parentsOf
  rw [hc]
  dsimp only
  unfold Column.parents
  rw [List.mem_map]
  refine ⟨(s.rule, p), ?_, rfl⟩
  rw [List.mem_filter]
  refine ⟨?_, by simp⟩
  rw [(h _ _ hc).index, List.mem_filterMap]
  exact ⟨p, hs, by rw [hn]⟩

end Yargy
