import Verif.Proofs.EarleyBase
/-! Every state of the chart is a partial derivation. -/
set_option linter.unusedSectionVars false
namespace Yargy
open Spec

variable {P T H : Type} [DecidableEq H] {G : Grammar P T} {hash : Key → H} {toks : List T} {all : Bool}

theorem derivesAll_snoc {xs : List (Term P)} {i j k : Nat} {ts : List (DTree P T)} {x : Term P}
    {t : DTree P T} (h : DerivesAll G toks xs i j ts) (hx : Derives G toks x j k t) :
    DerivesAll G toks (xs ++ [x]) i k (ts ++ [t]) := by
  induction xs generalizing i ts with
  | nil => cases h; exact .cons hx .nil
  | cons y ys ih =>
    cases h with
    | cons h1 h2 => exact .cons h1 (ih h2)

/-- what is true of every state of column `k` -/
structure StateOK (G : Grammar P T) (toks : List T) (k : Nat) (s : State P T) : Prop where
  stop : s.stop = k
  le : s.start ≤ k
  prod : s.prod ∈ G.productions s.rule
  dot : s.dot ≤ s.prod.terms.length
  derives : DerivesAll G toks (s.prod.terms.take s.dot) s.start k (s.children.map PTree.erase)

structure SoundInv (G : Grammar P T) (toks : List T) (c : Config P T H) : Prop where
  len : c.cols.length = toks.length + 1
  pos : c.k < c.cols.length
  states : ∀ k s, InCol c.cols k s → StateOK G toks k s
  index : ∀ (k : Nat) (col : Column P T H), c.cols[k]? = some col →
    ∀ e ∈ col.index, e.2 ∈ col.states ∧ e.2.next = some (.rule e.1)
  phase : ∀ i s j, c.phase = .complete i s j → InCol c.cols c.k s ∧ s.completed = true

/-- the part of the invariant about columns only -/
structure SoundCols (G : Grammar P T) (toks : List T) (cols : List (Column P T H)) : Prop where
  len : cols.length = toks.length + 1
  states : ∀ k s, InCol cols k s → StateOK G toks k s
  index : ∀ (k : Nat) (col : Column P T H), cols[k]? = some col →
    ∀ e ∈ col.index, e.2 ∈ col.states ∧ e.2.next = some (.rule e.1)

theorem append_index_mem {c : Column P T H} {s : State P T} {e : Nat × State P T}
    (h : e ∈ (c.append hash s).index) :
    e ∈ c.index ∨ (e.2 = s ∧ s.next = some (.rule e.1) ∧ s ∈ (c.append hash s).states) := by
  unfold Column.append at h ⊢
  split at h
  · exact Or.inl h
  · rename_i hn
    simp only [hn, if_false]
    unfold Column.updateIndex at h ⊢
    split at h
    · rename_i r hr
      dsimp only at h
      rcases List.mem_append.1 h with h | h
      · exact Or.inl h
      · simp only [List.mem_singleton] at h
        subst h
        exact Or.inr ⟨rfl, hr, by simp⟩
    · exact Or.inl h

theorem SoundCols.append {cols : List (Column P T H)} (h : SoundCols G toks cols) {k : Nat}
    {s : State P T} (hs : StateOK G toks k s) : SoundCols G toks (appendAt hash cols k s) := by
  refine ⟨by rw [appendAt_length]; exact h.len, ?_, ?_⟩
  · intro k' s' h'
    rcases inCol_appendAt h' with h1 | ⟨rfl, rfl⟩
    · exact h.states _ _ h1
    · exact hs
  · intro k' col hcol e he
    rw [appendAt_get?] at hcol
    split at hcol
    · obtain ⟨c0, h3, rfl⟩ := Option.map_eq_some_iff.1 hcol
      rcases append_index_mem he with h4 | ⟨h4, h5, h6⟩
      · have := h.index _ _ h3 e h4
        exact ⟨(append_prefix hash c0 s).subset this.1, this.2⟩
      · exact ⟨h4 ▸ h6, h4 ▸ h5⟩
    · exact h.index _ _ hcol e he

theorem StateOK.predictState (hG : PredictSound G) {k r : Nat} {prod : Production P} {rank nid : Nat}
    (h : (predicted G toks k r)[rank]? = some prod) :
    StateOK G toks k (predictState (T := T) k r prod rank nid) := by
  refine ⟨rfl, Nat.le_refl _, ?_, Nat.zero_le _, ?_⟩
  · have hm := List.mem_of_getElem? h
    unfold predicted at hm
    split at hm
    · exact hG _ _ _ hm
    · exact hm
  · show DerivesAll G toks (List.take 0 _) k k []
    rw [List.take_zero]; exact .nil

theorem take_succ_next {s : State P T} {x : Term P} (h : s.next = some x) :
    s.prod.terms.take (s.dot + 1) = s.prod.terms.take s.dot ++ [x] := by
  unfold State.next at h
  rw [List.take_add_one, h]; rfl

theorem dot_lt_of_next {s : State P T} {x : Term P} (h : s.next = some x) :
    s.dot < s.prod.terms.length := by
  unfold State.next at h
  rw [List.getElem?_eq_some_iff] at h
  exact h.1

theorem StateOK.advance {k m : Nat} {s : State P T} {x : Term P} (hs : StateOK G toks k s)
    (hx : s.next = some x) {t : PTree P T} (hk : k ≤ m) (ht : Derives G toks x k m t.erase) (nid : Nat) :
    StateOK G toks m { s with dot := s.dot + 1, stop := m, nid := nid, children := s.children ++ [t] } := by
  refine ⟨rfl, Nat.le_trans hs.le hk, hs.prod, dot_lt_of_next hx, ?_⟩
  show DerivesAll G toks (s.prod.terms.take (s.dot + 1)) s.start m ((s.children ++ [t]).map _)
  rw [take_succ_next hx, List.map_append]
  exact derivesAll_snoc hs.derives ht

theorem StateOK.derives_node {k : Nat} {s : State P T} (hs : StateOK G toks k s)
    (hc : s.completed = true) : Derives G toks (.rule s.rule) s.start k s.node.erase := by
  show Derives G toks (.rule s.rule) s.start k s.dtree
  rw [s.dtree_eq]
  refine .node hs.prod ?_
  have h1 := hs.derives
  have h2 : s.prod.terms.length ≤ s.dot := by simpa [State.completed] using hc
  rwa [List.take_of_length_le h2] at h1

theorem SoundCols.predict (hG : PredictSound G) {cols : List (Column P T H)}
    (h : SoundCols G toks cols) (k r ctr : Nat) :
    SoundCols G toks (Yargy.predict G hash toks k r cols ctr).1 := by
  exact predict_induct (M := fun cols _ => SoundCols G toks cols) G hash toks k r cols ctr h
    (fun cols ctr prod rank hp hc => hc.append (StateOK.predictState hG hp))

theorem SoundInv.cols {c : Config P T H} (h : SoundInv G toks c) : SoundCols G toks c.cols :=
  ⟨h.len, h.states, h.index⟩

theorem SoundCols.mem_parents {cols : List (Column P T H)} (h : SoundCols G toks cols)
    {s p : State P T} (hp : p ∈ parentsOf cols s) :
    InCol cols s.start p ∧ p.next = some (.rule s.rule) := by
  unfold parentsOf at hp
  split at hp
  · rename_i c hc
    unfold Column.parents at hp
    obtain ⟨e, he, rfl⟩ := List.mem_map.1 hp
    rw [List.mem_filter] at he
    have h1 := h.index _ _ hc e he.1
    have h2 : e.1 = s.rule := by simpa using he.2
    exact ⟨⟨c, hc, h1.1⟩, h2 ▸ h1.2⟩
  · simp at hp

theorem inCol_of_get {cols : List (Column P T H)} {k i : Nat} {col : Column P T H} {s : State P T}
    (h1 : cols[k]? = some col) (h2 : col.states[i]? = some s) : InCol cols k s :=
  ⟨col, h1, List.mem_of_getElem? h2⟩

theorem soundInv_trans (hG : PredictSound G) (c c' : Config P T H)
    (ht : Trans G hash toks all c c') (h : SoundInv G toks c) : SoundInv G toks c' := by
  cases ht with
  | @enterPredict cols ctr k hk =>
    have hc := h.cols.predict (hash := hash) hG k G.start ctr
    have hp : k < cols.length := h.pos
    have hl : cols.length = toks.length + 1 := h.len
    exact ⟨hc.len, by have := hc.len; dsimp only at *; omega, hc.states, hc.index, by simp⟩
  | enterSkip => exact ⟨h.len, h.pos, h.states, h.index, by simp⟩
  | nextColumn _ hk => exact ⟨h.len, hk, h.states, h.index, by simp⟩
  | finish => exact ⟨h.len, h.pos, h.states, h.index, by simp⟩
  | @startComplete cols ctr k i col s hc hs hcomp =>
    refine ⟨h.len, h.pos, h.states, h.index, ?_⟩
    intro i' s' j' he
    simp only [Phase.complete.injEq] at he
    obtain ⟨_, rfl, _⟩ := he
    exact ⟨inCol_of_get hc hs, hcomp⟩
  | @predictRule cols ctr k i col s r hc hs hr =>
    have hcc := h.cols.predict (hash := hash) hG k r ctr
    have hp : k < cols.length := h.pos
    have hl : cols.length = toks.length + 1 := h.len
    exact ⟨hcc.len, by have := hcc.len; dsimp only at *; omega, hcc.states, hcc.index, by simp⟩
  | @scanAccept cols ctr k i col s p t hc hs hn ht ha =>
    have hok := h.states _ _ (inCol_of_get hc hs)
    have hnew : StateOK G toks (k + 1) (scanState G k p t s ctr) :=
      hok.advance hn (Nat.le_succ _) (by rw [PTree.erase]; exact .leaf ht ha) _
    have hcc := h.cols.append (hash := hash) hnew
    have hp : k < cols.length := h.pos
    exact ⟨hcc.len, by rw [appendAt_length]; exact hp, hcc.states, hcc.index, by simp⟩
  | scanReject => exact ⟨h.len, h.pos, h.states, h.index, by simp⟩
  | @completeNext cols ctr k i s j p hp =>
    obtain ⟨h1, h2⟩ := h.phase i s j rfl
    have hok := h.states _ _ h1
    obtain ⟨h3, h4⟩ := h.cols.mem_parents (List.mem_of_getElem? hp)
    have hpok := h.states _ _ h3
    have hnew : StateOK G toks k (completeState k s p ctr) :=
      hpok.advance h4 hok.le (hok.derives_node h2) _
    have hcc := h.cols.append (hash := hash) hnew
    refine ⟨hcc.len, by rw [appendAt_length]; exact h.pos, hcc.states, hcc.index, ?_⟩
    intro i' s' j' he
    simp only [Phase.complete.injEq] at he
    obtain ⟨_, rfl, _⟩ := he
    exact ⟨inCol_mono h1, h2⟩
  | completeEnd => exact ⟨h.len, h.pos, h.states, h.index, by simp⟩
  | done => exact ⟨h.len, h.pos, h.states, h.index, by simp⟩

theorem soundInv_init : SoundInv (H := H) G toks (initConfig toks) := by
  refine ⟨by simp [initConfig], by simp [initConfig], ?_, ?_, by simp [initConfig]⟩
  · rintro k s ⟨c, hc, hs⟩
    have := List.mem_of_getElem? hc
    simp only [initConfig, List.mem_replicate] at this
    rw [this.2] at hs; simp [Column.empty] at hs
  · intro k c hc e he
    have := List.mem_of_getElem? hc
    simp only [initConfig, List.mem_replicate] at this
    rw [this.2] at he; simp [Column.empty] at he

theorem soundInv_runN (hG : PredictSound G) (n : Nat) :
    SoundInv G toks (runN G hash toks all n) :=
  runN_induct G hash toks all soundInv_init (soundInv_trans hG) n

end Yargy
