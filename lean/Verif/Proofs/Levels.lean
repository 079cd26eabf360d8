import Verif.Proofs.EarleyComplete
import Verif.Spec.Levels
/-! The states of a column come in rounds: completeness of the chart for derivations with empty parts
at the places of `EmptyFound`. -/
set_option linter.unusedSectionVars false
set_option linter.unusedVariables false
namespace Yargy
open Spec

namespace Rounds

variable {P T H : Type} [DecidableEq H] {G : Grammar P T} {hash : Key → H} {toks : List T} {all : Bool}
  {w : Nat → Nat}

/-- state `s` is at position `j` of column `k` -/
def At (cols : List (Column P T H)) (k j : Nat) (s : State P T) : Prop :=
  ∃ col, cols[k]? = some col ∧ col.states[j]? = some s

theorem At.inCol {cols : List (Column P T H)} {k j : Nat} {s : State P T} (h : At cols k j s) :
    InCol cols k s := by
  obtain ⟨col, h1, h2⟩ := h
  exact inCol_of_get h1 h2

theorem _root_.Yargy.InCol.at {cols : List (Column P T H)} {k : Nat} {s : State P T}
    (h : InCol cols k s) : ∃ j, At cols k j s := by
  obtain ⟨col, h1, h2⟩ := h
  obtain ⟨j, hj⟩ := List.getElem?_of_mem h2
  exact ⟨j, col, h1, hj⟩

theorem At.unique {cols : List (Column P T H)} {k j : Nat} {s s' : State P T} (h : At cols k j s)
    (h' : At cols k j s') : s = s' := by
  obtain ⟨c, h1, h2⟩ := h
  obtain ⟨c', h3, h4⟩ := h'
  rw [h1] at h3; cases h3
  rw [h2] at h4; exact Option.some.inj h4

/-- `cols'` with rounds `lv'` is `cols` with rounds `lv` and further states in column `m`, all of round
`v` -/
structure Ext (G : Grammar P T) (w : Nat → Nat) (cols : List (Column P T H)) (lv : Nat → Nat → Nat)
    (m v : Nat) (cols' : List (Column P T H)) (lv' : Nat → Nat → Nat) : Prop where
  old : ∀ k j s, At cols k j s → At cols' k j s ∧ lv' k j = lv k j
  new : ∀ k j s, At cols' k j s → At cols k j s ∨ (k = m ∧ lv' k j = v ∧
    (∀ j' s', At cols k j' s' → j' < j) ∧ (s.start = m → s.rule ≠ G.start → 1 + w s.rule ≤ v) ∧
    (∀ d R, s.dot = d + 1 → s.prod.terms[d]? = some (.rule R) → 1 ≤ v))
  off : ∀ k j, k ≠ m → lv' k j = lv k j

theorem Ext.refl {cols : List (Column P T H)} {lv : Nat → Nat → Nat} {m v : Nat} :
    Ext G w cols lv m v cols lv :=
  ⟨fun _ _ _ h => ⟨h, rfl⟩, fun _ _ _ h => .inl h, fun _ _ _ => rfl⟩

theorem Ext.trans {c1 c2 c3 : List (Column P T H)} {l1 l2 l3 : Nat → Nat → Nat} {m v : Nat}
    (h : Ext G w c1 l1 m v c2 l2) (h' : Ext G w c2 l2 m v c3 l3) : Ext G w c1 l1 m v c3 l3 := by
  refine ⟨?_, ?_, fun k j hk => (h'.off k j hk).trans (h.off k j hk)⟩
  · intro k j s hs
    obtain ⟨a, b⟩ := h.old k j s hs
    obtain ⟨a', b'⟩ := h'.old k j s a
    exact ⟨a', b'.trans b⟩
  · intro k j s hs
    rcases h'.new k j s hs with a | ⟨a, b, c, d⟩
    · rcases h.new k j s a with e | ⟨e, f, g⟩
      · exact .inl e
      · exact .inr ⟨e, by rw [(h'.old k j s a).2, f], g⟩
    · exact .inr ⟨a, b, fun j' s' hs' => c j' s' (h.old k j' s' hs').1, d⟩

theorem Ext.append (cols : List (Column P T H)) (lv : Nat → Nat → Nat) (m v : Nat) (s : State P T)
    (h1 : s.start = m → s.rule ≠ G.start → 1 + w s.rule ≤ v)
    (h2 : ∀ d R, s.dot = d + 1 → s.prod.terms[d]? = some (.rule R) → 1 ≤ v) :
    ∃ lv', Ext G w cols lv m v (appendAt hash cols m s) lv' := by
  let len := ((cols[m]?).map (fun c => c.states.length)).getD 0
  refine ⟨fun k j => if k = m ∧ len ≤ j then v else lv k j, ?_, ?_, ?_⟩
  · rintro k j s0 ⟨col, g1, g2⟩
    have hj := (List.getElem?_eq_some_iff.1 g2).1
    by_cases hk : m = k
    · subst hk
      refine ⟨⟨col.append hash s, by rw [appendAt_get?]; simp [g1], ?_⟩, ?_⟩
      · obtain ⟨l, hl⟩ := append_prefix hash col s
        rw [← hl, List.getElem?_append_left hj]
        exact g2
      · have : ¬ len ≤ j := by simp [len, g1]; exact hj
        simp [this]
    · refine ⟨⟨col, by rw [appendAt_get?]; simp [hk, g1], g2⟩, ?_⟩
      have : k ≠ m := fun e => hk e.symm
      simp [this]
  · rintro k j s0 ⟨col, g1, g2⟩
    rw [appendAt_get?] at g1
    split at g1
    · rename_i hk
      subst hk
      obtain ⟨c0, g3, rfl⟩ := Option.map_eq_some_iff.1 g1
      rw [append_states] at g2
      split at g2
      · exact .inl ⟨c0, g3, g2⟩
      · by_cases hj : j < c0.states.length
        · rw [List.getElem?_append_left hj] at g2
          exact .inl ⟨c0, g3, g2⟩
        · right
          have hs0 : s0 = s := by
            have hm := List.mem_of_getElem? (l := [s]) (i := j - c0.states.length) (a := s0) (by
              rw [List.getElem?_append_right (by omega)] at g2; exact g2)
            simpa using hm
          subst hs0
          have hlen : len = c0.states.length := by simp [len, g3]
          refine ⟨rfl, by simp [hlen, Nat.le_of_not_lt hj], ?_, h1, h2⟩
          rintro j' s' ⟨c1, e1, e2⟩
          rw [g3] at e1; cases e1
          have := (List.getElem?_eq_some_iff.1 e2).1
          omega
    · exact .inl ⟨col, g1, g2⟩
  · intro k j hk
    simp [hk]

/-- several states appended by `predict` -/
theorem Ext.predict (k r : Nat) (cols : List (Column P T H)) (lv : Nat → Nat → Nat) (ctr v : Nat)
    (h : r ≠ G.start → 1 + w r ≤ v) :
    ∃ lv', Ext G w cols lv k v (Yargy.predict G hash toks k r cols ctr).1 lv' := by
  refine predict_induct (M := fun cols' _ => ∃ lv', Ext G w cols lv k v cols' lv')
    G hash toks k r cols ctr ⟨lv, .refl⟩ ?_
  rintro cols' ctr' prod rank _ ⟨lv', hE⟩
  obtain ⟨lv2, hE2⟩ := Ext.append (hash := hash) (G := G) (w := w) cols' lv' k v
    (predictState k r prod rank ctr') (fun _ => h) (fun d R e => by simp [predictState] at e)
  exact ⟨lv2, hE.trans hE2⟩

/-- what is known about rounds at any time -/
structure LevCols (G : Grammar P T) (w : Nat → Nat) (lv : Nat → Nat → Nat)
    (cols : List (Column P T H)) : Prop where
  mono : ∀ k j j' s s', At cols k j s → At cols k j' s' → j ≤ j' → lv k j ≤ lv k j'
  born : ∀ k j s, At cols k j s → s.start = k → s.rule ≠ G.start → 1 + w s.rule ≤ lv k j
  late : ∀ k j s d R, At cols k j s → s.dot = d + 1 → s.prod.terms[d]? = some (.rule R) → 1 ≤ lv k j

def Cap (lv : Nat → Nat → Nat) (cols : List (Column P T H)) (k v : Nat) : Prop :=
  ∀ j s, At cols k j s → lv k j ≤ v

theorem LevCols.ext {lv lv' : Nat → Nat → Nat} {cols cols' : List (Column P T H)} {m v : Nat}
    (h : LevCols G w lv cols) (hc : Cap lv cols m v) (hE : Ext G w cols lv m v cols' lv') :
    LevCols G w lv' cols' ∧ Cap lv' cols' m v := by
  have hcap : Cap lv' cols' m v := by
    intro j s hs
    rcases hE.new _ _ _ hs with a | ⟨_, b, _⟩
    · rw [(hE.old _ _ _ a).2]; exact hc j s a
    · exact Nat.le_of_eq b
  refine ⟨⟨?_, ?_, ?_⟩, hcap⟩
  · intro k j j' s s' hs hs' hj
    rcases hE.new _ _ _ hs' with a | ⟨a, b, c, _⟩
    · rcases hE.new _ _ _ hs with a' | ⟨_, _, c', _⟩
      · rw [(hE.old _ _ _ a).2, (hE.old _ _ _ a').2]
        exact h.mono k j j' s s' a' a hj
      · have := c' _ _ a; omega
    · subst a
      rw [b]
      exact hcap j s hs
  · intro k j s hs h1 h2
    rcases hE.new _ _ _ hs with a | ⟨a, b, _, c, _⟩
    · rw [(hE.old _ _ _ a).2]; exact h.born k j s a h1 h2
    · subst a; rw [b]; exact c h1 h2
  · intro k j s d R hs h1 h2
    rcases hE.new _ _ _ hs with a | ⟨a, b, _, _, c⟩
    · rw [(hE.old _ _ _ a).2]; exact h.late k j s d R a h1 h2
    · rw [b]; exact c d R h1 h2

/-- states wait for a rule no earlier than `w` says -/
theorem LevCols.waiter (hw : Waits G w) {lv : Nat → Nat → Nat} {cols : List (Column P T H)}
    (h : LevCols G w lv cols) (hS : SoundCols G toks cols) {k j : Nat} {s : State P T} {R : Nat}
    (hs : At cols k j s) (hn : s.next = some (.rule R)) : w R ≤ lv k j := by
  have hok := hS.states _ _ hs.inCol
  obtain ⟨w1, w2⟩ := hw _ _ R hok.prod
  cases hd : s.dot with
  | zero =>
    unfold State.next at hn
    rw [hd] at hn
    obtain ⟨a, b⟩ := w1 hn
    by_cases he : s.rule = G.start
    · rw [b he]; exact Nat.zero_le _
    · have := h.born k j s hs (hok.dot_zero hd).1 he
      omega
  | succ d =>
    unfold State.next at hn
    rw [hd] at hn
    obtain ⟨a, b⟩ := w2 d hn
    have hlt := (List.getElem?_eq_some_iff.1 hn).1
    cases hx : s.prod.terms[d]? with
    | none => rw [List.getElem?_eq_none_iff] at hx; omega
    | some x =>
      cases x with
      | pred p => rw [b p hx]; exact Nat.zero_le _
      | rule Q =>
        have := h.late k j s d Q hs hd hx
        omega

/-- column `k` has the initial states of all predicted productions of rule `r` by round `n` -/
def HasPredL (G : Grammar P T) (toks : List T) (lv : Nat → Nat → Nat) (cols : List (Column P T H))
    (k r n : Nat) : Prop :=
  ∀ prod ∈ predicted G toks k r, ∃ j s0, At cols k j s0 ∧ lv k j ≤ n ∧ s0.rule = r ∧ s0.prod = prod ∧
    s0.dot = 0 ∧ s0.start = k ∧ s0.children = []

/-- column `m` has the state `p` advanced over a tree that reads `d` by round `n` -/
def HasAdvL (lv : Nat → Nat → Nat) (cols : List (Column P T H)) (m : Nat) (p : State P T)
    (d : DTree P T) (n : Nat) : Prop :=
  ∃ j s0, At cols m j s0 ∧ lv m j ≤ n ∧ s0.rule = p.rule ∧ s0.prod = p.prod ∧ s0.dot = p.dot + 1 ∧
    s0.start = p.start ∧ s0.children.map PTree.erase = p.children.map PTree.erase ++ [d]

theorem _root_.Yargy.HasPred.level {lv : Nat → Nat → Nat} {cols : List (Column P T H)} {k r n : Nat}
    (h : HasPred G toks cols k r) (hc : Cap lv cols k n) : HasPredL G toks lv cols k r n := by
  intro prod hp
  obtain ⟨s0, h1, h2⟩ := h prod hp
  obtain ⟨j, hj⟩ := h1.at
  exact ⟨j, s0, hj, hc j s0 hj, h2⟩

theorem _root_.Yargy.HasAdv.level {lv : Nat → Nat → Nat} {cols : List (Column P T H)} {k n : Nat}
    {p : State P T} {d : DTree P T} (h : HasAdv cols k p d) (hc : Cap lv cols k n) :
    HasAdvL lv cols k p d n := by
  obtain ⟨s0, h1, h2⟩ := h
  obtain ⟨j, hj⟩ := h1.at
  exact ⟨j, s0, hj, hc j s0 hj, h2⟩

section
variable {lv lv' : Nat → Nat → Nat} {cols cols' : List (Column P T H)} {m v : Nat}

theorem HasPredL.ext {k r n : Nat} (h : HasPredL G toks lv cols k r n)
    (hE : Ext G w cols lv m v cols' lv') : HasPredL G toks lv' cols' k r n := by
  intro prod hp
  obtain ⟨j, s0, h1, h2, h3⟩ := h prod hp
  obtain ⟨a, b⟩ := hE.old _ _ _ h1
  exact ⟨j, s0, a, by rw [b]; exact h2, h3⟩

theorem HasAdvL.ext {k n : Nat} {p : State P T} {d : DTree P T} (h : HasAdvL lv cols k p d n)
    (hE : Ext G w cols lv m v cols' lv') : HasAdvL lv' cols' k p d n := by
  obtain ⟨j, s0, h1, h2, h3⟩ := h
  obtain ⟨a, b⟩ := hE.old _ _ _ h1
  exact ⟨j, s0, a, by rw [b]; exact h2, h3⟩
end

/-- everything the main loop owes to the state at position `i` of column `k` once it has been
processed -/
structure LHandled (G : Grammar P T) (toks : List T) (lv : Nat → Nat → Nat)
    (cols : List (Column P T H)) (k i : Nat) (s : State P T) : Prop where
  pred : ∀ r, s.next = some (.rule r) → HasPredL G toks lv cols k r (lv k i + 1)
  scan : ∀ p t, s.next = some (.pred p) → toks[k]? = some t → G.accepts p t = true →
    HasAdvL lv cols (k + 1) s (.leaf p (G.constrain p t)) 0
  comp : s.completed = true → ∀ j p, At cols s.start j p → p.next = some (.rule s.rule) →
    (s.start < k ∨ Early G s.rule p ∨ lv k j ≤ lv k i) → HasAdvL lv cols k p s.dtree (lv k i + 1)

theorem LHandled.ext {lv lv' : Nat → Nat → Nat} {cols cols' : List (Column P T H)} {m v k i : Nat}
    {s : State P T} (h : LHandled G toks lv cols k i s) (hs : At cols k i s) (hle : s.start ≤ k)
    (hE : Ext G w cols lv m v cols' lv') (hm : k ≤ m) (hlt : m = k → lv k i < v)
    (he : ∀ p, m = k → s.start = k → InCol cols' k p → Early G s.rule p → InCol cols k p) :
    LHandled G toks lv' cols' k i s := by
  have hlv := (hE.old _ _ _ hs).2
  refine ⟨fun r hr => ?_, fun p t h1 h2 h3 => (h.scan p t h1 h2 h3).ext hE, ?_⟩
  · rw [hlv]; exact (h.pred r hr).ext hE
  · intro h1 j p hp hn hc
    rw [hlv]
    rcases hE.new _ _ _ hp with a | ⟨a, b, _⟩
    · refine (h.comp h1 j p a hn ?_).ext hE
      by_cases hk : s.start < k
      · exact .inl hk
      · have : s.start = k := by omega
        rcases hc with c | c | c
        · exact .inl c
        · exact .inr (.inl c)
        · right; right
          rw [hlv] at c
          rw [this] at a
          rw [(hE.old _ _ _ a).2] at c
          exact c
    · have hk : s.start = k := by omega
      rcases hc with c | c | c
      · omega
      · have hpc : InCol cols' k p := by rw [← hk]; exact hp.inCol
        obtain ⟨j', hj'⟩ := (he p (by omega) hk hpc c).at
        exact (h.comp h1 j' p (by rw [hk]; exact hj') hn (.inr (.inl c))).ext hE
      · rw [hk] at b
        rw [b, hlv] at c
        have := hlt (by omega)
        omega

theorem early_predict_all (hG : PredictSound G) {cols : List (Column P T H)} (hS : SoundCols G toks cols)
    (hH : HashCols hash cols) (hR : RefCols G cols) (k r ctr : Nat)
    (hr : r = G.start ∨ ∃ p, InCol cols k p ∧ p.next = some (.rule r))
    {s : State P T} (hs : InCol cols k s) (hst : s.start = k) (p : State P T)
    (hp : InCol (Yargy.predict G hash toks k r cols ctr).1 k p) (he : Early G s.rule p) :
    InCol cols k p := by
  have key := predict_induct (M := fun cols' _ => SoundCols G toks cols' ∧ HashCols hash cols' ∧
    RefCols G cols' ∧ InCol cols' k s ∧ (r = G.start ∨ ∃ p, InCol cols' k p ∧ p.next = some (.rule r)) ∧
    ∀ p, InCol cols' k p → Early G s.rule p → InCol cols k p) G hash toks k r cols ctr
    ⟨hS, hH, hR, hs, hr, fun _ h _ => h⟩ ?_
  · exact key.2.2.2.2.2 p hp he
  · rintro cols' ctr' prod rank hpr ⟨a1, a2, a3, a4, a5, a6⟩
    refine ⟨a1.append (StateOK.predictState hG hpr), a2.append _ _, a3.append a5, inCol_mono a4, ?_, ?_⟩
    · rcases a5 with h1 | ⟨q, h1, h2⟩
      · exact .inl h1
      · exact .inr ⟨q, inCol_mono h1, h2⟩
    · intro q hq hqe
      rcases inCol_appendAt hq with h1 | ⟨_, rfl⟩
      · exact a6 q h1 hqe
      · exact a6 _ (early_predict a1 a2 a3 a4 hst hqe k hq) hqe

structure LevInv (G : Grammar P T) (w : Nat → Nat) (toks : List T) (all : Bool) (c : Config P T H)
    (lv : Nat → Nat → Nat) : Prop where
  cols : LevCols G w lv c.cols
  later : ∀ k j, c.k < k → lv k j = 0
  capEnter : c.phase = .enter → ∀ j, lv c.k j = 0
  capAt : ∀ i s, c.phase = .at i → At c.cols c.k i s → Cap lv c.cols c.k (lv c.k i + 1)
  capComplete : ∀ i s j, c.phase = .complete i s j → Cap lv c.cols c.k (lv c.k i + 1)
  entered : ∀ k, Entered c k → (k = 0 ∨ all = true) → HasPredL G toks lv c.cols k G.start 0
  handled : ∀ k i s, At c.cols k i s → Processed c k i → LHandled G toks lv c.cols k i s
  looping : ∀ i s j, c.phase = .complete i s j → ∀ j' p, j' < j →
    (parentsOf c.cols s)[j']? = some p → HasAdvL lv c.cols c.k p s.dtree (lv c.k i + 1)

/-- positions processed in the current column are in rounds up to the current one -/
theorem LevInv.processed_lt {c : Config P T H} {lv : Nat → Nat → Nat} (h : LevInv G w toks all c lv)
    {i0 : Nat} {s0 : State P T} (h0 : At c.cols c.k i0 s0)
    (hph : c.phase = .at i0 ∨ ∃ s j, c.phase = .complete i0 s j)
    {i : Nat} {s : State P T} (hs : At c.cols c.k i s) (hp : Processed c c.k i) :
    i < i0 ∧ lv c.k i < lv c.k i0 + 1 := by
  have hi : i < i0 := by
    rcases hp with hp | ⟨_, hp⟩
    · omega
    · rcases hph with e | ⟨_, _, e⟩ <;> rw [e] at hp <;> exact hp
  have := h.cols.mono _ _ _ _ _ hs h0 (Nat.le_of_lt hi)
  exact ⟨hi, by omega⟩

/-- the general step that deals with position `i` of the current column and appends states to the
current column (round `lv i + 1`) or the next one (round 0) -/
theorem LevInv.next {c : Config P T H} {lv lv' : Nat → Nat → Nat} (hS : SoundInv G toks c)
    (h : LevInv G w toks all c lv) {i m v : Nat} {s : State P T} {cols' : List (Column P T H)}
    (hph : c.phase = .at i ∨ ∃ s j, c.phase = .complete i s j) (hs : At c.cols c.k i s)
    (hE : Ext G w c.cols lv m v cols' lv')
    (hm : (m = c.k ∧ v = lv c.k i + 1) ∨ (m = c.k + 1 ∧ v = 0 ∧ lv' = lv))
    (he : ∀ s p, m = c.k → InCol c.cols c.k s → s.start = c.k → InCol cols' c.k p → Early G s.rule p →
      InCol c.cols c.k p) :
    LevCols G w lv' cols' ∧ (∀ k j, c.k < k → lv' k j = 0) ∧ Cap lv' cols' c.k (lv' c.k i + 1) ∧
    (∀ k, Entered c k → (k = 0 ∨ all = true) → HasPredL G toks lv' cols' k G.start 0) ∧
    (∀ k i s, At cols' k i s → Processed c k i → LHandled G toks lv' cols' k i s) := by
  have hcap : Cap lv c.cols c.k (lv c.k i + 1) := by
    rcases hph with e | ⟨_, _, e⟩
    · exact h.capAt i s e hs
    · exact h.capComplete i _ _ e
  have hcapm : Cap lv c.cols m v := by
    rcases hm with ⟨rfl, rfl⟩ | ⟨rfl, rfl, _⟩
    · exact hcap
    · intro j s _; rw [h.later _ _ (Nat.lt_succ_self _)]; exact Nat.le_refl 0
  obtain ⟨a, b⟩ := h.cols.ext hcapm hE
  have hlvi := (hE.old _ _ _ hs).2
  refine ⟨a, ?_, ?_, fun k h1 h2 => (h.entered k h1 h2).ext hE, ?_⟩
  · intro k j hk
    rcases hm with ⟨rfl, rfl⟩ | ⟨rfl, rfl, e⟩
    · rw [hE.off k j (by omega)]; exact h.later k j hk
    · rw [e]; exact h.later k j hk
  · rcases hm with ⟨rfl, rfl⟩ | ⟨rfl, rfl, e⟩
    · rw [hlvi]; exact b
    · intro j s' hs'
      rcases hE.new _ _ _ hs' with h1 | ⟨h1, _⟩
      · rw [e]; exact hcap j s' h1
      · omega
  · intro k i' s' hs' hp
    have hle := processed_le hp
    have hold : At c.cols k i' s' := by
      rcases hE.new _ _ _ hs' with h1 | ⟨h1, h2, h3, _⟩
      · exact h1
      · exfalso
        have hk : k = c.k := by rcases hm with hm | hm <;> omega
        subst hk
        have h4 := h3 _ _ hs
        rcases hp with hp | ⟨_, hp⟩
        · omega
        · rcases hph with e | ⟨_, _, e⟩ <;> rw [e] at hp <;> dsimp only at hp <;> omega
    refine (h.handled k i' s' hold hp).ext hold (hS.states _ _ hold.inCol).le hE ?_ ?_ ?_
    · rcases hm with hm | hm <;> omega
    · intro hmk
      subst hmk
      rcases hm with ⟨hm, rfl⟩ | hm
      · rw [hm] at hold hp ⊢
        exact (h.processed_lt hs hph hold hp).2
      · omega
    · intro p hmk hst hpc hpe
      subst hmk
      rcases hm with ⟨hm, rfl⟩ | hm
      · rw [hm] at hold hst hpc ⊢
        exact he s' p hm hold.inCol hst hpc hpe
      · omega

theorem LevInv.at_next {c : Config P T H} {lv' : Nat → Nat → Nat} {i : Nat} {s : State P T}
    {cols' : List (Column P T H)} {ctr' : Nat}
    (hph : c.phase = .at i ∨ ∃ s j, c.phase = .complete i s j) (hs : At cols' c.k i s)
    (h : LevCols G w lv' cols' ∧ (∀ k j, c.k < k → lv' k j = 0) ∧ Cap lv' cols' c.k (lv' c.k i + 1) ∧
    (∀ k, Entered c k → (k = 0 ∨ all = true) → HasPredL G toks lv' cols' k G.start 0) ∧
    (∀ k i s, At cols' k i s → Processed c k i → LHandled G toks lv' cols' k i s))
    (hnew : LHandled G toks lv' cols' c.k i s) :
    LevInv G w toks all ⟨cols', ctr', c.k, .at (i + 1)⟩ lv' := by
  obtain ⟨h1, h2, h3, h4, h5⟩ := h
  refine ⟨h1, h2, by simp, ?_, by simp, ?_, ?_, by simp⟩
  · intro i' s' e hs' j s0 hs0
    cases e
    have := h3 j s0 hs0
    have := h1.mono _ _ _ _ _ hs hs' (Nat.le_succ i)
    dsimp only
    omega
  · intro k hk hall
    refine h4 k ?_ hall
    rcases hk with hk | ⟨hk, _⟩
    · exact .inl hk
    · refine .inr ⟨hk, ?_⟩
      rcases hph with e | ⟨_, _, e⟩ <;> rw [e] <;> simp
  · intro k i' s' hs' hp
    rcases hp with hp | ⟨hp, hp2⟩
    · exact h5 k i' s' hs' (.inl hp)
    · dsimp only at hp hp2
      subst hp
      by_cases he : i' = i
      · subst he
        cases hs.unique hs'
        exact hnew
      · refine h5 _ i' s' hs' (.inr ⟨rfl, ?_⟩)
        rcases hph with e | ⟨_, _, e⟩ <;> rw [e] <;> dsimp only <;> omega

theorem LHandled.of_next {lv : Nat → Nat → Nat} {cols : List (Column P T H)} {k i : Nat} {s : State P T}
    {x : Term P} (hx : s.next = some x)
    (h1 : ∀ r, x = .rule r → HasPredL G toks lv cols k r (lv k i + 1))
    (h2 : ∀ p t, x = .pred p → toks[k]? = some t → G.accepts p t = true →
      HasAdvL lv cols (k + 1) s (.leaf p (G.constrain p t)) 0) : LHandled G toks lv cols k i s := by
  refine ⟨fun r hr => h1 r (by rw [hx] at hr; exact Option.some.inj hr),
    fun p t hp => h2 p t (by rw [hx] at hp; exact Option.some.inj hp), ?_⟩
  intro hc
  rw [State.not_completed_of_next hx] at hc
  cases hc

theorem levInv_trans (hG : PredictSound G) (hD : DistinctProductions G) (hw : Waits G w)
    (hh : ∀ a b, hash a = hash b → a = b) (c c' : Config P T H)
    (ht : Trans G hash toks all c c') (hF : FullInv G hash toks all c) (lv : Nat → Nat → Nat)
    (h : LevInv G w toks all c lv) : ∃ lv', LevInv G w toks all c' lv' := by
  obtain ⟨hS, hI, hH, hR, hC⟩ := hF
  cases ht with
  | @enterPredict cols ctr k hk =>
    obtain ⟨lv', hE⟩ := Ext.predict (hash := hash) (G := G) (w := w) (toks := toks) k G.start cols lv ctr 0
      (fun e => absurd rfl e)
    have hcap : Cap lv cols k 0 := fun j s _ => Nat.le_of_eq (h.capEnter rfl j)
    obtain ⟨a, b⟩ := h.cols.ext hcap hE
    have hp := hasPred_predict hG hD hh hS.cols hH hS.pos G.start ctr
    refine ⟨lv', a, ?_, by simp, ?_, by simp, ?_, ?_, by simp⟩
    · intro k' j hk'
      dsimp only at hk'
      rw [hE.off k' j (by omega)]; exact h.later k' j hk'
    · intro i s e hs j s' hs'
      exact Nat.le_trans (b j s' hs') (Nat.zero_le _)
    · intro k' h1 h2
      rcases h1 with h1 | ⟨h1, _⟩
      · exact (h.entered k' (.inl h1) h2).ext hE
      · dsimp only at h1; subst h1; exact hp.level b
    · intro k' i s hs hp'
      rcases hp' with hp' | ⟨_, hp'⟩
      · dsimp only at hp'
        rcases hE.new _ _ _ hs with h1 | ⟨h1, _⟩
        · refine (h.handled k' i s h1 (.inl hp')).ext h1 (hS.states _ _ h1.inCol).le hE (by omega)
            (fun e => by omega) (fun p e => by omega)
        · omega
      · dsimp only at hp'; omega
  | @enterSkip cols ctr k hk =>
    refine ⟨lv, h.cols, h.later, by simp, ?_, by simp, ?_, ?_, by simp⟩
    · intro i s e hs j s' hs'
      have := h.capEnter rfl j
      dsimp only at this ⊢
      omega
    · intro k' h1 h2
      rcases h1 with h1 | ⟨h1, _⟩
      · exact h.entered k' (.inl h1) h2
      · dsimp only at h1; subst h1; exact absurd h2 hk
    · intro k' i s hs hp'
      rcases hp' with hp' | ⟨_, hp'⟩
      · exact h.handled k' i s hs (.inl hp')
      · dsimp only at hp'; omega
  | @nextColumn cols ctr k i hn hk =>
    have hend : ∀ j s, At cols k j s → j < i := by
      rintro j s ⟨col, h1, h2⟩
      rw [h1] at hn
      have h3 : col.states.length ≤ i := by simpa using hn
      have := (List.getElem?_eq_some_iff.1 h2).1
      omega
    refine ⟨lv, h.cols, fun k' j hk' => h.later k' j (by dsimp only at hk' ⊢; omega),
      fun _ j => h.later (k + 1) j (Nat.lt_succ_self k), by simp, by simp, ?_, ?_, by simp⟩
    · intro k' h1 h2
      rcases h1 with h1 | ⟨_, h1⟩
      · dsimp only at h1
        by_cases he : k' = k
        · exact h.entered k' (.inr ⟨he, by simp⟩) h2
        · exact h.entered k' (.inl (by dsimp only; omega)) h2
      · simp at h1
    · intro k' i' s hs hp'
      rcases hp' with hp' | ⟨_, hp'⟩
      · dsimp only at hp'
        by_cases he : k' = k
        · subst he
          exact h.handled _ i' s hs (.inr ⟨rfl, hend i' s hs⟩)
        · exact h.handled k' i' s hs (.inl (by dsimp only; omega))
      · exact absurd hp' (by simp)
  | @finish cols ctr k i hn hk =>
    have hend : ∀ j s, At cols k j s → j < i := by
      rintro j s ⟨col, h1, h2⟩
      rw [h1] at hn
      have h3 : col.states.length ≤ i := by simpa using hn
      have := (List.getElem?_eq_some_iff.1 h2).1
      omega
    refine ⟨lv, h.cols, h.later, by simp, by simp, by simp, ?_, ?_, by simp⟩
    · intro k' h1 h2
      rcases h1 with h1 | ⟨h1, _⟩
      · exact h.entered k' (.inl h1) h2
      · exact h.entered k' (.inr ⟨h1, by simp⟩) h2
    · intro k' i' s hs hp'
      rcases hp' with hp' | ⟨hp', _⟩
      · exact h.handled k' i' s hs (.inl hp')
      · dsimp only at hp'
        subst hp'
        exact h.handled _ i' s hs (.inr ⟨rfl, hend i' s hs⟩)
  | @startComplete cols ctr k i col s hc hs hcomp =>
    refine ⟨lv, h.cols, h.later, by simp, by simp, ?_, ?_, ?_, ?_⟩
    · intro i' s' j' e
      simp only [Phase.complete.injEq] at e
      obtain ⟨rfl, rfl, _⟩ := e
      exact h.capAt _ _ rfl ⟨col, hc, hs⟩
    · intro k' h1 h2
      rcases h1 with h1 | ⟨h1, _⟩
      · exact h.entered k' (.inl h1) h2
      · exact h.entered k' (.inr ⟨h1, by simp⟩) h2
    · intro k' i' s' hs' hp'
      exact h.handled k' i' s' hs' hp'
    · intro i' s' j' e j'' p hj
      simp only [Phase.complete.injEq] at e
      omega
  | @predictRule cols ctr k i col s r hc hs hr =>
    have hat : At cols k i s := ⟨col, hc, hs⟩
    have hwr : w r ≤ lv k i := h.cols.waiter hw hS.cols hat hr
    obtain ⟨lv', hE⟩ := Ext.predict (hash := hash) (G := G) (w := w) (toks := toks) k r cols lv ctr
      (lv k i + 1) (fun _ => by omega)
    have hp := hasPred_predict hG hD hh hS.cols hH hS.pos r ctr
    have hN := h.next hS (m := k) (.inl rfl) hat hE (.inl ⟨rfl, rfl⟩) (fun s' p _ h1 h2 h3 h4 =>
      early_predict_all hG hS.cols hH hR k r ctr (.inr ⟨s, hat.inCol, hr⟩) h1 h2 p h3 h4)
    refine ⟨lv', LevInv.at_next (c := ⟨cols, ctr, k, .at i⟩) (.inl rfl) (hE.old _ _ _ hat).1 hN ?_⟩
    exact LHandled.of_next hr (fun r' e => by cases e; exact hp.level hN.2.2.1) (fun p t e => by cases e)
  | @scanAccept cols ctr k i col s p t hc hs hn ht ha =>
    have hat : At cols k i s := ⟨col, hc, hs⟩
    have hlen : k + 1 < cols.length := by
      have h1 := (List.getElem?_eq_some_iff.1 ht).1
      have h2 := hS.len
      dsimp only at h2; omega
    have hsle := (hS.states _ _ hat.inCol).le
    obtain ⟨lv0, hE0⟩ := Ext.append (hash := hash) (G := G) (w := w) cols lv (k + 1) 0
      (scanState G k p t s ctr) (fun e => by
        have : s.start = k + 1 := e
        omega) (fun d R e hd => by
        have e1 : s.dot + 1 = d + 1 := e
        have e2 : s.dot = d := by omega
        subst e2
        unfold State.next at hn
        have hd' : s.prod.terms[s.dot]? = some (.rule R) := hd
        rw [hn] at hd'; cases hd')
    have hE : Ext G w cols lv (k + 1) 0 (appendAt hash cols (k + 1) (scanState G k p t s ctr)) lv := by
      refine ⟨fun k' j' s' hs' => ⟨(hE0.old _ _ _ hs').1, rfl⟩, ?_, fun _ _ _ => rfl⟩
      intro k' j' s' hs'
      rcases hE0.new _ _ _ hs' with a | ⟨a, b, d⟩
      · exact .inl a
      · exact .inr ⟨a, by subst a; exact h.later _ _ (Nat.lt_succ_self k), d⟩
    have hN := h.next hS (m := k + 1) (.inl rfl) hat hE (.inr ⟨rfl, rfl, rfl⟩)
      (fun s' p' e => absurd e (by dsimp only; omega))
    refine ⟨lv, LevInv.at_next (c := ⟨cols, ctr, k, .at i⟩) (.inl rfl) (hE.old _ _ _ hat).1 hN ?_⟩
    refine LHandled.of_next hn (fun r' e => by cases e) ?_
    intro p' t' e ht' _
    cases e
    rw [ht] at ht'; cases ht'
    exact (hasAdv_scan hh hH hI hlen).level
      (fun j s' _ => Nat.le_of_eq (h.later (k + 1) j (Nat.lt_succ_self k)))
  | @scanReject cols ctr k i col s p hc hs hn hrej =>
    have hat : At cols k i s := ⟨col, hc, hs⟩
    have hN := h.next hS (m := k) (v := lv k i + 1) (.inl rfl) hat .refl (.inl ⟨rfl, rfl⟩)
      (fun s' p _ h1 h2 h3 h4 => h3)
    refine ⟨lv, LevInv.at_next (c := ⟨cols, ctr, k, .at i⟩) (.inl rfl) hat hN ?_⟩
    refine LHandled.of_next hn (fun r' e => by cases e) ?_
    intro p' t' e ht' ha
    cases e
    rw [hrej t' ht'] at ha; cases ha
  | @completeNext cols ctr k i s j p hp =>
    obtain ⟨h1, h2⟩ := hS.phase i s j rfl
    obtain ⟨col, hc, hs⟩ := hC.posComplete i s j rfl
    have hat : At cols k i s := ⟨col, hc, hs⟩
    have hok := hS.states _ _ h1
    obtain ⟨h3, h4⟩ := hS.cols.mem_parents (List.mem_of_getElem? hp)
    have hpok := hS.states _ _ h3
    have hnew : StateOK G toks k (completeState k s p ctr) :=
      hpok.advance h4 hok.le (hok.derives_node h2) _
    have hadv := hasAdv_complete hD hh hS.cols hH hI hS.pos h1 h3 hnew
    have hcap := h.capComplete i s j rfl
    obtain ⟨lv', hE⟩ := Ext.append (hash := hash) (G := G) (w := w) cols lv k (lv k i + 1)
      (completeState k s p ctr) (fun e hne => by
        have e1 : p.start = k := e
        have e2 : s.start = k := by
          have := hpok.le
          have := hok.le
          dsimp only at *
          omega
        dsimp only at h3
        rw [e2] at h3
        obtain ⟨jp, hjp⟩ := h3.at
        have a1 := h.cols.born k jp p hjp e1 hne
        have a2 := hcap jp p hjp
        have a3 : (completeState k s p ctr).rule = p.rule := rfl
        dsimp only at a1 a2
        rw [a3]
        omega) (fun d R _ _ => by omega)
    have hN := h.next hS (m := k) (.inr ⟨s, j, rfl⟩) hat hE (.inl ⟨rfl, rfl⟩) (fun s' p' _ _ _ g3 g4 => by
      rcases inCol_appendAt g3 with g5 | ⟨_, rfl⟩
      · exact g5
      · exact absurd g4 not_early_complete)
    obtain ⟨n1, n2, n3, n4, n5⟩ := hN
    refine ⟨lv', n1, n2, by simp, by simp, ?_, ?_, ?_, ?_⟩
    · intro i' s' j' e
      simp only [Phase.complete.injEq] at e
      obtain ⟨rfl, rfl, _⟩ := e
      exact n3
    · intro k' g1 g2
      refine n4 k' ?_ g2
      rcases g1 with g1 | ⟨g1, _⟩
      · exact .inl g1
      · exact .inr ⟨g1, by simp⟩
    · intro k' i' s' hs' hp'
      exact n5 k' i' s' hs' hp'
    · intro i' s' j' e j'' p' hj hp'
      simp only [Phase.complete.injEq] at e
      obtain ⟨rfl, rfl, rfl⟩ := e
      have hlen : j'' < (parentsOf cols s).length := by
        have := (List.getElem?_eq_some_iff.1 hp).1
        omega
      obtain ⟨l, hl⟩ := parentsOf_prefix (hash := hash) cols k (completeState k s p ctr) s
      dsimp only at hp'
      rw [← hl, List.getElem?_append_left hlen] at hp'
      by_cases he : j'' = j
      · subst he
        rw [hp] at hp'; cases hp'
        exact hadv.level n3
      · have := (h.looping i s j rfl j'' p' (by omega) hp').ext hE
        rw [(hE.old _ _ _ hat).2]
        exact this
  | @completeEnd cols ctr k i s j hp =>
    obtain ⟨col, hc, hs⟩ := hC.posComplete i s j rfl
    have hat : At cols k i s := ⟨col, hc, hs⟩
    obtain ⟨h1, h2⟩ := hS.phase i s j rfl
    have hN := h.next hS (m := k) (v := lv k i + 1) (.inr ⟨s, j, rfl⟩) hat .refl (.inl ⟨rfl, rfl⟩)
      (fun s' p _ h1 h2 h3 h4 => h3)
    refine ⟨lv, LevInv.at_next (c := ⟨cols, ctr, k, .complete i s j⟩) (.inr ⟨s, j, rfl⟩) hat hN ?_⟩
    have hnone : s.next = none := by
      unfold State.next
      rw [List.getElem?_eq_none_iff]
      simpa [State.completed] using h2
    refine ⟨by simp [hnone], by simp [hnone], ?_⟩
    intro _ jp p hpc hpn _
    have hm := hH.mem_parentsOf hpc.inCol hpn
    obtain ⟨j', hj'⟩ := List.getElem?_of_mem hm
    have hjl : j' < j := by
      have h5 := (List.getElem?_eq_some_iff.1 hj').1
      have h6 := List.getElem?_eq_none_iff.1 hp
      dsimp only at h5
      omega
    exact h.looping i s j rfl j' p hjl hj'
  | @done cols ctr k =>
    exact ⟨lv, h.cols, h.later, by simp, by simp, by simp, h.entered, h.handled, by simp⟩

theorem levInv_init : LevInv (H := H) G w toks all (initConfig toks) (fun _ _ => 0) := by
  have hno : ∀ k j s, ¬ At (initConfig (P := P) (H := H) toks).cols k j s :=
    fun k j s h => not_inCol_init h.inCol
  refine ⟨⟨?_, ?_, ?_⟩, fun _ _ _ => rfl, fun _ _ => rfl, ?_, ?_, ?_, ?_, ?_⟩
  · exact fun k j j' s s' h => absurd h (hno _ _ _)
  · exact fun k j s h => absurd h (hno _ _ _)
  · exact fun k j s d R h => absurd h (hno _ _ _)
  · exact fun i s _ h => absurd h (hno _ _ _)
  · simp [initConfig]
  · intro k h
    rcases h with h | ⟨_, h⟩
    · simp [initConfig] at h
    · simp [initConfig] at h
  · exact fun k i s h => absurd h (hno _ _ _)
  · simp [initConfig]

theorem levInv_runN (hG : PredictSound G) (hD : DistinctProductions G) (hw : Waits G w)
    (hh : ∀ a b, hash a = hash b → a = b) (n : Nat) :
    ∃ lv, LevInv G w toks all (runN G hash toks all n) lv := by
  have : FullInv G hash toks all (runN G hash toks all n) ∧
      ∃ lv, LevInv G w toks all (runN G hash toks all n) lv := by
    refine runN_induct (M := fun c => FullInv G hash toks all c ∧ ∃ lv, LevInv G w toks all c lv)
      G hash toks all ?_ ?_ n
    · exact ⟨⟨soundInv_init, idCols_init, hashCols_init, refCols_init, closInv_init⟩, _, levInv_init⟩
    · rintro c c' ht ⟨h, lv, hl⟩
      exact ⟨⟨soundInv_trans hG _ _ ht h.sound, idCols_trans hG _ _ ht h.sound h.ids,
        hashCols_trans _ _ ht h.hashes, refCols_trans hG _ _ ht h.sound h.refs,
        closInv_trans hG hD hh _ _ ht h.sound h.ids h.hashes h.refs h.clos⟩,
        levInv_trans hG hD hw hh _ _ ht h lv hl⟩
  exact this.2

/-- a finished chart -/
structure LClosed (G : Grammar P T) (w : Nat → Nat) (toks : List T) (all : Bool)
    (lv : Nat → Nat → Nat) (cols : List (Column P T H)) : Prop where
  sound : SoundCols G toks cols
  levels : LevCols G w lv cols
  start : ∀ k, k ≤ toks.length → (k = 0 ∨ all = true) → HasPredL G toks lv cols k G.start 0
  handled : ∀ k i s, At cols k i s → LHandled G toks lv cols k i s

theorem lclosed_of_done (hG : PredictSound G) (hD : DistinctProductions G) (hw : Waits G w)
    (hh : ∀ a b, hash a = hash b → a = b) {n : Nat}
    (hd : (runN G hash toks all n).phase = .done) :
    ∃ lv, LClosed G w toks all lv (runN G hash toks all n).cols := by
  have hF := fullInv_runN (all := all) (toks := toks) hG hD hh n
  obtain ⟨lv, h⟩ := levInv_runN (all := all) (toks := toks) hG hD hw hh n
  have hk := hF.clos.finished hd
  have hl := hF.sound.len
  refine ⟨lv, hF.sound.cols, h.cols, ?_, ?_⟩
  · intro k hkl hall
    refine h.entered k ?_ hall
    by_cases he : k = (runN G hash toks all n).k
    · exact .inr ⟨he, by rw [hd]; simp⟩
    · exact .inl (by omega)
  · intro k i s hs
    refine h.handled k i s hs ?_
    obtain ⟨col, hc, _⟩ := hs
    have hkl := (List.getElem?_eq_some_iff.1 hc).1
    by_cases he : k = (runN G hash toks all n).k
    · exact .inr ⟨he, by rw [hd]; trivial⟩
    · exact .inl (by omega)

theorem head_accepts {w : Nat → Nat} {xs : List (Term P)} {b : Before P} {i j n n' : Nat}
    {cs : List (DTree P T)} {t : T}
    (h : DerivesAllRounds G w toks b xs i j n n' cs) (ht : toks[i]? = some t) :
    ∀ p, xs.head? = some (.pred p) → G.accepts p t = true := by
  intro p hp
  cases xs with
  | nil => simp at hp
  | cons x xs =>
    simp only [List.head?_cons, Option.some.injEq] at hp
    subst hp
    cases h with
    | consLeaf h1 h2 =>
      cases h1 with
      | leaf h3 h4 => rw [ht] at h3; cases h3; exact h4

theorem drop_next {s : State P T} {x : Term P} {xs : List (Term P)}
    (hdrop : s.prod.terms.drop s.dot = x :: xs) :
    s.next = some x ∧ s.prod.terms.drop (s.dot + 1) = xs := by
  constructor
  · unfold State.next
    have : s.prod.terms[s.dot]? = (s.prod.terms.drop s.dot)[0]? := by simp
    rw [this, hdrop]; rfl
  · have : s.prod.terms.drop (s.dot + 1) = (s.prod.terms.drop s.dot).drop 1 := by
      rw [List.drop_drop]
    rw [this, hdrop]; rfl

/-- a finished state -/
def Found (lv : Nat → Nat → Nat) (cols : List (Column P T H)) (r i j n : Nat) (d : DTree P T) : Prop :=
  ∃ q s, At cols j q s ∧ lv j q ≤ n ∧ s.completed = true ∧ s.rule = r ∧ s.start = i ∧ s.dtree = d

/-- the state `s` advanced over `m` terms -/
def Moved (lv : Nat → Nat → Nat) (cols : List (Column P T H)) (s : State P T) (m j n : Nat)
    (ds : List (DTree P T)) : Prop :=
  ∃ q s', At cols j q s' ∧ lv j q ≤ n ∧ s'.dot = s.dot + m ∧ s'.rule = s.rule ∧ s'.start = s.start ∧
    s'.prod = s.prod ∧ s'.children.map PTree.erase = s.children.map PTree.erase ++ ds

theorem Moved.after {lv : Nat → Nat → Nat} {cols : List (Column P T H)} {s : State P T} {xs : List (Term P)}
    {x : Term P} {i j n m : Nat} {d : DTree P T} {ds : List (DTree P T)} {rest : List (Term P)}
    (hadv : HasAdvL lv cols i s d m) (hdrop : s.prod.terms.drop s.dot = (x :: xs) ++ rest)
    (h : ∀ q s0, At cols i q s0 → lv i q ≤ m → s0.children.map PTree.erase =
        s.children.map PTree.erase ++ [d] → s0.prod.terms.drop s0.dot = xs ++ rest →
      Moved lv cols s0 xs.length j n ds) : Moved lv cols s (x :: xs).length j n (d :: ds) := by
  obtain ⟨_, hdrop'⟩ := drop_next hdrop
  obtain ⟨q0, s0, a0, al, a2, a3, a4, a5, a6⟩ := hadv
  obtain ⟨q, s', g0, gl, g2, g3, g4, g5, g6⟩ := h q0 s0 a0 al a6 (by rw [a3, a4]; exact hdrop')
  refine ⟨q, s', g0, gl, by rw [g2, a4, List.length_cons]; omega, by rw [g3, a2], by rw [g4, a5],
    by rw [g5, a3], ?_⟩
  rw [g6, a6]; simp

/-- Completeness of a closed chart. -/
theorem closed_rounds (hL : PredictLossless G) {lv : Nat → Nat → Nat} {cols : List (Column P T H)}
    (hC : LClosed G w toks all lv cols) {x : Term P} {i j n n' : Nat} {d : DTree P T}
    (h : DerivesRounds G w toks x i j n n' d) :
    ∀ r, x = .rule r → HasPredL G toks lv cols i r n → Found lv cols r i j n' d := by
  refine DerivesRounds.rec
    (motive_1 := fun x i j n n' d _ => ∀ r, x = .rule r → HasPredL G toks lv cols i r n →
      Found lv cols r i j n' d)
    (motive_2 := fun b xs i j n n' ds _ => ∀ q s rest, At cols i q s → lv i q ≤ n →
      s.prod.terms.drop s.dot = xs ++ rest → CtxOK b s → Moved lv cols s xs.length j n' ds)
    ?_ ?_ ?_ ?_ ?_ h
  · intro p i t n _ _ r hr; cases hr
  · intro r i j n n' prod cs hprod hall ih r' hr hpred
    cases hr
    have hmem : prod ∈ predicted G toks i r := by
      unfold predicted
      cases ht : toks[i]? with
      | none => exact hprod
      | some t => exact hL _ _ _ hprod (head_accepts hall ht)
    obtain ⟨q0, s0, h1, hl, h2, h3, h4, h5, h6⟩ := hpred prod hmem
    obtain ⟨q, s', g1, gl, g2, g3, g4, g5, g6⟩ := ih q0 s0 [] h1 hl (by rw [h3, h4]; simp) ⟨h2, h3, h4⟩
    refine ⟨q, s', g1, gl, ?_, by rw [g3, h2], by rw [g4, h5], ?_⟩
    · simp [State.completed, g5, h3, g2]
    · rw [s'.dtree_eq, g3, g5, g6, h2, h3, h6]; rfl
  · intro b i n q s rest hs hl hdrop _
    exact ⟨q, s, hs, hl, rfl, rfl, rfl, rfl, by simp⟩
  · intro b p xs i j k n m n' t ts hx hxs ih1 ih2 q s rest hs hl hdrop _
    obtain ⟨hnext, hdrop'⟩ := drop_next hdrop
    cases hx with
    | @leaf p i t n h1 h2 =>
    refine Moved.after ((hC.handled _ _ _ hs).scan _ _ hnext h1 h2) hdrop ?_
    intro q0 s0 a0 al a6 hd
    refine ih2 q0 s0 rest a0 al hd ?_
    have hlen := congrArg List.length a6
    simp only [List.length_map, List.length_append, List.length_cons, List.length_nil] at hlen
    rcases List.eq_nil_or_concat s0.children with hn | ⟨cs, c, hcs⟩
    · rw [hn] at hlen; simp at hlen
    · rw [hcs] at a6
      simp only [List.concat_eq_append, List.map_append, List.map_cons, List.map_nil] at a6
      have := (List.append_inj' a6 rfl).2
      simp only [List.cons.injEq, and_true] at this
      obtain ⟨l, rfl⟩ := erase_leaf this
      exact ⟨cs, l, p, G.constrain p t, by rw [hcs]; simp⟩
  · intro b r xs i j k n m n' t ts hx hij hxs ih1 ih2 q s rest hs hl hdrop hctx
    obtain ⟨hnext, hdrop'⟩ := drop_next hdrop
    have hH := hC.handled _ _ _ hs
    have hpr : HasPredL G toks lv cols i r (n + 1) := by
      intro prod hp
      obtain ⟨j, s0, a, b, c⟩ := hH.pred _ hnext prod hp
      exact ⟨j, s0, a, by omega, c⟩
    obtain ⟨q1, s1, g1, gl, g2, g3, g4, g5⟩ := ih1 _ rfl hpr
    have hadv := (hC.handled _ _ _ g1).comp g2 q s (by rw [g4]; exact hs) (by rw [g3]; exact hnext) (by
      have hle := (hC.sound.states _ _ g1.inCol).le
      rw [g4] at hle ⊢
      by_cases hlt : i < j
      · exact .inl hlt
      · have hij' : i = j := by omega
        subst hij'
        right
        rcases hij with hij | hij | hij | ⟨hij1, hij2⟩
        · omega
        · left; rw [g3]; exact hctx.early hij
        · right; omega
        · right
          have := hC.levels.born _ _ _ g1 g4 (by rw [g3]; exact hij1)
          rw [g3] at this
          omega)
    rw [g5] at hadv
    have hadv' : HasAdvL lv cols j s t (m + 1) := by
      obtain ⟨j', s0, a, b, c⟩ := hadv
      exact ⟨j', s0, a, by omega, c⟩
    refine Moved.after hadv' hdrop ?_
    intro q0 s0 a0 al _ hd
    exact ih2 q0 s0 rest a0 al hd trivial

end Rounds

/-- Derivations with empty parts only at the places of `EmptyOK` are a special case. -/
theorem _root_.Yargy.Spec.DerivesSafe.rounds {P T : Type} {G : Grammar P T} {toks : List T} {x : Term P}
    {i j : Nat} {d : DTree P T} (h : DerivesSafe G toks x i j d) (w : Nat → Nat) :
    ∀ n, ∃ n', DerivesRounds G w toks x i j n n' d := by
  refine DerivesSafe.rec
    (motive_1 := fun x i j d _ => ∀ n, ∃ n', DerivesRounds G w toks x i j n n' d)
    (motive_2 := fun b xs i j ds _ => ∀ n, ∃ n', DerivesAllRounds G w toks b xs i j n n' ds)
    ?_ ?_ ?_ ?_ ?_ h
  · intro p i t h1 h2 n
    exact ⟨0, .leaf h1 h2⟩
  · intro r i j prod cs hp _ ih n
    obtain ⟨n', h⟩ := ih n
    exact ⟨n', .node hp h⟩
  · intro b i n
    exact ⟨n, .nil⟩
  · intro b p xs i j k t ts _ _ ih1 ih2 n
    obtain ⟨m, h1⟩ := ih1 n
    obtain ⟨n', h2⟩ := ih2 0
    exact ⟨n', .consLeaf h1 h2⟩
  · intro b r xs i j k t ts _ hij _ ih1 ih2 n
    obtain ⟨m, h1⟩ := ih1 (n + 1)
    obtain ⟨n', h2⟩ := ih2 (m + 1)
    refine ⟨n', .consNode h1 ?_ h2⟩
    rcases hij with hij | hij
    · exact .inl hij
    · exact .inr (.inl hij)

theorem waits_zero {P T : Type} (G : Grammar P T) : Waits G (fun _ => 0) :=
  fun _ _ _ _ => ⟨fun _ => ⟨Nat.zero_le _, fun _ => rfl⟩, fun _ _ => ⟨Nat.zero_le _, fun _ _ => rfl⟩⟩

section
variable {P T : Type} {G : Grammar P T} {toks : List T} {B : Bounds}

theorem within_some {n : Nat} {o : Option Nat} (h : ∀ m, o = some m → n ≤ m) : Within (some n) o :=
  fun m e => ⟨n, rfl, h m e⟩

theorem _root_.Yargy.Spec.Within.le {n m : Nat} (h : Within (some n) (some m)) : n ≤ m := by
  obtain ⟨n', e, h'⟩ := h m rfl
  cases e; exact h'

theorem _root_.Yargy.Spec.Within.trans {a b c : Option Nat} (h : Within a b) (h' : Within b c) : Within a c := by
  intro m hm
  obtain ⟨n, e, hn⟩ := h' m hm
  obtain ⟨n', e', hn'⟩ := h n e
  exact ⟨n', e', by omega⟩

theorem _root_.Yargy.Spec.Within.succ {a b : Option Nat} (h : Within a b) : Within (a.map (· + 1)) (b.map (· + 1)) := by
  intro m hm
  obtain ⟨k, hk, rfl⟩ := Option.map_eq_some_iff.1 hm
  obtain ⟨n, e, hn⟩ := h k hk
  exact ⟨n + 1, by rw [e]; rfl, by omega⟩

/-- All derivations of such a grammar are of the kind the parser finds. -/
theorem derives_rounds (hB : EmptiesFound G B) {x : Term P} {i j : Nat} {d : DTree P T}
    (h : Derives G toks x i j d) :
    i ≤ j ∧ (∀ r, x = .rule r → B.live r → (i = j → B.null r) ∧
      ∀ n, Within (some n) (B.begins r) →
        ∃ n', DerivesRounds G B.waits toks x i j n n' d ∧ Within (some n') (B.ends r)) := by
  refine Derives.rec
    (motive_1 := fun x i j d _ => (∃ p, x = .pred p ∧ i + 1 = j ∧ ∀ n, DerivesRounds G B.waits toks x i j n 0 d) ∨
      (∃ r, x = .rule r) ∧ i ≤ j ∧ (∀ r, x = .rule r → B.live r → (i = j → B.null r) ∧
      ∀ n, Within (some n) (B.begins r) →
        ∃ n', DerivesRounds G B.waits toks x i j n n' d ∧ Within (some n') (B.ends r)))
    (motive_2 := fun xs i j ds _ => i ≤ j ∧ ∀ b c n, B.Places G.start c xs → Within (some n) c →
      (i = j → ∀ x ∈ xs, ∃ r', x = .rule r' ∧ B.null r') ∧
      ∃ n', DerivesAllRounds G B.waits toks b xs i j n n' ds ∧ Within (some n') (B.pass c xs))
    ?_ ?_ ?_ ?_ h |> fun hh => ?_
  · rcases hh with ⟨p, rfl, hij, _⟩ | ⟨_, hij, hh⟩
    · exact ⟨by omega, fun r e => by cases e⟩
    · exact ⟨hij, hh⟩
  · intro p i t h1 h2
    exact .inl ⟨p, rfl, rfl, fun n => .leaf h1 h2⟩
  · intro r i j prod cs hp _ ih
    refine .inr ⟨⟨r, rfl⟩, ih.1, ?_⟩
    intro r' e hl
    cases e
    obtain ⟨p1, p2⟩ := hB.places r prod hl hp
    refine ⟨fun hij => ?_, fun n hn => ?_⟩
    · cases hb : B.begins r with
      | none => exact hB.null r prod hl hp ((ih.2 .subtree _ 0 p1 (by rw [hb]; intro m e; cases e)).1 hij)
      | some m =>
        exact hB.null r prod hl hp ((ih.2 .subtree _ 0 p1 (by
          rw [hb]; exact within_some (fun _ _ => Nat.zero_le _))).1 hij)
    · obtain ⟨_, n', h1, h2⟩ := ih.2 (.nothing r prod) _ n p1 hn
      exact ⟨n', .node hp h1, h2.trans p2⟩
  · intro i
    refine ⟨Nat.le_refl i, fun b c n _ hn => ⟨fun _ x hx => absurd hx (by simp), n, .nil, hn⟩⟩
  · intro x xs i j k t ts _ _ ih1 ih2
    rcases ih1 with ⟨p, rfl, hij, ih1⟩ | ⟨⟨r, rfl⟩, hij, ih1⟩
    · refine ⟨by have := ih2.1; omega, fun b c n hP hn => ⟨fun e => by have := ih2.1; omega, ?_⟩⟩
      obtain ⟨_, n', h1, h2⟩ := ih2.2 .token (some 0) 0 hP (within_some (fun m e => Nat.zero_le _))
      exact ⟨n', .consLeaf (ih1 n) h1, h2⟩
    · refine ⟨by have := ih2.1; omega, fun b c n hP hn => ?_⟩
      obtain ⟨q1, q2, q3, q4⟩ := hP
      obtain ⟨a1, a2⟩ := ih1 r rfl q1
      obtain ⟨m, m1, m2⟩ := a2 (n + 1) ((Within.succ hn).trans q2)
      have hm : Within (some (m + 1)) ((B.ends r).map (· + 1)) := Within.succ m2
      obtain ⟨b1, n', h1, h2⟩ := ih2.2 .subtree _ (m + 1) q4 hm
      refine ⟨fun e => ?_, n', .consNode m1 ?_ h1, h2⟩
      · have := ih2.1
        have e1 : i = j := by omega
        have e2 : j = k := by omega
        intro y hy
        rcases List.mem_cons.1 hy with rfl | hy
        · exact ⟨r, rfl, a1 e1⟩
        · exact b1 e2 y hy
      · by_cases hlt : i < j
        · exact .inl hlt
        · right; right
          obtain ⟨n0, e0, h0⟩ := q3 (a1 (by omega))
          subst e0
          have hle : n ≤ n0 := hn.le
          rcases h0 with h0 | ⟨h0, h3⟩
          · left; omega
          · right; exact ⟨h0, by omega⟩
end

/-! ### Checking bounds -/

/-- Bounds given by functions that can be computed. -/
structure BoundsB where
  live : Nat → Bool
  null : Nat → Bool
  waits : Nat → Nat
  begins : Nat → Option Nat
  ends : Nat → Option Nat

def BoundsB.toBounds (B : BoundsB) : Bounds :=
  ⟨fun r => B.live r = true, fun r => B.null r = true, B.waits, B.begins, B.ends⟩

def withinB (a b : Option Nat) : Bool :=
  match b, a with
  | none, _ => true
  | some m, some n => decide (n ≤ m)
  | some _, none => false

def BoundsB.places {P : Type} (B : BoundsB) (start : Nat) (c : Option Nat) : List (Term P) → Bool
  | [] => true
  | .pred _ :: xs => B.places start (some 0) xs
  | .rule r :: xs => B.live r && withinB (c.map (· + 1)) (B.begins r) &&
      (!B.null r || (match c with
        | some n => n == 0 || (r != start && decide (n ≤ B.waits r + 1))
        | none => false)) &&
      B.places start ((B.ends r).map (· + 1)) xs

/-- the lower bounds for one production, from the term before -/
def waitsTail {P : Type} (w : Nat → Nat) : Term P → List (Term P) → Bool
  | _, [] => true
  | x, y :: ys =>
    (match y with
      | .rule R => (match x with
        | .pred _ => w R == 0
        | .rule _ => decide (w R ≤ 1))
      | .pred _ => true) && waitsTail w y ys

def waitsProd {P : Type} (w : Nat → Nat) (start r : Nat) : List (Term P) → Bool
  | [] => true
  | x :: xs =>
    (match x with
      | .rule R => decide (w R ≤ w r + 1) && (r != start || w R == 0)
      | .pred _ => true) && waitsTail w x xs

def nullTerm {P : Type} (null : Nat → Bool) : Term P → Bool
  | .pred _ => false
  | .rule r => null r

def BoundsB.check {P T : Type} (B : BoundsB) (G : Grammar P T) : Bool :=
  B.live G.start && withinB (some 0) (B.begins G.start) &&
  (List.range G.rules.length).all (fun r => (G.productions r).all (fun prod =>
    waitsProd B.waits G.start r prod.terms &&
    (!B.live r || ((!prod.terms.all (nullTerm B.null) || B.null r) &&
      B.places G.start (B.begins r) prod.terms &&
      withinB (B.toBounds.pass (B.begins r) prod.terms) (B.ends r)))))

theorem withinB_iff {a b : Option Nat} (h : withinB a b = true) : Within a b := by
  intro m e
  subst e
  cases a with
  | none => cases h
  | some n => exact ⟨n, rfl, by simpa [withinB] using h⟩

theorem places_of {P : Type} {B : BoundsB} {start : Nat} : ∀ {c : Option Nat} {xs : List (Term P)},
    B.places start c xs = true → B.toBounds.Places start c xs
  | _, [], _ => trivial
  | _, .pred _ :: xs, h => places_of (xs := xs) h
  | c, .rule r :: xs, h => by
    simp only [BoundsB.places, Bool.and_eq_true, Bool.or_eq_true, Bool.not_eq_true'] at h
    obtain ⟨⟨⟨h1, h2⟩, h3⟩, h4⟩ := h
    refine ⟨h1, withinB_iff h2, ?_, places_of h4⟩
    intro hn
    rcases h3 with h3 | h3
    · have : B.null r = true := hn
      rw [h3] at this; cases this
    · cases c with
      | none => cases h3
      | some n =>
        refine ⟨n, rfl, ?_⟩
        show n = 0 ∨ (r ≠ start ∧ n ≤ B.waits r + 1)
        simpa using h3

theorem waitsTail_of {P : Type} {w : Nat → Nat} : ∀ {ys : List (Term P)} {x : Term P},
    waitsTail w x ys = true → ∀ (d R : Nat), ys[d]? = some (Term.rule R) → w R ≤ 1 ∧
      ∀ p, (x :: ys)[d]? = some (Term.pred p) → w R = 0
  | [], _, _, d, R, h => by simp at h
  | y :: ys, x, h, d, R, hd => by
    simp only [waitsTail, Bool.and_eq_true] at h
    obtain ⟨h1, h2⟩ := h
    cases d with
    | zero =>
      simp only [List.getElem?_cons_zero, Option.some.injEq] at hd
      subst hd
      cases x with
      | pred p =>
        have : w R = 0 := by simpa using h1
        exact ⟨by omega, fun _ _ => this⟩
      | rule Q => exact ⟨by simpa using h1, fun p e => by simp at e⟩
    | succ d => exact waitsTail_of h2 d R (by simpa using hd)

theorem check_found {P T : Type} {B : BoundsB} {G : Grammar P T} (h : B.check G = true) :
    EmptiesFound G B.toBounds := by
  simp only [BoundsB.check, Bool.and_eq_true, List.all_eq_true, List.mem_range, Bool.or_eq_true,
    Bool.not_eq_true'] at h
  obtain ⟨⟨h1, h2⟩, h3⟩ := h
  have hlen : ∀ r prod, prod ∈ G.productions r → r < G.rules.length := by
    intro r prod hp
    unfold Grammar.productions at hp
    split at hp
    · rename_i hr; exact (List.getElem?_eq_some_iff.1 hr).1
    · cases hp
  refine ⟨?_, ⟨h1, withinB_iff h2⟩, ?_, ?_⟩
  · intro r prod R hp
    obtain ⟨g, _⟩ := h3 r (hlen r prod hp) prod hp
    cases ht : prod.terms with
    | nil => simp
    | cons x xs =>
      rw [ht] at g
      simp only [waitsProd, Bool.and_eq_true] at g
      obtain ⟨g1, g2⟩ := g
      refine ⟨?_, ?_⟩
      · intro e
        simp only [List.getElem?_cons_zero, Option.some.injEq] at e
        subst e
        simp only [Bool.and_eq_true, decide_eq_true_eq, Bool.or_eq_true, bne_iff_ne, ne_eq,
          beq_iff_eq] at g1
        exact ⟨g1.1, fun e => g1.2.resolve_left (fun h => h e)⟩
      · intro d hd
        exact waitsTail_of g2 d R (by simpa using hd)
  · intro r prod hl hp hx
    obtain ⟨_, g⟩ := h3 r (hlen r prod hp) prod hp
    rcases g with g | ⟨⟨g, _⟩, _⟩
    · have : B.live r = true := hl
      rw [g] at this; cases this
    · rcases g with g | g
      · exfalso
        have : prod.terms.all (nullTerm B.null) = true := by
          rw [List.all_eq_true]
          intro x hx'
          obtain ⟨r', rfl, hr'⟩ := hx x hx'
          exact hr'
        rw [this] at g; cases g
      · exact g
  · intro r prod hl hp
    obtain ⟨_, g⟩ := h3 r (hlen r prod hp) prod hp
    rcases g with g | ⟨⟨_, g1⟩, g2⟩
    · have : B.live r = true := hl
      rw [g] at this; cases this
    · exact ⟨places_of g1, withinB_iff g2⟩

/-! ### Finding bounds

Nothing is proved about these functions: what they find is checked by `BoundsB.check`. -/

def listGet (l : List Nat) (d r : Nat) : Nat := (l[r]?).getD d

/-- one pass over the terms of a production: initial and final rounds -/
def roundTerms {P : Type} (cap : Nat) : List Nat × List Nat → Nat → List (Term P) → (List Nat × List Nat) × Nat
  | be, c, [] => (be, c)
  | be, _, .pred _ :: xs => roundTerms cap be 0 xs
  | (b, e), c, .rule R :: xs =>
    roundTerms cap (b.set R (min cap (max (listGet b 0 R) (c + 1))), e) (listGet e 0 R + 1) xs

def iterate {α : Type} (f : α → α) : Nat → α → α
  | 0, a => a
  | n + 1, a => iterate f n (f a)

/-- All productions with their rules. -/
def allProductions {P T : Type} (G : Grammar P T) : List (Nat × List (Term P)) :=
  (List.range G.rules.length).flatMap (fun r => (G.productions r).map (fun p => (r, p.terms)))

def waitsStep {P : Type} (start : Nat) (ps : List (Nat × List (Term P))) (w : List Nat) : List Nat :=
  ps.foldl (fun w p =>
    (p.2.foldl (fun (acc : List Nat × Nat) x => match x with
      | .pred _ => (acc.1, 0)
      | .rule R => (acc.1.set R (min (listGet acc.1 0 R) acc.2), 1))
      (w, if p.1 = start then 0 else listGet w 0 p.1 + 1)).1) w

def findBounds {P T : Type} (n : Nat) (G : Grammar P T) : BoundsB :=
  let ps := allProductions G
  let zero := List.replicate G.rules.length 0
  let live := iterate (fun l => ps.foldl (fun l p => if listGet l 0 p.1 = 1 then
    p.2.foldl (fun l x => match x with | .pred _ => l | .rule R => l.set R 1) l else l) l) n (zero.set G.start 1)
  let null := iterate (fun l => ps.foldl (fun l p => if p.2.all (nullTerm (fun r => listGet l 0 r == 1))
    then l.set p.1 1 else l) l) n zero
  let waits := iterate (waitsStep G.start ps) n (List.replicate G.rules.length n)
  let cap := n + n
  let be := iterate (fun be => ps.foldl (fun be p => if listGet live 0 p.1 = 1 then
      let res := roundTerms cap be (listGet be.1 0 p.1) p.2
      (res.1.1, res.1.2.set p.1 (min cap (max (listGet res.1.2 0 p.1) res.2)))
    else be) be) (cap + 1) (zero, zero)
  let bound := fun m => if m < cap then some m else none
  { live := fun r => listGet live 0 r == 1, null := fun r => listGet null 0 r == 1
    waits := fun r => listGet waits 0 r, begins := fun r => bound (listGet be.1 0 r)
    ends := fun r => bound (listGet be.2 0 r) }

/-- The grammar has bounds that can be found. -/
def emptiesFound {P T : Type} (n : Nat) (G : Grammar P T) : Bool := (findBounds n G).check G

end Yargy
