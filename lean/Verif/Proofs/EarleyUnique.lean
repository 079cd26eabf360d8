import Verif.Proofs.EarleyComplete
/-! No two states of the chart stand for the same partial derivation. -/
set_option linter.unusedSectionVars false
set_option linter.unusedVariables false
namespace Yargy
open Spec

variable {P T H : Type} [DecidableEq H] {G : Grammar P T} {hash : Key → H} {toks : List T} {all : Bool}

/-- how a state of column `k` came about -/
inductive Origin (G : Grammar P T) (toks : List T) (cols : List (Column P T H)) (k : Nat)
    (s : State P T) : Prop
  | predicted : s.dot = 0 → s.children = [] → s.start = k → Origin G toks cols k s
  | scanned (p : State P T) (m lid : Nat) (pr : P) (t : T) : InCol cols m p → k = m + 1 →
      s.rule = p.rule → s.prod = p.prod → s.dot = p.dot + 1 → s.start = p.start →
      s.children = p.children ++ [.leaf lid pr (G.constrain pr t)] →
      p.next = some (.pred pr) → toks[m]? = some t → Origin G toks cols k s
  | completed (p t : State P T) (m : Nat) : InCol cols m p → InCol cols k t → t.completed = true →
      t.start = m → s.rule = p.rule → s.prod = p.prod → s.dot = p.dot + 1 → s.start = p.start →
      s.children = p.children ++ [t.node] → p.next = some (.rule t.rule) → Origin G toks cols k s

theorem Origin.mono {cols : List (Column P T H)} {k m : Nat} {s s' : State P T}
    (h : Origin G toks cols k s) : Origin G toks (appendAt hash cols m s') k s := by
  cases h with
  | predicted h1 h2 h3 => exact .predicted h1 h2 h3
  | scanned p m' lid pr t h1 h2 h3 h4 h5 h6 h7 h8 h9 =>
    exact .scanned p m' lid pr t (inCol_mono h1) h2 h3 h4 h5 h6 h7 h8 h9
  | completed p t m' h1 h2 h3 h4 h5 h6 h7 h8 h9 h10 =>
    exact .completed p t m' (inCol_mono h1) (inCol_mono h2) h3 h4 h5 h6 h7 h8 h9 h10

def OriginCols (G : Grammar P T) (toks : List T) (cols : List (Column P T H)) : Prop :=
  ∀ k s, InCol cols k s → Origin G toks cols k s

theorem OriginCols.append {cols : List (Column P T H)} (h : OriginCols G toks cols) {k : Nat}
    {s : State P T} (hs : Origin G toks cols k s) : OriginCols G toks (appendAt hash cols k s) := by
  intro k' s' h'
  rcases inCol_appendAt h' with h1 | ⟨rfl, rfl⟩
  · exact (h _ _ h1).mono
  · exact hs.mono

theorem originCols_trans (c c' : Config P T H)
    (ht : Trans G hash toks all c c') (hS : SoundInv G toks c) (h : OriginCols G toks c.cols) :
    OriginCols G toks c'.cols := by
  have hpred : ∀ (cols : List (Column P T H)) ctr k r, OriginCols G toks cols →
      OriginCols G toks (Yargy.predict G hash toks k r cols ctr).1 := by
    intro cols ctr k r hc
    exact predict_induct (M := fun cols _ => OriginCols G toks cols) G hash toks k r cols ctr hc
      (fun cols ctr prod rank _ hc => hc.append (.predicted rfl rfl rfl))
  cases ht with
  | enterPredict => exact hpred _ _ _ _ h
  | enterSkip => exact h
  | nextColumn => exact h
  | finish => exact h
  | startComplete => exact h
  | predictRule => exact hpred _ _ _ _ h
  | @scanAccept cols ctr k i col s p t hc hs hn ht ha =>
    exact h.append (.scanned s k ctr p t (inCol_of_get hc hs) rfl rfl rfl rfl rfl rfl hn ht)
  | scanReject => exact h
  | @completeNext cols ctr k i s j p hp =>
    obtain ⟨h1, h2⟩ := hS.phase i s j rfl
    obtain ⟨h3, h4⟩ := hS.cols.mem_parents (List.mem_of_getElem? hp)
    exact h.append (.completed p s s.start h3 h1 h2 rfl rfl rfl rfl rfl rfl h4)
  | completeEnd => exact h
  | done => exact h

theorem originCols_init : OriginCols G toks (initConfig (P := P) (H := H) toks).cols :=
  fun _ _ h => absurd h not_inCol_init

/-- two states that only differ in the identity of a last leaf -/
def LeafTwins (s1 s2 : State P T) : Prop :=
  s1.rule = s2.rule ∧ s1.prod = s2.prod ∧ s1.dot = s2.dot ∧ s1.start = s2.start ∧
    ∃ cs l1 p1 t1 l2 p2 t2, s1.children = cs ++ [.leaf l1 p1 t1] ∧ s2.children = cs ++ [.leaf l2 p2 t2]

theorem LeafTwins.symm {s1 s2 : State P T} (h : LeafTwins s1 s2) : LeafTwins s2 s1 := by
  obtain ⟨h1, h2, h3, h4, cs, l1, p1, t1, l2, p2, t2, h5, h6⟩ := h
  exact ⟨h1.symm, h2.symm, h3.symm, h4.symm, cs, l2, p2, t2, l1, p1, t1, h6, h5⟩

/-- each state is scanned at most once -/
structure ScanInv (G : Grammar P T) (toks : List T) (c : Config P T H) : Prop where
  twins : ∀ k s1 s2, InCol c.cols k s1 → InCol c.cols k s2 → LeafTwins s1 s2 → s1 = s2
  parent : ∀ k s cs l p t, InCol c.cols k s → s.children = cs ++ [.leaf l p t] →
    ∃ (m i : Nat) (col : Column P T H) (q : State P T), k = m + 1 ∧ c.cols[m]? = some col ∧
      col.states[i]? = some q ∧ Processed c m i ∧ s.rule = q.rule ∧ s.prod = q.prod ∧
      s.dot = q.dot + 1 ∧ s.start = q.start ∧ cs = q.children

theorem pairwise_eq {α} {R : α → α → Prop} : ∀ {l : List α} {a b : α} {i j : Nat},
    l.Pairwise R → l[i]? = some a → l[j]? = some b → (¬ R a b) → (¬ R b a) → i = j := by
  intro l a b i j hp hi hj h1 h2
  obtain ⟨hi', rfl⟩ := List.getElem?_eq_some_iff.1 hi
  obtain ⟨hj', rfl⟩ := List.getElem?_eq_some_iff.1 hj
  rcases Nat.lt_trichotomy i j with h | h | h
  · exact absurd (List.pairwise_iff_getElem.1 hp i j hi' hj' h) h1
  · exact h
  · exact absurd (List.pairwise_iff_getElem.1 hp j i hj' hi' h) h2

/-- states with equal keys in one column are at the same position -/
theorem HashCols.pos_eq {cols : List (Column P T H)} (h : HashCols hash cols) {k i j : Nat}
    {col : Column P T H} {a b : State P T} (hc : cols[k]? = some col)
    (ha : col.states[i]? = some a) (hb : col.states[j]? = some b) (he : a.key = b.key) : i = j :=
  pairwise_eq (h _ _ hc).nodup ha hb (by simp [he]) (by simp [he])

theorem HashCols.key_inj {cols : List (Column P T H)} (h : HashCols hash cols) {k : Nat}
    {a b : State P T} (ha : InCol cols k a) (hb : InCol cols k b) (he : a.key = b.key) : a = b := by
  obtain ⟨c, hc, ha⟩ := ha
  obtain ⟨c', hc', hb⟩ := hb
  rw [hc] at hc'; cases hc'
  obtain ⟨i, hi⟩ := List.getElem?_of_mem ha
  obtain ⟨j, hj⟩ := List.getElem?_of_mem hb
  have := h.pos_eq hc hi hj he
  subst this
  rw [hi] at hj; exact Option.some.inj hj

/-- the columns-only transport of `ScanInv` for appends that do not end in a leaf -/
theorem append_singleton_inj {α} {a b : List α} {x y : α} (h : a ++ [x] = b ++ [y]) : a = b ∧ x = y := by
  have := List.append_inj' h rfl
  exact ⟨this.1, by simpa using this.2⟩

theorem get_append_old {cols : List (Column P T H)} {k m i : Nat} {col : Column P T H}
    {s q : State P T} (hc : cols[m]? = some col) (hq : col.states[i]? = some q) :
    ∃ col', (appendAt hash cols k s)[m]? = some col' ∧ col'.states[i]? = some q := by
  by_cases hk : k = m
  · subst hk
    refine ⟨col.append hash s, by rw [appendAt_get?]; simp [hc], ?_⟩
    obtain ⟨l, hl⟩ := append_prefix hash col s
    rw [← hl, List.getElem?_append_left (List.getElem?_eq_some_iff.1 hq).1]
    exact hq
  · exact ⟨col, by rw [appendAt_get?]; simp [hk, hc], hq⟩

structure ScanCols (G : Grammar P T) (toks : List T) (c : Config P T H)
    (cols : List (Column P T H)) : Prop where
  twins : ∀ k s1 s2, InCol cols k s1 → InCol cols k s2 → LeafTwins s1 s2 → s1 = s2
  parent : ∀ k s cs l p t, InCol cols k s → s.children = cs ++ [.leaf l p t] →
    ∃ (m i : Nat) (col : Column P T H) (q : State P T), k = m + 1 ∧ cols[m]? = some col ∧
      col.states[i]? = some q ∧ Processed c m i ∧ s.rule = q.rule ∧ s.prod = q.prod ∧
      s.dot = q.dot + 1 ∧ s.start = q.start ∧ cs = q.children

theorem ScanCols.append_nonleaf {c : Config P T H} {cols : List (Column P T H)}
    (h : ScanCols G toks c cols) {k : Nat} {s : State P T}
    (hs : ∀ cs l p t, s.children ≠ cs ++ [.leaf l p t]) :
    ScanCols G toks c (appendAt hash cols k s) := by
  refine ⟨?_, ?_⟩
  · intro k' s1 s2 h1 h2 ht
    rcases inCol_appendAt h1 with h3 | ⟨rfl, rfl⟩
    · rcases inCol_appendAt h2 with h4 | ⟨rfl, rfl⟩
      · exact h.twins _ _ _ h3 h4 ht
      · obtain ⟨_, _, _, _, cs, _, _, _, l, p, t, _, h5⟩ := ht
        exact absurd h5 (hs _ _ _ _)
    · obtain ⟨_, _, _, _, cs, l, p, t, _, _, _, h5, _⟩ := ht
      exact absurd h5 (hs _ _ _ _)
  · intro k' s' cs l p t h1 h2
    rcases inCol_appendAt h1 with h3 | ⟨rfl, rfl⟩
    · obtain ⟨m, i, col, q, g1, g2, g3, g4⟩ := h.parent _ _ _ _ _ _ h3 h2
      obtain ⟨col', g5, g6⟩ := get_append_old (hash := hash) (k := k) (s := s) g2 g3
      exact ⟨m, i, col', q, g1, g5, g6, g4⟩
    · exact absurd h2 (hs _ _ _ _)

theorem ScanInv.cols {c : Config P T H} (h : ScanInv G toks c) : ScanCols G toks c c.cols :=
  ⟨h.twins, h.parent⟩

theorem ScanCols.inv {c c' : Config P T H} {cols : List (Column P T H)}
    (h : ScanCols G toks c cols) (hc : c'.cols = cols)
    (hp : ∀ m i, Processed c m i → Processed c' m i) : ScanInv G toks c' := by
  subst hc
  refine ⟨h.twins, ?_⟩
  intro k s cs l p t h1 h2
  obtain ⟨m, i, col, q, g1, g2, g3, g4, g5⟩ := h.parent _ _ _ _ _ _ h1 h2
  exact ⟨m, i, col, q, g1, g2, g3, hp _ _ g4, g5⟩

theorem scanInv_trans (c c' : Config P T H)
    (ht : Trans G hash toks all c c') (hS : SoundInv G toks c) (hH : HashCols hash c.cols)
    (h : ScanInv G toks c) : ScanInv G toks c' := by
  have hpred : ∀ (cols : List (Column P T H)) ctr k r, ScanCols G toks c cols →
      ScanCols G toks c (Yargy.predict G hash toks k r cols ctr).1 := by
    intro cols ctr k r hc
    exact predict_induct (M := fun cols _ => ScanCols G toks c cols) G hash toks k r cols ctr hc
      (fun cols ctr prod rank _ hc => hc.append_nonleaf (by simp [predictState]))
  cases ht with
  | enterPredict =>
    refine (hpred _ _ _ _ h.cols).inv rfl ?_
    rintro m i (h1 | ⟨_, h1⟩)
    · exact Or.inl h1
    · exact absurd h1 (by simp)
  | enterSkip =>
    refine h.cols.inv rfl ?_
    rintro m i (h1 | ⟨_, h1⟩)
    · exact Or.inl h1
    · exact absurd h1 (by simp)
  | nextColumn =>
    refine h.cols.inv rfl ?_
    rintro m i (h1 | ⟨h1, _⟩)
    · exact Or.inl (by dsimp only at *; omega)
    · exact Or.inl (by dsimp only at *; omega)
  | finish =>
    refine h.cols.inv rfl ?_
    rintro m i (h1 | ⟨h1, _⟩)
    · exact Or.inl h1
    · exact Or.inr ⟨h1, trivial⟩
  | startComplete =>
    refine h.cols.inv rfl ?_
    rintro m i (h1 | ⟨h1, h2⟩)
    · exact Or.inl h1
    · exact Or.inr ⟨h1, h2⟩
  | predictRule =>
    refine (hpred _ _ _ _ h.cols).inv rfl ?_
    rintro m i (h1 | ⟨h1, h2⟩)
    · exact Or.inl h1
    · exact Or.inr ⟨h1, by dsimp only at *; omega⟩
  | scanReject =>
    refine h.cols.inv rfl ?_
    rintro m i (h1 | ⟨h1, h2⟩)
    · exact Or.inl h1
    · exact Or.inr ⟨h1, by dsimp only at *; omega⟩
  | @completeNext cols ctr k i s j p hp =>
    refine (h.cols.append_nonleaf (hash := hash) (k := k) (s := completeState k s p ctr) ?_).inv rfl ?_
    · intro cs l p' t he
      have := (append_singleton_inj he).2
      simp [State.node] at this
    · rintro m i (h1 | ⟨h1, h2⟩)
      · exact Or.inl h1
      · exact Or.inr ⟨h1, h2⟩
  | completeEnd =>
    refine h.cols.inv rfl ?_
    rintro m i (h1 | ⟨h1, h2⟩)
    · exact Or.inl h1
    · exact Or.inr ⟨h1, by dsimp only at *; omega⟩
  | done => exact h
  | @scanAccept cols ctr k i col s p t hc hs hn ht ha =>
    have hnot : ∀ s1, InCol cols (k + 1) s1 → LeafTwins s1 (scanState G k p t s ctr) → False := by
      intro s1 h1 htw
      obtain ⟨e1, e2, e3, e4, cs, l1, p1, t1, l2, p2, t2, e5, e6⟩ := htw
      obtain ⟨m, i', col', q, g1, g2, g3, g4, g5, g6, g7, g8, g9⟩ := h.parent _ _ _ _ _ _ h1 e5
      have hm : m = k := by omega
      subst hm
      dsimp only at g2
      rw [hc] at g2; cases g2
      have hcs : cs = s.children := by
        have : s.children ++ [.leaf ctr p (G.constrain p t)] = cs ++ [PTree.leaf l2 p2 t2] := e6
        exact (append_singleton_inj this).1.symm
      have hq := hS.states _ _ (inCol_of_get hc g3)
      have hso := hS.states _ _ (inCol_of_get hc hs)
      have hkey : q.key = s.key := by
        have r1 : q.rule = s.rule := by rw [← g5, e1]; rfl
        have r2 : q.prod = s.prod := by rw [← g6, e2]; rfl
        have r3 : q.dot = s.dot := by
          have : s1.dot = s.dot + 1 := by rw [e3]; rfl
          omega
        have r4 : q.start = s.start := by rw [← g8, e4]; rfl
        have r5 : q.stop = s.stop := by rw [hq.stop, hso.stop]
        have r6 : q.children = s.children := by rw [← g9, hcs]
        simp only [State.key, r1, r2, r3, r4, r5, r6]
      have := hH.pos_eq hc g3 hs hkey
      subst this
      rcases g4 with g4 | ⟨_, g4⟩
      · exact absurd g4 (Nat.lt_irrefl _)
      · exact absurd g4 (Nat.lt_irrefl _)
    refine ⟨?_, ?_⟩
    · intro k' s1 s2 h1 h2 htw
      dsimp only at h1 h2
      rcases inCol_appendAt h1 with h3 | ⟨rfl, rfl⟩
      · rcases inCol_appendAt h2 with h4 | ⟨rfl, rfl⟩
        · exact h.twins _ _ _ h3 h4 htw
        · exact (hnot _ h3 htw).elim
      · rcases inCol_appendAt h2 with h4 | ⟨_, rfl⟩
        · exact (hnot _ h4 htw.symm).elim
        · rfl
    · intro k' s' cs l p' t' h1 h2
      dsimp only at h1
      rcases inCol_appendAt h1 with h3 | ⟨rfl, rfl⟩
      · obtain ⟨m, i', col', q, g1, g2, g3, g4, g5⟩ := h.parent _ _ _ _ _ _ h3 h2
        obtain ⟨col2, g6, g7⟩ := get_append_old (hash := hash) (k := k + 1) (s := scanState G k p t s ctr) g2 g3
        refine ⟨m, i', col2, q, g1, g6, g7, ?_, g5⟩
        rcases g4 with g4 | ⟨g4, g4'⟩
        · exact Or.inl g4
        · exact Or.inr ⟨g4, by dsimp only at *; omega⟩
      · obtain ⟨col2, g6, g7⟩ := get_append_old (hash := hash) (k := k + 1) (s := scanState G k p t s ctr) hc hs
        refine ⟨k, i, col2, s, rfl, g6, g7, Or.inr ⟨rfl, Nat.lt_succ_self _⟩, rfl, rfl, rfl, rfl, ?_⟩
        have : s.children ++ [.leaf ctr p (G.constrain p t)] = cs ++ [PTree.leaf l p' t'] := h2
        exact (append_singleton_inj this).1.symm

theorem scanInv_init : ScanInv G toks (initConfig (P := P) (H := H) toks) :=
  ⟨fun _ _ _ h => absurd h not_inCol_init, fun _ _ _ _ _ _ h => absurd h not_inCol_init⟩

mutual
/-- number of leaves and nodes -/
def dsize : DTree P T → Nat
  | .leaf _ _ => 1
  | .node _ _ cs => 1 + dsizeAll cs
def dsizeAll : List (DTree P T) → Nat
  | [] => 0
  | c :: cs => dsize c + dsizeAll cs
end

theorem dsizeAll_append (a b : List (DTree P T)) : dsizeAll (a ++ b) = dsizeAll a + dsizeAll b := by
  induction a with
  | nil => simp [dsizeAll]
  | cons c cs ih => simp only [List.cons_append, dsizeAll, ih]; omega

theorem dsize_pos (d : DTree P T) : 0 < dsize d := by
  cases d <;> simp only [dsize] <;> omega

structure UniqInv (G : Grammar P T) (hash : Key → H) (toks : List T) (c : Config P T H) : Prop where
  sound : SoundInv G toks c
  hashes : HashCols hash c.cols
  origin : OriginCols G toks c.cols
  scan : ScanInv G toks c

theorem uniqInv_runN (hG : PredictSound G) (n : Nat) :
    UniqInv G hash toks (runN G hash toks all n) := by
  refine runN_induct (M := UniqInv G hash toks) G hash toks all ?_ ?_ n
  · exact ⟨soundInv_init, hashCols_init, originCols_init, scanInv_init⟩
  · intro c c' ht h
    exact ⟨soundInv_trans hG _ _ ht h.sound, hashCols_trans _ _ ht h.hashes,
      originCols_trans _ _ ht h.sound h.origin, scanInv_trans _ _ ht h.sound h.hashes h.scan⟩

/-- Two states of the chart that read the same are the same state. -/
theorem unique_state {c : Config P T H} (h : UniqInv G hash toks c) :
    ∀ (n k1 k2 : Nat) (s1 s2 : State P T), dsizeAll (s1.children.map PTree.erase) ≤ n →
      InCol c.cols k1 s1 → InCol c.cols k2 s2 → s1.rule = s2.rule → s1.prod = s2.prod →
      s1.dot = s2.dot → s1.start = s2.start →
      s1.children.map PTree.erase = s2.children.map PTree.erase → s1 = s2 ∧ k1 = k2 := by
  intro n
  induction n using Nat.strongRecOn with
  | ind n ih =>
    intro k1 k2 s1 s2 hsz h1 h2 e1 e2 e3 e4 e5
    have keyEq : ∀ k, InCol c.cols k s1 → InCol c.cols k s2 →
        s1.children.map PTree.oid = s2.children.map PTree.oid → s1 = s2 := by
      intro k g1 g2 g3
      refine h.hashes.key_inj g1 g2 ?_
      have := (h.sound.states _ _ g1).stop
      have := (h.sound.states _ _ g2).stop
      simp only [State.key, e1, e2, e3, e4, g3]
      simp_all
    cases h.origin _ _ h1 with
    | predicted a1 a2 a3 =>
      cases h.origin _ _ h2 with
      | predicted b1 b2 b3 =>
        have hk : k1 = k2 := by omega
        subst hk
        exact ⟨keyEq _ h1 h2 (by rw [a2, b2]), rfl⟩
      | scanned p m lid pr t b1 b2 b3 b4 b5 => omega
      | completed p t m b1 b2 b3 b4 b5 b6 b7 => omega
    | scanned p m lid pr t a1 a2 a3 a4 a5 a6 a7 a8 a9 =>
      cases h.origin _ _ h2 with
      | predicted b1 b2 b3 => omega
      | scanned p' m' lid' pr' t' b1 b2 b3 b4 b5 b6 b7 b8 b9 =>
        rw [a7, b7, List.map_append, List.map_append] at e5
        obtain ⟨e6, e7⟩ := append_singleton_inj e5
        have hlt : dsizeAll (p.children.map PTree.erase) < n := by
          rw [a7, List.map_append, dsizeAll_append] at hsz
          have := dsize_pos (PTree.erase (.leaf lid pr (G.constrain pr t)))
          simp only [List.map_cons, List.map_nil, dsizeAll] at hsz
          omega
        obtain ⟨hp, hm⟩ := ih _ hlt m m' p p' (Nat.le_refl _) a1 b1 (by rw [← a3, ← b3, e1])
          (by rw [← a4, ← b4, e2]) (by omega) (by rw [← a6, ← b6, e4]) e6
        subst hp; subst hm
        have hk : k1 = k2 := by omega
        subst hk
        exact ⟨h.scan.twins _ _ _ h1 h2 ⟨e1, e2, e3, e4, p.children, _, _, _, _, _, _, a7, b7⟩, rfl⟩
      | completed p' t' m' b1 b2 b3 b4 b5 b6 b7 b8 b9 b10 =>
        rw [a7, b9, List.map_append, List.map_append] at e5
        obtain ⟨_, e7⟩ := append_singleton_inj e5
        simp [State.node, PTree.erase] at e7
    | completed p t m a1 a2 a3 a4 a5 a6 a7 a8 a9 a10 =>
      cases h.origin _ _ h2 with
      | predicted b1 b2 b3 => omega
      | scanned p' m' lid' pr' t' b1 b2 b3 b4 b5 b6 b7 b8 b9 =>
        rw [a9, b7, List.map_append, List.map_append] at e5
        obtain ⟨_, e7⟩ := append_singleton_inj e5
        simp [State.node, PTree.erase] at e7
      | completed p' t' m' b1 b2 b3 b4 b5 b6 b7 b8 b9 b10 =>
        rw [a9, b9, List.map_append, List.map_append] at e5
        obtain ⟨e6, e7⟩ := append_singleton_inj e5
        have hlt : dsizeAll (p.children.map PTree.erase) < n ∧
            dsizeAll (t.children.map PTree.erase) < n := by
          rw [a9, List.map_append, dsizeAll_append] at hsz
          have h8 : t.node.erase = .node t.rule t.prod (t.children.map PTree.erase) := t.dtree_eq
          simp only [List.map_cons, List.map_nil, dsizeAll, h8, dsize] at hsz
          omega
        obtain ⟨hp, hm⟩ := ih _ hlt.1 m m' p p' (Nat.le_refl _) a1 b1 (by rw [← a5, ← b5, e1])
          (by rw [← a6, ← b6, e2]) (by omega) (by rw [← a8, ← b8, e4]) e6
        subst hp; subst hm
        have e8 : t.dtree = t'.dtree := e7
        rw [t.dtree_eq, t'.dtree_eq] at e8
        simp only [DTree.node.injEq] at e8
        obtain ⟨e9, e10, e11⟩ := e8
        have hd : t.dot = t'.dot := by
          have d1 := (h.sound.states _ _ a2).dot
          have d2 := (h.sound.states _ _ b2).dot
          have d3 : t.prod.terms.length ≤ t.dot := by simpa [State.completed] using a3
          have d4 : t'.prod.terms.length ≤ t'.dot := by simpa [State.completed] using b3
          rw [e10] at d1 d3; omega
        obtain ⟨ht, hk⟩ := ih _ hlt.2 k1 k2 t t' (Nat.le_refl _) a2 b2 e9 e10 hd (by omega) e11
        subst ht; subst hk
        exact ⟨keyEq _ h1 h2 (by rw [a9, b9]), rfl⟩

/-- Completed states with the same start and the same tree are the same. -/
theorem unique_completed {c : Config P T H} (h : UniqInv G hash toks c) {k1 k2 : Nat}
    {s1 s2 : State P T} (h1 : InCol c.cols k1 s1) (h2 : InCol c.cols k2 s2)
    (c1 : s1.completed = true) (c2 : s2.completed = true) (hs : s1.start = s2.start)
    (hd : s1.dtree = s2.dtree) : s1 = s2 ∧ k1 = k2 := by
  rw [s1.dtree_eq, s2.dtree_eq] at hd
  simp only [DTree.node.injEq] at hd
  obtain ⟨e1, e2, e3⟩ := hd
  refine unique_state h _ _ _ _ _ (Nat.le_refl _) h1 h2 e1 e2 ?_ hs e3
  have d1 := (h.sound.states _ _ h1).dot
  have d2 := (h.sound.states _ _ h2).dot
  have d3 : s1.prod.terms.length ≤ s1.dot := by simpa [State.completed] using c1
  have d4 : s2.prod.terms.length ≤ s2.dot := by simpa [State.completed] using c2
  rw [e2] at d1 d3; omega

end Yargy
