import Verif.Proofs.EarleyUnique
import Verif.Proofs.OrderSpec
import Verif.Model.TreeOrder
/-! The comparison of chart trees is the preference order. -/
set_option linter.unusedSectionVars false
set_option linter.unusedVariables false
namespace Yargy
open Spec

variable {P T H : Type} [DecidableEq H] {G : Grammar P T} {hash : Key → H} {toks : List T} {all : Bool}

/-! ### Ranks -/

/-- `predict_induct` with the position of the production -/
theorem predict_induct_idx {M : Nat → List (Column P T H) → Nat → Prop} (k r : Nat)
    (cols : List (Column P T H)) (ctr : Nat) (h0 : M 0 cols ctr)
    (hstep : ∀ cols ctr prod rank, (predicted G toks k r)[rank]? = some prod → M rank cols ctr →
      M (rank + 1) (appendAt hash cols k (predictState k r prod rank ctr)) (ctr + 1)) :
    M (predicted G toks k r).length (predict G hash toks k r cols ctr).1
      (predict G hash toks k r cols ctr).2 := by
  unfold predict
  have key : ∀ (l pre : List (Production P)), predicted G toks k r = pre ++ l →
      ∀ acc : List (Column P T H) × Nat, M pre.length acc.1 acc.2 →
        M (pre ++ l).length ((l.zipIdx pre.length).foldl (predictOne hash k r) acc).1
          ((l.zipIdx pre.length).foldl (predictOne hash k r) acc).2 := by
    intro l
    induction l with
    | nil => intro pre _ acc h; simpa using h
    | cons e l ih =>
      intro pre hl acc h
      rw [List.zipIdx_cons, List.foldl_cons]
      have := ih (pre ++ [e]) (by rw [hl]; simp) (predictOne hash k r acc (e, pre.length)) (by
        rw [predictOne_eq]
        have := hstep acc.1 acc.2 e pre.length (by rw [hl]; simp) h
        simpa using this)
      simpa using this
  exact key _ [] rfl (cols, ctr) h0

def RankCols (G : Grammar P T) (toks : List T) (cols : List (Column P T H)) : Prop :=
  ∀ k s, InCol cols k s → (predicted G toks s.start s.rule)[s.rank]? = some s.prod ∧
    ∀ j, j < s.rank → (predicted G toks s.start s.rule)[j]? ≠ some s.prod

theorem inCol_append_dup {cols : List (Column P T H)} {k k' : Nat} {s x : State P T}
    (hd : ∀ col, cols[k]? = some col → hash s.key ∈ col.hashes)
    (h : InCol (appendAt hash cols k s) k' x) : InCol cols k' x := by
  obtain ⟨c, hc, hx⟩ := h
  rw [appendAt_get?] at hc
  split at hc
  · rename_i hk; subst hk
    obtain ⟨c0, h0, rfl⟩ := Option.map_eq_some_iff.1 hc
    rw [append_states] at hx
    simp only [hd _ h0, if_true] at hx
    exact ⟨c0, h0, hx⟩
  · exact ⟨c, hc, hx⟩

theorem RankCols.append_same {cols : List (Column P T H)} (h : RankCols G toks cols) {k k0 : Nat}
    {s p : State P T} (hp : InCol cols k0 p) (h1 : s.rule = p.rule) (h2 : s.prod = p.prod)
    (h3 : s.start = p.start) (h4 : s.rank = p.rank) : RankCols G toks (appendAt hash cols k s) := by
  intro k' s' h'
  rcases inCol_appendAt h' with h5 | ⟨_, rfl⟩
  · exact h _ _ h5
  · rw [h1, h2, h3, h4]; exact h _ _ hp

theorem RankCols.predict {cols : List (Column P T H)} (h : RankCols G toks cols) (k r ctr : Nat) :
    RankCols G toks (Yargy.predict G hash toks k r cols ctr).1 := by
  refine (predict_induct_idx (M := fun n cols _ => RankCols G toks cols ∧
    ∀ j, j < n → ∀ q, (predicted G toks k r)[j]? = some q → ∀ col, cols[k]? = some col →
      hash (predictState (T := T) k r q 0 0).key ∈ col.hashes) (hash := hash) k r cols ctr
      ⟨h, fun j hj => by omega⟩ ?_).1
  rintro cols ctr prod rank hp ⟨h1, h2⟩
  refine ⟨?_, ?_⟩
  · intro k' s' h'
    by_cases hdup : ∃ j, j < rank ∧ (predicted G toks k r)[j]? = some prod
    · obtain ⟨j, hj, hjp⟩ := hdup
      exact h1 _ _ (inCol_append_dup (s := predictState k r prod rank ctr)
        (fun col hc => h2 j hj _ hjp col hc) h')
    · rcases inCol_appendAt h' with h3 | ⟨_, rfl⟩
      · exact h1 _ _ h3
      · exact ⟨hp, fun j hj he => hdup ⟨j, hj, he⟩⟩
  · intro j hj q hq col hc
    rw [appendAt_get?] at hc
    simp only [if_true] at hc
    obtain ⟨c0, h0, rfl⟩ := Option.map_eq_some_iff.1 hc
    have hkey : (predictState (T := T) k r prod rank ctr).key = (predictState (T := T) k r prod 0 0).key := rfl
    rw [append_hashes]
    by_cases hjr : j = rank
    · subst hjr
      rw [hp] at hq; cases hq
      rw [← hkey]
      split
      · assumption
      · exact List.mem_cons_self
    · have := h2 j (by omega) q hq c0 h0
      split
      · exact this
      · exact List.mem_cons_of_mem _ this

theorem rankCols_trans (c c' : Config P T H) (ht : Trans G hash toks all c c')
    (hS : SoundInv G toks c) (h : RankCols G toks c.cols) : RankCols G toks c'.cols := by
  cases ht with
  | enterPredict => exact h.predict _ _ _
  | enterSkip => exact h
  | nextColumn => exact h
  | finish => exact h
  | startComplete => exact h
  | predictRule => exact h.predict _ _ _
  | @scanAccept cols ctr k i col s p t hc hs hn ht ha =>
    exact h.append_same (inCol_of_get hc hs) rfl rfl rfl rfl
  | scanReject => exact h
  | @completeNext cols ctr k i s j p hp =>
    obtain ⟨h3, h4⟩ := hS.cols.mem_parents (List.mem_of_getElem? hp)
    exact h.append_same h3 rfl rfl rfl rfl
  | completeEnd => exact h
  | done => exact h

/-- everything the comparison relies on -/
structure OrderInv (G : Grammar P T) (hash : Key → H) (toks : List T) (c : Config P T H) : Prop where
  uniq : UniqInv G hash toks c
  ids : IdCols c.cols c.ctr
  rank : RankCols G toks c.cols

theorem orderInv_runN (hG : PredictSound G) (n : Nat) :
    OrderInv G hash toks (runN G hash toks all n) := by
  have h1 := uniqInv_runN (hash := hash) (toks := toks) (all := all) hG
  refine ⟨h1 n, ?_, ?_⟩
  · exact (runN_induct (M := fun c => SoundInv G toks c ∧ IdCols c.cols c.ctr) G hash toks all
      ⟨soundInv_init, idCols_init⟩
      (fun c c' ht h => ⟨soundInv_trans hG _ _ ht h.1, idCols_trans hG _ _ ht h.1 h.2⟩) n).2
  · exact (runN_induct (M := fun c => SoundInv G toks c ∧ RankCols G toks c.cols) G hash toks all
      ⟨soundInv_init, fun _ _ h => absurd h not_inCol_init⟩
      (fun c c' ht h => ⟨soundInv_trans hG _ _ ht h.1, rankCols_trans _ _ ht h.1 h.2⟩) n).2

/-! ### Children are chart objects -/

/-- `c` stands for term `x` from token `j` to `k` -/
inductive Part (G : Grammar P T) (toks : List T) (cols : List (Column P T H)) :
    Term P → Nat → Nat → PTree P T → Prop
  | leaf {j l p t} : toks[j]? = some t →
      Part G toks cols (.pred p) j (j + 1) (.leaf l p (G.constrain p t))
  | node {k t} : InCol cols k t → t.completed = true →
      Part G toks cols (.rule t.rule) t.start k t.node

inductive Parts (G : Grammar P T) (toks : List T) (cols : List (Column P T H)) :
    List (Term P) → Nat → Nat → List (PTree P T) → Prop
  | nil {i} : Parts G toks cols [] i i []
  | cons {x xs i j k c cs} : Part G toks cols x i j c → Parts G toks cols xs j k cs →
      Parts G toks cols (x :: xs) i k (c :: cs)

theorem Parts.snoc {cols : List (Column P T H)} {xs : List (Term P)} {i j k : Nat}
    {cs : List (PTree P T)} {x : Term P} {c : PTree P T} (h : Parts G toks cols xs i j cs)
    (hx : Part G toks cols x j k c) : Parts G toks cols (xs ++ [x]) i k (cs ++ [c]) := by
  induction h with
  | nil => exact .cons hx .nil
  | cons h1 _ ih => exact .cons h1 (ih hx)

theorem parts_of_state {c : Config P T H} (h : UniqInv G hash toks c) :
    ∀ (n k : Nat) (s : State P T), s.dot = n → InCol c.cols k s →
      Parts G toks c.cols (s.prod.terms.take s.dot) s.start k s.children := by
  intro n
  induction n with
  | zero =>
    intro k s hd hs
    obtain ⟨h1, h2⟩ := (h.sound.states _ _ hs).dot_zero hd
    rw [hd, h1, h2]; exact .nil
  | succ n ih =>
    intro k s hd hs
    cases h.origin _ _ hs with
    | predicted a1 => omega
    | scanned p m lid pr t a1 a2 a3 a4 a5 a6 a7 a8 a9 =>
      have := ih m p (by omega) a1
      have hx := take_succ_next a8
      rw [a4, a5, hx, a6, a7]
      subst a2
      exact this.snoc (.leaf a9)
    | completed p t m a1 a2 a3 a4 a5 a6 a7 a8 a9 a10 =>
      have := ih m p (by omega) a1
      have hx := take_succ_next a10
      rw [a6, a7, hx, a8, a9]
      subst a4
      exact this.snoc (.node a2 a3)

theorem parts_of_completed {c : Config P T H} (h : UniqInv G hash toks c) {k : Nat} {s : State P T}
    (hs : InCol c.cols k s) (hc : s.completed = true) :
    Parts G toks c.cols s.prod.terms s.start k s.children := by
  have := parts_of_state h _ k s rfl hs
  rwa [List.take_of_length_le (by simpa [State.completed] using hc)] at this

theorem predicted_eq_offered (i r : Nat) : predicted G toks i r = offered G toks i r := rfl

theorem rank_lt_iff {cols : List (Column P T H)} (h : RankCols G toks cols) {k k' : Nat}
    {s t : State P T} (hs : InCol cols k s) (ht : InCol cols k' t) (hr : s.rule = t.rule)
    (hst : s.start = t.start) :
    s.rank < t.rank ↔ OfferedBefore (offered G toks s.start s.rule) s.prod t.prod := by
  obtain ⟨h1, h2⟩ := h _ _ hs
  obtain ⟨h3, h4⟩ := h _ _ ht
  rw [← hr, ← hst] at h3 h4
  constructor
  · intro hlt
    refine ⟨s.rank, h1, fun m hm => ?_⟩
    rcases Nat.lt_or_ge m t.rank with h5 | h5
    · exact absurd hm (h4 m h5)
    · omega
  · rintro ⟨n, g1, g2⟩
    have hn : s.rank ≤ n := by
      rcases Nat.lt_or_ge n s.rank with h5 | h5
      · exact absurd g1 (h2 n h5)
      · exact h5
    have := g2 t.rank h3
    omega

theorem rank_eq_iff {cols : List (Column P T H)} (h : RankCols G toks cols) {k k' : Nat}
    {s t : State P T} (hs : InCol cols k s) (ht : InCol cols k' t) (hr : s.rule = t.rule)
    (hst : s.start = t.start) (he : s.rank = t.rank) : s.prod = t.prod := by
  obtain ⟨h1, h2⟩ := h _ _ hs
  obtain ⟨h3, h4⟩ := h _ _ ht
  rw [← hr, ← hst, ← he, h1] at h3
  exact Option.some.inj h3

theorem earlierAll_cons_same {i : Nat} {c : DTree P T} {cs cs' : List (DTree P T)} :
    EarlierAll G toks i (c :: cs) (c :: cs') ↔ EarlierAll G toks (i + c.yield.length) cs cs' := by
  constructor
  · intro h
    cases h with
    | head h => exact h.irrefl.elim
    | tail h => exact h
  · exact .tail

theorem earlierAll_cons_ne {i : Nat} {c c' : DTree P T} {cs cs' : List (DTree P T)} (hne : c ≠ c') :
    EarlierAll G toks i (c :: cs) (c' :: cs') ↔ Earlier G toks i c c' := by
  constructor
  · intro h
    cases h with
    | head h => exact h
    | tail h => exact absurd rfl hne
  · exact .head

theorem earlier_node {i r : Nat} {a b : Production P} {cs cs' : List (DTree P T)} :
    Earlier G toks i (.node r a cs) (.node r b cs') ↔
      OfferedBefore (offered G toks i r) a b ∨ (a = b ∧ EarlierAll G toks i cs cs') := by
  constructor
  · intro h
    generalize hd : DTree.node r a cs = d at h
    generalize hd' : DTree.node r b cs' = d' at h
    cases h with
    | here h => cases hd; cases hd'; exact Or.inl h
    | inside h => cases hd; cases hd'; exact Or.inr ⟨rfl, h⟩
  · rintro (h | ⟨rfl, h⟩)
    · exact .here h
    · exact .inside h

theorem not_earlier_leaf {i : Nat} {p : P} {t : T} {d : DTree P T} :
    ¬ Earlier G toks i (.leaf p t) d := by
  intro h; cases h

theorem childrenLt_spec {c : Config P T H} (h : OrderInv G hash toks c) :
    ∀ (n : Nat) (xs : List (Term P)) (i j j' : Nat) (cs cs' : List (PTree P T)),
      dsizeAll (cs.map PTree.erase) ≤ n → Parts G toks c.cols xs i j cs →
      Parts G toks c.cols xs i j' cs' →
      ∃ b, childrenLt cs cs' = .ok b ∧
        (b = true ↔ EarlierAll G toks i (cs.map PTree.erase) (cs'.map PTree.erase)) := by
  intro n
  induction n using Nat.strongRecOn with
  | ind n ih =>
    intro xs i j j' cs cs' hn h1 h2
    cases h1 with
    | nil =>
      cases h2
      exact ⟨false, by simp [childrenLt], by simp; intro hh; cases hh⟩
    | @cons x xs i m j a as ha has =>
      cases h2 with
      | @cons _ _ _ m' j' b bs hb hbs =>
      have hsz : dsizeAll (as.map PTree.erase) < n := by
        simp only [List.map_cons, dsizeAll] at hn
        have := dsize_pos a.erase
        omega
      cases ha with
      | @leaf i l p t ht =>
        cases hb with
        | @leaf _ l' _ t' ht' =>
          rw [ht] at ht'; cases ht'
          obtain ⟨r, g1, g2⟩ := ih _ hsz xs _ _ _ as bs (Nat.le_refl _) has hbs
          refine ⟨r, by simp only [childrenLt]; exact g1, ?_⟩
          rw [g2]
          simp only [List.map_cons, PTree.erase]
          rw [earlierAll_cons_same]
          simp [DTree.yield]
      | @node m s hs hsc =>
        generalize hx : Term.rule s.rule = x at hb
        generalize hi : s.start = i at hb
        cases hb with
        | @leaf => cases hx
        | @node m' t ht htc =>
          have hr : s.rule = t.rule := by simpa using hx
          rw [← hi]
          have hids : s.nid = t.nid ↔ s = t := by
            constructor
            · intro he
              have := h.ids.inj s.node t.node ⟨_, _, hs, Or.inl rfl⟩ ⟨_, _, ht, Or.inl rfl⟩ he
              have hd : s.dtree = t.dtree := by unfold State.dtree; rw [this]
              exact (unique_completed h.uniq hs ht hsc htc hi hd).1
            · rintro rfl; rfl
          by_cases he : s.nid = t.nid
          · have hst := hids.1 he
            subst hst
            have hm : m = m' := by
              have e1 := (h.uniq.sound.states _ _ hs).stop
              have e2 := (h.uniq.sound.states _ _ ht).stop
              omega
            subst hm
            obtain ⟨r, g1, g2⟩ := ih _ hsz xs _ _ _ as bs (Nat.le_refl _) has hbs
            refine ⟨r, by simp only [childrenLt, State.node, PTree.oid, if_true]; exact g1, ?_⟩
            rw [g2]
            simp only [List.map_cons]
            rw [earlierAll_cons_same]
            have hlen := derives_reads ((h.uniq.sound.states _ _ hs).derives_node hsc)
            have e1 := hlen.len
            have e2 := hlen.le
            have : s.start + s.node.erase.yield.length = m := by omega
            rw [this]
          · have hne : s.node.erase ≠ t.node.erase := by
              intro hd
              exact he (congrArg State.nid (unique_completed h.uniq hs ht hsc htc hi hd).1)
            simp only [List.map_cons]
            rw [earlierAll_cons_ne hne]
            have hne' : ¬ s.nid = PTree.oid t.node := he
            simp only [childrenLt, State.node] at hne' ⊢
            simp only [hne', if_false]
            have hes : s.node.erase = .node s.rule s.prod (s.children.map PTree.erase) := s.dtree_eq
            have het : t.node.erase = .node t.rule t.prod (t.children.map PTree.erase) := t.dtree_eq
            have hes' : (PTree.node s.nid s.rule s.prod s.rank s.children).erase = .node s.rule s.prod (s.children.map PTree.erase) := s.dtree_eq
            have het' : (PTree.node t.nid t.rule t.prod t.rank t.children).erase = .node t.rule t.prod (t.children.map PTree.erase) := t.dtree_eq
            rw [hes', het', hr, earlier_node]
            have hbefore := rank_lt_iff h.rank hs ht hr hi
            rw [hr] at hbefore
            by_cases hlt : s.rank < t.rank
            · exact ⟨true, by simp [hlt], by simp [hbefore.1 hlt]⟩
            · by_cases hgt : t.rank < s.rank
              · refine ⟨false, by simp [hlt, hgt], ?_⟩
                simp only [Bool.false_eq_true, false_iff]
                have hb := (rank_lt_iff h.rank ht hs hr.symm hi.symm).1 hgt
                rw [← hi] at hb
                rintro (h3 | ⟨h3, _⟩)
                · exact (hb.trans h3).irrefl
                · rw [h3] at hb; exact hb.irrefl
              · have hrank : s.rank = t.rank := by omega
                have hprod := rank_eq_iff h.rank hs ht hr hi hrank
                have p1 := parts_of_completed h.uniq hs hsc
                have p2 := parts_of_completed h.uniq ht htc
                rw [← hprod, ← hi] at p2
                have hsz' : dsizeAll (s.children.map PTree.erase) < n := by
                  simp only [List.map_cons, dsizeAll, hes, dsize] at hn
                  omega
                obtain ⟨b, g1, g2⟩ := ih _ hsz' _ _ _ _ _ _ (Nat.le_refl _) p1 p2
                refine ⟨b, ?_, ?_⟩
                · simp [hrank, nodeLt, he, g1]
                · rw [g2, hprod]
                  constructor
                  · intro hh; exact Or.inr ⟨rfl, hh⟩
                  · rintro (h3 | ⟨_, h3⟩)
                    · exact h3.irrefl.elim
                    · exact h3

/-- `Node.__lt__` on completed nodes of one rule with one start. -/
theorem nodeLt_spec {c : Config P T H} (h : OrderInv G hash toks c) {k k' : Nat} {s t : State P T}
    (hs : InCol c.cols k s) (ht : InCol c.cols k' t) (hsc : s.completed = true)
    (htc : t.completed = true) (hr : s.rule = t.rule) (hi : s.start = t.start) :
    ∃ b, nodeLt s.node t.node = .ok b ∧ (b = true ↔ Earlier G toks s.start s.dtree t.dtree) := by
  have p1 : Parts G toks c.cols [.rule s.rule] s.start k [s.node] := .cons (.node hs hsc) .nil
  have p2 : Parts G toks c.cols [.rule s.rule] s.start k' [t.node] := by
    rw [hr, hi]; exact .cons (.node ht htc) .nil
  by_cases he : s.nid = t.nid
  · have := h.ids.inj s.node t.node ⟨_, _, hs, Or.inl rfl⟩ ⟨_, _, ht, Or.inl rfl⟩ he
    have hd : s.dtree = t.dtree := by unfold State.dtree; rw [this]
    refine ⟨false, ?_, ?_⟩
    · simp [nodeLt, State.node, hr, he]
    · rw [hd]; simp only [Bool.false_eq_true, false_iff]; exact fun hh => hh.irrefl
  · obtain ⟨b, g1, g2⟩ := childrenLt_spec h _ _ _ _ _ _ _ (Nat.le_refl _) p1 p2
    have hne : s.node.erase ≠ t.node.erase := by
      intro hd
      exact he (congrArg State.nid (unique_completed h.uniq hs ht hsc htc hi hd).1)
    simp only [List.map_cons, List.map_nil] at g2
    rw [earlierAll_cons_ne hne] at g2
    refine ⟨b, ?_, g2⟩
    rw [← g1]
    have hne' : ¬ s.nid = PTree.oid t.node := he
    simp only [State.node] at hne'
    simp only [State.node, childrenLt, hne', if_false]
    by_cases h1 : s.rank < t.rank
    · have h2 : ¬ s.rank = t.rank := by omega
      simp [nodeLt, hr, he, h1, h2]
    · by_cases h2 : s.rank = t.rank
      · simp [h2]
      · have h3 : t.rank < s.rank := by omega
        simp [nodeLt, hr, he, h1, h2, h3]

end Yargy
