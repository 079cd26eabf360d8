import Verif.Proofs.FrameWalk
/-!
The methods of the transformators, one by one.
-/
namespace Yargy
namespace Pass

variable {P : Type} {F : Pass P}

/-- `self.visit(New(…))` for something new that stands for the item. -/
theorem visitNew_fits {rec : Visit P} (hr : F.VisitFits rec) (hbirths : F.births = false) {a : Nat}
    {o o' : Obj P} {s s' : St P} {b : Nat} (hi : F.Inv s)
    (ha : a < s.heap.length) (hsort : isProdAt s.heap a = o'.tag.isProd) (ho' : o'.tag ≠ .forward)
    (hb' : o'.tag ≠ .bnf) (hfit : F.Fit s.heap o')
    (hv : ∀ c ∈ o'.children, ∀ x, F.Old x → F.Via s.heap c x → F.Via s.heap a x)
    (h : visitNew rec o' s = .ok (b, s')) :
    F.Inv s' ∧ F.Ext s.heap s'.heap ∧ F.Result s'.heap a b := by
  have i1 : F.Inv (s.alloc o').2 := hi.alloc hfit (by rintro c rfl; exact ho' rfl)
  have e1 : F.Ext s.heap (s.alloc o').2.heap := Ext.append _ _
  have hnew : (s.alloc o').2.heap[s.heap.length]? = some o' := getElem?_new o'
  obtain ⟨i2, e2, r2⟩ := hr s.heap.length (s.alloc o').2 b s' i1
    ⟨.inl hi.len, by simp [St.alloc]⟩ h
  have e := e1.trans e2
  have hnew2 := e2.get hnew hb'
  refine ⟨i2, e, r2.above hbirths ?_ ?_⟩
  · rw [isProdAt_some hnew2, e.isProdAt ha, hsort]
  · intro x hx hvx
    cases hvx with
    | refl => exact absurd hx (Pass.not_old hi.len)
    | step h1 h2 h3 h4 =>
      rw [hnew2] at h2; cases h2
      obtain ⟨k1, k2, _⟩ := hfit.kids _ h3
      exact e.via (hv _ h3 x hx (e.via_back hi.shut h4 k1 k2))

/-- Something two steps below. -/
theorem grandchild {s : St P} (hi : F.Inv s) {a c g : Nat} {o oc : Obj P} (ho : s.heap[a]? = some o)
    (hoc : s.heap[c]? = some oc) (hn : o.tag ≠ .forward) (hn' : oc.tag ≠ .forward)
    (hc : c ∈ o.children) (hg : g ∈ oc.children) :
    ∀ x, F.Old x → F.Via s.heap g x → F.Via s.heap a x := fun _ _ hv =>
  .step (hi.not_old ho (by rintro c rfl; exact hn rfl)) ho hc
    (.step (hi.not_old hoc (by rintro c rfl; exact hn' rfl)) hoc hg hv)

/-- A quantifier around a grandchild. -/
theorem squash_new {rec : Visit P} (hr : F.VisitFits rec) (hbirths : F.births = false)
    (hin : ∀ t, F.inT t = true) {a c g : Nat} {o oc o' : Obj P} {s s' : St P} {b : Nat} (hi : F.Inv s)
    (hd : F.Dom a) (ho : s.heap[a]? = some o) (hoc : s.heap[c]? = some oc) (hq : o.tag = .quant)
    (hqc : oc.tag = .quant) (hq' : o'.tag = .quant) (hc : o.children = [c]) (hg : oc.children = [g])
    (hg' : o'.children = [g]) (hX : o'.preds = [])
    (h : visitNew rec o' s = .ok (b, s')) :
    F.Inv s' ∧ F.Ext s.heap s'.heap ∧ F.Result s'.heap a b := by
  have hcd := hi.items hd ho c (by rw [hc]; exact List.mem_cons_self)
  have hk := (hi.dom c oc hcd.1 hoc).kids g (by rw [hg]; exact List.mem_cons_self)
  refine visitNew_fits (o := o) hr hbirths hi (List.getElem?_eq_some_iff.1 ho).1 ?_ (by rw [hq']; decide)
    (by rw [hq']; decide) ⟨hin _, (by rw [hX]; intro p hp; cases hp), ?_⟩ ?_ h
  · rw [isProdAt_some ho, hq, hq']
  · intro x hx
    rw [hg', List.mem_singleton] at hx
    subst hx
    refine ⟨hk.1, hk.2.1, ?_⟩
    rw [hk.2.2, hqc, hq']
  · intro x hx
    rw [hg', List.mem_singleton] at hx
    subst hx
    exact grandchild hi ho hoc (by rw [hq]; decide) (by rw [hqc]; decide)
      (by rw [hc]; exact List.mem_cons_self) (by rw [hg]; exact List.mem_cons_self)

theorem quant_rebuild {rec : Visit P} (hr : F.VisitFits rec) (hin : F.inT .quant = true)
    (hout : F.outT .quant = true) {a r : Nat} {o : Obj P} {s s' : St P}
    {b : Nat} {mk : Nat → Obj P} (hi : F.Inv s) (hd : F.Dom a)
    (ho : s.heap[a]? = some o) (hq : o.tag = .quant) (hxs : o.children = [r])
    (htag : ∀ y, (mk y).tag = .quant) (hX : ∀ y, (mk y).preds = [])
    (hch : ∀ y, (mk y).children = [y])
    (h : rebuild rec r mk s = .ok (b, s')) :
    F.Inv s' ∧ F.Ext s.heap s'.heap ∧ F.Result s'.heap a b := by
  refine rebuild_fits hr hi hd ho (by rw [hq]; decide) hxs ?_ ?_ ?_ ?_ hX hch ?_ h
  · intro y; rw [htag]; exact hout
  · intro y; rw [htag]; exact hin
  · intro y; rw [htag, hq]
  · intro y; rw [htag, hq]
  · intro y; rw [htag]; decide

theorem squashBounded_fits {rec : Visit P} (hr : F.VisitFits rec) (hbirths : F.births = false)
    (hin : ∀ t, F.inT t = true) (hout : F.outT .quant = true) {a c : Nat} {o : Obj P} {mk : Nat → Obj P}
    {s s' : St P} {b : Nat} (hi : F.Inv s)
    (hd : F.Dom a) (ho : s.heap[a]? = some o) (hq : o.tag = .quant) (hc : o.children = [c])
    (htag : ∀ y, (mk y).tag = .quant) (hX : ∀ y, (mk y).preds = [])
    (hch : ∀ y, (mk y).children = [y])
    (h : squashBounded rec c mk s = .ok (b, s')) :
    F.Inv s' ∧ F.Ext s.heap s'.heap ∧ F.Result s'.heap a b := by
  unfold squashBounded at h
  split at h
  · rename_i g rev hoc
    exact squash_new hr hbirths hin hi hd ho hoc hq rfl rfl hc rfl rfl rfl h
  · cases h
  · rename_i g rev hoc
    have hcd := hi.items hd ho c (by rw [hc]; exact List.mem_cons_self)
    have hk := (hi.dom c _ hcd.1 hoc).kids g List.mem_cons_self
    have hfit : F.Fit s.heap (mk g) := by
      refine ⟨hin _, (by rw [hX]; intro p hp; cases hp), ?_⟩
      intro x hx
      rw [hch, List.mem_singleton] at hx
      subst hx
      exact ⟨hk.1, hk.2.1, by rw [hk.2.2, htag]; rfl⟩
    have hnf : ∀ d, mk g ≠ .forward d := by
      intro d e
      have := htag g
      rw [e] at this; cases this
    have i1 : F.Inv (s.alloc (mk g)).2 := hi.alloc hfit hnf
    have e1 : F.Ext s.heap (s.alloc (mk g)).2.heap := Ext.append _ _
    have hnew : (s.alloc (mk g)).2.heap[s.heap.length]? = some (mk g) := getElem?_new _
    have ho1 : (s.alloc (mk g)).2.heap[a]? = some o := getElem?_append_some ho
    have hoc1 : (s.alloc (mk g)).2.heap[c]? = some (.optional g rev) := getElem?_append_some hoc
    obtain ⟨q1, q2, q3⟩ := visitNew_fits (o := o) (a := a) (o' := .optional s.heap.length rev) hr hbirths i1
      (List.getElem?_eq_some_iff.1 ho1).1 (by rw [isProdAt_some ho1, hq]; rfl) (by simp [Obj.tag])
      (by simp [Obj.tag]) ⟨hin _, (by intro p hp; cases hp), by
        intro x hx
        have : x = s.heap.length := by simpa [Obj.children] using hx
        subst this
        exact ⟨.inl hi.len, by simp [St.alloc], by rw [isProdAt_some hnew, htag]; rfl⟩⟩ (by
        intro x hx z hz hv
        have : x = s.heap.length := by simpa [Obj.children] using hx
        subst this
        cases hv with
        | refl => exact absurd hz (Pass.not_old hi.len)
        | step h1 h2 h3 h4 =>
          rw [hnew] at h2; cases h2
          rw [hch, List.mem_singleton] at h3
          subst h3
          exact grandchild i1 ho1 hoc1 (by rw [hq]; decide) (by simp [Obj.tag])
            (by rw [hc]; exact List.mem_cons_self) List.mem_cons_self z hz h4) h
    exact ⟨q1, e1.trans q2, q3⟩
  · exact quant_rebuild hr (hin _) hout hi hd ho hq hc htag hX hch h

theorem squash_fits (hbirths : F.births = false) (hin : ∀ t, F.inT t = true)
    (hout : ∀ t, t ≠ .bnf → F.outT t = true) : F.MethodFits squashMethod := by
  intro n rec hr a o s b s' hi hd ho h
  have hq := hout .quant (by decide)
  unfold squashMethod at h
  split at h
  · split at h
    · rename_i hoc; exact squash_new hr hbirths hin hi hd ho hoc rfl rfl rfl rfl rfl rfl rfl h
    · cases h
    · rename_i hoc; exact squash_new hr hbirths hin hi hd ho hoc rfl rfl rfl rfl rfl rfl rfl h
    · rename_i hoc; exact squash_new hr hbirths hin hi hd ho hoc rfl rfl rfl rfl rfl rfl rfl h
    · rename_i hoc; exact squash_new hr hbirths hin hi hd ho hoc rfl rfl rfl rfl rfl rfl rfl h
    · rename_i hoc; exact squash_new hr hbirths hin hi hd ho hoc rfl rfl rfl rfl rfl rfl rfl h
    · refine quant_rebuild hr (hin _) hq hi hd ho rfl rfl ?_ ?_ ?_ h <;> intro <;> rfl
  · split at h
    · rename_i hoc; exact squash_new hr hbirths hin hi hd ho hoc rfl rfl rfl rfl rfl rfl rfl h
    · cases h
    · rename_i hoc; exact squash_new hr hbirths hin hi hd ho hoc rfl rfl rfl rfl rfl rfl rfl h
    · refine quant_rebuild hr (hin _) hq hi hd ho rfl rfl ?_ ?_ ?_ h <;> intro <;> rfl
  · split at h
    · rename_i hoc; exact squash_new hr hbirths hin hi hd ho hoc rfl rfl rfl rfl rfl rfl rfl h
    · rename_i hoc; exact squash_new hr hbirths hin hi hd ho hoc rfl rfl rfl rfl rfl rfl rfl h
    · rename_i hoc; exact squash_new hr hbirths hin hi hd ho hoc rfl rfl rfl rfl rfl rfl rfl h
    · rename_i hoc; exact squash_new hr hbirths hin hi hd ho hoc rfl rfl rfl rfl rfl rfl rfl h
    · rename_i hoc; exact squash_new hr hbirths hin hi hd ho hoc rfl rfl rfl rfl rfl rfl rfl h
    · rename_i hoc; exact squash_new hr hbirths hin hi hd ho hoc rfl rfl rfl rfl rfl rfl rfl h
    · refine quant_rebuild hr (hin _) hq hi hd ho rfl rfl ?_ ?_ ?_ h <;> intro <;> rfl
  · refine squashBounded_fits hr hbirths hin hq hi hd ho rfl rfl ?_ ?_ ?_ h <;> intro <;> rfl
  · refine squashBounded_fits hr hbirths hin hq hi hd ho rfl rfl ?_ ?_ ?_ h <;> intro <;> rfl
  · refine squashBounded_fits hr hbirths hin hq hi hd ho rfl rfl ?_ ?_ ?_ h <;> intro <;> rfl
  · refine default_fits (fun t _ => hin t) hr hi hd ho (fun ht => hout _ ht) (fun _ => hout _ (by decide)) h

/-! ### Alternatives -/

variable (F) in
/-- A production made for an alternative. -/
structure AltResult (g : Heap P) (r p : Nat) : Prop where
  lt : p < g.length
  dom : F.Dom p
  sort : isProdAt g p = true
  ok : F.Ok g r p

theorem visitProd_fits {rec : Visit P} (hr : F.VisitFits rec) (hin : F.inT .prod = true)
    (hout : F.outT .prod = true) :
    F.StepFits (fun g r => F.Item g r ∧ isProdAt g r = false) F.AltResult (visitProd rec) := by
  intro r s p s' hi hpre h
  unfold visitProd rebuild at h
  cases hm : rec r s with
  | error e => rw [hm] at h; cases h
  | ok y =>
    obtain ⟨y, s1⟩ := y
    rw [hm] at h
    simp only [Except.map, Except.ok.injEq] at h
    obtain ⟨i1, e1, r1⟩ := hr r s y s1 hi hpre.1 hm
    have hfit : F.Fit s1.heap (.prod [.rule y] 0) := by
      refine ⟨hin, (by intro p hp; cases hp), ?_⟩
      intro c hc
      have : c = y := by simpa [Obj.children, termRules] using hc
      subst this
      refine ⟨r1.dom, r1.lt, ?_⟩
      rw [r1.sort, e1.isProdAt hpre.1.2, hpre.2]; rfl
    have i2 := i1.alloc hfit (by intro c e; cases e)
    have e2 : F.Ext s1.heap (s1.heap ++ [.prod [.rule y] 0]) := Ext.append _ _
    have hnew : (s1.heap ++ [.prod [.rule y] 0])[s1.heap.length]? = some (.prod [.rule y] 0) :=
      getElem?_new _
    rw [← show (s1.alloc (.prod [.rule y] 0)).1 = p from by rw [h]]
    rw [← show (s1.alloc (.prod [.rule y] 0)).2 = s' from by rw [h]]
    refine ⟨i2, e1.trans e2, by simp [St.alloc], .inl i1.len, ?_, ?_⟩
    · show isProdAt (s1.heap ++ _) s1.heap.length = true
      rw [isProdAt_some hnew]; rfl
    · show F.Ok (s1.heap ++ _) r s1.heap.length
      refine ok_set (fun b => b = s1.heap.length) ?_ _ rfl
      rintro b rfl
      refine ⟨_, hnew, hout, (by intro p hp; cases hp), i1.len, fun c hc => .inr ?_⟩
      have : c = y := by simpa [Obj.children, termRules] using hc
      subst this
      exact e2.ok i1.shut r1.dom r1.lt r1.ok

theorem or_fits (hbirths : F.births = false) (hsub : ∀ t, F.outT t = true → F.inT t = true)
    (hout : ∀ t, F.inT t = true → t ≠ .or → F.outT t = true) (hb : F.inT .bnf = false)
    (hrule : F.outT .rule = true) (hprod : F.outT .prod = true) :
    F.MethodFits orMethod := by
  intro n rec hr a o s b s' hi hd ho h
  have htag := (hi.dom a o hd ho).tag
  unfold orMethod at h
  split at h
  · rename_i rs
    unfold rebuildAll at h
    cases hm : mapSt (visitProd rec) rs s with
    | error e => rw [hm] at h; cases h
    | ok y =>
      obtain ⟨ps, s1⟩ := y
      rw [hm] at h
      simp only [Except.map, Except.ok.injEq] at h
      obtain ⟨i1, e1, p1⟩ := mapSt_fits (F := F)
        (Pre := fun g r => F.Item g r ∧ isProdAt g r = false) (R := F.AltResult)
        (fun g g' x he hx => ⟨item_ext _ _ _ he hx.1, by rw [he.isProdAt hx.1.2]; exact hx.2⟩)
        (fun g g' x y he hs hx hR => ⟨Nat.lt_of_lt_of_le hR.lt he.len, hR.dom,
          by rw [he.isProdAt hR.lt]; exact hR.sort, he.ok hs hR.dom hR.lt hR.ok⟩)
        (visitProd_fits hr (hsub _ hprod) hprod) rs s ps s1 hi
        (fun x hx => ⟨hi.items hd ho x hx, ((hi.dom a _ hd ho).kids x hx).2.2⟩) hm
      have ho1 := e1.get ho (by simp [Obj.tag])
      obtain ⟨q1, q2, q3⟩ := result_new (o' := .rule ps) i1 hd ho1 (by intro c e; cases e)
        (by intro c e; cases e) hrule (hsub _ hrule) rfl (by intro p hp; cases hp) (by
          intro c hc
          obtain ⟨x, hx, hrx⟩ := pointwise_mem_right p1 hc
          exact ⟨hrx.lt, hrx.dom, hrx.sort, hrx.ok.above
            (below (i1.not_old ho1 (by intro c e; cases e)) ho1 hx)⟩) (by
          intro h; rw [hbirths] at h; cases h)
      rw [← show (s1.alloc (.rule ps)).1 = b from by rw [h]]
      rw [← show (s1.alloc (.rule ps)).2 = s' from by rw [h]]
      exact ⟨q1, e1.trans q2, q3⟩
  · rename_i hno
    refine default_fits hsub hr hi hd ho (fun _ => hout _ htag ?_)
      (fun e => by rw [e, hb] at htag; cases htag) h
    intro e
    cases o <;> first | exact hno _ rfl | cases e

/-! ### Empty rules -/

theorem empty_fits (hbirths : F.births = false) (hsub : ∀ t, F.outT t = true → F.inT t = true)
    (hout : ∀ t, F.inT t = true → t ≠ .empty → F.outT t = true) (hb : F.inT .bnf = false)
    (hrule : F.outT .rule = true) (hprod : F.outT .emptyProd = true) :
    F.MethodFits emptyMethod := by
  intro n rec hr a o s b s' hi hd ho h
  have htag := (hi.dom a o hd ho).tag
  unfold emptyMethod at h
  split at h
  · simp only [Except.ok.injEq] at h
    have hfit : F.Fit s.heap (.emptyProd : Obj P) :=
      ⟨hsub _ hprod, (by intro p hp; cases hp), by intro c hc; cases hc⟩
    have i1 := hi.alloc hfit (by intro c e; cases e)
    have e1 : F.Ext s.heap (s.alloc .emptyProd).2.heap := Ext.append _ _
    have hnew : (s.alloc .emptyProd).2.heap[s.heap.length]? = some .emptyProd := getElem?_new _
    have ho1 := e1.get ho (by simp [Obj.tag])
    obtain ⟨q1, q2, q3⟩ := result_new (o' := .rule [s.heap.length]) i1 hd ho1 (by intro c e; cases e)
      (by intro c e; cases e) hrule (hsub _ hrule) rfl (by intro p hp; cases hp) (by
        intro c hc
        have : c = s.heap.length := by simpa [Obj.children] using hc
        subst this
        refine ⟨by simp [St.alloc], .inl hi.len, by rw [isProdAt_some hnew]; rfl, ?_⟩
        refine ok_set (fun b => b = s.heap.length) ?_ _ rfl
        rintro b rfl
        exact ⟨_, hnew, hprod, (by intro p hp; cases hp), hi.len, by intro c hc; cases hc⟩) (by
        intro h; rw [hbirths] at h; cases h)
    rw [← show ((s.alloc .emptyProd).2.alloc (.rule [s.heap.length])).1 = b from congrArg Prod.fst h]
    rw [← show ((s.alloc .emptyProd).2.alloc (.rule [s.heap.length])).2 = s' from congrArg Prod.snd h]
    exact ⟨q1, e1.trans q2, q3⟩
  · rename_i hno
    refine default_fits hsub hr hi hd ho (fun _ => hout _ htag ?_)
      (fun e => by rw [e, hb] at htag; cases htag) h
    intro e
    cases o <;> first | exact hno rfl | cases e

/-! ### Rules with one term -/

theorem flattenTerm_fits (hbirths : F.births = false) {rec : Visit P} (hr : F.VisitFits rec) (n : Nat) :
    F.StepFits F.TermPre F.TermResult (flattenTerm rec n) := by
  induction n with
  | zero => intro t s y s' _ _ h; simp [flattenTerm] at h
  | succ n ih =>
    intro t s y s' hi ht h
    cases t with
    | pred p => cases h; exact ⟨hi, Ext.refl _, .pred _ (fun _ => ⟨p, rfl⟩) ht⟩
    | rule r =>
      simp only [flattenTerm] at h
      split at h
      · rename_i p hr1
        split at h
        · rename_i t' ht'
          have hpi := hi.items ht.1.1 hr1 p List.mem_cons_self
          unfold termsAt at ht'
          split at ht'
          · rename_i ts m hp1
            subst ht'
            have htp := hi.terms hpi.1 hp1 t' List.mem_cons_self
            obtain ⟨i1, e1, r1⟩ := ih t' s y s' hi htp h
            refine ⟨i1, e1, ?_⟩
            cases r1 with
            | pred _ _ hx => exact .pred _ (fun h => by rw [hbirths] at h; cases h) hx
            | @rule r' y hy =>
              refine .rule (hy.above hbirths ?_ ?_)
              · rw [e1.isProdAt htp.1.2, e1.isProdAt ht.1.2, htp.2, ht.2]
              · exact grandchild i1 (e1.get hr1 (by simp [Obj.tag])) (e1.get hp1 (by simp [Obj.tag]))
                  (by simp [Obj.tag]) (by simp [Obj.tag]) List.mem_cons_self
                  (termRules_mem.2 List.mem_cons_self)
          · rename_i v ps hp1
            have hf := hi.dom p _ hpi.1 hp1
            cases ps with
            | nil => cases ht'
            | cons q ps =>
              simp only [List.map_cons, List.cons.injEq] at ht'
              obtain ⟨rfl, _⟩ := ht'
              have hX : F.X q := hf.preds q (by simp [Obj.preds])
              obtain ⟨i1, e1, r1⟩ := ih (.pred q) s y s' hi hX h
              refine ⟨i1, e1, ?_⟩
              cases r1 with
              | pred _ _ hx => exact .pred _ (fun h => by rw [hbirths] at h; cases h) hx
          · cases ht'
        · exact visitTerm_fits hr _ _ _ _ hi ht h
      · exact visitTerm_fits hr _ _ _ _ hi ht h

theorem flatten_fits (hbirths : F.births = false) (heq : ∀ t, F.outT t = F.inT t)
    (hb : F.inT .bnf = false) : F.MethodFits flattenMethod := by
  intro n rec hr a o s b s' hi hd ho h
  have htag := (hi.dom a o hd ho).tag
  unfold flattenMethod at h
  split at h
  · rename_i ts m
    have hp : F.inT .prod = true := htag
    split at h
    · rename_i r
      split at h
      · rename_i p hr1
        have hri := hi.items hd ho r (by simp [Obj.children, termRules])
        have hpk := (hi.dom r _ hri.1 hr1).kids p List.mem_cons_self
        obtain ⟨i1, e1, r1⟩ := hr p s b s' hi ⟨hpk.1, hpk.2.1⟩ h
        refine ⟨i1, e1, r1.above hbirths ?_ ?_⟩
        · rw [e1.isProdAt hpk.2.1, hpk.2.2, isProdAt_some (e1.get ho (by simp [Obj.tag]))]; rfl
        · exact grandchild i1 (e1.get ho (by simp [Obj.tag])) (e1.get hr1 (by simp [Obj.tag]))
            (by simp [Obj.tag]) (by simp [Obj.tag]) (by simp [Obj.children, termRules]) List.mem_cons_self
      · exact prod_fits (flattenTerm_fits hbirths hr n) hi hd ho (by rw [heq]; exact hp) hp h
    · exact prod_fits (flattenTerm_fits hbirths hr n) hi hd ho (by rw [heq]; exact hp) hp h
  · exact default_fits (fun t ht => by rw [← heq]; exact ht) hr hi hd ho (fun _ => by rw [heq]; exact htag)
      (fun e => by rw [e, hb] at htag; cases htag) h

/-! ### Quantifiers -/

variable (F) in
/-- New objects from address `L` on that refer to each other and to `x`. -/
structure Grown (L x : Nat) (g : Heap P) : Prop where
  new : ∀ (i : Nat) o, L ≤ i → g[i]? = some o → F.inT o.tag = true ∧ F.outT o.tag = true ∧ o.preds = [] ∧
    (∀ c ∈ o.children, (c = x ∨ (L ≤ c ∧ c < g.length)) ∧ isProdAt g c = o.tag.hasProds) ∧
    ∀ y, o = .forward (some y) → L ≤ y ∧ ∀ d, g[y]? ≠ some (.forward d)

theorem isProdAt_append {g : Heap P} (e : Heap P) {a : Nat} (h : a < g.length) :
    isProdAt (g ++ e) a = isProdAt g a := by
  unfold isProdAt; rw [List.getElem?_append_left h]

theorem Grown.append {L x : Nat} {g e : Heap P} (h : F.Grown L x g) (hL : L ≤ g.length) (hx : x < L)
    (he : ∀ (i : Nat) (o : Obj P), e[i]? = some o → F.inT o.tag = true ∧ F.outT o.tag = true ∧ o.preds = [] ∧
      (∀ c ∈ o.children, (c = x ∨ (L ≤ c ∧ c < g.length + e.length)) ∧
        isProdAt (g ++ e) c = o.tag.hasProds) ∧
      ∀ y, o = .forward (some y) → L ≤ y ∧ ∀ d, (g ++ e)[y]? ≠ some (.forward d)) :
    F.Grown L x (g ++ e) := by
  refine ⟨fun i o hi ho => ?_⟩
  by_cases hl : i < g.length
  · rw [List.getElem?_append_left hl] at ho
    obtain ⟨h1, h2, h3, h4, h5⟩ := h.new i o hi ho
    refine ⟨h1, h2, h3, fun c hc => ?_, fun y hy => ⟨(h5 y hy).1, fun d hd => ?_⟩⟩
    · obtain ⟨k1, k2⟩ := h4 c hc
      have hcl : c < g.length := by
        rcases k1 with rfl | k1
        · omega
        · exact k1.2
      refine ⟨?_, by rw [isProdAt_append e hcl]; exact k2⟩
      rcases k1 with rfl | k1
      · exact .inl rfl
      · exact .inr ⟨k1.1, by rw [List.length_append]; omega⟩
    · have hyl : y < g.length := by
        rcases (h4 y (by rw [hy]; simp [Obj.children])).1 with rfl | k
        · omega
        · exact k.2
      rw [List.getElem?_append_left hyl] at hd
      exact (h5 y hy).2 d hd
  · rw [List.getElem?_append_right (Nat.le_of_not_lt hl)] at ho
    obtain ⟨h1, h2, h3, h4, h5⟩ := he _ o ho
    exact ⟨h1, h2, h3, fun c hc => ⟨by rw [List.length_append]; exact (h4 c hc).1, (h4 c hc).2⟩, h5⟩

variable (F) in
/-- Something made from the rule `x`. -/
structure Makes (L x : Nat) (s s' : St P) (b : Nat) : Prop where
  ext : ∃ e, s' = { s with heap := s.heap ++ e }
  grown : F.Grown L x s'.heap
  res : b = x ∨ (L ≤ b ∧ b < s'.heap.length)
  sort : isProdAt s'.heap b = false

variable (F) in
/-- The classes of objects that are made for quantifiers. -/
structure Makers : Prop where
  births : F.births = true
  hin : ∀ t, F.outT t = true → F.inT t = true
  prod : F.outT .prod = true
  rule : F.outT .rule = true
  or : F.outT .or = true
  empty : F.outT .empty = true
  forward : F.outT .forward = true
  quant : F.outT .quant = false

theorem getElem?_four {α : Type} {a b c d x : α} {i : Nat} (h : [a, b, c, d][i]? = some x) :
    (i = 0 ∧ x = a) ∨ (i = 1 ∧ x = b) ∨ (i = 2 ∧ x = c) ∨ (i = 3 ∧ x = d) := by
  match i, h with
  | 0, h => exact .inl ⟨rfl, by simpa using h.symm⟩
  | 1, h => exact .inr (.inl ⟨rfl, by simpa using h.symm⟩)
  | 2, h => exact .inr (.inr (.inl ⟨rfl, by simpa using h.symm⟩))
  | 3, h => exact .inr (.inr (.inr ⟨rfl, by simpa using h.symm⟩))
  | n + 4, h => simp at h

theorem getElem?_five {α : Type} {a b c d e x : α} {i : Nat} (h : [a, b, c, d, e][i]? = some x) :
    (i = 0 ∧ x = a) ∨ (i = 1 ∧ x = b) ∨ (i = 2 ∧ x = c) ∨ (i = 3 ∧ x = d) ∨ (i = 4 ∧ x = e) := by
  match i, h with
  | 0, h => exact .inl ⟨rfl, by simpa using h.symm⟩
  | 1, h => exact .inr (.inl ⟨rfl, by simpa using h.symm⟩)
  | 2, h => exact .inr (.inr (.inl ⟨rfl, by simpa using h.symm⟩))
  | 3, h => exact .inr (.inr (.inr (.inl ⟨rfl, by simpa using h.symm⟩)))
  | 4, h => exact .inr (.inr (.inr (.inr ⟨rfl, by simpa using h.symm⟩)))
  | n + 5, h => simp at h

theorem getElem?_two {α : Type} {a b x : α} {i : Nat} (h : [a, b][i]? = some x) :
    (i = 0 ∧ x = a) ∨ (i = 1 ∧ x = b) := by
  match i, h with
  | 0, h => exact .inl ⟨rfl, by simpa using h.symm⟩
  | 1, h => exact .inr ⟨rfl, by simpa using h.symm⟩
  | n + 2, h => simp at h

theorem isProdAt_add (g e : Heap P) (i : Nat) :
    isProdAt (g ++ e) (g.length + i) = isProdAt e i := by
  unfold isProdAt; rw [List.getElem?_append_right (by omega)]
  simp

section
variable {L x : Nat}

theorem mkRepeatable_makes (hM : F.Makers) {s : St P} (hg : F.Grown L x s.heap) (hL : L ≤ s.heap.length)
    (hx : x < L) (hsx : isProdAt s.heap x = false) (rev : Bool) :
    F.Makes L x s (mkRepeatable x rev s).2 (mkRepeatable x rev s).1 := by
  have e : (mkRepeatable x rev s).2 = { s with heap := s.heap ++
      [.forward (some (s.heap.length + 3)), .prod [.rule x, .rule s.heap.length] 0,
       .rule [s.heap.length + 1],
       .or (if rev then [x, s.heap.length + 2] else [s.heap.length + 2, x])] } := by
    simp [mkRepeatable, St.rule, St.alloc]
  have hxl : x < s.heap.length := by omega
  rw [e]
  refine ⟨⟨_, rfl⟩, ?_, .inr ⟨hL, by simp [mkRepeatable, St.alloc]⟩, ?_⟩
  · refine hg.append hL hx ?_
    intro i o ho
    rcases getElem?_four ho with ⟨rfl, rfl⟩ | ⟨rfl, rfl⟩ | ⟨rfl, rfl⟩ | ⟨rfl, rfl⟩
    · refine ⟨hM.hin _ hM.forward, hM.forward, rfl, ?_, ?_⟩
      · intro c hc
        have : c = s.heap.length + 3 := by simpa [Obj.children] using hc
        subst this
        refine ⟨.inr ⟨by omega, by simp⟩, by rw [isProdAt_add]; rfl⟩
      · intro y hy
        cases hy
        refine ⟨by omega, fun d hd => ?_⟩
        rw [List.getElem?_append_right (by omega)] at hd
        simp at hd
    · refine ⟨hM.hin _ hM.prod, hM.prod, rfl, ?_, by intro y hy; cases hy⟩
      intro c hc
      simp only [Obj.children, termRules, List.mem_cons, List.not_mem_nil, or_false] at hc
      rcases hc with rfl | rfl
      · exact ⟨.inl rfl, by rw [isProdAt_append _ hxl]; exact hsx⟩
      · exact ⟨.inr ⟨hL, by simp⟩, by rw [show s.heap.length = s.heap.length + 0 from rfl, isProdAt_add]; rfl⟩
    · refine ⟨hM.hin _ hM.rule, hM.rule, rfl, ?_, by intro y hy; cases hy⟩
      intro c hc
      have : c = s.heap.length + 1 := by simpa [Obj.children] using hc
      subst this
      exact ⟨.inr ⟨by omega, by simp⟩, by rw [isProdAt_add]; rfl⟩
    · refine ⟨hM.hin _ hM.or, hM.or, rfl, ?_, by intro y hy; cases hy⟩
      intro c hc
      have : c = x ∨ c = s.heap.length + 2 := by
        simp only [Obj.children] at hc
        cases rev <;> simp at hc <;> omega
      rcases this with rfl | rfl
      · exact ⟨.inl rfl, by rw [isProdAt_append _ hxl]; exact hsx⟩
      · exact ⟨.inr ⟨by omega, by simp⟩, by rw [isProdAt_add]; rfl⟩
  · show isProdAt (s.heap ++ _) (s.heap.length + 0) = false
    rw [isProdAt_add]; rfl

theorem mkRepOptional_makes (hM : F.Makers) {s : St P} (hg : F.Grown L x s.heap) (hL : L ≤ s.heap.length)
    (hx : x < L) (hsx : isProdAt s.heap x = false) (rr ro : Bool) :
    F.Makes L x s (mkRepOptional x rr ro s).2 (mkRepOptional x rr ro s).1 := by
  have e : (mkRepOptional x rr ro s).2 = { s with heap := s.heap ++
      [.forward (some (s.heap.length + 4)), .empty, .prod [.rule x, .rule s.heap.length] 0,
       .rule [s.heap.length + 2],
       .or (repOptionalOrder (s.heap.length + 1) (s.heap.length + 3) x rr ro)] } := by
    simp [mkRepOptional, St.rule, St.alloc]
  have hxl : x < s.heap.length := by omega
  rw [e]
  refine ⟨⟨_, rfl⟩, ?_, .inr ⟨hL, by simp [mkRepOptional, St.alloc]⟩, ?_⟩
  · refine hg.append hL hx ?_
    intro i o ho
    rcases getElem?_five ho with ⟨rfl, rfl⟩ | ⟨rfl, rfl⟩ | ⟨rfl, rfl⟩ | ⟨rfl, rfl⟩ | ⟨rfl, rfl⟩
    · refine ⟨hM.hin _ hM.forward, hM.forward, rfl, ?_, ?_⟩
      · intro c hc
        have : c = s.heap.length + 4 := by simpa [Obj.children] using hc
        subst this
        refine ⟨.inr ⟨by omega, by simp⟩, by rw [isProdAt_add]; rfl⟩
      · intro y hy
        cases hy
        refine ⟨by omega, fun d hd => ?_⟩
        rw [List.getElem?_append_right (by omega)] at hd
        simp at hd
    · exact ⟨hM.hin _ hM.empty, hM.empty, rfl, (by intro c hc; cases hc), (by intro y hy; cases hy)⟩
    · refine ⟨hM.hin _ hM.prod, hM.prod, rfl, ?_, by intro y hy; cases hy⟩
      intro c hc
      simp only [Obj.children, termRules, List.mem_cons, List.not_mem_nil, or_false] at hc
      rcases hc with rfl | rfl
      · exact ⟨.inl rfl, by rw [isProdAt_append _ hxl]; exact hsx⟩
      · exact ⟨.inr ⟨hL, by simp⟩, by rw [show s.heap.length = s.heap.length + 0 from rfl, isProdAt_add]; rfl⟩
    · refine ⟨hM.hin _ hM.rule, hM.rule, rfl, ?_, by intro y hy; cases hy⟩
      intro c hc
      have : c = s.heap.length + 2 := by simpa [Obj.children] using hc
      subst this
      exact ⟨.inr ⟨by omega, by simp⟩, by rw [isProdAt_add]; rfl⟩
    · refine ⟨hM.hin _ hM.or, hM.or, rfl, ?_, by intro y hy; cases hy⟩
      intro c hc
      have : c = x ∨ c = s.heap.length + 1 ∨ c = s.heap.length + 3 := by
        simp only [Obj.children, repOptionalOrder] at hc
        cases rr <;> cases ro <;> simp at hc <;> omega
      rcases this with rfl | rfl | rfl
      · exact ⟨.inl rfl, by rw [isProdAt_append _ hxl]; exact hsx⟩
      · exact ⟨.inr ⟨by omega, by simp⟩, by rw [isProdAt_add]; rfl⟩
      · exact ⟨.inr ⟨by omega, by simp⟩, by rw [isProdAt_add]; rfl⟩
  · show isProdAt (s.heap ++ _) (s.heap.length + 0) = false
    rw [isProdAt_add]; rfl

theorem mkOptional_makes (hM : F.Makers) {s : St P} (hg : F.Grown L x s.heap) (hL : L ≤ s.heap.length)
    (hx : x < L) (hsx : isProdAt s.heap x = false) (rev : Bool) :
    F.Makes L x s (mkOptional x rev s).2 (mkOptional x rev s).1 := by
  have e : (mkOptional x rev s).2 = { s with heap := s.heap ++
      [.empty, .or (if rev then [x, s.heap.length] else [s.heap.length, x])] } := by
    simp [mkOptional, St.alloc]
  have e' : (mkOptional x rev s).1 = s.heap.length + 1 := by simp [mkOptional, St.alloc]
  have hxl : x < s.heap.length := by omega
  rw [e, e']
  refine ⟨⟨_, rfl⟩, ?_, .inr ⟨by omega, by simp⟩, ?_⟩
  · refine hg.append hL hx ?_
    intro i o ho
    rcases getElem?_two ho with ⟨rfl, rfl⟩ | ⟨rfl, rfl⟩
    · exact ⟨hM.hin _ hM.empty, hM.empty, rfl, (by intro c hc; cases hc), (by intro y hy; cases hy)⟩
    · refine ⟨hM.hin _ hM.or, hM.or, rfl, ?_, by intro y hy; cases hy⟩
      intro c hc
      have : c = x ∨ c = s.heap.length := by
        simp only [Obj.children] at hc
        cases rev <;> simp at hc <;> omega
      rcases this with rfl | rfl
      · exact ⟨.inl rfl, by rw [isProdAt_append _ hxl]; exact hsx⟩
      · exact ⟨.inr ⟨by omega, by simp⟩, by rw [show s.heap.length = s.heap.length + 0 from rfl, isProdAt_add]; rfl⟩
  · show isProdAt (s.heap ++ _) (s.heap.length + 1) = false
    rw [isProdAt_add]; rfl

theorem rule_makes (hM : F.Makers) {s : St P} (hg : F.Grown L x s.heap) (hL : L ≤ s.heap.length)
    (hx : x < L) (items : List Nat)
    (hi : ∀ c ∈ items, (c = x ∨ (L ≤ c ∧ c < s.heap.length)) ∧ isProdAt s.heap c = false) :
    F.Makes L x s (s.rule items).2 (s.rule items).1 := by
  have e : (s.rule items).2 = { s with heap := s.heap ++
      [.prod (items.map .rule) 0, .rule [s.heap.length]] } := by
    simp [St.rule, St.alloc]
  have e' : (s.rule items).1 = s.heap.length + 1 := by simp [St.rule, St.alloc]
  rw [e, e']
  refine ⟨⟨_, rfl⟩, ?_, .inr ⟨by omega, by simp⟩, ?_⟩
  · refine hg.append hL hx ?_
    intro i o ho
    rcases getElem?_two ho with ⟨rfl, rfl⟩ | ⟨rfl, rfl⟩
    · refine ⟨hM.hin _ hM.prod, hM.prod, ?_, ?_, by intro y hy; cases hy⟩
      · simp [Obj.preds]
      · intro c hc
        have hc : c ∈ items := by
          have := termRules_mem.1 hc
          simpa using this
        obtain ⟨h1, h2⟩ := hi c hc
        have hcl : c < s.heap.length := by rcases h1 with rfl | h1 <;> omega
        refine ⟨?_, by rw [isProdAt_append _ hcl]; exact h2⟩
        rcases h1 with rfl | h1
        · exact .inl rfl
        · exact .inr ⟨h1.1, by omega⟩
    · refine ⟨hM.hin _ hM.rule, hM.rule, rfl, ?_, by intro y hy; cases hy⟩
      intro c hc
      have : c = s.heap.length := by simpa [Obj.children] using hc
      subst this
      exact ⟨.inr ⟨by omega, by simp⟩, by rw [show s.heap.length = s.heap.length + 0 from rfl, isProdAt_add]; rfl⟩
  · show isProdAt (s.heap ++ _) (s.heap.length + 1) = false
    rw [isProdAt_add]; rfl

theorem Makes.trans {s s' s'' : St P} {b b' : Nat} (h1 : F.Makes L x s s' b) (h2 : F.Makes L x s' s'' b') :
    F.Makes L x s s'' b' := by
  obtain ⟨e1, h1⟩ := h1.ext
  obtain ⟨e2, h3⟩ := h2.ext
  refine ⟨⟨e1 ++ e2, ?_⟩, h2.grown, h2.res, h2.sort⟩
  rw [h3, h1]; simp

theorem Makes.len {s s' : St P} {b : Nat} (h : F.Makes L x s s' b) : s.heap.length ≤ s'.heap.length := by
  obtain ⟨e, h⟩ := h.ext
  rw [h]; simp

theorem Makes.isProdAt {s s' : St P} {b : Nat} (h : F.Makes L x s s' b) {a : Nat}
    (ha : a < s.heap.length) : isProdAt s'.heap a = Yargy.isProdAt s.heap a := by
  obtain ⟨e, h⟩ := h.ext
  rw [h]; exact isProdAt_append _ ha

theorem or_makes (hM : F.Makers) {s : St P} (hg : F.Grown L x s.heap) (hL : L ≤ s.heap.length)
    (hx : x < L) (items : List Nat)
    (hi : ∀ c ∈ items, (c = x ∨ (L ≤ c ∧ c < s.heap.length)) ∧ isProdAt s.heap c = false) :
    F.Makes L x s (s.alloc (.or items)).2 (s.alloc (.or items)).1 := by
  refine ⟨⟨[.or items], rfl⟩, ?_, .inr ⟨hL, by simp [St.alloc]⟩, ?_⟩
  · refine hg.append hL hx ?_
    intro i o ho
    have : o = .or items := by
      cases i with
      | zero => simpa using ho.symm
      | succ n => simp at ho
    subst this
    refine ⟨hM.hin _ hM.or, hM.or, rfl, ?_, by intro y hy; cases hy⟩
    intro c hc
    obtain ⟨h1, h2⟩ := hi c hc
    have hcl : c < s.heap.length := by rcases h1 with rfl | h1 <;> omega
    refine ⟨?_, by rw [isProdAt_append _ hcl]; exact h2⟩
    rcases h1 with rfl | h1
    · exact .inl rfl
    · exact .inr ⟨h1.1, by omega⟩
  · show isProdAt (s.heap ++ _) (s.heap.length + 0) = false
    rw [isProdAt_add]; rfl

theorem maxBound_makes (hM : F.Makers) {s : St P} (hg : F.Grown L x s.heap) (hL : L ≤ s.heap.length)
    (hx : x < L) (hsx : isProdAt s.heap x = false) (rev : Bool) : ∀ n,
    F.Makes L x s (maxBound x rev n s).2 (maxBound x rev n s).1
  | 0 => ⟨⟨[], by simp [maxBound]⟩, hg, .inl rfl, hsx⟩
  | 1 => ⟨⟨[], by simp [maxBound]⟩, hg, .inl rfl, hsx⟩
  | n + 2 => by
    have h1 := maxBound_makes hM hg hL hx hsx rev (n + 1)
    have hL1 := Nat.le_trans hL h1.len
    have hx1 : isProdAt (maxBound x rev (n + 1) s).2.heap x = false := by
      rw [h1.isProdAt (by omega)]; exact hsx
    have h2 := rule_makes hM h1.grown hL1 hx [x, (maxBound x rev (n + 1) s).1] (by
      intro c hc
      simp only [List.mem_cons, List.not_mem_nil, or_false] at hc
      rcases hc with rfl | rfl
      · exact ⟨.inl rfl, hx1⟩
      · exact ⟨h1.res, h1.sort⟩)
    have hL2 := Nat.le_trans hL1 h2.len
    have h3 := or_makes hM h2.grown hL2 hx
      (if rev then [x, ((maxBound x rev (n + 1) s).2.rule [x, (maxBound x rev (n + 1) s).1]).1]
        else [((maxBound x rev (n + 1) s).2.rule [x, (maxBound x rev (n + 1) s).1]).1, x]) (by
      intro c hc
      have hc : c = x ∨ c = ((maxBound x rev (n + 1) s).2.rule [x, (maxBound x rev (n + 1) s).1]).1 := by
        cases rev <;> simp only [if_true, if_false, List.mem_cons, List.not_mem_nil, or_false,
          Bool.false_eq_true] at hc <;> first | exact hc | exact hc.symm
      rcases hc with rfl | rfl
      · exact ⟨.inl rfl, by rw [h2.isProdAt (by omega)]; exact hx1⟩
      · exact ⟨h2.res, h2.sort⟩)
    exact (h1.trans h2).trans h3

/-- A quantifier replaced by what is made from its rule. -/
theorem makes_fits (hM : F.Makers) {s s' : St P} {a b : Nat} {o : Obj P} (hi : F.Inv s) (hd : F.Dom a)
    (ho : s.heap[a]? = some o) (hq : o.tag = .quant) (hr : F.Ok s.heap a x ∧ x < s.heap.length ∧ F.Dom x)
    (hm : F.Makes s.heap.length x s s' b) :
    F.Inv s' ∧ F.Ext s.heap s'.heap ∧ F.Result s'.heap a b := by
  obtain ⟨e, hs'⟩ := hm.ext
  have he : F.Ext s.heap s'.heap := by rw [hs']; exact Ext.append _ _
  have hokx : F.Ok s'.heap a x := he.ok hi.shut hr.2.2 hr.2.1 hr.1
  have hok : ∀ c, (s.heap.length ≤ c ∧ c < s'.heap.length) → F.Ok s'.heap a c := by
    refine ok_set (fun c => s.heap.length ≤ c ∧ c < s'.heap.length) ?_
    rintro c ⟨h1, h2⟩
    obtain ⟨_, k2, k3, k4, _⟩ := hm.grown.new c _ h1 (List.getElem?_eq_getElem h2)
    refine ⟨_, List.getElem?_eq_getElem h2, k2, (by rw [k3]; intro p hp; cases hp),
      Nat.le_trans hi.len h1, fun d hd => ?_⟩
    rcases (k4 d hd).1 with rfl | h
    · exact .inr hokx
    · exact .inl h
  have hdom : ∀ c, (c = x ∨ (s.heap.length ≤ c ∧ c < s'.heap.length)) → F.Dom c ∧ c < s'.heap.length := by
    rintro c (rfl | h)
    · exact ⟨hr.2.2, Nat.lt_of_lt_of_le hr.2.1 he.len⟩
    · exact ⟨.inl (Nat.le_trans hi.len h.1), h.2⟩
  have hi' : F.Inv s' := by
    have := hi.extend (g := s'.heap) he (by
      intro i oi hl hoi
      obtain ⟨k1, _, k3, k4, _⟩ := hm.grown.new i oi hl hoi
      refine ⟨k1, (by rw [k3]; intro p hp; cases hp), fun c hc => ?_⟩
      obtain ⟨q1, q2⟩ := hdom c (k4 c hc).1
      exact ⟨q1, q2, (k4 c hc).2⟩) (by
      intro T c hl hT
      obtain ⟨_, _, _, k4, k5⟩ := hm.grown.new T _ hl hT
      refine ⟨hM.births, fun z hz => ?_, fun y hy => ?_⟩
      · rcases hok T ⟨hl, (List.getElem?_eq_some_iff.1 hT).1⟩ z hz with ⟨h1, _⟩ | ⟨_, h1⟩
        · exact .inl h1
        · exact .inr h1
      · subst hy
        exact (k5 y rfl).2)
    have e' : ({ s with heap := s'.heap } : St P) = s' := by rw [hs']
    rw [e'] at this
    exact this
  refine ⟨hi', he, (hdom b hm.res).2, (hdom b hm.res).1, ?_, ?_, ?_⟩
  · rw [hm.sort, he.isProdAt (List.getElem?_eq_some_iff.1 ho).1, isProdAt_some ho, hq]; rfl
  · rcases hm.res with e | h
    · rw [e]; exact hokx
    · exact hok b h
  · intro _ hp
    have := hp a _ (.refl a) (he.get ho (by rw [hq]; decide))
    rw [hq, hM.quant] at this; cases this

end

theorem grown_start {L x : Nat} {g : Heap P} (h : L = g.length) : F.Grown L x g :=
  ⟨fun i o hi ho => by have := (List.getElem?_eq_some_iff.1 ho).1; omega⟩

theorem extended_quant (hM : F.Makers) {rec : Visit P} (hr : F.VisitFits rec) {a r : Nat} {o : Obj P}
    {s s' : St P} {b : Nat} {f : Nat × St P → Nat × St P} (hi : F.Inv s) (hd : F.Dom a)
    (ho : s.heap[a]? = some o) (hq : o.tag = .quant) (hc : o.children = [r])
    (hf : ∀ (x : Nat) (s1 : St P), x < s1.heap.length → isProdAt s1.heap x = false →
      F.Makes s1.heap.length x s1 (f (x, s1)).2 (f (x, s1)).1)
    (h : (rec r s).map f = .ok (b, s')) :
    F.Inv s' ∧ F.Ext s.heap s'.heap ∧ F.Result s'.heap a b := by
  cases hm : rec r s with
  | error e => rw [hm] at h; cases h
  | ok y =>
    obtain ⟨y, s1⟩ := y
    rw [hm] at h
    simp only [Except.map, Except.ok.injEq] at h
    have hrc : r ∈ o.children := by rw [hc]; exact List.mem_cons_self
    obtain ⟨i1, e1, r1⟩ := hr r s y s1 hi (hi.items hd ho r hrc) hm
    have ho1 := e1.get ho (by rw [hq]; decide)
    have hmk := hf y s1 r1.lt (by
      rw [r1.sort, e1.isProdAt (hi.items hd ho r hrc).2, ((hi.dom a o hd ho).kids r hrc).2.2, hq]; rfl)
    rw [h] at hmk
    obtain ⟨q1, q2, q3⟩ := makes_fits hM i1 hd ho1 hq
      ⟨r1.ok.above (below (i1.not_old ho1 (by rintro c rfl; cases hq)) ho1 hrc), r1.lt, r1.dom⟩ hmk
    exact ⟨q1, e1.trans q2, q3⟩

theorem bounded_makes (hM : F.Makers) {L x t n : Nat} {s s1 : St P} (hL : L ≤ s.heap.length) (hx : x < L)
    (hsx : isProdAt s.heap x = false) (h1 : F.Makes L x s s1 t) :
    F.Makes L x s (s1.rule (List.replicate n x ++ [t])).2 (s1.rule (List.replicate n x ++ [t])).1 := by
  refine h1.trans (rule_makes hM h1.grown (Nat.le_trans hL h1.len) hx _ ?_)
  intro c hc
  rw [List.mem_append, List.mem_replicate, List.mem_singleton] at hc
  rcases hc with ⟨_, rfl⟩ | rfl
  · exact ⟨.inl rfl, by rw [h1.isProdAt (by omega)]; exact hsx⟩
  · exact ⟨h1.res, h1.sort⟩

theorem extended_fits (hM : F.Makers) (hout : ∀ t, F.inT t = true → t ≠ .quant → F.outT t = true)
    (hb : F.inT .bnf = false) : F.MethodFits extendedMethod := by
  intro n rec hr a o s b s' hi hd ho h
  have htag := (hi.dom a o hd ho).tag
  unfold extendedMethod at h
  split at h
  · exact extended_quant hM hr hi hd ho rfl rfl
      (fun x s1 hx hsx => mkRepeatable_makes hM (grown_start rfl) (Nat.le_refl _) hx hsx _) h
  · exact extended_quant hM hr hi hd ho rfl rfl
      (fun x s1 hx hsx => mkOptional_makes hM (grown_start rfl) (Nat.le_refl _) hx hsx _) h
  · exact extended_quant hM hr hi hd ho rfl rfl
      (fun x s1 hx hsx => mkRepOptional_makes hM (grown_start rfl) (Nat.le_refl _) hx hsx _ _) h
  · exact extended_quant hM hr hi hd ho rfl rfl
      (fun x s1 hx hsx => bounded_makes hM (Nat.le_refl _) hx hsx
        (mkRepeatable_makes hM (grown_start rfl) (Nat.le_refl _) hx hsx _)) h
  · exact extended_quant hM hr hi hd ho rfl rfl
      (fun x s1 hx hsx => maxBound_makes hM (grown_start rfl) (Nat.le_refl _) hx hsx _ _) h
  · exact extended_quant hM hr hi hd ho rfl rfl
      (fun x s1 hx hsx => bounded_makes hM (Nat.le_refl _) hx hsx
        (maxBound_makes hM (grown_start rfl) (Nat.le_refl _) hx hsx _ _)) h
  · rename_i h1 h2 h3 h4 h5 h6
    refine default_fits hM.hin hr hi hd ho (fun _ => hout _ htag ?_)
      (fun e => by rw [e, hb] at htag; cases htag) h
    intro e
    cases o <;> first
      | exact h1 _ _ rfl | exact h2 _ _ rfl | exact h3 _ _ _ rfl | exact h4 _ _ _ rfl
      | exact h5 _ _ _ rfl | exact h6 _ _ _ _ rfl | cases e

/-! ### Compiled rules -/

variable (F) in
/-- A rule that stands for the item, not yet finished. -/
structure Part (g : Heap P) (a b : Nat) : Prop where
  lt : b < g.length
  dom : F.Dom b
  sort : isProdAt g b = false
  ok : F.Ok g a b

variable (F) in
structure Bnfs : Prop where
  births : F.births = false
  hin : ∀ t, F.outT t = true → F.inT t = true
  prod : F.outT .prod = true
  emptyProd : F.outT .emptyProd = true
  pipeProd : F.outT .pipeProd = true
  forward : F.outT .forward = true
  bnf : F.outT .bnf = true
  nquant : F.inT .quant = false

theorem lift_fits (hB : F.Bnfs) {s : St P} {a b : Nat} (hi : F.Inv s) (hb : F.Part s.heap a b) :
    F.Inv (s.lift b).2 ∧ F.Ext s.heap (s.lift b).2.heap ∧ F.Part (s.lift b).2.heap a (s.lift b).1 := by
  have hfit : F.Fit s.heap (.prod [.rule b] 0) := by
    refine ⟨hB.hin _ hB.prod, (by intro p hp; cases hp), ?_⟩
    intro c hc
    have : c = b := by simpa [Obj.children, termRules] using hc
    subst this
    exact ⟨hb.dom, hb.lt, hb.sort⟩
  have i1 := hi.alloc hfit (by intro c e; cases e)
  have e1 : F.Ext s.heap (s.alloc (.prod [.rule b] 0)).2.heap := Ext.append _ _
  have n1 : (s.alloc (.prod [.rule b] 0)).2.heap[s.heap.length]? = some (.prod [.rule b] 0) :=
    getElem?_new _
  have hfit2 : F.Fit (s.alloc (.prod [.rule b] 0)).2.heap (.bnf [s.heap.length] none none none none) := by
    refine ⟨hB.hin _ hB.bnf, (by intro p hp; cases hp), ?_⟩
    intro c hc
    have : c = s.heap.length := by simpa [Obj.children] using hc
    subst this
    exact ⟨.inl hi.len, by simp [St.alloc], by rw [isProdAt_some n1]; rfl⟩
  have i2 := i1.alloc hfit2 (by intro c e; cases e)
  have e2 : F.Ext (s.alloc (.prod [.rule b] 0)).2.heap (s.lift b).2.heap := Ext.append _ _
  have n2 : (s.lift b).2.heap[s.heap.length + 1]? = some (.bnf [s.heap.length] none none none none) := by
    simp [St.lift, St.alloc]
  have n1' := e2.get n1 (by simp [Obj.tag])
  have e := e1.trans e2
  have hl : (s.lift b).1 = s.heap.length + 1 := by simp [St.lift, St.alloc]
  refine ⟨i2, e, by rw [hl]; simp [St.lift, St.alloc],
    .inl (by rw [hl]; exact Nat.le_succ_of_le hi.len), by rw [hl, isProdAt_some n2]; rfl, ?_⟩
  rw [hl]
  refine ok_set (fun c => c = s.heap.length ∨ c = s.heap.length + 1) ?_ _ (.inr rfl)
  rintro c (rfl | rfl)
  · refine ⟨_, n1', hB.prod, (by intro p hp; cases hp), hi.len, fun c hc => .inr ?_⟩
    have : c = b := by simpa [Obj.children, termRules] using hc
    subst this
    exact e.ok hi.shut hb.dom hb.lt hb.ok
  · refine ⟨_, n2, hB.bnf, (by intro p hp; cases hp), Nat.le_succ_of_le hi.len, fun c hc => .inl (.inl ?_)⟩
    simpa [Obj.children] using hc

theorem visitWrapped_fits (hB : F.Bnfs) {parents : Nat → Nat} {rec : Visit P} (hr : F.VisitFits rec)
    {a r : Nat} {o : Obj P} {s s' : St P} {b : Nat} (hi : F.Inv s) (hd : F.Dom a)
    (ho : s.heap[a]? = some o) (hw : o.tag = .wrap) (hc : r ∈ o.children)
    (h : visitWrapped parents rec r s = .ok (b, s')) :
    F.Inv s' ∧ F.Ext s.heap s'.heap ∧ F.Part s'.heap a b := by
  have hri := hi.items hd ho r hc
  have hsort : isProdAt s.heap r = false := by
    rw [((hi.dom a o hd ho).kids r hc).2.2, hw]; rfl
  have hno : ∀ c, o ≠ .forward c := by rintro c rfl; cases hw
  unfold visitWrapped at h
  split at h
  · rename_i d hr1
    simp only [Except.ok.injEq] at h
    have h0 := result_forward hi hri.1 hr1
    have := lift_fits hB (a := a) hi ⟨h0.lt, h0.dom, hsort, h0.ok.above (below (hi.not_old ho hno) ho hc)⟩
    rw [h] at this
    exact this
  · split at h
    · cases h
    · cases hm : rec r s with
      | error e => rw [hm] at h; cases h
      | ok y =>
        obtain ⟨y, s1⟩ := y
        rw [hm] at h
        simp only [Except.map, Except.ok.injEq] at h
        obtain ⟨i1, e1, r1⟩ := hr r s y s1 hi hri hm
        have ho1 := e1.get ho (by rw [hw]; decide)
        have hp : F.Part s1.heap a y := ⟨r1.lt, r1.dom, by rw [r1.sort, e1.isProdAt hri.2]; exact hsort,
          r1.ok.above (below (i1.not_old ho1 hno) ho1 hc)⟩
        split at h
        · obtain ⟨q1, q2, q3⟩ := lift_fits hB i1 hp
          rw [h] at q1 q2 q3
          exact ⟨q1, e1.trans q2, q3⟩
        · cases h
          exact ⟨i1, e1, hp⟩

theorem setAttrAt_ext {h : Heap P} {b : Nat} (x : Attr) (hb : F.heap.length ≤ b) :
    F.Ext h (setAttrAt h b x) ∧ (setAttrAt h b x).length = h.length := by
  have main : ∀ ps n i r kind n' i' r', h[b]? = some (.bnf ps n i r kind) →
      F.Ext h (h.set b (.bnf ps n' i' r' kind)) ∧ (h.set b (.bnf ps n' i' r' kind)).length = h.length := by
    intro ps n i r kind n' i' r' hg
    refine ⟨⟨by simp, fun a o ho => ?_⟩, by simp⟩
    by_cases e : a = b
    · subst e
      rw [hg] at ho; cases ho
      refine .inr ⟨hb, _, by rw [List.getElem?_set_self (List.getElem?_eq_some_iff.1 hg).1],
        .bnf (by rw [label_plain, label_plain])⟩
    · left
      rw [List.getElem?_set_ne (Ne.symm e)]; exact ho
  unfold setAttrAt
  split
  · rename_i hg
    cases x <;> exact main _ _ _ _ _ _ _ _ hg
  · exact ⟨Ext.refl _, rfl⟩

theorem hasAttr_bnf {h : Heap P} {b : Nat} {x : Attr} {r : Bool} (hh : hasAttr h b x = .ok r) :
    ∃ o, h[b]? = some o ∧ o.tag = .bnf := by
  unfold hasAttr at hh
  split at hh
  · rename_i hg
    exact ⟨_, hg, rfl⟩
  · cases hh

theorem visitWrapper_fits (hB : F.Bnfs) {parents : Nat → Nat} {rec : Visit P} (hr : F.VisitFits rec)
    {a r : Nat} {o : Obj P} {s s' : St P} {b : Nat} {x : Attr} (hi : F.Inv s) (hd : F.Dom a)
    (ho : s.heap[a]? = some o) (hw : o.tag = .wrap) (hc : r ∈ o.children)
    (h : visitWrapper parents rec r x s = .ok (b, s')) :
    F.Inv s' ∧ F.Ext s.heap s'.heap ∧ F.Result s'.heap a b := by
  unfold visitWrapper at h
  cases h1 : visitWrapped parents rec r s with
  | error e => rw [h1] at h; cases h
  | ok y =>
    obtain ⟨b1, s1⟩ := y
    simp only [h1] at h
    obtain ⟨i1, e1, p1⟩ := visitWrapped_fits hB hr hi hd ho hw hc h1
    cases h2 : hasAttr s1.heap b1 x with
    | error e => rw [h2] at h; cases h
    | ok has =>
      simp only [h2] at h
      obtain ⟨i2, e2, p2, hbnf⟩ : F.Inv (if has then s1.lift b1 else (b1, s1)).2 ∧
          F.Ext s1.heap (if has then s1.lift b1 else (b1, s1)).2.heap ∧
          F.Part (if has then s1.lift b1 else (b1, s1)).2.heap a (if has then s1.lift b1 else (b1, s1)).1 ∧
          ∃ o, (if has then s1.lift b1 else (b1, s1)).2.heap[(if has then s1.lift b1 else (b1, s1)).1]? =
            some o ∧ o.tag = .bnf := by
        cases has with
        | true =>
          obtain ⟨k1, k2, k3⟩ := lift_fits hB i1 p1
          exact ⟨k1, k2, k3, .bnf [s1.heap.length] none none none none, by simp [St.lift, St.alloc], rfl⟩
        | false => exact ⟨i1, Ext.refl _, p1, hasAttr_bnf h2⟩
      generalize hy : (if has then s1.lift b1 else (b1, s1)) = y at h i2 e2 p2 hbnf
      obtain ⟨b2, s2⟩ := y
      simp only [Except.ok.injEq, Prod.mk.injEq] at h
      obtain ⟨rfl, rfl⟩ := h
      obtain ⟨ob, hob, htb⟩ := hbnf
      have hge : F.heap.length ≤ b2 := by
        rcases p2.ok b2 (.refl _) with ⟨k, _⟩ | ⟨_, o', k1, _, _, k4⟩
        · obtain ⟨c, hc⟩ := i2.old_forward k
          simp only at hob
          rw [hob] at hc; cases hc; cases htb
        · simp only at hob
          rw [hob] at k1; cases k1
          rcases k4 with k4 | k4
          · exact k4
          · rw [htb] at k4; cases k4
      obtain ⟨e3, hlen⟩ := setAttrAt_ext (F := F) (h := s2.heap) x hge
      have hi3 : F.Inv { s2 with heap := setAttrAt s2.heap b2 x } := by
        refine i2.extend e3 ?_ ?_
        · intro i oi hl hoi
          have := (List.getElem?_eq_some_iff.1 hoi).1
          simp only at hl
          omega
        · intro T c hl hT
          have := (List.getElem?_eq_some_iff.1 hT).1
          simp only at hl
          omega
      have he := e1.trans (e2.trans e3)
      refine ⟨hi3, he, by have := p2.lt; simp only at this ⊢; omega, p2.dom, ?_, ?_, ?_⟩
      · show isProdAt (setAttrAt s2.heap b2 x) b2 = isProdAt (setAttrAt s2.heap b2 x) a
        rw [e3.isProdAt p2.lt, p2.sort, isProdAt_some (he.get ho (by rw [hw]; decide)), hw]; rfl
      · exact e3.ok i2.shut p2.dom p2.lt p2.ok
      · intro h; rw [hB.births] at h; cases h

theorem pipeBnf_fits (hB : F.Bnfs) {a : Nat} {p : Pipe P} {s s' : St P} {b : Nat} (hi : F.Inv s)
    (hd : F.Dom a) (ho : s.heap[a]? = some (.pipe p)) (h : pipeBnf p s = .ok (b, s')) :
    F.Inv s' ∧ F.Ext s.heap s'.heap ∧ F.Result s'.heap a b := by
  unfold pipeBnf at h
  split at h
  · cases h
  · rename_i kind keys
    split at h
    · cases h
    · have hX := (hi.dom a _ hd ho).preds
      rw [allocKeys_eq] at h
      simp only [Except.ok.injEq] at h
      have e1 : F.Ext s.heap (s.heap ++ keys.map (fun x => .pipeProd x.1 x.2)) := Ext.append _ _
      have new : ∀ (i : Nat) o, s.heap.length ≤ i →
          (s.heap ++ keys.map (fun x => .pipeProd x.1 x.2))[i]? = some o →
          o.tag = .pipeProd ∧ o.children = [] ∧ ∀ q ∈ o.preds, F.X q := by
        intro i o hl hoi
        rw [List.getElem?_append_right hl] at hoi
        have := List.mem_of_getElem? hoi
        rw [List.mem_map] at this
        obtain ⟨k, hk, rfl⟩ := this
        refine ⟨rfl, rfl, fun q hq => hX q ?_⟩
        simp only [Obj.preds] at hq ⊢
        exact List.mem_flatMap.2 ⟨k, hk, hq⟩
      have i1 : F.Inv { s with heap := s.heap ++ keys.map (fun x => .pipeProd x.1 x.2) } := by
        refine hi.extend e1 ?_ ?_
        · intro i o hl hoi
          obtain ⟨k1, k2, k3⟩ := new i o hl hoi
          exact ⟨by rw [k1]; exact hB.hin _ hB.pipeProd, k3, by rw [k2]; intro c hc; cases hc⟩
        · intro T c hl hT
          obtain ⟨k1, _⟩ := new T _ hl hT
          cases k1
      have ho1 := e1.get ho (by simp [Obj.tag])
      obtain ⟨q1, q2, q3⟩ := result_new
        (o' := .bnf (List.range' s.heap.length keys.length) none none none (some kind)) i1 hd ho1
        (by intro c e; cases e) (by intro c e; cases e) hB.bnf (hB.hin _ hB.bnf) rfl
        (by intro p hp; cases hp) (by
          intro c hc
          have hc : s.heap.length ≤ c ∧ c < s.heap.length + keys.length := by
            simp only [Obj.children, List.mem_range'_1] at hc; exact hc
          have hlt : c < (s.heap ++ keys.map (fun x => Obj.pipeProd x.1 x.2)).length := by simp; omega
          obtain ⟨k1, k2, k3⟩ := new c _ hc.1 (List.getElem?_eq_getElem hlt)
          refine ⟨hlt, .inl (Nat.le_trans hi.len hc.1), ?_, ?_⟩
          · show isProdAt (s.heap ++ _) c = _
            rw [isProdAt_some (List.getElem?_eq_getElem hlt), k1]; rfl
          · refine ok_set (fun b => b = c) ?_ _ rfl
            rintro b rfl
            exact ⟨_, List.getElem?_eq_getElem hlt, by rw [k1]; exact hB.pipeProd, k3,
              Nat.le_trans hi.len hc.1, by rw [k2]; intro c hc; cases hc⟩) (by
          intro h; rw [hB.births] at h; cases h)
      rw [h] at q1 q2 q3
      exact ⟨q1, e1.trans q2, q3⟩

theorem bnf_fits (hB : F.Bnfs) (parents : Nat → Nat) : F.MethodFits (bnfMethod parents) := by
  intro n rec hr a o s b s' hi hd ho h
  have htag := (hi.dom a o hd ho).tag
  unfold bnfMethod at h
  split at h
  · refine rebuildAll_fits hr hi hd ho (by simp [Obj.tag]) rfl ?_ ?_ ?_ ?_ ?_ ?_ ?_ h <;>
      intro <;> first | exact hB.bnf | exact hB.hin _ hB.bnf | rfl | simp [Obj.tag]
  · refine rebuildAll_fits hr hi hd ho (by simp [Obj.tag]) rfl ?_ ?_ ?_ ?_ ?_ ?_ ?_ h <;>
      intro <;> first | exact hB.bnf | exact hB.hin _ hB.bnf | rfl | simp [Obj.tag]
  · cases h
  · cases h
  · exact visitWrapper_fits hB hr hi hd ho rfl List.mem_cons_self h
  · exact visitWrapper_fits hB hr hi hd ho rfl List.mem_cons_self h
  · exact visitWrapper_fits hB hr hi hd ho rfl List.mem_cons_self h
  · exact pipeBnf_fits hB hi hd ho h
  · rename_i h1 h2 h3 h4 h5 h6 h7 h8
    have hout : F.outT o.tag = true := by
      cases o <;> first
        | exact absurd rfl (h1 _) | exact absurd rfl (h2 _ _ _ _ _) | exact absurd rfl (h3 _)
        | exact absurd rfl h4 | exact absurd rfl (h5 _ _) | exact absurd rfl (h6 _ _)
        | exact absurd rfl (h7 _ _) | exact absurd rfl (h8 _)
        | exact hB.prod | exact hB.emptyProd | exact hB.pipeProd | exact hB.forward
        | (simp only [Obj.tag] at htag; rw [hB.nquant] at htag; cases htag)
    refine default_fits hB.hin hr hi hd ho (fun _ => hout) ?_ h
    intro e
    cases o <;> first | exact absurd rfl (h2 _ _ _ _ _) | cases e

end Pass
end Yargy
