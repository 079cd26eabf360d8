import Verif.Proofs.TotalDeep
/-!
The walk of a transformator over the forward rules comes to an end.
-/
namespace Yargy

variable {P : Type}

theorem set_after {g : Heap P} {a b : Nat} {c : Option Nat} (ha : g[a]? = some (.forward c)) :
    After g (g.set a (.forward (some b))) := by
  refine ⟨by simp, fun x o hx => ?_⟩
  by_cases e : a = x
  · subst e
    rw [ha] at hx; cases hx
    exact ⟨_, List.getElem?_set_self (List.getElem?_eq_some_iff.1 ha).1, rfl, fun h => by cases h⟩
  · exact ⟨o, by rw [List.getElem?_set_ne e]; exact hx, rfl, fun _ => rfl⟩

theorem Young.redefine {n : Nat} {D : Nat → Prop} {s : St P} (hy : Young n D s) {a b : Nat} {c : Option Nat}
    (ha : s.heap[a]? = some (.forward c)) (hb : Hard s.heap b) :
    Young n D { s with heap := s.heap.set a (.forward (some b)) } := by
  have af := set_after (b := b) ha
  have hlt := (List.getElem?_eq_some_iff.1 ha).1
  have hblt : b < s.heap.length := hb.lt
  have back : ∀ (x : Nat) o, (s.heap.set a (.forward (some b)))[x]? = some o →
      (x = a ∧ o = .forward (some b)) ∨ (x ≠ a ∧ s.heap[x]? = some o) := by
    intro x o hx
    by_cases e : x = a
    · subst e
      rw [List.getElem?_set_self hlt] at hx
      cases hx
      exact .inl ⟨rfl, rfl⟩
    · rw [List.getElem?_set_ne (Ne.symm e)] at hx
      exact .inr ⟨e, hx⟩
  refine ⟨?_, ?_, ?_, ?_⟩
  · intro x o hx ho
    rcases back x o ho with ⟨rfl, rfl⟩ | ⟨_, e⟩
    · exact ⟨by simp [Obj.tag], fun h => absurd rfl h⟩
    · exact hy.new x o hx e
  · intro x d hx ho
    rcases back x _ ho with ⟨rfl, e⟩ | ⟨_, e⟩
    · cases e
      exact ⟨b, rfl, af.hard hb⟩
    · obtain ⟨y, h1, h2⟩ := hy.fwd x d hx e
      exact ⟨y, h1, af.hard h2⟩
  · intro x o ho y hyc
    show y < (s.heap.set a (.forward (some b))).length
    rw [List.length_set]
    rcases back x o ho with ⟨rfl, rfl⟩ | ⟨_, e⟩
    · have : y = b := by simpa [Obj.children] using hyc
      subst this
      exact hblt
    · exact hy.shut x o e y hyc
  · intro e he
    obtain ⟨h0, h1, h2⟩ := hy.memo e he
    exact ⟨by simpa using h0, by simpa using h1, af.kept hy.shut h0 h2⟩

/-- Nothing is asked. -/
def Any (_ : Heap P) (_ : Nat) (_ : Obj P) : Prop := True

theorem any_steady : Steady (Any : Heap P → Nat → Obj P → Prop) := fun _ _ _ _ _ _ _ _ _ _ => trivial

theorem exists_bound {Q : Nat → Nat → Prop} (hQ : ∀ c k k', k ≤ k' → Q c k → Q c k') :
    ∀ (l : List Nat), (∀ c ∈ l, ∃ k, Q c k) → ∃ k, ∀ c ∈ l, Q c k
  | [], _ => ⟨0, by intro c hc; cases hc⟩
  | x :: l, h => by
    obtain ⟨k1, h1⟩ := h x List.mem_cons_self
    obtain ⟨k2, h2⟩ := exists_bound hQ l (fun c hc => h c (List.mem_cons_of_mem _ hc))
    refine ⟨max k1 k2, fun c hc => ?_⟩
    rw [List.mem_cons] at hc
    rcases hc with rfl | hc
    · exact hQ _ _ _ (Nat.le_max_left _ _) h1
    · exact hQ _ _ _ (Nat.le_max_right _ _) (h2 c hc)

namespace Pass
variable {F : Pass P} {N : Heap P → Nat → Obj P → Prop}

/-- New objects are as little deep as old ones. -/
theorem Live.deep {s : St P} (hl : F.Live s)
    (hdeep : ∀ x, Reach F.heap F.root x → ∃ k, Deep Any F.heap x k) :
    ∀ x, F.Dom x → x < s.heap.length → ∃ k, Deep Any s.heap x k := by
  intro x
  induction x using Nat.strongRecOn with
  | ind x ih =>
    intro hd hlt
    rcases Nat.lt_or_ge x F.heap.length with hx | hx
    · have : Reach F.heap F.root x := hd.resolve_left (by omega)
      obtain ⟨k, hk⟩ := hdeep x this
      exact ⟨k, hk.akin any_steady hl.inv.akin⟩
    · obtain ⟨o, ho⟩ : ∃ o, s.heap[x]? = some o := ⟨_, List.getElem?_eq_getElem hlt⟩
      by_cases hf : o.tag = .forward
      · cases o <;> first | (cases hf; done) | exact ⟨0, .forward ho⟩
      · obtain ⟨j, hj⟩ := exists_bound (Q := fun c k => Deep Any s.heap c k) (fun c k k' h h' => h'.le h)
          o.children (fun c hc => ih c ((hl.young.new x o hx ho).2 hf c hc)
            (hl.inv.items hd ho c hc).1 (hl.inv.items hd ho c hc).2)
        exact ⟨_, .node ho hf trivial hj (Nat.le_refl _)⟩

/-! ### What is done already makes no forward rules -/

/-- No forward rules are made. -/
def NoFwd (g g' : Heap P) : Prop := ∀ (T : Nat) c, g.length ≤ T → g'[T]? ≠ some (.forward c)

theorem NoFwd.refl (g : Heap P) : NoFwd g g := by
  intro T c hT h
  have := (List.getElem?_eq_some_iff.1 h).1
  omega

theorem NoFwd.trans {g g' g'' : Heap P} (h1 : NoFwd g g') (h2 : NoFwd g' g'') (he : F.Ext g' g'') :
    NoFwd g g'' := by
  intro T c hT h
  rcases Nat.lt_or_ge T g'.length with hl | hl
  · obtain ⟨o, k1, k2⟩ := he.back hl h
    cases k2
    exact h1 T _ hT k1
  · exact h2 T c hl h

theorem NoFwd.alloc {g : Heap P} {s : St P} (h : NoFwd g s.heap) {o : Obj P} (ho : o.tag ≠ .forward) :
    NoFwd g (s.alloc o).2.heap := by
  intro T c hT hc
  rw [show (s.alloc o).2.heap = s.heap ++ [o] from rfl] at hc
  rcases Nat.lt_or_ge T s.heap.length with hl | hl
  · rw [List.getElem?_append_left hl] at hc
    exact h T c hT hc
  · rw [List.getElem?_append_right hl] at hc
    cases h' : T - s.heap.length with
    | zero => rw [h'] at hc; simp at hc; subst hc; exact ho rfl
    | succ n => rw [h'] at hc; simp at hc

theorem Ext.plain {g g' : Heap P} (he : F.Ext g g') (hs : F.Shut g) {a : Nat} (hd : F.Dom a) (hl : a < g.length)
    (h : F.Plain g a) : F.Plain g' a := by
  intro x o hx ho
  obtain ⟨h1, h2⟩ := he.via0_back hs hx hd hl
  obtain ⟨o', h3, h4⟩ := he.back h2 ho
  rw [← h4.tag]
  exact h x o' h1 h3

variable (F) in
/-- What is done already makes no forward rules. -/
def BarrenVisit (rec : Visit P) : Prop :=
  ∀ a s b s', F.Inv s → F.Item s.heap a → F.Plain s.heap a → rec a s = .ok (b, s') → NoFwd s.heap s'.heap

variable (F) in
def MethodBarren (m : Method P) : Prop :=
  ∀ n rec, F.VisitFits rec → F.BarrenVisit rec → ∀ (a : Nat) o (s : St P) b s', F.Inv s → F.Dom a →
    s.heap[a]? = some o → F.Plain s.heap a → m n rec a o s = .ok (b, s') → NoFwd s.heap s'.heap

theorem visit_barren {m : Method P} {pid : Nat → Nat} (hp : ∀ a b, pid a = pid b → a = b)
    (hf : F.MethodFits m) (hm : F.MethodBarren m) : ∀ n, F.BarrenVisit (visit m pid n) := by
  intro n
  induction n with
  | zero => intro a s b s' _ _ _ h; simp [visit] at h
  | succ n ih =>
    intro a s b s' hi ha hpl h
    unfold visit at h
    cases hl : s.lookup pid a with
    | some c =>
      simp only [hl, Except.ok.injEq, Prod.mk.injEq] at h
      obtain ⟨rfl, rfl⟩ := h
      exact NoFwd.refl _
    | none =>
      simp only [hl] at h
      cases ho : s.heap[a]? with
      | none => simp [ho] at h
      | some o =>
        simp only [ho] at h
        cases hr : m n (visit m pid n) a o s with
        | error e => simp [hr] at h
        | ok r =>
          obtain ⟨b', s1⟩ := r
          simp only [hr, Except.ok.injEq, Prod.mk.injEq] at h
          obtain ⟨rfl, rfl⟩ := h
          exact hm n _ (visit_fits hp hf n) ih a o s b' s1 hi ha.1 ho hpl hr

theorem mapSt_barren {α β : Type} {Pre : Heap P → α → Prop} {R : Heap P → α → β → Prop}
    (hPre : ∀ g g' x, F.Ext g g' → F.Shut g → Pre g x → Pre g' x)
    {f : α → St P → Except Err (β × St P)} (hf : F.StepFits Pre R f)
    (hb : ∀ x s y s', F.Inv s → Pre s.heap x → f x s = .ok (y, s') → NoFwd s.heap s'.heap) :
    ∀ (xs : List α) s ys s', F.Inv s → (∀ x ∈ xs, Pre s.heap x) → mapSt f xs s = .ok (ys, s') →
      F.Inv s' ∧ F.Ext s.heap s'.heap ∧ NoFwd s.heap s'.heap := by
  intro xs
  induction xs with
  | nil => intro s ys s' hi _ h; cases h; exact ⟨hi, Ext.refl _, NoFwd.refl _⟩
  | cons x xs ih =>
    intro s ys s' hi hx h
    simp only [mapSt] at h
    split at h
    · cases h
    · rename_i h1
      split at h
      · cases h
      · rename_i h2
        cases h
        obtain ⟨i1, e1, _⟩ := hf _ _ _ _ hi (hx x List.mem_cons_self) h1
        have b1 := hb _ _ _ _ hi (hx x List.mem_cons_self) h1
        obtain ⟨i2, e2, b2⟩ := ih _ _ _ i1
          (fun z hz => hPre _ _ _ e1 hi.shut (hx z (List.mem_cons_of_mem _ hz))) h2
        exact ⟨i2, e1.trans e2, b1.trans b2 e2⟩

theorem plain_child {g : Heap P} {a c : Nat} {o : Obj P} (h : F.Plain g a) (ho : g[a]? = some o)
    (hf : o.tag ≠ .forward) (hc : c ∈ o.children) : F.Plain g c :=
  fun x ox hx hox => h x ox (.step ho hf hc hx) hox

theorem default_barren {n : Nat} {rec : Visit P} (hr : F.VisitFits rec) (hb : F.BarrenVisit rec) {a : Nat}
    {o : Obj P} {s : St P} {b : Nat} {s' : St P} (hi : F.Inv s) (hd : F.Dom a) (ho : s.heap[a]? = some o)
    (hpl : F.Plain s.heap a) (h : defaultMethod n rec a o s = .ok (b, s')) : NoFwd s.heap s'.heap := by
  have items := hi.items hd ho
  have one : ∀ {r : Nat} {mk : Nat → Obj P}, o.tag ≠ .forward → r ∈ o.children →
      (∀ y, (mk y).tag ≠ .forward) → rebuild rec r mk s = .ok (b, s') → NoFwd s.heap s'.heap := by
    intro r mk hf hc hmk h
    unfold rebuild at h
    cases hx : rec r s with
    | error e => rw [hx] at h; cases h
    | ok x =>
      obtain ⟨x, s1⟩ := x
      rw [hx] at h
      have := hb r s x s1 hi (items r hc) (plain_child hpl ho hf hc) hx
      simp only [Except.map, Except.ok.injEq] at h
      rw [← show (s1.alloc (mk x)).2 = s' from by rw [h]]
      exact this.alloc (hmk x)
  have many : ∀ {mk : List Nat → Obj P}, o.tag ≠ .forward →
      (∀ y, (mk y).tag ≠ .forward) → rebuildAll rec o.children mk s = .ok (b, s') → NoFwd s.heap s'.heap := by
    intro mk hf hmk h
    unfold rebuildAll at h
    cases hx : mapSt rec o.children s with
    | error e => rw [hx] at h; cases h
    | ok x =>
      obtain ⟨x, s1⟩ := x
      rw [hx] at h
      obtain ⟨_, _, this⟩ := mapSt_barren (F := F) (Pre := fun g x => F.Item g x ∧ F.Plain g x)
        (R := F.Result)
        (fun g g' x e hs h => ⟨item_ext _ _ _ e h.1, e.plain hs h.1.1 h.1.2 h.2⟩)
        (fun x s y s' hi hx h => hr x s y s' hi hx.1 h)
        (fun x s y s' hi hx h => hb x s y s' hi hx.1 hx.2 h) _ _ _ _ hi
        (fun c hc => ⟨items c hc, plain_child hpl ho hf hc⟩) hx
      simp only [Except.map, Except.ok.injEq] at h
      rw [← show (s1.alloc (mk x)).2 = s' from by rw [h]]
      exact this.alloc (hmk x)
  cases o with
  | prod ts m =>
    simp only [defaultMethod, rebuildAll] at h
    cases hx : mapSt (visitTerm rec) ts s with
    | error e => rw [hx] at h; cases h
    | ok x =>
      obtain ⟨x, s1⟩ := x
      rw [hx] at h
      obtain ⟨_, _, this⟩ := mapSt_barren (F := F)
        (Pre := fun g t => F.TermPre g t ∧ ∀ r, t = .rule r → F.Plain g r) (R := F.TermResult)
        (fun g g' t e hs h => ⟨termPre_ext _ _ _ e h.1, by
          rintro r rfl
          exact e.plain hs h.1.1.1 h.1.1.2 (h.2 r rfl)⟩)
        (fun t s y s' hi ht h => visitTerm_fits hr t s y s' hi ht.1 h)
        (fun t s y s' hi ht h => by
          cases t with
          | pred p => cases h; exact NoFwd.refl _
          | rule r =>
            simp only [visitTerm] at h
            cases hz : rec r s with
            | error e => rw [hz] at h; cases h
            | ok z =>
              rw [hz] at h
              cases h
              exact hb r s _ _ hi ht.1.1 (ht.2 r rfl) hz) _ _ _ _ hi
        (fun t ht => ⟨hi.terms hd ho t ht, by
          rintro r rfl
          exact plain_child hpl ho (by simp [Obj.tag]) (termRules_mem.2 ht)⟩) hx
      simp only [Except.map, Except.ok.injEq] at h
      rw [← show (s1.alloc (.prod x m)).2 = s' from by rw [h]]
      exact this.alloc (by simp [Obj.tag])
  | emptyProd => cases h; exact NoFwd.refl _
  | pipeProd v ps => cases h; exact NoFwd.refl _
  | rule ps => exact many (by simp [Obj.tag]) (by intro; simp [Obj.tag]) h
  | or rs => exact many (by simp [Obj.tag]) (by intro; simp [Obj.tag]) h
  | optional r rev => cases h
  | repeatable r rev => cases h
  | repOptional r rr ro => cases h
  | minBounded r i rev =>
    simp only [defaultMethod] at h
    exact one (by simp [Obj.tag]) List.mem_cons_self (by intro; simp [Obj.tag]) h
  | maxBounded r i rev =>
    simp only [defaultMethod] at h
    exact one (by simp [Obj.tag]) List.mem_cons_self (by intro; simp [Obj.tag]) h
  | minMaxBounded r i i' rev =>
    simp only [defaultMethod] at h
    exact one (by simp [Obj.tag]) List.mem_cons_self (by intro; simp [Obj.tag]) h
  | named r x =>
    simp only [defaultMethod] at h
    exact one (by simp [Obj.tag]) List.mem_cons_self (by intro; simp [Obj.tag]) h
  | interp r x =>
    simp only [defaultMethod] at h
    exact one (by simp [Obj.tag]) List.mem_cons_self (by intro; simp [Obj.tag]) h
  | relation r x =>
    simp only [defaultMethod] at h
    exact one (by simp [Obj.tag]) List.mem_cons_self (by intro; simp [Obj.tag]) h
  | forward c => cases h; exact NoFwd.refl _
  | empty => cases h; exact NoFwd.refl _
  | pipe p => cases h; exact NoFwd.refl _
  | bnf ps x i r kind =>
    simp only [defaultMethod] at h
    exact many (by simp [Obj.tag]) (by intro; simp [Obj.tag]) h

theorem extended_barren (hq : F.outT .quant = false) : F.MethodBarren (extendedMethod : Method P) := by
  intro n rec hr hb a o s b s' hi hd ho hpl h
  have hout := hpl a o (.refl a) ho
  have hno : o.tag ≠ .quant := by
    intro e
    rw [e, hq] at hout; cases hout
  have e : (extendedMethod n rec a o s) = defaultMethod n rec a o s := by
    cases o <;> first | rfl | exact absurd rfl hno
  rw [e] at h
  exact default_barren hr hb hi hd ho hpl h

/-- The contents of new forward rules are done already. -/
theorem Inv.plain_content {s : St P} (hi : F.Inv s) (hfw : F.outT .forward = true) {a r : Nat}
    (hlt : F.heap.length ≤ a) (ha : s.heap[a]? = some (.forward (some r))) : F.Plain s.heap r := by
  have hfo := hi.fwd a _ hlt ha
  intro x o hx ho
  have : F.Via s.heap a x := .step (Pass.not_old hlt) ha (by simp [Obj.children])
    (via0_via (fun x hx => hi.old_forward hx) hx)
  rcases hfo.2.1 x this with h1 | ⟨o', h1, h2, _⟩
  · obtain ⟨d, hd⟩ := hi.old_forward h1
    rw [ho] at hd; cases hd
    exact hfw
  · rw [ho] at h1; cases h1
    exact h2

/-! ### The walk ends -/

variable (F N) in
/-- What is needed of a transformator to come to an end. -/
structure Ending (m : Method P) : Prop where
  fwdT : F.outT .forward = true
  fits : F.MethodFits m
  young : MethodYoung F.heap.length F.Dom m
  passes : Passes m
  runs : F.MethodRuns N m
  grows : MethodGrows m
  steady : Steady N
  deep : ∀ x, Reach F.heap F.root x → ∃ k, Deep N F.heap x k
  barren : F.births = true → F.MethodBarren m
  all : F.births = true → ∀ s, F.Live s → ∀ x, F.Dom x → x < s.heap.length → ∃ k, Deep N s.heap x k

theorem Hard.defines {g : Heap P} {a b : Nat} (h : Hard g b) :
    defineForward a b g = .ok (g.set a (.forward (some b))) := by
  have h1 := List.getElem?_eq_getElem h.lt
  unfold defineForward
  rw [h1]
  have h2 := h.2
  rw [h1] at h2
  generalize g[b]'h.lt = o at h2
  cases o <;> first | rfl | exact absurd rfl (h2 _)

theorem redefine_ends {m : Method P} {pid : Nat → Nat} (hp : ∀ a b, pid a = pid b → a = b)
    (hE : F.Ending N m) :
    ∀ (m1 m2 m3 : Nat) (done queue seen l1 l2 : List Nat) (s : St P), F.Walking done queue seen s →
      Young F.heap.length F.Dom s →
      (∀ x, x ∉ done → F.Old x → s.heap[x]? = F.heap[x]?) →
      (∀ x, x < F.heap.length → x ∉ done → x ∈ l1) → l1.length ≤ m1 →
      (∀ x c, F.heap.length ≤ x → s.heap[x]? = some (.forward c) → x ∉ done → x ∈ l2) → l2.length ≤ m2 →
      s.heap.length ≤ done.length + m3 →
      ∃ L n s', redefine m pid L n queue (seen.map pid) s = .ok s' ∧ F.Live s' := by
  intro m1
  induction m1 using Nat.strongRecOn with
  | ind m1 ih1 =>
  intro m2
  induction m2 using Nat.strongRecOn with
  | ind m2 ih2 =>
  intro m3
  induction m3 using Nat.strongRecOn with
  | ind m3 ih3 =>
  intro done queue seen l1 l2 s hw hy hun hl1 hm1 hl2 hm2 hm3
  cases queue with
  | nil => exact ⟨0, 1, s, rfl, hw.inv, hy⟩
  | cons a queue =>
    have ha : F.Item s.heap a := hw.item a (by simp)
    have hnd : a ∉ done := by
      intro hd
      exact (List.nodup_append.1 hw.nodup).2.2 a hd a List.mem_cons_self rfl
    have hlen : done.length < s.heap.length := by
      have : (done ++ a :: queue).length ≤ s.heap.length :=
        nodup_lt_length hw.nodup (fun x hx => (hw.item x hx).2)
      simp at this
      omega
    have erase1 : a < F.heap.length → (∀ x, x < F.heap.length → x ∉ done ++ [a] → x ∈ l1.erase a) ∧
        (l1.erase a).length < m1 := by
      intro hlt
      have hmem := hl1 a hlt hnd
      refine ⟨fun x hx hxd => ?_, ?_⟩
      · simp only [List.mem_append, List.mem_singleton, not_or] at hxd
        exact (List.mem_erase_of_ne hxd.2).2 (hl1 x hx hxd.1)
      · rw [List.length_erase_of_mem hmem]
        have := List.length_pos_of_mem hmem
        omega
    have keep1 : (∀ x, x < F.heap.length → x ∉ done ++ [a] → x ∈ l1) := by
      intro x hx hxd
      simp only [List.mem_append, not_or] at hxd
      exact hl1 x hx hxd.1
    by_cases hr : ∃ r, s.heap[a]? = some (.forward (some r))
    · obtain ⟨r, hr⟩ := hr
      have hri := hw.inv.items ha.1 hr r (by simp [Obj.children])
      -- the contents are not deep
      have hdeep : ∃ k, Deep N s.heap r k := by
        rcases Nat.lt_or_ge a F.heap.length with hlt | hge
        · obtain ⟨o, ho⟩ : ∃ o, F.heap[a]? = some o := ⟨_, List.getElem?_eq_getElem hlt⟩
          have hold : F.Old a := by
            rcases hw.inv.frame a o ho with h1 | ⟨h1, _⟩
            · rw [hr] at h1; cases h1
              exact ⟨_, ho⟩
            · exact h1
          have h0 := hun a hnd hold
          rw [hr] at h0
          have hra : Reach F.heap F.root a := ha.1.resolve_left (by omega)
          obtain ⟨k, hk⟩ := hE.deep r (.step hra h0.symm (by simp [Obj.children]))
          exact ⟨k, hk.akin hE.steady hw.inv.akin⟩
        · exact hE.all (hw.inv.fwd a _ hge hr).1 s ⟨hw.inv, hy⟩ r hri.1 hri.2
      obtain ⟨k, hk⟩ := hdeep
      obtain ⟨⟨b, s1⟩, h1⟩ := (visit_able (pid := pid) hp hE.fits hE.young hE.passes hE.runs (k + 1)).runs
        r s k ⟨hw.inv, hy⟩ hri hk (Nat.le_refl _)
      obtain ⟨i1, e1, r1⟩ := visit_fits hp hE.fits _ r s b s1 hw.inv hri h1
      obtain ⟨y1, f1, _, k1⟩ := visit_young hp hE.young _ r s b s1 hy h1
      have hr1 := e1.get hr (by simp [Obj.tag])
      have hsolid : Hard s1.heap b := by
        obtain ⟨y, q1, q2⟩ := hy.fwd a _ ha.1 hr
        cases q1
        exact k1.2.2 (f1.hard q2)
      have h2 := Hard.defines (a := a) hsolid
      obtain ⟨new, h3, hw'⟩ := hw.forward hp hE.fwdT hE.fits hr h1 h2
      have y2 := y1.redefine hr1 hsolid
      have hun' : ∀ x, x ∉ done ++ [a] → F.Old x →
          (s1.heap.set a (.forward (some b)))[x]? = F.heap[x]? := by
        intro x hx hold
        simp only [List.mem_append, List.mem_singleton, not_or] at hx
        rw [List.getElem?_set_ne (Ne.symm hx.2), ← hun x hx.1 hold]
        obtain ⟨c, hc⟩ := hw.inv.old_forward hold
        rw [hc]
        exact e1.get hc (by simp [Obj.tag])
      have done' : ∀ L n s', redefine m pid L n (queue ++ new) ((new.reverse ++ seen).map pid)
          { s1 with heap := s1.heap.set a (.forward (some b)) } = .ok s' → F.Live s' →
          ∃ L n s', redefine m pid L n (a :: queue) (seen.map pid) s = .ok s' ∧ F.Live s' := by
        intro L n s' h hl
        refine ⟨max L (k + 1), n + 1, s', ?_, hl⟩
        unfold redefine
        rw [hr]
        simp only [visit_grows hE.grows (Nat.le_max_right L (k + 1)) _ _ _ h1, h2, h3]
        exact redefine_grows hE.grows (Nat.le_max_left L (k + 1)) (Nat.le_refl _) h
      rcases Nat.lt_or_ge a F.heap.length with hlt | hge
      · obtain ⟨q1, q2⟩ := erase1 hlt
        obtain ⟨L, n, s', h, hl⟩ := ih1 _ q2 _ (s1.heap.set a (.forward (some b))).length _ _ _ (l1.erase a)
          (List.range (s1.heap.set a (.forward (some b))).length) _ hw' y2 hun' q1 (Nat.le_refl _)
          (fun x c _ hx _ => by
            rw [List.mem_range]
            exact (List.getElem?_eq_some_iff.1 hx).1) (Nat.le_refl _) (by simp only; omega)
        exact done' L n s' h hl
      · have hb := hE.barren (hw.inv.fwd a _ hge hr).1
        have hno := visit_barren hp hE.fits hb _ r s b s1 hw.inv hri (hw.inv.plain_content hE.fwdT hge hr) h1
        have hmem := hl2 a _ hge hr hnd
        have hlt2 : (l2.erase a).length < m2 := by
          rw [List.length_erase_of_mem hmem]
          have := List.length_pos_of_mem hmem
          omega
        obtain ⟨L, n, s', h, hl⟩ := ih2 _ hlt2 (s1.heap.set a (.forward (some b))).length _ _ _ l1
          (l2.erase a) _ hw' y2 hun' keep1 hm1
          (fun x c hx hc hxd => by
            simp only [List.mem_append, List.mem_singleton, not_or] at hxd
            rw [List.getElem?_set_ne (Ne.symm hxd.2)] at hc
            rw [List.mem_erase_of_ne hxd.2]
            rcases Nat.lt_or_ge x s.heap.length with hxl | hxl
            · obtain ⟨o, q1, q2⟩ := e1.back hxl hc
              cases q2
              exact hl2 x _ hx q1 hxd.1
            · exact absurd hc (hno x c hxl)) (Nat.le_refl _) (by simp only; omega)
        exact done' L n s' h hl
    · have hn : ∀ y, s.heap[a]? ≠ some (.forward (some y)) := fun y hy => hr ⟨y, hy⟩
      obtain ⟨new, h3, hw'⟩ := hw.other hp hn
      have hun' : ∀ x, x ∉ done ++ [a] → F.Old x → s.heap[x]? = F.heap[x]? := by
        intro x hx hold
        simp only [List.mem_append, not_or] at hx
        exact hun x hx.1 hold
      have hl2' : ∀ x c, F.heap.length ≤ x → s.heap[x]? = some (.forward c) → x ∉ done ++ [a] → x ∈ l2 := by
        intro x c hx hc hxd
        simp only [List.mem_append, not_or] at hxd
        exact hl2 x c hx hc hxd.1
      obtain ⟨L, n, s', h, hl⟩ := ih3 (m3 - 1) (by omega) _ _ _ l1 l2 _ hw' hy hun' keep1 hm1 hl2' hm2
        (by simp; omega)
      refine ⟨L, n + 1, s', ?_, hl⟩
      unfold redefine
      split
      · rename_i r hr'
        exact absurd hr' (hn r)
      · rw [h3]
        exact h

/-- A transformator succeeds. -/
theorem transform_ends {m : Method P} {pid : Nat → Nat} (hp : ∀ a b, pid a = pid b → a = b)
    (hE : F.Ending N m) (ht : Typed F.inT F.X F.heap F.root) (hs : Sorted F.heap)
    (hf : ∀ x c, Reach F.heap F.root x → F.heap[x]? = some (.forward c) →
      ∃ y, c = some y ∧ Hard F.heap y) :
    ∃ L b s2, (∀ limit, L ≤ limit → transform m pid limit F.root F.heap = .ok (b, s2.heap)) ∧ F.Live s2 := by
  have hroot : F.root < F.heap.length := by
    obtain ⟨o, ho, _⟩ := ht F.root .root
    exact (List.getElem?_eq_some_iff.1 ho).1
  have hdom : F.Dom F.root := .inr .root
  have i0 := Inv.start ht
  have y0 : Young F.heap.length F.Dom ({ heap := F.heap } : St P) := by
    refine ⟨?_, ?_, fun a o ha c hc => (hs a o ha c hc).1, (by intro e he; cases he)⟩
    · intro a o ha ho
      have := (List.getElem?_eq_some_iff.1 ho).1
      simp only at this
      omega
    · intro a c ha hc
      have := (List.getElem?_eq_some_iff.1 hc).1
      simp only at this
      exact hf a c (ha.resolve_left (by omega)) hc
  obtain ⟨L, n, s, h1, l1⟩ := redefine_ends hp hE F.heap.length F.heap.length F.heap.length [] [F.root]
    [F.root] (List.range F.heap.length) (List.range F.heap.length) { heap := F.heap }
    ⟨i0, by simp, by simp, by
      intro x hx
      simp only [List.nil_append, List.mem_singleton] at hx
      subst hx
      exact ⟨hdom, hroot⟩, (by intro d hd; cases hd), (by intro d hd; cases hd)⟩ y0
    (fun _ _ _ => rfl) (fun x hx _ => List.mem_range.2 hx) (by simp)
    (fun x c _ hc _ => List.mem_range.2 (List.getElem?_eq_some_iff.1 hc).1) (by simp) (by simp)
  obtain ⟨k, hk⟩ := hE.deep F.root .root
  have hit : F.Item s.heap F.root := ⟨hdom, Nat.lt_of_lt_of_le hroot l1.inv.len⟩
  obtain ⟨⟨b, s2⟩, h2⟩ := (visit_able (pid := pid) hp hE.fits hE.young hE.passes hE.runs (k + 1)).runs
    F.root s k l1 hit (hk.akin hE.steady l1.inv.akin) (Nat.le_refl _)
  obtain ⟨i2, _, _⟩ := visit_fits hp hE.fits _ F.root s b s2 l1.inv hit h2
  obtain ⟨y2, _, _, _⟩ := visit_young hp hE.young _ F.root s b s2 l1.young h2
  refine ⟨max (max L n) (k + 1), b, s2, fun limit hl => ?_, i2, y2⟩
  unfold transform
  have hL : L ≤ limit := by omega
  have hn : n ≤ limit := by omega
  have hk' : k + 1 ≤ limit := by omega
  have := redefine_grows hE.grows hL hn h1
  simp only [List.map_cons, List.map_nil] at this
  rw [this]
  simp only
  rw [visit_grows hE.grows hk' _ _ _ h2]
  rfl

end Pass
end Yargy
