import Verif.Proofs.TotalEnds
/-!
All passes together succeed.
-/
namespace Yargy

variable {P : Type}

/-- A rule that a pass can deal with; gazetteers satisfy `G`. -/
structure Ripe (T : Tag → Bool) (X : P → Prop) (G : Pipe P → Prop) (h : Heap P) (root : Nat) : Prop where
  typed : Typed T X h root
  sorted : Sorted h
  prod : isProdAt h root = false
  deep : ∀ x, Reach h root x → ∃ k, Deep Any h x k
  fwd : ∀ x c, Reach h root x → h[x]? = some (.forward c) → ∃ y, c = some y ∧ Hard h y
  pipe : ∀ x p, Reach h root x → h[x]? = some (.pipe p) → G p

theorem Ripe.mono {T T' : Tag → Bool} {X : P → Prop} {G : Pipe P → Prop} {h : Heap P} {root : Nat}
    (hr : Ripe T X G h root) (hsub : ∀ t, T t = true → T' t = true) : Ripe T' X G h root :=
  { hr with typed := hr.typed.mono hsub }

namespace Pass
variable {F : Pass P} {N : Heap P → Nat → Obj P → Prop} {G : Pipe P → Prop}

theorem Live.pipe {s : St P} (hl : F.Live s)
    (hG : ∀ x p, Reach F.heap F.root x → F.heap[x]? = some (.pipe p) → G p) {x : Nat} {p : Pipe P}
    (hd : F.Dom x) (hx : s.heap[x]? = some (.pipe p)) : G p := by
  rcases Nat.lt_or_ge x F.heap.length with hlt | hge
  · have hr : Reach F.heap F.root x := hd.resolve_left (by omega)
    refine hG x p hr ?_
    obtain ⟨o, ho⟩ : ∃ o, F.heap[x]? = some o := ⟨_, List.getElem?_eq_getElem hlt⟩
    rcases hl.inv.frame x o ho with h1 | ⟨_, _, r, h1⟩
    · rw [hx] at h1; rw [ho, ← h1]
    · rw [hx] at h1; cases h1
  · exact absurd rfl (hl.young.new x _ hge hx).1

/-- A pass succeeds and leaves something for the next pass. -/
theorem ripe_step {m : Method P} {pid : Nat → Nat} (hp : ∀ a b, pid a = pid b → a = b)
    (hE : F.Ending N m) (hr : Ripe F.inT F.X G F.heap F.root) :
    ∃ L b s2, (∀ limit, L ≤ limit → transform m pid limit F.root F.heap = .ok (b, s2.heap)) ∧
      F.Live s2 ∧ F.Made s2.heap b ∧ Ripe F.outT F.X G s2.heap b := by
  obtain ⟨L, b, s2, h1, h2⟩ := transform_ends hp hE hr.typed hr.sorted hr.fwd
  have made := transform_fits hp hE.fwdT hE.fits hr.typed (h1 L (Nat.le_refl _))
  refine ⟨L, b, s2, h1, h2, made, made.typed, made.whole hr.sorted, made.sort.trans hr.prod, ?_, ?_, ?_⟩
  · intro x hx
    obtain ⟨o, ho, _⟩ := made.typed x hx
    exact h2.deep hr.deep x (made.dom x hx) (List.getElem?_eq_some_iff.1 ho).1
  · intro x c hx hc
    exact h2.young.fwd x c (made.dom x hx) hc
  · intro x p hx hxp
    exact h2.pipe hr.pipe (made.dom x hx) hxp

theorem any_ending {m : Method P} (fwdT : F.outT .forward = true) (fits : F.MethodFits m)
    (young : MethodYoung F.heap.length F.Dom m) (passes : Passes m) (runs : F.MethodRuns Any m)
    (grows : MethodGrows m) (hr : Ripe F.inT F.X G F.heap F.root)
    (barren : F.births = true → F.MethodBarren m) : F.Ending Any m :=
  ⟨fwdT, fits, young, passes, runs, grows, any_steady, hr.deep, barren, fun _ _ hl => hl.deep hr.deep⟩

/-! ### What is true of the heap stays true -/

variable (F) in
def VisitKeeps (I : Heap P → Prop) (rec : Visit P) : Prop :=
  ∀ a s b s', F.Live s → F.Item s.heap a → I s.heap → rec a s = .ok (b, s') → I s'.heap

variable (F) in
def MethodKeeps (I : Heap P → Prop) (m : Method P) : Prop :=
  ∀ n rec, F.VisitFits rec → YoungVisit F.heap.length F.Dom rec → F.VisitKeeps I rec →
    ∀ (a : Nat) o (s : St P) b s', F.Live s → F.Dom a →
    s.heap[a]? = some o → I s.heap → m n rec a o s = .ok (b, s') → I s'.heap

theorem visit_keeps {I : Heap P → Prop} {m : Method P} {pid : Nat → Nat} (hp : ∀ a b, pid a = pid b → a = b)
    (hf : F.MethodFits m) (hy : MethodYoung F.heap.length F.Dom m) (hm : F.MethodKeeps I m) :
    ∀ n, F.VisitKeeps I (visit m pid n) := by
  intro n
  induction n with
  | zero => intro a s b s' _ _ _ h; simp [visit] at h
  | succ n ih =>
    intro a s b s' hl ha hI h
    unfold visit at h
    cases hlk : s.lookup pid a with
    | some c =>
      simp only [hlk, Except.ok.injEq, Prod.mk.injEq] at h
      obtain ⟨rfl, rfl⟩ := h
      exact hI
    | none =>
      simp only [hlk] at h
      cases ho : s.heap[a]? with
      | none => simp [ho] at h
      | some o =>
        simp only [ho] at h
        cases hr : m n (visit m pid n) a o s with
        | error e => simp [hr] at h
        | ok r =>
          obtain ⟨b', s1⟩ := r
          simp only [hr, Except.ok.injEq, Prod.mk.injEq] at h
          obtain ⟨rfl, rfl⟩ := h
          exact hm n _ (visit_fits hp hf n) (visit_young hp hy n) ih a o s b' s1 hl ha.1 ho hI hr

theorem redefine_keeps {I : Heap P → Prop} {m : Method P} {pid : Nat → Nat}
    (hp : ∀ a b, pid a = pid b → a = b) (hfw : F.outT .forward = true) (hf : F.MethodFits m)
    (hy : MethodYoung F.heap.length F.Dom m) (hm : F.MethodKeeps I m)
    (hS : ∀ (g : Heap P) (a b : Nat) c, I g → g[a]? = some (.forward c) → I (g.set a (.forward (some b))))
    {limit : Nat} : ∀ (n : Nat) (done queue seen : List Nat) (s s' : St P), F.Walking done queue seen s →
      Young F.heap.length F.Dom s → I s.heap → redefine m pid limit n queue (seen.map pid) s = .ok s' →
      I s'.heap ∧ F.Live s' := by
  intro n
  induction n with
  | zero => intro done queue seen s s' _ _ _ h; simp [redefine] at h
  | succ n ih =>
    intro done queue seen s s' hw hyo hI h
    cases queue with
    | nil =>
      simp only [redefine, Except.ok.injEq] at h
      subst h
      exact ⟨hI, hw.inv, hyo⟩
    | cons a queue =>
      have ha : F.Item s.heap a := hw.item a (by simp)
      unfold redefine at h
      split at h
      · rename_i r hr
        cases h1 : visit m pid limit r s with
        | error e => simp [h1] at h
        | ok y =>
          obtain ⟨b, s1⟩ := y
          simp only [h1] at h
          have hri := hw.inv.items ha.1 hr r (by simp [Obj.children])
          obtain ⟨i1, e1, r1⟩ := visit_fits hp hf _ r s b s1 hw.inv hri h1
          obtain ⟨y1, f1, _, k1⟩ := visit_young hp hy _ r s b s1 hyo h1
          have I1 := visit_keeps hp hf hy hm _ r s b s1 ⟨hw.inv, hyo⟩ hri hI h1
          have hr1 := e1.get hr (by simp [Obj.tag])
          have hsolid : Hard s1.heap b := by
            obtain ⟨y, q1, q2⟩ := hyo.fwd a _ ha.1 hr
            cases q1
            exact k1.2.2 (f1.hard q2)
          have h2 := Hard.defines (a := a) hsolid
          simp only [h2] at h
          obtain ⟨new, h3, hw'⟩ := hw.forward hp hfw hf hr h1 h2
          rw [h3] at h
          exact ih _ _ _ _ _ hw' (y1.redefine hr1 hsolid) (hS _ _ _ _ I1 hr1) h
      · rename_i hn
        obtain ⟨new, h3, hw'⟩ := hw.other hp hn
        rw [h3] at h
        exact ih _ _ _ _ _ hw' hyo hI h

theorem transform_keeps {I : Heap P → Prop} {m : Method P} {pid : Nat → Nat}
    (hp : ∀ a b, pid a = pid b → a = b) (hfw : F.outT .forward = true) (hf : F.MethodFits m)
    (hy : MethodYoung F.heap.length F.Dom m) (hm : F.MethodKeeps I m)
    (hS : ∀ (g : Heap P) (a b : Nat) c, I g → g[a]? = some (.forward c) → I (g.set a (.forward (some b))))
    (hr : Ripe F.inT F.X G F.heap F.root) (hI : I F.heap) {limit b : Nat} {h' : Heap P}
    (e : transform m pid limit F.root F.heap = .ok (b, h')) : I h' := by
  have hroot := hr.typed.lt
  have y0 : Young F.heap.length F.Dom ({ heap := F.heap } : St P) := by
    refine ⟨?_, ?_, fun a o ha c hc => (hr.sorted a o ha c hc).1, (by intro e he; cases he)⟩
    · intro a o ha ho
      have := (List.getElem?_eq_some_iff.1 ho).1
      simp only at this
      omega
    · intro a c ha hc
      have := (List.getElem?_eq_some_iff.1 hc).1
      simp only at this
      exact hr.fwd a c (ha.resolve_left (by omega)) hc
  unfold transform at e
  split at e
  · cases e
  · rename_i s hs
    obtain ⟨I1, l1⟩ := redefine_keeps hp hfw hf hy hm hS limit [] [F.root] [F.root] { heap := F.heap } s
      ⟨Inv.start hr.typed, by simp, by simp, by
        intro x hx
        simp only [List.nil_append, List.mem_singleton] at hx
        subst hx
        exact ⟨.inr .root, hroot⟩, (by intro d hd; cases hd), (by intro d hd; cases hd)⟩ y0 hI hs
    cases h2 : visit m pid limit F.root s with
    | error er => rw [h2] at e; cases e
    | ok x =>
      obtain ⟨b', s2⟩ := x
      rw [h2] at e
      cases e
      exact visit_keeps hp hf hy hm _ _ _ _ _ l1
        ⟨.inr .root, Nat.lt_of_lt_of_le hroot l1.inv.len⟩ I1 h2

theorem mapSt_keeps {I : Heap P → Prop} {α β : Type} {Pre : Heap P → α → Prop} {R : Heap P → α → β → Prop}
    {Post : Nat → β → Prop} {R' : Heap P → α → β → Prop}
    (hPre : ∀ g g' x, F.Ext g g' → Pre g x → Pre g' x)
    {f : α → St P → Except Err (β × St P)} (hf : F.StepFits Pre R f)
    (hy : YoungStep F.heap.length F.Dom Post R' f)
    (hk : ∀ x s y s', F.Live s → Pre s.heap x → I s.heap → f x s = .ok (y, s') → I s'.heap) :
    ∀ (xs : List α) s ys s', F.Live s → (∀ x ∈ xs, Pre s.heap x) → I s.heap →
      mapSt f xs s = .ok (ys, s') → I s'.heap := by
  intro xs
  induction xs with
  | nil => intro s ys s' _ _ hI h; cases h; exact hI
  | cons x xs ih =>
    intro s ys s' hl hx hI h
    simp only [mapSt] at h
    split at h
    · cases h
    · rename_i h1
      split at h
      · cases h
      · rename_i h2
        cases h
        obtain ⟨i1, e1, _⟩ := hf _ _ _ _ hl.inv (hx x List.mem_cons_self) h1
        obtain ⟨y1, _, _⟩ := hy _ _ _ _ hl.young h1
        exact ih _ _ _ ⟨i1, y1⟩ (fun z hz => hPre _ _ _ e1 (hx z (List.mem_cons_of_mem _ hz)))
          (hk _ _ _ _ hl (hx x List.mem_cons_self) hI h1) h2

section keeps
variable {I : Heap P → Prop} (hA : ∀ g (o : Obj P), I g → o.tag ≠ .bnf → I (g ++ [o]))
  {n : Nat} {rec : Visit P} (hr : F.VisitFits rec) (hy : YoungVisit F.heap.length F.Dom rec)
  (hk : F.VisitKeeps I rec) {a : Nat} {o : Obj P} {s : St P} {b : Nat} {s' : St P}
include hA hr hy hk

omit hr hy in
theorem rebuild_keeps (hl : F.Live s) (hI : I s.heap) {r : Nat} {mk : Nat → Obj P} (hi : F.Item s.heap r)
    (hmk : ∀ y, (mk y).tag ≠ .bnf) (h : rebuild rec r mk s = .ok (b, s')) : I s'.heap := by
  unfold rebuild at h
  cases hx : rec r s with
  | error e => rw [hx] at h; cases h
  | ok x =>
    obtain ⟨x, s1⟩ := x
    rw [hx] at h
    cases h
    exact hA _ _ (hk _ _ _ _ hl hi hI hx) (hmk _)

theorem rebuildAll_keeps (hl : F.Live s) (hI : I s.heap) {rs : List Nat} {mk : List Nat → Obj P}
    (hi : ∀ r ∈ rs, F.Item s.heap r) (hmk : ∀ y, (mk y).tag ≠ .bnf)
    (h : rebuildAll rec rs mk s = .ok (b, s')) : I s'.heap := by
  unfold rebuildAll at h
  cases hx : mapSt rec rs s with
  | error e => rw [hx] at h; cases h
  | ok x =>
    obtain ⟨x, s1⟩ := x
    rw [hx] at h
    cases h
    exact hA _ _ (mapSt_keeps (Pre := F.Item) item_ext hr hy
      (fun x s y s' hl hp hI h => hk x s y s' hl hp hI h) _ _ _ _ hl hi hI hx) (hmk _)

theorem default_keeps (hl : F.Live s) (hd : F.Dom a) (ho : s.heap[a]? = some o) (hI : I s.heap)
    (h : defaultMethod n rec a o s = .ok (b, s')) : I s'.heap := by
  have items := hl.inv.items hd ho
  cases o with
  | prod ts m =>
    simp only [defaultMethod, rebuildAll] at h
    cases hx : mapSt (visitTerm rec) ts s with
    | error e => rw [hx] at h; cases h
    | ok x =>
      obtain ⟨x, s1⟩ := x
      rw [hx] at h
      cases h
      refine hA _ _ (mapSt_keeps (F := F) (Pre := F.TermPre) termPre_ext (visitTerm_fits hr)
        (visitTerm_young hy) ?_ _ _ _ _ hl (hl.inv.terms hd ho) hI hx) (by simp [Obj.tag])
      intro t s y s' hl ht hI h
      cases t with
      | pred p => cases h; exact hI
      | rule r =>
        simp only [visitTerm] at h
        cases hz : rec r s with
        | error e => rw [hz] at h; cases h
        | ok z =>
          rw [hz] at h
          cases h
          exact hk r s _ _ hl ht.1 hI hz
  | rule ps => exact rebuildAll_keeps hA hr hy hk hl hI items (by intro; simp [Obj.tag]) h
  | or rs => exact rebuildAll_keeps hA hr hy hk hl hI items (by intro; simp [Obj.tag]) h
  | bnf ps x i r kind => exact rebuildAll_keeps hA hr hy hk hl hI items (by intro; simp [Obj.tag]) h
  | optional r rev => cases h
  | repeatable r rev => cases h
  | repOptional r rr ro => cases h
  | minBounded r i rev =>
    simp only [defaultMethod] at h
    exact rebuild_keeps hA hk hl hI (items r List.mem_cons_self) (by intro; simp [Obj.tag]) h
  | maxBounded r i rev =>
    simp only [defaultMethod] at h
    exact rebuild_keeps hA hk hl hI (items r List.mem_cons_self) (by intro; simp [Obj.tag]) h
  | minMaxBounded r i i' rev =>
    simp only [defaultMethod] at h
    exact rebuild_keeps hA hk hl hI (items r List.mem_cons_self) (by intro; simp [Obj.tag]) h
  | named r x =>
    simp only [defaultMethod] at h
    exact rebuild_keeps hA hk hl hI (items r List.mem_cons_self) (by intro; simp [Obj.tag]) h
  | interp r x =>
    simp only [defaultMethod] at h
    exact rebuild_keeps hA hk hl hI (items r List.mem_cons_self) (by intro; simp [Obj.tag]) h
  | relation r x =>
    simp only [defaultMethod] at h
    exact rebuild_keeps hA hk hl hI (items r List.mem_cons_self) (by intro; simp [Obj.tag]) h
  | emptyProd => cases h; exact hI
  | pipeProd v ps => cases h; exact hI
  | forward c => cases h; exact hI
  | empty => cases h; exact hI
  | pipe p => cases h; exact hI

omit hA hr hy hk in
theorem quant_live (hin : F.inT .quant = true) (hl : F.Live s) {g : Nat} {o' : Obj P}
    (hg : F.Item s.heap g) (hs : isProdAt s.heap g = false) (hq' : o'.tag = .quant)
    (hg' : o'.children = [g]) (hX : o'.preds = []) : F.Live (s.alloc o').2 := by
  have hfit : F.Fit s.heap o' := by
    refine ⟨by rw [hq']; exact hin, (by rw [hX]; intro p hp; cases hp), ?_⟩
    intro x hx
    rw [hg', List.mem_singleton] at hx
    subst hx
    exact ⟨hg.1, hg.2, by rw [hs, hq']; rfl⟩
  refine ⟨hl.inv.alloc hfit (by rintro c rfl; cases hq'), ?_⟩
  exact hl.young.alloc (o := o') ⟨by rw [hq']; decide, fun _ c hc => by
    rw [hg', List.mem_singleton] at hc
    subst hc
    exact hg.2⟩ (by rw [hq']; decide)

omit hr hy in
theorem visitNew_keeps (hin : F.inT .quant = true) (hl : F.Live s) (hI : I s.heap) {g : Nat} {o' : Obj P}
    (hg : F.Item s.heap g) (hs : isProdAt s.heap g = false) (hq' : o'.tag = .quant)
    (hg' : o'.children = [g]) (hX : o'.preds = []) (h : visitNew rec o' s = .ok (b, s')) : I s'.heap :=
  hk s.heap.length (s.alloc o').2 b s' (quant_live hin hl hg hs hq' hg' hX)
    ⟨.inl hl.inv.len, by simp [St.alloc]⟩ (hA _ _ hI (by rw [hq']; decide)) h

omit hr hy in
theorem squashNew_keeps (hin : F.inT .quant = true) (hl : F.Live s) (hd : F.Dom a) (ho : s.heap[a]? = some o)
    (hI : I s.heap) {c g : Nat} {oc o' : Obj P} (hc : o.children = [c]) (hoc : s.heap[c]? = some oc)
    (hqc : oc.tag = .quant) (hg : oc.children = [g]) (hq' : o'.tag = .quant)
    (hg' : o'.children = [g]) (hX : o'.preds = []) (h : visitNew rec o' s = .ok (b, s')) : I s'.heap := by
  have hci := hl.inv.items hd ho c (by rw [hc]; exact List.mem_cons_self)
  have hgk := (hl.inv.dom c oc hci.1 hoc).kids g (by rw [hg]; exact List.mem_cons_self)
  exact visitNew_keeps hA hk hin hl hI ⟨hgk.1, hgk.2.1⟩ (by rw [hgk.2.2, hqc]; rfl) hq' hg' hX h

omit hr hy in
theorem squashBounded_keeps (hin : F.inT .quant = true) (hl : F.Live s) (hd : F.Dom a)
    (ho : s.heap[a]? = some o) (hI : I s.heap) {c : Nat} (hc : o.children = [c]) {mk : Nat → Obj P}
    (hmk : ∀ y, (mk y).tag = .quant ∧ (mk y).children = [y] ∧ (mk y).preds = [])
    (h : squashBounded rec c mk s = .ok (b, s')) : I s'.heap := by
  have hci := hl.inv.items hd ho c (by rw [hc]; exact List.mem_cons_self)
  unfold squashBounded at h
  split at h
  · rename_i hoc
    exact squashNew_keeps hA hk hin hl hd ho hI hc hoc rfl rfl rfl rfl rfl h
  · cases h
  · rename_i g rev hoc
    have hgk := (hl.inv.dom c _ hci.1 hoc).kids g List.mem_cons_self
    obtain ⟨m1, m2, m3⟩ := hmk g
    have hnew : (s.alloc (mk g)).2.heap[s.heap.length]? = some (mk g) := getElem?_new _
    exact visitNew_keeps hA hk hin (s := (s.alloc (mk g)).2)
      (quant_live hin hl ⟨hgk.1, hgk.2.1⟩ hgk.2.2 m1 m2 m3) (hA _ _ hI (by rw [m1]; decide)) (g := s.heap.length)
      ⟨.inl hl.inv.len, by simp [St.alloc]⟩ (by rw [isProdAt_some hnew, m1]; rfl) rfl rfl rfl h
  · exact rebuild_keeps hA hk hl hI hci (fun y => by rw [(hmk y).1]; decide) h

end keeps

theorem squash_keeps {I : Heap P → Prop} (hA : ∀ g (o : Obj P), I g → o.tag ≠ .bnf → I (g ++ [o]))
    (hin : F.inT .quant = true) : F.MethodKeeps I (squashMethod : Method P) := by
  intro n rec hr hy hk a o s b s' hl hd ho hI h
  have items := hl.inv.items hd ho
  unfold squashMethod at h
  split at h
  · split at h <;> first
      | (rename_i hoc; exact squashNew_keeps hA hk hin hl hd ho hI rfl hoc rfl rfl rfl rfl rfl h)
      | (cases h; done)
      | exact rebuild_keeps hA hk hl hI (items _ List.mem_cons_self) (by intro; simp [Obj.tag]) h
  · split at h <;> first
      | (rename_i hoc; exact squashNew_keeps hA hk hin hl hd ho hI rfl hoc rfl rfl rfl rfl rfl h)
      | (cases h; done)
      | exact rebuild_keeps hA hk hl hI (items _ List.mem_cons_self) (by intro; simp [Obj.tag]) h
  · split at h <;> first
      | (rename_i hoc; exact squashNew_keeps hA hk hin hl hd ho hI rfl hoc rfl rfl rfl rfl rfl h)
      | (cases h; done)
      | exact rebuild_keeps hA hk hl hI (items _ List.mem_cons_self) (by intro; simp [Obj.tag]) h
  · exact squashBounded_keeps hA hk hin hl hd ho hI rfl (fun y => ⟨rfl, rfl, rfl⟩) h
  · exact squashBounded_keeps hA hk hin hl hd ho hI rfl (fun y => ⟨rfl, rfl, rfl⟩) h
  · exact squashBounded_keeps hA hk hin hl hd ho hI rfl (fun y => ⟨rfl, rfl, rfl⟩) h
  · exact default_keeps hA hr hy hk hl hd ho hI h

end Pass

/-! ### Compiled gazetteers -/

/-- New compiled gazetteers consist of the keys of gazetteers. -/
def Keyed (G : Pipe P → Prop) (n : Nat) (h : Heap P) : Prop :=
  ∀ (a : Nat) ps x i r kind, n ≤ a → h[a]? = some (.bnf ps x i r (some kind)) →
    ∀ p ∈ ps, ∃ v ts keys, h[p]? = some (.pipeProd v ts) ∧ G (.keys kind keys) ∧ (v, ts) ∈ keys

theorem Keyed.append {G : Pipe P → Prop} {n : Nat} {h : Heap P} (hk : Keyed G n h) {o : Obj P}
    (ho : ∀ ps x i r kind, o ≠ .bnf ps x i r (some kind)) : Keyed G n (h ++ [o]) := by
  intro a ps x i r kind ha hat p hp
  rcases Nat.lt_or_ge a h.length with hl | hl
  · rw [List.getElem?_append_left hl] at hat
    obtain ⟨v, ts, keys, h1, h2⟩ := hk a ps x i r kind ha hat p hp
    exact ⟨v, ts, keys, getElem?_append_some h1, h2⟩
  · rw [List.getElem?_append_right hl] at hat
    cases h' : a - h.length with
    | zero => rw [h'] at hat; simp at hat; exact absurd hat (ho _ _ _ _ _)
    | succ n => rw [h'] at hat; simp at hat

/-- Where `h'` is the same as `h` up to certain objects. -/
theorem Keyed.change {G : Pipe P → Prop} {n : Nat} {h h' : Heap P} (hk : Keyed G n h)
    (hb : ∀ (a : Nat) ps x i r kind, h'[a]? = some (.bnf ps x i r (some kind)) →
      ∃ x' i' r', h[a]? = some (.bnf ps x' i' r' (some kind)))
    (hp : ∀ (a : Nat) v ts, h[a]? = some (.pipeProd v ts) → h'[a]? = some (.pipeProd v ts)) : Keyed G n h' := by
  intro a ps x i r kind ha hat p hpp
  obtain ⟨x', i', r', h1⟩ := hb a ps x i r kind hat
  obtain ⟨v, ts, keys, k1, k2⟩ := hk a ps x' i' r' kind ha h1 p hpp
  exact ⟨v, ts, keys, hp p v ts k1, k2⟩

theorem Keyed.set {G : Pipe P → Prop} {n : Nat} {h : Heap P} (hk : Keyed G n h) {a b : Nat} {c : Option Nat}
    (ha : h[a]? = some (.forward c)) : Keyed G n (h.set a (.forward (some b))) := by
  refine hk.change ?_ ?_
  · intro x ps nm i r kind hx
    by_cases e : a = x
    · subst e
      rw [List.getElem?_set_self (List.getElem?_eq_some_iff.1 ha).1] at hx; cases hx
    · rw [List.getElem?_set_ne e] at hx
      exact ⟨_, _, _, hx⟩
  · intro x v ts hx
    by_cases e : a = x
    · subst e
      rw [ha] at hx; cases hx
    · rw [List.getElem?_set_ne e]; exact hx

theorem Keyed.trans {G : Pipe P → Prop} {n : Nat} {h h' : Heap P} {root b : Nat} (hk : Keyed G n h)
    (hf : Framed h root h' b) (hk' : Keyed G h.length h') : Keyed G n h' := by
  intro a ps x i r kind ha hat p hp
  rcases Nat.lt_or_ge a h.length with hl | hl
  · have h1 : h[a]? = some (.bnf ps x i r (some kind)) := by
      rcases hf.frame a _ (List.getElem?_eq_getElem hl) with k | ⟨_, _, _, k⟩
      · rw [hat] at k; rw [List.getElem?_eq_getElem hl, ← k]
      · rw [hat] at k; cases k
    obtain ⟨v, ts, keys, k1, k2⟩ := hk a ps x i r kind ha h1 p hp
    refine ⟨v, ts, keys, ?_, k2⟩
    rcases hf.frame p _ k1 with q | ⟨⟨_, q⟩, _⟩
    · exact q
    · cases q
  · exact hk' a ps x i r kind hl hat p hp

theorem keyed_start {G : Pipe P → Prop} (h : Heap P) : Keyed G h.length h := by
  intro a ps x i r kind ha hat
  have := (List.getElem?_eq_some_iff.1 hat).1
  omega

theorem lift_keyed {G : Pipe P → Prop} {n : Nat} {s : St P} (hk : Keyed G n s.heap) (b : Nat) :
    Keyed G n (s.lift b).2.heap := by
  have h1 : Keyed G n (s.heap ++ [.prod [.rule b] 0]) := hk.append (by intros; simp)
  exact h1.append (o := .bnf [s.heap.length] none none none none) (by intros; simp)

theorem setAttr_keyed {G : Pipe P → Prop} {n : Nat} {h : Heap P} (hk : Keyed G n h) (b : Nat) (x : Attr) :
    Keyed G n (setAttrAt h b x) := by
  unfold setAttrAt
  split
  · rename_i ps nm i r kind hb
    have key : ∀ nm' i' r', Keyed G n (h.set b (.bnf ps nm' i' r' kind)) := by
      intro nm' i' r'
      refine hk.change ?_ ?_
      · intro y ps' x' i'' r'' kind' hy
        by_cases e : b = y
        · subst e
          rw [List.getElem?_set_self (List.getElem?_eq_some_iff.1 hb).1] at hy; cases hy
          exact ⟨_, _, _, hb⟩
        · rw [List.getElem?_set_ne e] at hy
          exact ⟨_, _, _, hy⟩
      · intro y v ts hy
        by_cases e : b = y
        · subst e
          rw [hb] at hy; cases hy
        · rw [List.getElem?_set_ne e]; exact hy
    split <;> exact key _ _ _
  · exact hk

theorem allocKeys_keyed {G : Pipe P → Prop} {n : Nat} : ∀ (keys : List (Str × List P)) (s : St P),
    Keyed G n s.heap → Keyed G n (allocKeys keys s).2.heap ∧ s.heap <+: (allocKeys keys s).2.heap ∧
      ∀ p ∈ (allocKeys keys s).1, ∃ v ts, (allocKeys keys s).2.heap[p]? = some (.pipeProd v ts) ∧ (v, ts) ∈ keys
  | [], s, hk => ⟨hk, List.prefix_rfl, by intro p hp; cases hp⟩
  | (v, ts) :: rest, s, hk => by
    obtain ⟨h1, h2, h3⟩ := allocKeys_keyed rest (s.alloc (.pipeProd v ts)).2
      (hk.append (o := .pipeProd v ts) (by intros; simp))
    refine ⟨h1, (List.prefix_append s.heap [Obj.pipeProd v ts]).trans h2, ?_⟩
    intro p hp
    simp only [allocKeys, List.mem_cons] at hp
    rcases hp with rfl | hp
    · exact ⟨v, ts, getElem?_prefix h2 (getElem?_new _), List.mem_cons_self⟩
    · obtain ⟨v', ts', k1, k2⟩ := h3 p hp
      exact ⟨v', ts', k1, List.mem_cons_of_mem _ k2⟩

namespace Pass
variable {F : Pass P} {G : Pipe P → Prop}

theorem visitWrapper_keyed {n : Nat} {parents : Nat → Nat} {rec : Visit P}
    (hk : F.VisitKeeps (Keyed G n) rec) {r b : Nat} {x : Attr} {s s' : St P} (hl : F.Live s)
    (hi : F.Item s.heap r) (hI : Keyed G n s.heap) (h : visitWrapper parents rec r x s = .ok (b, s')) :
    Keyed G n s'.heap := by
  unfold visitWrapper at h
  split at h
  · cases h
  · rename_i c s1 h1
    have k1 : Keyed G n s1.heap := by
      unfold visitWrapped at h1
      split at h1
      · cases h1; exact lift_keyed hI _
      · split at h1
        · cases h1
        · cases hx : rec r s with
          | error e => rw [hx] at h1; cases h1
          | ok y =>
            rw [hx] at h1
            have := hk _ _ _ _ hl hi hI hx
            simp only [Except.map, Except.ok.injEq] at h1
            split at h1
            · rw [← show (y.2.lift y.1).2 = s1 from by rw [h1]]
              exact lift_keyed this _
            · rw [← show y.2 = s1 from by rw [h1]]
              exact this
    split at h
    · cases h
    · rename_i has _
      cases has <;> cases h
      · exact setAttr_keyed k1 _ _
      · exact setAttr_keyed (lift_keyed k1 _) _ _

theorem bnf_keyed {n : Nat} {parents : Nat → Nat}
    (hG : ∀ x p, Reach F.heap F.root x → F.heap[x]? = some (.pipe p) → G p) :
    F.MethodKeeps (Keyed G n) (bnfMethod parents : Method P) := by
  intro k rec hr hy hk a o s b s' hl hd ho hI h
  have items := hl.inv.items hd ho
  have all : ∀ {ps : List Nat}, (∀ p ∈ ps, F.Item s.heap p) →
      rebuildAll rec ps (.bnf · none none none none) s = .ok (b, s') → Keyed G n s'.heap := by
    intro ps hps h
    unfold rebuildAll at h
    cases hx : mapSt rec ps s with
    | error e => rw [hx] at h; cases h
    | ok x =>
      obtain ⟨x, s1⟩ := x
      rw [hx] at h
      cases h
      refine Keyed.append (mapSt_keeps (Pre := F.Item) item_ext hr hy
        (fun x s y s' hl hp hI h => hk x s y s' hl hp hI h) _ _ _ _ hl hps hI hx) (by intros; simp)
  unfold bnfMethod at h
  split at h
  · exact all items h
  · exact all items h
  · cases h
  · cases h
  · exact visitWrapper_keyed hk hl (items _ List.mem_cons_self) hI h
  · exact visitWrapper_keyed hk hl (items _ List.mem_cons_self) hI h
  · exact visitWrapper_keyed hk hl (items _ List.mem_cons_self) hI h
  · rename_i p
    have hp := hl.pipe hG hd ho
    unfold pipeBnf at h
    split at h
    · cases h
    · split at h
      · cases h
      · rename_i kind keys _
        cases h
        obtain ⟨h1, h2, h3⟩ := allocKeys_keyed keys s hI
        intro a ps x i r kind' ha hat p' hp'
        simp only at hat ⊢
        rcases Nat.lt_or_ge a (allocKeys keys s).2.heap.length with hlt | hlt
        · rw [List.getElem?_append_left hlt] at hat
          obtain ⟨v, ts, ks, q1, q2⟩ := h1 a ps x i r kind' ha hat p' hp'
          exact ⟨v, ts, ks, getElem?_append_some q1, q2⟩
        · rw [List.getElem?_append_right hlt] at hat
          cases h' : a - (allocKeys keys s).2.heap.length with
          | zero =>
            rw [h'] at hat
            simp only [List.getElem?_cons_zero, Option.some.injEq, Obj.bnf.injEq] at hat
            obtain ⟨rfl, _, _, _, rfl⟩ := hat
            obtain ⟨v, ts, q1, q2⟩ := h3 p' hp'
            exact ⟨v, ts, keys, getElem?_append_some q1, hp, q2⟩
          | succ m => rw [h'] at hat; simp at hat
  · refine default_keeps (F := F) (I := Keyed G n) (fun g o hI ho => hI.append ?_) hr hy hk hl hd ho hI h
    rintro ps x i r kind rfl
    exact ho rfl

end Pass

/-! ### The passes -/

section passes
variable {X : P → Prop} {G : Pipe P → Prop} {pid : Nat → Nat} (hp : ∀ a b, pid a = pid b → a = b)
  {root : Nat} {h : Heap P}
include hp

/-- What a pass that succeeds leaves behind. -/
def Passed (m : Method P) (pid : Nat → Nat) (T : Tag → Bool) (X : P → Prop) (G : Pipe P → Prop) (h : Heap P)
    (root : Nat) : Prop :=
  ∃ L b h', (∀ limit, L ≤ limit → transform m pid limit root h = .ok (b, h')) ∧
    Ripe T X G h' b ∧ Framed h root h' b ∧ Keyed G h.length h'

/-- Passes before the last one make no compiled rules. -/
theorem live_keyed {F : Pass P} (hin : F.inT .bnf = false) {s : St P} (hl : F.Live s) :
    Keyed G F.heap.length s.heap := by
  intro a ps x i r kind ha hat
  have := (hl.inv.dom a _ (.inl ha) hat).tag
  simp only [Obj.tag] at this
  rw [hin] at this; cases this

theorem squash_total (hr : Ripe (fun _ => true) X G h root)
    (hc : ∀ x o, Reach h root x → h[x]? = some o → Pass.Clean h x o) : Passed squashMethod pid notBnf X G h root := by
  have fits := Pass.squash_fits (F := ⟨h, root, false, fun _ => true, notBnf, X⟩) rfl (fun _ => rfl)
    (by intro t ht; cases t <;> first | rfl | exact absurd rfl ht)
  obtain ⟨L, b, s2, h1, h2, h3, h4⟩ := Pass.ripe_step (F := ⟨h, root, false, fun _ => true, notBnf, X⟩)
    (N := Pass.Clean) (G := G) (m := squashMethod) hp
    ⟨rfl, fits, squash_young, (fun _ _ _ _ _ => rfl), Pass.squash_runs (fun _ => rfl), squash_grows,
      Pass.clean_steady, fun x hx => by
        obtain ⟨k, hk⟩ := hr.deep x hx
        exact ⟨k, hk.strengthen hc hx⟩, (by intro h; cases h), (by intro h; cases h)⟩ hr
  refine ⟨L, b, s2.heap, h1, h4, h3.framed, ?_⟩
  have := Pass.transform_keeps (F := ⟨h, root, false, fun _ => true, notBnf, X⟩)
    (I := Keyed G h.length) hp rfl fits squash_young (Pass.squash_keeps (fun g o hI ho => hI.append (by
      rintro ps x i r kind rfl
      exact ho rfl)) rfl) (fun g a b c hI ha => hI.set ha) hr (keyed_start h) (h1 L (Nat.le_refl _))
  exact this

theorem extended_total (hr : Ripe notBnf X G h root) : Passed extendedMethod pid notQuant X G h root := by
  obtain ⟨L, b, s2, h1, h2, h3, h4⟩ := Pass.ripe_step (F := ⟨h, root, true, notBnf, notQuant, X⟩)
    (N := Any) (G := G) (m := extendedMethod) hp
    (Pass.any_ending rfl (Pass.extended_fits
      ⟨rfl, (by intro t ht; cases t <;> first | rfl | cases ht), rfl, rfl, rfl, rfl, rfl, rfl⟩
      (by intro t ht hn; cases t <;> first | rfl | exact absurd rfl hn | cases ht) rfl)
      extended_young (fun _ _ _ _ _ => rfl) (Pass.extended_runs any_steady) extended_grows hr
      (fun _ => Pass.extended_barren rfl)) hr
  exact ⟨L, b, s2.heap, h1, h4, h3.framed, live_keyed hp rfl h2⟩

theorem or_total (hr : Ripe notQuant X G h root) : Passed orMethod pid notOr X G h root := by
  obtain ⟨L, b, s2, h1, h2, h3, h4⟩ := Pass.ripe_step (F := ⟨h, root, false, notQuant, notOr, X⟩)
    (N := Any) (G := G) (m := orMethod) hp
    (Pass.any_ending rfl (Pass.or_fits rfl (by intro t ht; cases t <;> first | rfl | cases ht)
      (by intro t ht hn; cases t <;> first | rfl | exact absurd rfl hn | cases ht) rfl rfl rfl)
      or_young (fun _ _ _ _ _ => rfl) (Pass.or_runs any_steady rfl rfl rfl) or_grows hr
      (by intro h; cases h)) hr
  exact ⟨L, b, s2.heap, h1, h4, h3.framed, live_keyed hp rfl h2⟩

theorem empty_total (hr : Ripe notOr X G h root) : Passed emptyMethod pid flatTags X G h root := by
  obtain ⟨L, b, s2, h1, h2, h3, h4⟩ := Pass.ripe_step (F := ⟨h, root, false, notOr, flatTags, X⟩)
    (N := Any) (G := G) (m := emptyMethod) hp
    (Pass.any_ending rfl (Pass.empty_fits rfl (by intro t ht; cases t <;> first | rfl | cases ht)
      (by intro t ht hn; cases t <;> first | rfl | exact absurd rfl hn | cases ht) rfl rfl rfl)
      empty_young (fun _ _ _ _ _ => rfl) (Pass.empty_runs any_steady rfl) empty_grows hr
      (by intro h; cases h)) hr
  exact ⟨L, b, s2.heap, h1, h4, h3.framed, live_keyed hp rfl h2⟩

theorem flatten_total (hr : Ripe flatTags X G h root) : Passed flattenMethod pid flatTags X G h root := by
  obtain ⟨L, b, s2, h1, h2, h3, h4⟩ := Pass.ripe_step (F := ⟨h, root, false, flatTags, flatTags, X⟩)
    (N := Any) (G := G) (m := flattenMethod) hp
    (Pass.any_ending rfl (Pass.flatten_fits rfl (fun _ => rfl) rfl)
      flatten_young (fun _ _ _ _ _ => rfl) (Pass.flatten_runs any_steady rfl rfl) flatten_grows hr
      (by intro h; cases h)) hr
  exact ⟨L, b, s2.heap, h1, h4, h3.framed, live_keyed hp rfl h2⟩

theorem parentCount_ne {a c : Nat} {o : Obj P} (hcl : ClosedHeap h) (hlt : root < h.length)
    (ha : Reach h root a) (ho : h[a]? = some o) (hc : c ∈ o.children) : parentCount pid h root c ≠ 0 := by
  unfold parentCount
  intro e
  have hm : c ∈ (((walk pid h root).flatMap (childrenAt h)).filter (fun x => decide (pid x = pid c))) := by
    rw [List.mem_filter]
    refine ⟨List.mem_flatMap.2 ⟨a, (reach_iff hp hcl hlt a).2 ha, ?_⟩, by simp⟩
    unfold childrenAt
    rw [ho]
    exact hc
  have := List.length_pos_of_mem hm
  omega

theorem toBnf_total (hr : Ripe bnfIn X G h root) (hG : ∀ p, G p → Pass.PipeFine p) :
    Passed (bnfMethod (parentCount pid h root)) pid bnfOut X G h root := by
  have fits := Pass.bnf_fits (F := ⟨h, root, false, bnfIn, bnfOut, X⟩)
    ⟨rfl, (by intro t ht; cases t <;> first | rfl | cases ht), rfl, rfl, rfl, rfl, rfl, rfl⟩
    (parentCount pid h root)
  obtain ⟨L, b, s2, h1, h2, h3, h4⟩ := Pass.ripe_step (F := ⟨h, root, false, bnfIn, bnfOut, X⟩)
    (N := Pass.Given ⟨h, root, false, bnfIn, bnfOut, X⟩) (G := G) (m := bnfMethod (parentCount pid h root)) hp
    ⟨rfl, fits, bnf_young _, (fun _ _ _ _ _ => rfl),
      Pass.bnf_runs rfl rfl (fun a c o ha ho hc => parentCount_ne hp hr.sorted.closed hr.typed.lt ha ho hc),
      bnf_grows _, Pass.given_steady, fun x hx => by
        obtain ⟨k, hk⟩ := hr.deep x hx
        refine ⟨k, hk.strengthen (root := root) (fun y o hy ho => ?_) hx⟩
        refine ⟨⟨(List.getElem?_eq_some_iff.1 ho).1, hy⟩, ?_⟩
        rintro p rfl
        exact hG p (hr.pipe y p hy ho), (by intro h; cases h), (by intro h; cases h)⟩ hr
  refine ⟨L, b, s2.heap, h1, h4, h3.framed, ?_⟩
  have := Pass.transform_keeps (F := ⟨h, root, false, bnfIn, bnfOut, X⟩)
    (I := Keyed G h.length) hp rfl fits (bnf_young _) (Pass.bnf_keyed hr.pipe)
    (fun g a b c hI ha => hI.set ha) hr (keyed_start h) (h1 L (Nat.le_refl _))
  exact this

/-- `rule.normalized` succeeds. -/
theorem normalized_total (hr : Ripe (fun _ => true) X G h root)
    (hc : ∀ x o, Reach h root x → h[x]? = some o → Pass.Clean h x o) :
    ∃ L b h', (∀ limit, L ≤ limit → normalized pid limit root h = .ok (b, h')) ∧
      Ripe flatTags X G h' b ∧ Keyed G h.length h' := by
  obtain ⟨L1, b1, h1, e1, r1, f1, k1⟩ := squash_total hp hr hc
  obtain ⟨L2, b2, h2, e2, r2, f2, k2⟩ := extended_total hp r1
  obtain ⟨L3, b3, h3, e3, r3, f3, k3⟩ := or_total hp r2
  obtain ⟨L4, b4, h4, e4, r4, f4, k4⟩ := empty_total hp r3
  obtain ⟨L5, b5, h5, e5, r5, f5, k5⟩ := flatten_total hp r4
  refine ⟨max L1 (max L2 (max L3 (max L4 L5))), b5, h5, fun limit hl => ?_, r5, ?_⟩
  · unfold normalized replaced
    simp only [bind, Except.bind, e1 limit (by omega), e2 limit (by omega), e3 limit (by omega),
      e4 limit (by omega), e5 limit (by omega)]
  · exact (((k1.trans f2 k2).trans f3 k3).trans f4 k4).trans f5 k5

end passes

/-! ### Removing the forward rules -/

theorem reach_trans {h : Heap P} {a b c : Nat} (h1 : Reach h a b) (h2 : Reach h b c) : Reach h a c := by
  induction h2 with
  | root => exact h1
  | step _ ho hc ih => exact .step ih ho hc

theorem enqueue_sub {pid : Nat → Nat} : ∀ (cs queue seen : List Nat) (x : Nat),
    x ∈ (enqueue pid cs queue seen).1 → x ∈ queue ∨ x ∈ cs := by
  intro cs
  induction cs with
  | nil => intro queue seen x hx; exact .inl hx
  | cons c cs ih =>
    intro queue seen x hx
    simp only [enqueue] at hx
    split at hx
    · rcases ih _ _ x hx with h | h
      · exact .inl h
      · exact .inr (List.mem_cons_of_mem _ h)
    · rcases ih _ _ x hx with h | h
      · rw [List.mem_append, List.mem_singleton] at h
        rcases h with h | rfl
        · exact .inl h
        · exact .inr List.mem_cons_self
      · exact .inr (List.mem_cons_of_mem _ h)

theorem mapM_succeeds {α β : Type} {f : α → Except Err β} : ∀ {xs : List α}, (∀ x ∈ xs, ∃ y, f x = .ok y) →
    ∃ ys, xs.mapM f = .ok ys := by
  intro xs
  induction xs with
  | nil => intro _; exact ⟨[], rfl⟩
  | cons x xs ih =>
    intro h
    obtain ⟨y, hy⟩ := h x List.mem_cons_self
    obtain ⟨ys, hys⟩ := ih (fun z hz => h z (List.mem_cons_of_mem _ hz))
    exact ⟨y :: ys, by rw [List.mapM_cons, hy, hys]; rfl⟩

theorem removeTerm_below {h : Heap P} {a m : Nat} {ts ts' : List (Term P)} (ha : h[a]? = some (.prod ts m))
    (e : ts.mapM (removeTerm h) = .ok ts') {c : Nat} (hc : c ∈ (Obj.prod ts' m).children) : Reach h a c := by
  obtain ⟨t, ht, hs⟩ := Pass.pointwise_mem_right (mapM_pointwise (R := Skipped h)
    (fun _ _ => removeTerm_skipped (fun _ _ => Iff.rfl)) e) (termRules_mem.1 hc)
  have step : ∀ r, .rule r ∈ ts → Reach h a r := fun r hr => .step .root ha (termRules_mem.2 hr)
  cases hs with
  | rule _ => exact step _ ht
  | skip h' => exact .step (step _ ht) h' (by simp [Obj.children])

/-- Nothing but productions changes, and nothing is missing. -/
theorem removeForwards_total {pid : Nat → Nat} : ∀ (n : Nat) (queue seen : List Nat) (h : Heap P),
    (∀ q ∈ queue, ∀ x, Reach h q x → h[x]? ≠ some (.forward none)) →
    ∃ h', removeForwards pid n queue seen h = .ok h' ∧ ∀ a : Nat, h'[a]? = h[a]? ∨
      ∃ ts m ts', h[a]? = some (.prod ts m) ∧ h'[a]? = some (.prod ts' m) := by
  intro n
  induction n with
  | zero => intro queue seen h _; exact ⟨h, rfl, fun _ => .inl rfl⟩
  | succ n ih =>
    intro queue seen h hq
    cases queue with
    | nil => exact ⟨h, rfl, fun _ => .inl rfl⟩
    | cons a queue =>
      simp only [removeForwards]
      split
      · rename_i ha
        exact absurd ha (hq a List.mem_cons_self a .root)
      · rename_i ts m ha
        have hts : ∃ ts', ts.mapM (removeTerm h) = .ok ts' := by
          refine mapM_succeeds (fun t ht => ?_)
          cases t with
          | pred p => exact ⟨_, rfl⟩
          | rule r =>
            have := hq a List.mem_cons_self r (.step .root ha (termRules_mem.2 ht))
            simp only [removeTerm]
            split
            · rename_i hr; exact absurd hr this
            · exact ⟨_, rfl⟩
            · exact ⟨_, rfl⟩
        obtain ⟨ts', hts⟩ := hts
        simp only [hts]
        have hlt := (List.getElem?_eq_some_iff.1 ha).1
        have hset : (h.set a (.prod ts' m))[a]? = some (.prod ts' m) := List.getElem?_set_self hlt
        have back : ∀ q x, Reach (h.set a (.prod ts' m)) q x → Reach h q x ∨ Reach h a x := by
          intro q x hx
          induction hx with
          | root => exact .inl .root
          | @step u o c _ hu hc ihx =>
            by_cases e : a = u
            · subst e
              rw [hset] at hu; cases hu
              exact .inr (removeTerm_below ha hts hc)
            · rw [List.getElem?_set_ne e] at hu
              rcases ihx with ihx | ihx
              · exact .inl (.step ihx hu hc)
              · exact .inr (.step ihx hu hc)
        obtain ⟨h', e', f'⟩ := ih (enqueue pid (childrenAt (h.set a (.prod ts' m)) a) queue seen).1
          (enqueue pid (childrenAt (h.set a (.prod ts' m)) a) queue seen).2 (h.set a (.prod ts' m)) (by
            intro q hqm x hx hno
            have hxa : a ≠ x := by
              rintro rfl
              rw [hset] at hno; cases hno
            rw [List.getElem?_set_ne hxa] at hno
            have inA : Reach h a x → False := fun hr => hq a List.mem_cons_self x hr hno
            rcases enqueue_sub _ _ _ q hqm with hqq | hqq
            · rcases back q x hx with hr | hr
              · exact hq q (List.mem_cons_of_mem _ hqq) x hr hno
              · exact inA hr
            · unfold childrenAt at hqq
              rw [hset] at hqq
              have haq := removeTerm_below ha hts hqq
              rcases back q x hx with hr | hr
              · exact inA (reach_trans haq hr)
              · exact inA hr)
        refine ⟨h', e', fun b => ?_⟩
        by_cases e : a = b
        · subst e
          right
          rcases f' a with k | ⟨us, m', us', k1, k2⟩
          · exact ⟨ts, m, ts', ha, by rw [k]; exact hset⟩
          · rw [hset] at k1; cases k1
            exact ⟨ts, m, us', ha, k2⟩
        · have := f' b
          rw [List.getElem?_set_ne e] at this
          exact this
      · obtain ⟨h', e', f'⟩ := ih (enqueue pid (childrenAt h a) queue seen).1
          (enqueue pid (childrenAt h a) queue seen).2 h (by
            intro q hqm x hx
            rcases enqueue_sub _ _ _ q hqm with hqq | hqq
            · exact hq q (List.mem_cons_of_mem _ hqq) x hx
            · unfold childrenAt at hqq
              cases ho : h[a]? with
              | none => rw [ho] at hqq; cases hqq
              | some o =>
                rw [ho] at hqq
                exact hq a List.mem_cons_self x (reach_trans (.step .root ho hqq) hx))
        exact ⟨h', e', f'⟩

theorem removeForward_total {pid : Nat → Nat} {root : Nat} {h : Heap P}
    (hf : ∀ x, Reach h root x → h[x]? ≠ some (.forward none)) :
    ∃ b h', removeForward pid root h = .ok (b, h') ∧ ∀ a : Nat, h'[a]? = h[a]? ∨
      ∃ ts m ts', h[a]? = some (.prod ts m) ∧ h'[a]? = some (.prod ts' m) := by
  obtain ⟨h', e, f⟩ := removeForwards_total (pid := pid) (h.length + 1) [root] [pid root] h (by
    intro q hq
    rw [List.mem_singleton] at hq
    subst hq
    exact hf)
  unfold removeForward
  simp only [e]
  split
  · rename_i hr
    rcases f root with k | ⟨_, _, _, _, k⟩
    · rw [hr] at k; exact absurd k.symm (hf root .root)
    · rw [hr] at k; cases k
  · exact ⟨_, _, rfl, f⟩
  · exact ⟨_, _, rfl, f⟩

section
variable {X : P → Prop} {G : Pipe P → Prop} {pid : Nat → Nat} (hp : ∀ a b, pid a = pid b → a = b)
  {root : Nat} {h : Heap P}
include hp

/-- `rule.as_bnf` succeeds. -/
theorem asBnf_total (hr : Ripe bnfIn X G h root) (hG : ∀ p, G p → Pass.PipeFine p) :
    ∃ L b h', (∀ limit, L ≤ limit → asBnf pid limit root h = .ok (b, h')) ∧
      ∃ b1 g, Framed h root g b1 ∧ Keyed G h.length g ∧ (∀ n, Keyed G n g → Keyed G n h') := by
  obtain ⟨L, b1, h1, e1, r1, f1, k1⟩ := toBnf_total hp hr hG
  obtain ⟨b2, h2, e2, f2⟩ := removeForward_total (pid := pid) (root := b1) (h := h1) (by
    intro x hx hn
    obtain ⟨y, h, _⟩ := r1.fwd x _ hx hn
    cases h)
  refine ⟨L, b2, generateNames (walk pid h2 b2) 0 h2, fun limit hl => ?_, b1, h1, f1, k1, ?_⟩
  · unfold asBnf toBnf
    simp only [bind, Except.bind, pure, Except.pure, e1 limit hl, e2]
  · intro n hk
    have hk2 : Keyed G n h2 := by
      refine hk.change ?_ ?_
      · intro a ps x i r kind ha
        rcases f2 a with k | ⟨_, _, _, _, k⟩
        · exact ⟨x, i, r, by rw [← k]; exact ha⟩
        · rw [ha] at k; cases k
      · intro a v ts ha
        rcases f2 a with k | ⟨_, _, _, k, _⟩
        · rw [k]; exact ha
        · rw [ha] at k; cases k
    have hg := generateNames_at (walk pid h2 b2) 0 h2
    refine hk2.change ?_ ?_
    · intro a ps x i r kind ha
      have hlt : a < h2.length := hg.1 ▸ (List.getElem?_eq_some_iff.1 ha).1
      obtain ⟨o, ho⟩ : ∃ o, h2[a]? = some o := ⟨_, List.getElem?_eq_getElem hlt⟩
      rcases hg.2 a o ho with k | ⟨_, ps', n', i', r', k', n'', rfl, k⟩
      · rw [ha] at k; cases k
        exact ⟨_, _, _, ho⟩
      · rw [ha] at k; cases k
        exact ⟨_, _, _, ho⟩
    · intro a v ts ha
      rcases hg.2 a _ ha with k | ⟨_, _, _, _, _, _, _, k, _⟩
      · exact k
      · cases k

/-- `rule.normalized.as_bnf` succeeds. -/
theorem compiled_total (hr : Ripe (fun _ => true) X G h root)
    (hc : ∀ x o, Reach h root x → h[x]? = some o → Pass.Clean h x o) (hG : ∀ p, G p → Pass.PipeFine p) :
    ∃ L b h', (∀ limit, L ≤ limit →
      (normalized pid limit root h).bind (fun x => asBnf pid limit x.1 x.2) = .ok (b, h')) ∧
      Keyed G h.length h' := by
  obtain ⟨L1, b1, h1, e1, r1, k1⟩ := normalized_total hp hr hc
  obtain ⟨L2, b2, h2, e2, b3, g, f2, k2, k3⟩ := asBnf_total hp (r1.mono (T' := bnfIn) (by
    intro t ht; cases t <;> first | rfl | cases ht)) hG
  refine ⟨max L1 L2, b2, h2, fun limit hl => ?_, k3 _ (k1.trans f2 k2)⟩
  simp only [Except.bind, e1 limit (by omega), e2 limit (by omega)]

end
end Yargy
