import Verif.Proofs.ExtendedPass
/-!
`SquashExtendedTransformator` keeps the words of rules that are calm.
-/
namespace Yargy

variable {P : Type} {k : Kind} {H : Heap P}

/-! ### Repetitions of repetitions -/

/-- So many repetitions of a repetition. -/
theorem unroll {child g : Nat} {q : Obj P} {J : Nat → Prop} (hc : H[child]? = some q)
    (hl : q.label k = none) (hq : Quant q g J) : ∀ n c w,
    Gen k H c (List.replicate n (.rule child)) w →
    ∃ js : List Nat, js.length = n ∧ (∀ j ∈ js, J j) ∧ ∃ c',
      Gen k H c' (List.replicate js.sum (.rule g)) w ∧ c' + (js.map (stepCost q)).sum ≤ c := by
  intro n
  induction n with
  | zero =>
    intro c w h
    exact ⟨[], rfl, by simp, 0, by simpa [gen_nil] using h, by simp⟩
  | succ n ih =>
    intro c w h
    rw [List.replicate_succ, gen_cons] at h
    obtain ⟨c1, c2, v, v', h1, h2, h3, rfl⟩ := h
    obtain ⟨js, hlen, hJ, c', g', hsum⟩ := ih c2 v' h3
    obtain ⟨o, us, c3, v, ho, hs, hcost, hu, rfl⟩ := gen_one.1 h2
    rw [hc] at ho; cases ho
    obtain ⟨j, hj, rfl⟩ := (hq us).1 hs
    rw [List.length_replicate] at hcost
    refine ⟨j :: js, by simp [hlen], ?_, c3 + c', ?_, ?_⟩
    · intro x hx
      rw [List.mem_cons] at hx
      rcases hx with rfl | hx
      · exact hj
      · exact hJ x hx
    · rw [List.sum_cons, ← List.replicate_append_replicate, hl]
      exact hu.append g'
    · rw [List.map_cons, List.sum_cons]; omega

theorem roll {child g : Nat} {q : Obj P} {J : Nat → Prop} (hc : H[child]? = some q)
    (hl : q.label k = none) (hq : Quant q g J) : ∀ js : List Nat, (∀ j ∈ js, J j) → ∀ c w,
    Gen k H c (List.replicate js.sum (.rule g)) w →
    ∃ c', Gen k H c' (List.replicate js.length (.rule child)) w := by
  intro js
  induction js with
  | nil => intro _ c w h; exact ⟨c, h⟩
  | cons j js ih =>
    intro hJ c w h
    rw [List.sum_cons, ← List.replicate_append_replicate] at h
    obtain ⟨c1, c2, v, v', _, h2, h3, rfl⟩ := h.split
    obtain ⟨c', g'⟩ := ih (fun x hx => hJ x (List.mem_cons_of_mem _ hx)) _ _ h3
    have : Gen k H (stepCost q j + c1) [.rule child] v :=
      gen_one.2 ⟨q, _, c1, v, hc, (hq _).2 ⟨j, hJ j List.mem_cons_self, rfl⟩,
        by rw [List.length_replicate]; omega, h2, by rw [hl]; rfl⟩
    rw [List.length_cons, List.replicate_succ]
    exact ⟨_, gen_cons.2 ⟨_, _, v, v', Nat.le_refl _, this, g', rfl⟩⟩

/-- Two repetitions made one. -/
theorem squash_equiv {x child t g : Nat} {o q o' : Obj P} {N J M : Nat → Prop}
    (hx : H[x]? = some o) (hc : H[child]? = some q) (ht : H[t]? = some o')
    (lx : o.label k = none) (lc : q.label k = none) (lt : o'.label k = none)
    (qx : Quant o child N) (qc : Quant q g J) (qt : Quant o' g M)
    (forth : ∀ js : List Nat, N js.length → (∀ j ∈ js, J j) → M js.sum ∧
      stepCost o' js.sum ≤ stepCost o js.length + (js.map (stepCost q)).sum)
    (back : ∀ m, M m → ∃ js : List Nat, N js.length ∧ (∀ j ∈ js, J j) ∧ js.sum = m) :
    Equiv k H x t := by
  constructor
  · intro n w gen
    obtain ⟨o1, us, c, v, ho, hs, hcost, hu, rfl⟩ := gen_one.1 gen
    rw [hx] at ho; cases ho
    obtain ⟨m, hm, rfl⟩ := (qx us).1 hs
    obtain ⟨js, rfl, hJ, c', g', hsum⟩ := unroll hc lc qc m c v hu
    obtain ⟨hM, hle⟩ := forth js hm hJ
    rw [List.length_replicate] at hcost
    rw [lx]
    exact gen_one.2 ⟨o', _, c', v, ht, (qt _).2 ⟨_, hM, rfl⟩,
      by rw [List.length_replicate]; omega, g', by rw [lt]⟩
  · intro n w gen
    obtain ⟨o1, us, c, v, ho, hs, hcost, hu, rfl⟩ := gen_one.1 gen
    rw [ht] at ho; cases ho
    obtain ⟨m, hm, rfl⟩ := (qt us).1 hs
    obtain ⟨js, hN, hJ, rfl⟩ := back m hm
    obtain ⟨c', g'⟩ := roll hc lc qc js hJ c v hu
    rw [lt]
    exact ⟨_, gen_one.2 ⟨o, _, c', v, hx, (qx _).2 ⟨_, hN, rfl⟩, Nat.le_refl _, g',
      by rw [lx]⟩⟩

/-- A bounded repetition of something optional is an optional bounded repetition. -/
theorem squash_optional {x child t u g : Nat} {o o' : Obj P} {v v' : Bool} {N : Nat → Prop}
    (hx : H[x]? = some o) (hc : H[child]? = some (.optional g v))
    (ht : H[t]? = some (.optional u v')) (hu : H[u]? = some o')
    (lx : o.label k = none) (lu : o'.label k = none)
    (qx : Quant o child N) (qu : Quant o' g N) (hcost : ∀ n, stepCost o n = n)
    (hcost' : ∀ n, stepCost o' n = n) (h1 : N 1) (hpos : ∀ n, N n → 1 ≤ n)
    (hdown : ∀ m j, N m → 1 ≤ j → j ≤ m → N j) : Equiv k H x t := by
  have lo : ∀ r w, (Obj.optional r w : Obj P).label k = none := by intro r w; cases k <;> rfl
  have sums : ∀ js : List Nat, (∀ j ∈ js, j ≤ 1) → js.sum ≤ js.length ∧
      (js.map (stepCost (.optional g v : Obj P))).sum = js.length := by
    intro js
    induction js with
    | nil => intro _; simp
    | cons j js ih =>
      intro h
      have := ih (fun x hx => h x (List.mem_cons_of_mem _ hx))
      have := h j List.mem_cons_self
      simp only [List.sum_cons, List.length_cons, List.map_cons, stepCost]
      omega
  constructor
  · intro n w gen
    obtain ⟨o1, us, c, w, ho, hs, hc1, hgen, rfl⟩ := gen_one.1 gen
    rw [hx] at ho; cases ho
    obtain ⟨m, hm, rfl⟩ := (qx us).1 hs
    obtain ⟨js, rfl, hJ, c', g', hsum⟩ := unroll hc (lo _ _) (quant_optional g v) m c w hgen
    obtain ⟨s1, s2⟩ := sums js hJ
    rw [List.length_replicate, hcost] at hc1
    have := hpos _ hm
    rw [lx]
    by_cases hz : js.sum = 0
    · rw [hz] at g'
      simp only [List.replicate_zero] at g'
      rw [gen_nil] at g'
      subst g'
      exact gen_one.2 ⟨_, _, 0, [], ht, .none, by simp only [stepCost]; omega, .nil,
        by rw [lo]⟩
    · refine gen_one.2 ⟨_, _, js.sum + c', w, ht, .one, by simp only [stepCost]; omega, ?_,
        by rw [lo]⟩
      exact gen_one.2 ⟨o', _, c', w, hu, (qu _).2 ⟨_, hdown _ _ hm (by omega) s1, rfl⟩,
        by rw [List.length_replicate, hcost']; omega, g', by rw [lu]; rfl⟩
  · intro n w gen
    obtain ⟨o1, us, c, w, ho, hs, hc1, hgen, rfl⟩ := gen_one.1 gen
    rw [ht] at ho; cases ho
    rw [lo]
    cases hs with
    | none =>
      rw [gen_nil] at hgen
      subst hgen
      obtain ⟨c', g'⟩ := roll hc (lo _ _) (quant_optional g v) [0] (by simp) 0 [] (by simp [gen_nil])
      exact ⟨_, gen_one.2 ⟨o, _, c', [], hx, (qx _).2 ⟨1, h1, rfl⟩, Nat.le_refl _, g',
        by rw [lx]⟩⟩
    | one =>
      obtain ⟨o1, us, c2, w, ho, hs, hc1, hgen, rfl⟩ := gen_one.1 hgen
      rw [hu] at ho; cases ho
      obtain ⟨m, hm, rfl⟩ := (qu us).1 hs
      obtain ⟨c', g'⟩ := roll hc (lo _ _) (quant_optional g v) (List.replicate m 1)
        (by intro j hj; rw [List.mem_replicate] at hj; omega) c2 w (by simpa using hgen)
      rw [List.length_replicate] at g'
      rw [lu]
      exact ⟨_, gen_one.2 ⟨o, _, c', w, hx, (qx _).2 ⟨m, hm, rfl⟩, Nat.le_refl _, g',
        by rw [lx]; rfl⟩⟩

/-! ### What is kept -/

/-- Not a quantifier. -/
def tight (g : Heap P) (a : Nat) : Prop := ∀ o, g[a]? = some o → o.quant = false

theorem demands_back {g e : Heap P} (hc : ClosedHeap g) {a : Nat} (h : Demands (g ++ e) a) :
    a < g.length → Demands g a := by
  induction h with
  | min ho hm =>
    intro ha; rw [List.getElem?_append_left ha] at ho; exact .min ho hm
  | minMax ho hm =>
    intro ha; rw [List.getElem?_append_left ha] at ho; exact .minMax ho hm
  | optional ho _ ih =>
    intro ha; rw [List.getElem?_append_left ha] at ho
    exact .optional ho (ih (hc _ (List.mem_of_getElem? ho) _ (by simp [Obj.children])))
  | repeatable ho _ ih =>
    intro ha; rw [List.getElem?_append_left ha] at ho
    exact .repeatable ho (ih (hc _ (List.mem_of_getElem? ho) _ (by simp [Obj.children])))
  | repOptional ho _ ih =>
    intro ha; rw [List.getElem?_append_left ha] at ho
    exact .repOptional ho (ih (hc _ (List.mem_of_getElem? ho) _ (by simp [Obj.children])))
  | minBounded ho _ ih =>
    intro ha; rw [List.getElem?_append_left ha] at ho
    exact .minBounded ho (ih (hc _ (List.mem_of_getElem? ho) _ (by simp [Obj.children])))
  | maxBounded ho _ ih =>
    intro ha; rw [List.getElem?_append_left ha] at ho
    exact .maxBounded ho (ih (hc _ (List.mem_of_getElem? ho) _ (by simp [Obj.children])))
  | minMaxBounded ho _ ih =>
    intro ha; rw [List.getElem?_append_left ha] at ho
    exact .minMaxBounded ho (ih (hc _ (List.mem_of_getElem? ho) _ (by simp [Obj.children])))

theorem loose_back {g e : Heap P} (hc : ClosedHeap g) {a : Nat} (h : Loose (g ++ e) a) :
    a < g.length → Loose g a := by
  induction h with
  | optional ho => intro ha; rw [List.getElem?_append_left ha] at ho; exact .optional ho
  | repeatable ho => intro ha; rw [List.getElem?_append_left ha] at ho; exact .repeatable ho
  | repOptional ho => intro ha; rw [List.getElem?_append_left ha] at ho; exact .repOptional ho
  | minBounded ho _ ih =>
    intro ha; rw [List.getElem?_append_left ha] at ho
    exact .minBounded ho (ih (hc _ (List.mem_of_getElem? ho) _ (by simp [Obj.children])))
  | maxBounded ho _ ih =>
    intro ha; rw [List.getElem?_append_left ha] at ho
    exact .maxBounded ho (ih (hc _ (List.mem_of_getElem? ho) _ (by simp [Obj.children])))
  | minMaxBounded ho _ ih =>
    intro ha; rw [List.getElem?_append_left ha] at ho
    exact .minMaxBounded ho (ih (hc _ (List.mem_of_getElem? ho) _ (by simp [Obj.children])))

theorem loose_forth {g e : Heap P} {a : Nat} (h : Loose g a) : Loose (g ++ e) a := by
  induction h with
  | optional ho => exact .optional (getElem?_append_some ho)
  | repeatable ho => exact .repeatable (getElem?_append_some ho)
  | repOptional ho => exact .repOptional (getElem?_append_some ho)
  | minBounded ho _ ih => exact .minBounded (getElem?_append_some ho) ih
  | maxBounded ho _ ih => exact .maxBounded (getElem?_append_some ho) ih
  | minMaxBounded ho _ ih => exact .minMaxBounded (getElem?_append_some ho) ih

theorem tight_not_loose {g : Heap P} {a : Nat} (h : tight g a) : ¬ Loose g a := by
  intro hl
  cases hl with
  | optional ho => exact absurd (h _ ho) (by simp [Obj.quant])
  | repeatable ho => exact absurd (h _ ho) (by simp [Obj.quant])
  | repOptional ho => exact absurd (h _ ho) (by simp [Obj.quant])
  | minBounded ho _ => exact absurd (h _ ho) (by simp [Obj.quant])
  | maxBounded ho _ => exact absurd (h _ ho) (by simp [Obj.quant])
  | minMaxBounded ho _ => exact absurd (h _ ho) (by simp [Obj.quant])

theorem tight_not_demands {g : Heap P} {a : Nat} (h : tight g a) : ¬ Demands g a := by
  intro hl
  cases hl with
  | min ho _ => exact absurd (h _ ho) (by simp [Obj.quant])
  | minMax ho _ => exact absurd (h _ ho) (by simp [Obj.quant])
  | optional ho _ => exact absurd (h _ ho) (by simp [Obj.quant])
  | repeatable ho _ => exact absurd (h _ ho) (by simp [Obj.quant])
  | repOptional ho _ => exact absurd (h _ ho) (by simp [Obj.quant])
  | minBounded ho _ => exact absurd (h _ ho) (by simp [Obj.quant])
  | maxBounded ho _ => exact absurd (h _ ho) (by simp [Obj.quant])
  | minMaxBounded ho _ => exact absurd (h _ ho) (by simp [Obj.quant])

theorem calm_mono {g e : Heap P} {o : Obj P} (hc : ClosedHeap g) (hch : ∀ c ∈ o.children, c < g.length)
    (h : o.calm g) : o.calm (g ++ e) := by
  cases o with
  | repeatable r v => exact fun hd => h (demands_back hc hd (hch r (by simp [Obj.children])))
  | repOptional r v u => exact fun hd => h (demands_back hc hd (hch r (by simp [Obj.children])))
  | minBounded r m v => exact fun hm hd => h hm (loose_back hc hd (hch r (by simp [Obj.children])))
  | minMaxBounded r m m' v =>
    exact fun hm hd => h hm (loose_back hc hd (hch r (by simp [Obj.children])))
  | _ => trivial

def calmInv (k : Kind) : PassInv P where
  Q g o := (o.bare k ∧ o.bounds) ∧ o.calm g
  X g a b := (tight g a → tight g b) ∧ (¬ Loose g a → ¬ Loose g b)
  Qmono g e o hc ho h := ⟨h.1, calm_mono hc (hc o ho) h.2⟩
  Xmono g e a b hc ha hb h := by
    constructor
    · intro ht o ho
      rw [List.getElem?_append_left hb] at ho
      exact h.1 (fun o' ho' => ht o' (getElem?_append_some ho')) o ho
    · intro hl hl'
      exact h.2 (fun hl2 => hl (loose_forth hl2)) (loose_back hc hl' hb)

theorem calm_of_not_quant {g : Heap P} {o : Obj P} (h : o.quant = false) : o.calm g := by
  cases o <;> first | trivial | cases h

theorem calmCopying : Copying (calmInv k : PassInv P) k where
  bare _ _ _ _ _ _ h := h.1.1 _ _ _ _ _ rfl
  new _ _ hq hne := ⟨⟨bare_of_ne hne, bounds_of_not_quant hq⟩, calm_of_not_quant hq⟩
  image g a b o o' _ hb _ hq' := by
    have ht : tight g b := by intro x hx; rw [hb] at hx; cases hx; exact hq'
    exact ⟨fun _ => ht, fun _ => tight_not_loose ht⟩

/-! ### The methods -/

abbrev Goal (k : Kind) (a : Nat) (s : St P) (b : Nat) (s' : St P) : Prop :=
  ∃ ext, ∀ g, Fine (calmInv k) k g s →
    Fine (calmInv k) k (g ++ ext) s' ∧ Image (calmInv k) k (g ++ ext) a b

/-- Something loose may become anything. -/
theorem loose_image {g : Heap P} {a b : Nat} (h : Loose g a) : (calmInv k : PassInv P).X g a b :=
  ⟨fun ht => (tight_not_loose ht h).elim, fun hn => (hn h).elim⟩

/-- A new object is visited instead. -/
theorem visitNew_ok {rec : Visit P} (hr : VisitOk (calmInv k) k rec) {a : Nat} {o : Obj P} {s : St P}
    {b s'} (hnew : ∀ g, Fine (calmInv k) k g s → a < g.length ∧ Loose g a ∧
      (∀ c ∈ o.children, c < g.length) ∧ (o.bare k ∧ o.bounds) ∧ o.calm g ∧
      ∀ H, g ++ [o] <+: H → Equiv k H a g.length)
    (h : visitNew rec o s = .ok (b, s')) : Goal k a s b s' := by
  unfold visitNew at h
  obtain ⟨ext, he⟩ := hr _ _ _ _ h
  refine ⟨[o] ++ ext, fun g hg => ?_⟩
  obtain ⟨h0, h1, h2, h3, h4, h5⟩ := hnew g hg
  have f1 := fine_alloc hg (o := o) (fun c hc => by have := h2 c hc; omega)
    ⟨h3, calm_mono hg.closed h2 h4⟩
  obtain ⟨f2, i2⟩ := he _ f1
  rw [← List.append_assoc]
  refine ⟨f2, by simp; omega, i2.lt', loose_image (loose_forth (loose_forth h1)), fun H hH => ?_⟩
  have := i2.sem H hH
  rw [← hg.shape.length] at this
  exact (h5 H ((List.prefix_append _ _).trans hH)).trans this

theorem label_quant {o : Obj P} (h : o.quant = true) : o.label k = none := by
  cases o <;> first | (cases k <;> rfl) | cases h

/-- Two repetitions become one. -/
theorem merge_ok {rec : Visit P} (hr : VisitOk (calmInv k) k rec) {a child r : Nat} {o q o' : Obj P}
    {s : St P} {b s'} {N J M : Nat → Prop} (ho : s.heap[a]? = some o)
    (hq : s.heap[child]? = some q) (fo : o.fixed) (fq : q.fixed)
    (qo : o.quant = true) (qq : q.quant = true) (qo' : o'.quant = true)
    (Qo : Quant o child N) (Qq : Quant q r J) (Qo' : Quant o' r M)
    (hch : o'.children = [r]) (hqch : q.children = [r])
    (hloose : ∀ g : Heap P, g[a]? = some o → g[child]? = some q → Loose g a)
    (hbare : o'.bounds)
    (hcalm : ∀ g : Heap P, g[a]? = some o → g[child]? = some q → o.bounds → q.bounds → o.calm g →
      q.calm g → o'.calm g ∧
      (∀ js : List Nat, N js.length → (∀ j ∈ js, J j) → M js.sum ∧
        stepCost o' js.sum ≤ stepCost o js.length + (js.map (stepCost q)).sum) ∧
      (∀ m, M m → ∃ js : List Nat, N js.length ∧ (∀ j ∈ js, J j) ∧ js.sum = m))
    (h : visitNew rec o' s = .ok (b, s')) : Goal k a s b s' := by
  refine visitNew_ok hr (fun g hg => ?_) h
  have hga := hg.same ho fo
  have hgc := hg.same hq fq
  have ia := hg.inv _ (List.mem_of_getElem? hga)
  have ic := hg.inv _ (List.mem_of_getElem? hgc)
  obtain ⟨h1, h2, h3⟩ := hcalm g hga hgc ia.1.2 ic.1.2 ia.2 ic.2
  refine ⟨hg.lt ho, hloose g hga hgc, ?_, ⟨?_, hbare⟩, h1, fun H hH => ?_⟩
  · intro c hc
    rw [hch] at hc
    exact hg.closed q (List.mem_of_getElem? hgc) c (by rw [hqch]; exact hc)
  · intro ps n i r d e
    subst e
    cases qo'
  · exact squash_equiv (getElem?_prefix hH (getElem?_append_some hga))
      (getElem?_prefix hH (getElem?_append_some hgc)) (getElem?_prefix hH (getElem?_new _))
      (label_quant qo) (label_quant qq) (label_quant qo') Qo Qq Qo' h2 h3

theorem sum_ge {q : Obj P} (h : ∀ j, j ≤ stepCost q j) (js : List Nat) :
    js.sum ≤ (js.map (stepCost q)).sum := by
  induction js with
  | nil => simp
  | cons j js ih => have := h j; simp only [List.sum_cons, List.map_cons]; omega

theorem cost_quant {o : Obj P} (h : o.quant = true) (h' : ∀ r v, o ≠ .optional r v) (j : Nat) :
    j ≤ stepCost o j := by
  cases o <;> first | exact (h' _ _ rfl).elim | (simp only [stepCost]; omega) | cases h

theorem sum_ge_optional {r : Nat} {v : Bool} {js : List Nat} (h : ∀ j ∈ js, j ≤ 1) :
    js.sum ≤ (js.map (stepCost (.optional r v : Obj P))).sum := by
  induction js with
  | nil => simp
  | cons j js ih =>
    have := ih (fun x hx => h x (List.mem_cons_of_mem _ hx))
    have := h j List.mem_cons_self
    simp only [List.sum_cons, List.map_cons, stepCost] at *
    omega

theorem sum_pos {js : List Nat} (hlen : 1 ≤ js.length) (h : ∀ j ∈ js, 1 ≤ j) : 1 ≤ js.sum := by
  cases js with
  | nil => simp at hlen
  | cons j js => have := h j List.mem_cons_self; simp only [List.sum_cons]; omega

theorem ones (m : Nat) : (List.replicate m 1).length = m ∧ (List.replicate m 1).sum = m := by
  simp

theorem demands_not_min {g : Heap P} {r x : Nat} {o : Obj P} (h : g[r]? = some o)
    (hch : o.children = [x]) (hq : o.quant = true) (hd : ¬ Demands g r) : ¬ Demands g x := by
  intro hx
  apply hd
  cases o with
  | optional r v => simp only [Obj.children, List.cons.injEq, and_true] at hch; subst hch; exact .optional h hx
  | repeatable r v => simp only [Obj.children, List.cons.injEq, and_true] at hch; subst hch; exact .repeatable h hx
  | repOptional r v u => simp only [Obj.children, List.cons.injEq, and_true] at hch; subst hch; exact .repOptional h hx
  | minBounded r m v => simp only [Obj.children, List.cons.injEq, and_true] at hch; subst hch; exact .minBounded h hx
  | maxBounded r m v => simp only [Obj.children, List.cons.injEq, and_true] at hch; subst hch; exact .maxBounded h hx
  | minMaxBounded r m m' v => simp only [Obj.children, List.cons.injEq, and_true] at hch; subst hch; exact .minMaxBounded h hx
  | _ => cases hq

/-- The conditions of `squash_equiv`. -/
def Merges (o q o' : Obj P) (N J M : Nat → Prop) : Prop :=
  (∀ js : List Nat, N js.length → (∀ j ∈ js, J j) → M js.sum ∧
    stepCost o' js.sum ≤ stepCost o js.length + (js.map (stepCost q)).sum) ∧
  (∀ m, M m → ∃ js : List Nat, N js.length ∧ (∀ j ∈ js, J j) ∧ js.sum = m)

theorem merges_repeatable {o q : Obj P} {r : Nat} {v : Bool} {N J : Nat → Prop}
    (hN : ∀ n, N n → 1 ≤ n) (hJ : ∀ j, J j → 1 ≤ j) (hq : ∀ j, j ≤ stepCost q j)
    (back : ((∀ n, 1 ≤ n → N n) ∧ J 1) ∨ (N 1 ∧ ∀ j, 1 ≤ j → J j)) :
    Merges o q (.repeatable r v) N J (1 ≤ ·) := by
  constructor
  · intro js h1 h2
    have := sum_ge hq js
    exact ⟨sum_pos (hN _ h1) (fun j hj => hJ j (h2 j hj)), by simp only [stepCost]; omega⟩
  · intro m hm
    rcases back with ⟨h1, h2⟩ | ⟨h1, h2⟩
    · refine ⟨List.replicate m 1, by simpa using h1 m hm, ?_, by simp⟩
      intro j hj
      rw [List.mem_replicate] at hj
      rw [hj.2]; exact h2
    · exact ⟨[m], h1, by simpa using h2 m hm, by simp⟩

theorem merges_repOptional {o q : Obj P} {r : Nat} {v u : Bool} {N J : Nat → Prop}
    (hN : ∀ n, N n → 1 ≤ stepCost o n)
    (hq : ∀ js : List Nat, (∀ j ∈ js, J j) → js.sum ≤ (js.map (stepCost q)).sum)
    (zero : N 0 ∨ (N 1 ∧ J 0))
    (back : ((∀ n, 1 ≤ n → N n) ∧ J 1) ∨ (N 1 ∧ ∀ j, 1 ≤ j → J j)) :
    Merges o q (.repOptional r v u) N J (fun _ => True) := by
  constructor
  · intro js h1 h2
    have h3 := hq js h2
    have h4 := hN _ h1
    have h5 : stepCost (.repOptional r v u : Obj P) js.sum = max js.sum 1 := rfl
    exact ⟨trivial, by rw [h5]; omega⟩
  · intro m _
    by_cases hm : m = 0
    · subst hm
      rcases zero with h | ⟨h1, h2⟩
      · exact ⟨[], h, by simp, rfl⟩
      · exact ⟨[0], h1, by simpa using h2, rfl⟩
    · rcases back with ⟨h1, h2⟩ | ⟨h1, h2⟩
      · refine ⟨List.replicate m 1, by simpa using h1 m (by omega), ?_, by simp⟩
        intro j hj
        rw [List.mem_replicate] at hj
        rw [hj.2]; exact h2
      · exact ⟨[m], h1, by simpa using h2 m (by omega), by simp⟩

theorem merges_optional {r r' r'' : Nat} {v u t : Bool} :
    Merges (.optional r v : Obj P) (.optional r' u) (.optional r'' t) (· ≤ 1) (· ≤ 1) (· ≤ 1) := by
  constructor
  · intro js h1 h2
    match js, h1, h2 with
    | [], _, _ => simp [stepCost]
    | [j], _, h2 => simp [stepCost] at h2 ⊢; exact h2
  · intro m hm
    exact ⟨[m], by simp, by simpa using hm, by simp⟩

/-- A quantifier copied around the image of what it repeats. -/
theorem calm_copy_ok {rec : Visit P} (hr : VisitOk (calmInv k) k rec) {a r : Nat} {s : St P}
    {mk : Nat → Obj P} {N : Nat → Prop} (hfix : (mk r).fixed) (ho : s.heap[a]? = some (mk r))
    (hquant : ∀ r, (mk r).quant = true) (ha : ∀ r, Quant (mk r) r N)
    (hch : ∀ r, (mk r).children = [r]) (hcost : ∀ r r' n, stepCost (mk r) n ≤ stepCost (mk r') n)
    (hb : ∀ r r', (mk r).bounds → (mk r').bounds)
    (hcalm : ∀ g e : Heap P, ∀ y, ClosedHeap (g ++ e) → Image (calmInv k) k (g ++ e) r y →
      Fine (calmInv k) k g s → (mk y).calm (g ++ e) ∧
        (calmInv k : PassInv P).X ((g ++ e) ++ [mk y]) a (g ++ e).length) {b s'}
    (h : rebuild rec r mk s = .ok (b, s')) : Goal k a s b s' := by
  refine rebuild_ok hr h (fun g => Fine (calmInv k) k g s) (fun g hg => hg) ?_
  intro g y hg e hcl hy
  have hga := hg.same ho hfix
  have ia := hg.inv _ (List.mem_of_getElem? hga)
  have hc : ∀ c ∈ (mk y).children, c < (g ++ e).length := by
    intro c hc
    rw [hch, List.mem_singleton] at hc
    subst hc
    exact hy.lt'
  obtain ⟨h1, h2⟩ := hcalm g e y hcl hy hg
  refine ⟨hc, ⟨⟨?_, hb _ _ ia.1.2⟩, calm_mono hcl hc h1⟩, ?_, ?_, h2, ?_⟩
  · intro ps n i r' d eq
    have := hquant y
    rw [eq] at this
    cases this
  · have := hg.lt ho
    simp; omega
  · simp
  · intro H hH
    refine cong_quant (getElem?_prefix hH (getElem?_append_some (getElem?_append_some hga)))
      (getElem?_prefix hH (getElem?_new _)) ?_ (ha _) (ha _) (hcost _ _)
      (hy.sem H ((List.prefix_append _ _).trans hH))
    rw [label_quant (hquant _), label_quant (hquant _)]

/-- What stands at an address in both heaps is a quantifier in both or in none. -/
theorem tight_ghost {I : PassInv P} {g e : Heap P} {s : St P} {c : Nat} (hg : Fine I k g s)
    (hlt : c < g.length) (h : ∀ o, s.heap[c]? = some o → o.quant = false) : tight (g ++ e) c := by
  intro o ho
  rw [List.getElem?_append_left hlt] at ho
  have hl : c < s.heap.length := by rw [← hg.shape.length]; exact hlt
  obtain ⟨o1, ho1⟩ : ∃ o1, s.heap[c]? = some o1 := ⟨_, List.getElem?_eq_getElem hl⟩
  obtain ⟨o', h1, h2⟩ := hg.get ho1
  rw [ho] at h1; cases h1
  have := h _ ho1
  rcases h2 with h2 | ⟨r, r', rfl, _⟩
  · cases h2
    · exact this
    · rfl
  · rfl

theorem child_lt {I : PassInv P} {g : Heap P} {s : St P} {a c : Nat} {o : Obj P}
    (hg : Fine I k g s) (ho : s.heap[a]? = some o) (fo : o.fixed) (hc : c ∈ o.children) :
    c < g.length :=
  hg.closed o (List.mem_of_getElem? (hg.same ho fo)) c hc

theorem squash_repeatable_ok {rec : Visit P} (hr : VisitOk (calmInv k) k rec) {a child : Nat}
    {rev : Bool} {s : St P} (n : Nat) {b s'} (ho : s.heap[a]? = some (.repeatable child rev))
    (h : squashMethod n rec a (.repeatable child rev) s = .ok (b, s')) : Goal k a s b s' := by
  have lo : ∀ (g : Heap P) q, g[a]? = some (.repeatable child rev) → g[child]? = some q → Loose g a :=
    fun g _ h1 _ => .repeatable h1
  have copy : (∀ o, s.heap[child]? = some o → o.quant = false) →
      rebuild rec child (.repeatable · rev) s = .ok (b, s') → Goal k a s b s' := by
    intro hq h
    refine calm_copy_ok hr (mk := (.repeatable · rev)) trivial ho (fun _ => rfl)
      (fun r => quant_repeatable r rev) (fun _ => rfl) (fun _ _ _ => Nat.le_refl _)
      (fun _ _ _ => trivial) (fun g e y hcl hy hg => ?_) h
    refine ⟨tight_not_demands (hy.extra.1 (tight_ghost hg
      (child_lt hg ho trivial (by simp [Obj.children])) hq)), ?_⟩
    exact loose_image (.repeatable (getElem?_append_some (getElem?_append_some (hg.same ho trivial))))
  cases hc : s.heap[child]? with
  | none => simp only [squashMethod, hc] at h; exact copy (by simp [hc]) h
  | some q =>
    cases q with
    | optional g rev' =>
      simp only [squashMethod, hc] at h
      refine merge_ok hr ho hc trivial trivial rfl rfl rfl (quant_repeatable _ _)
        (quant_optional _ _) (quant_repOptional _ _ _) rfl rfl (fun g => lo g _) trivial ?_ h
      intro g h1 h2 _ _ h3 h4
      exact ⟨demands_not_min h2 rfl rfl h3, merges_repOptional (fun n hn => hn)
        (fun js hj => sum_ge_optional hj) (.inr ⟨Nat.le_refl _, by omega⟩)
        (.inl ⟨fun _ h => h, by omega⟩)⟩
    | repOptional g v u => simp [squashMethod, hc] at h
    | repeatable g v =>
      simp only [squashMethod, hc] at h
      refine merge_ok hr ho hc trivial trivial rfl rfl rfl (quant_repeatable _ _)
        (quant_repeatable _ _) (quant_repeatable _ _) rfl rfl (fun g => lo g _) trivial ?_ h
      intro g h1 h2 _ _ h3 h4
      exact ⟨h4, merges_repeatable (fun _ h => h) (fun _ h => h)
        (cost_quant rfl (by simp)) (.inl ⟨fun _ h => h, by omega⟩)⟩
    | minBounded g m v =>
      simp only [squashMethod, hc] at h
      refine merge_ok hr ho hc trivial trivial rfl rfl rfl (quant_repeatable _ _)
        (quant_min _ _ _) (quant_repeatable _ _) rfl rfl (fun g => lo g _) trivial ?_ h
      intro g h1 h2 _ hb h3 h4
      have hm : ¬ 2 ≤ m := fun hm => h3 (.min h2 hm)
      simp only [Obj.bounds] at hb
      exact ⟨demands_not_min h2 rfl rfl h3, merges_repeatable (fun _ h => h)
        (fun _ h => by omega) (cost_quant rfl (by simp)) (.inl ⟨fun _ h => h, by omega⟩)⟩
    | maxBounded g m v =>
      simp only [squashMethod, hc] at h
      refine merge_ok hr ho hc trivial trivial rfl rfl rfl (quant_repeatable _ _)
        (quant_max _ _ _) (quant_repeatable _ _) rfl rfl (fun g => lo g _) trivial ?_ h
      intro g h1 h2 _ hb h3 h4
      simp only [Obj.bounds] at hb
      exact ⟨demands_not_min h2 rfl rfl h3, merges_repeatable (fun _ h => h)
        (fun _ h => by omega) (cost_quant rfl (by simp)) (.inl ⟨fun _ h => h, by omega⟩)⟩
    | minMaxBounded g m m' v =>
      simp only [squashMethod, hc] at h
      refine merge_ok hr ho hc trivial trivial rfl rfl rfl (quant_repeatable _ _)
        (quant_minMax _ _ _ _) (quant_repeatable _ _) rfl rfl (fun g => lo g _) trivial ?_ h
      intro g h1 h2 _ hb h3 h4
      have hm : ¬ 2 ≤ m := fun hm => h3 (.minMax h2 hm)
      simp only [Obj.bounds] at hb
      exact ⟨demands_not_min h2 rfl rfl h3, merges_repeatable (fun _ h => h)
        (fun _ h => by omega) (cost_quant rfl (by simp)) (.inl ⟨fun _ h => h, by omega⟩)⟩
    | _ =>
      simp only [squashMethod, hc] at h
      exact copy (by intro o ho; rw [hc] at ho; cases ho; rfl) h

theorem squash_optional_ok {rec : Visit P} (hr : VisitOk (calmInv k) k rec) {a child : Nat}
    {rev : Bool} {s : St P} (n : Nat) {b s'} (ho : s.heap[a]? = some (.optional child rev))
    (h : squashMethod n rec a (.optional child rev) s = .ok (b, s')) : Goal k a s b s' := by
  have lo : ∀ (g : Heap P) q, g[a]? = some (.optional child rev) → g[child]? = some q → Loose g a :=
    fun g _ h1 _ => .optional h1
  have copy : rebuild rec child (.optional · rev) s = .ok (b, s') → Goal k a s b s' := by
    intro h
    refine calm_copy_ok hr (mk := (.optional · rev)) trivial ho (fun _ => rfl)
      (fun r => quant_optional r rev) (fun _ => rfl) (fun _ _ _ => Nat.le_refl _)
      (fun _ _ _ => trivial) (fun g e y hcl hy hg => ?_) h
    exact ⟨trivial,
      loose_image (.optional (getElem?_append_some (getElem?_append_some (hg.same ho trivial))))⟩
  cases hc : s.heap[child]? with
  | none => simp only [squashMethod, hc] at h; exact copy h
  | some q =>
    cases q with
    | optional g rev' =>
      simp only [squashMethod, hc] at h
      refine merge_ok hr ho hc trivial trivial rfl rfl rfl (quant_optional _ _)
        (quant_optional _ _) (quant_optional _ _) rfl rfl (fun g => lo g _) trivial ?_ h
      intro g h1 h2 _ _ h3 h4
      exact ⟨trivial, merges_optional⟩
    | repOptional g v u => simp [squashMethod, hc] at h
    | repeatable g v =>
      simp only [squashMethod, hc] at h
      refine merge_ok hr ho hc trivial trivial rfl rfl rfl (quant_optional _ _)
        (quant_repeatable _ _) (quant_repOptional _ _ _) rfl rfl (fun g => lo g _) trivial ?_ h
      intro g h1 h2 _ _ h3 h4
      exact ⟨h4, merges_repOptional (o := .optional child rev) (q := .repeatable _ v)
        (N := (· ≤ 1)) (J := (1 ≤ ·)) (fun _ _ => Nat.le_refl _)
        (fun js _ => sum_ge (cost_quant rfl (by simp)) js) (.inl (by omega))
        (.inr ⟨by omega, fun _ h => h⟩)⟩
    | _ =>
      simp only [squashMethod, hc] at h
      exact copy h

theorem squash_repOptional_ok {rec : Visit P} (hr : VisitOk (calmInv k) k rec) {a child : Nat}
    {rr ro : Bool} {s : St P} (n : Nat) {b s'} (ho : s.heap[a]? = some (.repOptional child rr ro))
    (h : squashMethod n rec a (.repOptional child rr ro) s = .ok (b, s')) : Goal k a s b s' := by
  have lo : ∀ (g : Heap P) q, g[a]? = some (.repOptional child rr ro) → g[child]? = some q →
      Loose g a := fun g _ h1 _ => .repOptional h1
  have pos : ∀ n, True → 1 ≤ stepCost (.repOptional child rr ro : Obj P) n := by
    intro n _; simp only [stepCost]; omega
  have copy : (∀ o, s.heap[child]? = some o → o.quant = false) →
      rebuild rec child (.repOptional · rr ro) s = .ok (b, s') → Goal k a s b s' := by
    intro hq h
    refine calm_copy_ok hr (mk := (.repOptional · rr ro)) trivial ho (fun _ => rfl)
      (fun r => quant_repOptional r rr ro) (fun _ => rfl) (fun _ _ _ => Nat.le_refl _)
      (fun _ _ _ => trivial) (fun g e y hcl hy hg => ?_) h
    refine ⟨tight_not_demands (hy.extra.1 (tight_ghost hg
      (child_lt hg ho trivial (by simp [Obj.children])) hq)), ?_⟩
    exact loose_image (.repOptional (getElem?_append_some (getElem?_append_some (hg.same ho trivial))))
  cases hc : s.heap[child]? with
  | none => simp only [squashMethod, hc] at h; exact copy (by simp [hc]) h
  | some q =>
    cases q with
    | optional g rev' =>
      simp only [squashMethod, hc] at h
      refine merge_ok hr ho hc trivial trivial rfl rfl rfl (quant_repOptional _ _ _)
        (quant_optional _ _) (quant_repOptional _ _ _) rfl rfl (fun g => lo g _) trivial ?_ h
      intro g h1 h2 _ _ h3 h4
      exact ⟨demands_not_min h2 rfl rfl h3, merges_repOptional pos
        (fun js hj => sum_ge_optional hj) (.inl trivial) (.inl ⟨fun _ _ => trivial, by omega⟩)⟩
    | repOptional g v u =>
      simp only [squashMethod, hc] at h
      refine merge_ok hr ho hc trivial trivial rfl rfl rfl (quant_repOptional _ _ _)
        (quant_repOptional _ _ _) (quant_repOptional _ _ _) rfl rfl (fun g => lo g _) trivial ?_ h
      intro g h1 h2 _ _ h3 h4
      exact ⟨h4, merges_repOptional pos (fun js _ => sum_ge (cost_quant rfl (by simp)) js)
        (.inl trivial) (.inl ⟨fun _ _ => trivial, trivial⟩)⟩
    | repeatable g v =>
      simp only [squashMethod, hc] at h
      refine merge_ok hr ho hc trivial trivial rfl rfl rfl (quant_repOptional _ _ _)
        (quant_repeatable _ _) (quant_repOptional _ _ _) rfl rfl (fun g => lo g _) trivial ?_ h
      intro g h1 h2 _ _ h3 h4
      exact ⟨h4, merges_repOptional pos (fun js _ => sum_ge (cost_quant rfl (by simp)) js)
        (.inl trivial) (.inl ⟨fun _ _ => trivial, by omega⟩)⟩
    | minBounded g m v =>
      simp only [squashMethod, hc] at h
      refine merge_ok hr ho hc trivial trivial rfl rfl rfl (quant_repOptional _ _ _)
        (quant_min _ _ _) (quant_repOptional _ _ _) rfl rfl (fun g => lo g _) trivial ?_ h
      intro g h1 h2 _ hb h3 h4
      have hm : ¬ 2 ≤ m := fun hm => h3 (.min h2 hm)
      simp only [Obj.bounds] at hb
      exact ⟨demands_not_min h2 rfl rfl h3, merges_repOptional pos
        (fun js _ => sum_ge (cost_quant rfl (by simp)) js)
        (.inl trivial) (.inl ⟨fun _ _ => trivial, by omega⟩)⟩
    | maxBounded g m v =>
      simp only [squashMethod, hc] at h
      refine merge_ok hr ho hc trivial trivial rfl rfl rfl (quant_repOptional _ _ _)
        (quant_max _ _ _) (quant_repOptional _ _ _) rfl rfl (fun g => lo g _) trivial ?_ h
      intro g h1 h2 _ hb h3 h4
      simp only [Obj.bounds] at hb
      exact ⟨demands_not_min h2 rfl rfl h3, merges_repOptional pos
        (fun js _ => sum_ge (cost_quant rfl (by simp)) js)
        (.inl trivial) (.inl ⟨fun _ _ => trivial, by omega⟩)⟩
    | minMaxBounded g m m' v =>
      simp only [squashMethod, hc] at h
      refine merge_ok hr ho hc trivial trivial rfl rfl rfl (quant_repOptional _ _ _)
        (quant_minMax _ _ _ _) (quant_repOptional _ _ _) rfl rfl (fun g => lo g _) trivial ?_ h
      intro g h1 h2 _ hb h3 h4
      have hm : ¬ 2 ≤ m := fun hm => h3 (.minMax h2 hm)
      simp only [Obj.bounds] at hb
      exact ⟨demands_not_min h2 rfl rfl h3, merges_repOptional pos
        (fun js _ => sum_ge (cost_quant rfl (by simp)) js)
        (.inl trivial) (.inl ⟨fun _ _ => trivial, by omega⟩)⟩
    | _ =>
      simp only [squashMethod, hc] at h
      exact copy (by intro o ho; rw [hc] at ho; cases ho; rfl) h

/-- What the three bounded rules have in common. -/
structure Bounded (mk : Nat → Obj P) (N : Nat → Prop) : Prop where
  fixed : ∀ r, (mk r).fixed
  quant : ∀ r, (mk r).quant = true
  reps : ∀ r, Quant (mk r) r N
  children : ∀ r, (mk r).children = [r]
  cost : ∀ r n, stepCost (mk r) n = n
  bounds : ∀ r r', (mk r).bounds → (mk r').bounds
  loose : ∀ (g : Heap P) a r, g[a]? = some (mk r) → (Loose g a ↔ Loose g r)
  calm : ∀ (g g' : Heap P) r r', (mk r).calm g → (Loose g' r' → Loose g r) → (mk r').calm g'
  low : ∀ (g : Heap P) r, (mk r).bounds → (mk r).calm g → Loose g r →
    N 1 ∧ ∀ g' r', (mk r').calm g'
  pos : ∀ n r, (mk r).bounds → N n → 1 ≤ n
  down : ∀ m j (g : Heap P) r, (mk r).bounds → (mk r).calm g → Loose g r → N m → 1 ≤ j → j ≤ m → N j

theorem bounded_min (m : Nat) (v : Bool) : Bounded (P := P) (.minBounded · m v) (m ≤ ·) where
  fixed _ := trivial
  quant _ := rfl
  reps r := quant_min r m v
  children _ := rfl
  cost _ _ := rfl
  bounds _ _ h := h
  loose g a r h := ⟨fun hl => (by
    cases hl with
    | minBounded h' hl => rw [h] at h'; cases h'; exact hl
    | optional h' => rw [h] at h'; cases h'
    | repeatable h' => rw [h] at h'; cases h'
    | repOptional h' => rw [h] at h'; cases h'
    | maxBounded h' _ => rw [h] at h'; cases h'
    | minMaxBounded h' _ => rw [h] at h'; cases h'), fun hl => .minBounded h hl⟩
  calm g g' r r' h hl hm hl' := h hm (hl hl')
  low g r hb h hl := by
    have : ¬ 2 ≤ m := fun hm => h hm hl
    exact ⟨by omega, fun _ _ hm => absurd hm this⟩
  pos n r hb h := by simp only [Obj.bounds] at hb; omega
  down n j g r hb h hl h1 h2 h3 := by
    have : ¬ 2 ≤ m := fun hm => h hm hl
    omega

theorem bounded_max (m : Nat) (v : Bool) :
    Bounded (P := P) (.maxBounded · m v) (fun n => 1 ≤ n ∧ n ≤ m) where
  fixed _ := trivial
  quant _ := rfl
  reps r := quant_max r m v
  children _ := rfl
  cost _ _ := rfl
  bounds _ _ h := h
  loose g a r h := ⟨fun hl => (by
    cases hl with
    | maxBounded h' hl => rw [h] at h'; cases h'; exact hl
    | optional h' => rw [h] at h'; cases h'
    | repeatable h' => rw [h] at h'; cases h'
    | repOptional h' => rw [h] at h'; cases h'
    | minBounded h' _ => rw [h] at h'; cases h'
    | minMaxBounded h' _ => rw [h] at h'; cases h'), fun hl => .maxBounded h hl⟩
  calm g g' r r' h hl := trivial
  low g r hb h hl := by
    simp only [Obj.bounds] at hb
    exact ⟨by omega, fun _ _ => trivial⟩
  pos n r hb h := h.1
  down n j g r hb h hl h1 h2 h3 := by omega

theorem bounded_minMax (m m' : Nat) (v : Bool) :
    Bounded (P := P) (.minMaxBounded · m m' v) (fun n => m ≤ n ∧ n ≤ m') where
  fixed _ := trivial
  quant _ := rfl
  reps r := quant_minMax r m m' v
  children _ := rfl
  cost _ _ := rfl
  bounds _ _ h := h
  loose g a r h := ⟨fun hl => (by
    cases hl with
    | minMaxBounded h' hl => rw [h] at h'; cases h'; exact hl
    | optional h' => rw [h] at h'; cases h'
    | repeatable h' => rw [h] at h'; cases h'
    | repOptional h' => rw [h] at h'; cases h'
    | minBounded h' _ => rw [h] at h'; cases h'
    | maxBounded h' _ => rw [h] at h'; cases h'), fun hl => .minMaxBounded h hl⟩
  calm g g' r r' h hl hm hl' := h hm (hl hl')
  low g r hb h hl := by
    have : ¬ 2 ≤ m := fun hm => h hm hl
    simp only [Obj.bounds] at hb
    exact ⟨by omega, fun _ _ hm => absurd hm this⟩
  pos n r hb h := by simp only [Obj.bounds] at hb; omega
  down n j g r hb h hl h1 h2 h3 := by
    have : ¬ 2 ≤ m := fun hm => h hm hl
    omega

theorem squashBounded_ok {rec : Visit P} (hr : VisitOk (calmInv k) k rec) {a child : Nat}
    {mk : Nat → Obj P} {N : Nat → Prop} (hm : Bounded mk N) {s : St P} {b s'}
    (ho : s.heap[a]? = some (mk child))
    (h : squashBounded rec child mk s = .ok (b, s')) : Goal k a s b s' := by
  have bare : ∀ {o : Obj P}, o.quant = true → o.bare k := by
    intro o hq ps n i r d e
    subst e
    cases hq
  have copy : (∀ g : Heap P, g[child]? = s.heap[child]? → True) →
      rebuild rec child mk s = .ok (b, s') → Goal k a s b s' := by
    intro _ h
    refine calm_copy_ok hr (hm.fixed _) ho hm.quant hm.reps hm.children
      (fun r r' n => by rw [hm.cost, hm.cost]; exact Nat.le_refl n) hm.bounds (fun g e y hcl hy hg => ?_) h
    have hga := hg.same ho (hm.fixed _)
    have hlt := child_lt hg ho (hm.fixed _) (c := child) (by rw [hm.children]; simp)
    have ia := hg.inv _ (List.mem_of_getElem? hga)
    have key : Loose (g ++ e) y → Loose (g ++ e) child := by
      intro hl
      apply Classical.byContradiction
      intro hn
      exact hy.extra.2 hn hl
    refine ⟨hm.calm g (g ++ e) child y ia.2 (fun hl => ?_), ?_⟩
    · exact loose_back hg.closed (key hl) hlt
    · have e1 : ((g ++ e) ++ [mk y])[a]? = some (mk child) :=
        getElem?_append_some (getElem?_append_some hga)
      have e2 : ((g ++ e) ++ [mk y])[(g ++ e).length]? = some (mk y) := getElem?_new _
      constructor
      · intro ht
        have := ht _ e1
        rw [hm.quant] at this
        cases this
      · intro hn hl
        refine hn ((hm.loose _ _ _ e1).2 (loose_forth (key ?_)))
        exact loose_back hcl ((hm.loose _ _ _ e2).1 hl) hy.lt'
  unfold squashBounded at h
  cases hc : s.heap[child]? with
  | none => simp only [hc] at h; exact copy (by simp) h
  | some q =>
    cases q with
    | repOptional g v u => simp [hc] at h
    | repeatable r v =>
      simp only [hc] at h
      refine merge_ok hr ho hc (hm.fixed _) trivial (hm.quant _) rfl rfl (hm.reps _)
        (quant_repeatable _ _) (quant_repeatable _ _) rfl rfl
        (fun g h1 h2 => (hm.loose g a child h1).2 (.repeatable h2)) trivial ?_ h
      intro g h1 h2 hb _ h3 h4
      exact ⟨h4, merges_repeatable (fun n hn => hm.pos n child hb hn) (fun _ h => h)
        (cost_quant rfl (by simp)) (.inr ⟨(hm.low g child hb h3 (.repeatable h2)).1, fun _ h => h⟩)⟩
    | optional r v =>
      simp only [hc, visitNew] at h
      obtain ⟨ext, he⟩ := hr _ _ _ _ h
      refine ⟨[mk r] ++ ([.optional s.heap.length v] ++ ext), fun g hg => ?_⟩
      have hga := hg.same ho (hm.fixed _)
      have hgc := hg.same hc trivial
      have ia := hg.inv _ (List.mem_of_getElem? hga)
      have hl : Loose g child := .optional hgc
      have hla : Loose g a := (hm.loose g a child hga).2 hl
      obtain ⟨hone, hcalm⟩ := hm.low g child ia.1.2 ia.2 hl
      have hlt : r < g.length := child_lt hg hc trivial (by simp [Obj.children])
      have f1 := fine_alloc hg (o := mk r)
        (fun c hc => by rw [hm.children, List.mem_singleton] at hc; omega)
        ⟨⟨bare (hm.quant _), hm.bounds _ _ ia.1.2⟩, hcalm _ _⟩
      have f2 := fine_alloc f1 (o := .optional s.heap.length v)
        (fun c hc => by
          simp only [Obj.children, List.mem_singleton] at hc
          rw [hc, ← hg.shape.length]; simp; omega)
        ⟨⟨bare rfl, trivial⟩, trivial⟩
      obtain ⟨f3, i3⟩ := he _ f2
      rw [← List.append_assoc, ← List.append_assoc]
      refine ⟨f3, by have := hg.lt ho; simp; omega, i3.lt',
        loose_image (loose_forth (loose_forth (loose_forth hla))), fun H hH => ?_⟩
      have e3 := i3.sem H hH
      refine Equiv.trans (squash_optional (u := g.length) (o := mk child) (o' := mk r) (N := N)
        (getElem?_prefix hH (getElem?_append_some (getElem?_append_some (getElem?_append_some hga))))
        (getElem?_prefix hH (getElem?_append_some (getElem?_append_some (getElem?_append_some hgc))))
        (t := (g ++ [mk r]).length) (v' := v) ?_
        (getElem?_prefix hH (getElem?_append_some (getElem?_append_some (getElem?_new _))))
        (label_quant (hm.quant _)) (label_quant (hm.quant _)) (hm.reps _) (hm.reps _)
        (hm.cost _) (hm.cost _) hone (fun n hn => hm.pos n child ia.1.2 hn)
        (fun m j h1 h2 h3 => hm.down m j g child ia.1.2 ia.2 hl h1 h2 h3)) ?_
      · rw [hg.shape.length]
        exact getElem?_prefix hH (getElem?_append_some (getElem?_new _))
      · have : (g ++ [mk r]).length = (s.heap ++ [mk r]).length := by simp [hg.shape.length]
        rw [this]
        exact e3
    | _ => simp only [hc] at h; exact copy (by simp) h

theorem squash_ok : MethodOk (calmInv k : PassInv P) k squashMethod := by
  intro n rec hr a o s b s' ho h
  cases o with
  | repeatable c v => exact squash_repeatable_ok hr n ho h
  | optional c v => exact squash_optional_ok hr n ho h
  | repOptional c v u => exact squash_repOptional_ok hr n ho h
  | minBounded c m v => exact squashBounded_ok hr (bounded_min m v) ho h
  | maxBounded c m v => exact squashBounded_ok hr (bounded_max m v) ho h
  | minMaxBounded c m m' v => exact squashBounded_ok hr (bounded_minMax m m' v) ho h
  | _ => exact default_ok (n := n) calmCopying hr ho rfl h

end Yargy
