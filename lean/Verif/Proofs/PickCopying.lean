import Verif.Proofs.PickTransform
import Verif.Proofs.Copying
/-!
The methods that copy: `RuleTransformator`, and the transformators for alternatives and empty rules.
-/
namespace Yargy.Pick

variable {P : Type} {I : PassInv P} {H : Heap P}

theorem pointwise_length {α β : Type} {R : α → β → Prop} {xs ys} (hp : Pointwise R xs ys) :
    xs.length = ys.length := by
  induction hp with
  | nil => rfl
  | cons _ _ ih => simp [ih]

theorem pointwise_at {α β : Type} {R : α → β → Prop} {xs ys} (hp : Pointwise R xs ys) {i : Nat} {x}
    (hx : xs[i]? = some x) : ∃ y, ys[i]? = some y ∧ R x y := by
  induction hp generalizing i with
  | nil => cases hx
  | cons h _ ih =>
    cases i with
    | zero => cases hx; exact ⟨_, rfl, h⟩
    | succ i => exact ih hx

theorem pointwise_at' {α β : Type} {R : α → β → Prop} {xs ys} (hp : Pointwise R xs ys) {i : Nat} {y}
    (hy : ys[i]? = some y) : ∃ x, xs[i]? = some x ∧ R x y := by
  induction hp generalizing i with
  | nil => cases hy
  | cons h _ ih =>
    cases i with
    | zero => cases hy; exact ⟨_, rfl, h⟩
    | succ i => exact ih hy

/-- An object with alternatives. -/
def Alts (o : Obj P) (ps : List Nat) : Prop :=
  ∀ us, Deals o us ↔ ∃ (i p : Nat), ps[i]? = some p ∧ us = choiceOf ps.length i ++ [.rule p]

theorem alts_rule (ps : List Nat) : Alts (.rule ps : Obj P) ps := fun us =>
  ⟨fun h => by cases h with | rule h => exact ⟨_, _, h, rfl⟩, fun ⟨_, _, h, e⟩ => e ▸ .rule h⟩

theorem alts_or (ps : List Nat) : Alts (.or ps : Obj P) ps := fun us =>
  ⟨fun h => by cases h with | or h => exact ⟨_, _, h, rfl⟩, fun ⟨_, _, h, e⟩ => e ▸ .or h⟩

theorem alts_bnf (ps : List Nat) (n i r d) : Alts (.bnf ps n i r d : Obj P) ps := fun us =>
  ⟨fun h => by cases h with | bnf h => exact ⟨_, _, h, rfl⟩, fun ⟨_, _, h, e⟩ => e ▸ .bnf h⟩

/-- An object with one alternative. -/
theorem alts_one {o : Obj P} {r : Nat} (h : ∀ us, Deals o us ↔ us = [.rule r]) : Alts o [r] := by
  intro us
  rw [h]
  constructor
  · rintro rfl; exact ⟨0, r, rfl, rfl⟩
  · rintro ⟨i, p, hi, rfl⟩
    cases i with
    | zero => cases hi; rfl
    | succ i => cases hi

theorem alts_named (r : Nat) (n) : Alts (.named r n : Obj P) [r] :=
  alts_one fun us => ⟨fun h => by cases h; rfl, fun e => e ▸ .named⟩

theorem alts_interp (r : Nat) (n) : Alts (.interp r n : Obj P) [r] :=
  alts_one fun us => ⟨fun h => by cases h; rfl, fun e => e ▸ .interp⟩

theorem alts_relation (r : Nat) (n) : Alts (.relation r n : Obj P) [r] :=
  alts_one fun us => ⟨fun h => by cases h; rfl, fun e => e ▸ .relation⟩

theorem alts_forward (r : Nat) : Alts (.forward (some r) : Obj P) [r] :=
  alts_one fun us => ⟨fun h => by cases h; rfl, fun e => e ▸ .forward⟩

theorem cong_alts {x y : Nat} {o o' : Obj P} {ps qs : List Nat} (hx : H[x]? = some o)
    (hy : H[y]? = some o') (ho : Alts o ps) (ho' : Alts o' qs)
    (hcost : ∀ n, stepCost o' n ≤ stepCost o n) (hp : Pointwise (Equiv H) ps qs) : Equiv H x y := by
  have hlen := pointwise_length hp
  refine equiv_of_deals hx hy ?_ ?_
  · intro us hs
    obtain ⟨i, p, h1, rfl⟩ := (ho us).1 hs
    obtain ⟨q, h2, h3⟩ := pointwise_at hp h1
    refine ⟨_, (ho' _).2 ⟨i, q, h2, rfl⟩, ?_, ?_⟩
    · rw [hlen]
      exact pointwise_append (pointwise_refl _) (.cons (.rule h3) .nil)
    · rw [hlen]; simpa using hcost _
  · intro us hs
    obtain ⟨i, q, h1, rfl⟩ := (ho' us).1 hs
    obtain ⟨p, h2, h3⟩ := pointwise_at' hp h1
    refine ⟨_, (ho _).2 ⟨i, p, h2, rfl⟩, ?_⟩
    rw [hlen]
    exact pointwise_append (pointwise_refl _) (.cons (.rule h3) .nil)

theorem cong_prod {x y : Nat} {ts us : List (Term P)} {m : Nat} (hx : H[x]? = some (.prod ts m))
    (hy : H[y]? = some (.prod us m))
    (hp : Pointwise (fun t u => PieceEquiv H t.part u.part) ts us) : Equiv H x y := by
  have hp' : Pointwise (PieceEquiv H) (ts.map Term.part) (us.map Term.part) := by
    clear hx hy
    induction hp with
    | nil => exact .nil
    | cons h _ ih => exact .cons h ih
  have hl := pointwise_length hp
  refine equiv_of_deals hx hy ?_ ?_
  · intro vs hs
    cases hs
    refine ⟨_, .prod, ?_, by simp [stepCost]⟩
    rw [hl]; exact pointwise_append (pointwise_refl _) hp'
  · intro vs hs
    cases hs
    refine ⟨_, .prod, ?_⟩
    rw [hl]; exact pointwise_append (pointwise_refl _) hp'

/-- A production with one rule is like the rule. -/
theorem cong_prod_one {x y p : Nat} {m : Nat} (hp : H[p]? = some (.prod [.rule y] m))
    (h : Equiv H x y) : Equiv H x p := by
  constructor
  · intro n w g
    have := h.1 n w g
    refine gen_one.2 ⟨_, _, n, hp, .prod, by simp [stepCost], this⟩
  · intro n w g
    obtain ⟨o, us, c, ho, hs, hc, hu⟩ := gen_one.1 g
    rw [hp] at ho
    cases ho
    cases hs
    exact h.2 c _ hu

/-! ### Quantifiers -/

/-- The object repeats a rule, in such patterns. -/
def Quant (o : Obj P) (r : Nat) (L : List (Option Note) → Prop) : Prop :=
  ∀ us, Deals o us ↔ ∃ pat, L pat ∧ us = fill r pat

theorem quant_optional (r : Nat) (v) : Quant (.optional r v : Obj P) r (Perhaps v) := fun us =>
  ⟨fun h => by cases h with | optional h => exact ⟨_, h, rfl⟩, fun ⟨_, h, e⟩ => e ▸ .optional h⟩

theorem quant_repeatable (r : Nat) (v) : Quant (.repeatable r v : Obj P) r (Laps v) := fun us =>
  ⟨fun h => by cases h with | repeatable h => exact ⟨_, h, rfl⟩, fun ⟨_, h, e⟩ => e ▸ .repeatable h⟩

theorem quant_repOptional (r : Nat) (v u) :
    Quant (.repOptional r v u : Obj P) r (Star v u) := fun us =>
  ⟨fun h => by cases h with | repOptional h => exact ⟨_, h, rfl⟩,
   fun ⟨_, h, e⟩ => e ▸ .repOptional h⟩

theorem quant_min (r : Nat) (m v) :
    Quant (.minBounded r m v : Obj P) r (Behind (m - 1) (Laps v)) := fun us =>
  ⟨fun h => by cases h with | minBounded h => exact ⟨_, h, rfl⟩, fun ⟨_, h, e⟩ => e ▸ .minBounded h⟩

theorem quant_max (r : Nat) (m v) :
    Quant (.maxBounded r m v : Obj P) r (LapsUpTo v m) := fun us =>
  ⟨fun h => by cases h with | maxBounded h => exact ⟨_, h, rfl⟩, fun ⟨_, h, e⟩ => e ▸ .maxBounded h⟩

theorem quant_minMax (r : Nat) (m m' v) :
    Quant (.minMaxBounded r m m' v : Obj P) r (Behind (m - 1) (LapsUpTo v (m' - m + 1))) := fun us =>
  ⟨fun h => by cases h with | minMaxBounded h => exact ⟨_, h, rfl⟩,
   fun ⟨_, h, e⟩ => e ▸ .minMaxBounded h⟩

theorem cong_quant {x y r r' : Nat} {o o' : Obj P} {L : List (Option Note) → Prop}
    (hx : H[x]? = some o) (hy : H[y]? = some o') (ho : Quant o r L) (ho' : Quant o' r' L)
    (hcost : ∀ n, stepCost o' n ≤ stepCost o n) (h : Equiv H r r') : Equiv H x y := by
  refine equiv_of_deals hx hy ?_ ?_
  · intro us hs
    obtain ⟨n, h1, rfl⟩ := (ho us).1 hs
    exact ⟨_, (ho' _).2 ⟨n, h1, rfl⟩, pointwise_fill h n, by simpa [fill] using hcost _⟩
  · intro us hs
    obtain ⟨n, h1, rfl⟩ := (ho' us).1 hs
    exact ⟨_, (ho _).2 ⟨n, h1, rfl⟩, pointwise_fill h n⟩

/-! ### `RuleTransformator` -/

/-- What a transformator must keep for copies to be fine. -/
structure Copying (I : PassInv P) : Prop where
  new : ∀ g (o : Obj P), o.quant = false → o.entry = false → I.Q g o
  image : ∀ g (a b : Nat) o o', g[a]? = some o → g[b]? = some o' → o.quant = false →
    o'.quant = false → I.X g a b

theorem keep_ok (hI : Copying I) {a : Nat} {o : Obj P} {s : St P} (ho : s.heap[a]? = some o)
    (hq : o.quant = false) {b s'} (h : Except.ok (a, s) = (Except.ok (b, s') : Except Err _)) :
    ∃ ext, ∀ g, Fine I g s → Fine I (g ++ ext) s' ∧ Image I (g ++ ext) a b := by
  simp only [Except.ok.injEq, Prod.mk.injEq] at h
  obtain ⟨rfl, rfl⟩ := h
  refine ⟨[], fun g hg => ?_⟩
  rw [List.append_nil]
  refine ⟨hg, ⟨hg.lt ho, hg.lt ho, ?_, Sem.refl a⟩⟩
  obtain ⟨o', h1, h2⟩ := hg.get ho
  have : o'.quant = false := by
    rcases h2 with h2 | ⟨r, r', rfl, _⟩ | h2
    · cases h2
      · exact hq
      · rfl
    · rfl
    · rw [(I.Nquant _ _ _ _ h2).2] at hq; cases hq
  exact hI.image g a a o' o' h1 h1 this this

theorem image_lists {g e : Heap P} {xs ys : List Nat} (hp : Pointwise (Image I (g ++ e)) xs ys)
    (hH : g ++ e <+: H) : Pointwise (Equiv H) xs ys :=
  pointwise_mono (fun _ _ h => h.sem H hH) hp

theorem image_lt {g : Heap P} {xs ys : List Nat} (hp : Pointwise (Image I g) xs ys) :
    ∀ c ∈ ys, c < g.length := by
  intro c hc
  obtain ⟨x, _, h⟩ := pointwise_right hp hc
  exact h.lt'

theorem image_mono : ∀ (g e : Heap P) x y, ClosedHeap g → Image I g x y → Image I (g ++ e) x y :=
  fun _ _ _ _ hc h => h.mono hc

/-- Alternatives copied into alternatives. -/
theorem alts_copy_ok (hI : Copying I) {f : Nat → St P → Except Err (Nat × St P)}
    (hf : StepOk I (fun g x y => y < g.length ∧ Sem g x y) f) {a : Nat} {o : Obj P}
    {ps : List Nat} {mk : List Nat → Obj P} {s : St P} {b s'} (T : Obj P → Prop)
    (hT : ∀ g, Fine I g s → ∃ o', g[a]? = some o' ∧ T o') 
    (hq : ∀ o', T o' → o'.quant = false)
    (ha : ∀ o', T o' → Alts o' ps) (hcost : ∀ o', T o' → ∀ qs n, stepCost (mk qs) n ≤ stepCost o' n)
    (hmk : ∀ qs, Alts (mk qs) qs) (hmc : ∀ qs, (mk qs).children = qs)
    (hmq : ∀ qs, (mk qs).quant = false) (hQ : ∀ g qs, I.Q g (mk qs))
    (h : rebuildAll f ps mk s = .ok (b, s')) :
    ∃ ext, ∀ g, Fine I g s → Fine I (g ++ ext) s' ∧ Image I (g ++ ext) a b := by
  refine rebuildAll_ok (R := fun g x y => y < g.length ∧ Sem g x y) ?_ hf h
    (fun g => ∃ o', g[a]? = some o' ∧ T o') hT ?_
  · intro g e x y _ hxy
    exact ⟨by simp; omega, hxy.2.mono⟩
  · rintro g ys ⟨o', ho', hTo⟩ e _ hp
    refine ⟨?_, hQ _ _, ?_, ?_, ?_, ?_⟩
    · intro c hc
      rw [hmc] at hc
      obtain ⟨x, _, h⟩ := pointwise_right hp hc
      exact h.1
    · have := (List.getElem?_eq_some_iff.1 ho').1
      simp; omega
    · simp
    · exact hI.image _ _ _ o' (mk ys) (getElem?_append_some (getElem?_append_some ho'))
        (getElem?_new _) (hq _ hTo) (hmq _)
    · intro H hH
      refine cong_alts (getElem?_prefix hH (getElem?_append_some (getElem?_append_some ho')))
        (getElem?_prefix hH (getElem?_new _)) (ha _ hTo) (hmk _) (hcost _ hTo _) ?_
      exact pointwise_mono (fun _ _ hxy => hxy.2 H ((List.prefix_append _ _).trans hH)) hp

theorem visit_weaken {rec : Visit P} (hr : VisitOk I rec) :
    StepOk I (fun g x y => y < g.length ∧ Sem g x y) rec := by
  intro x s y s' h
  obtain ⟨ext, he⟩ := hr x s y s' h
  exact ⟨ext, fun g hg => ⟨(he g hg).1, (he g hg).2.lt', (he g hg).2.sem⟩⟩

/-- One rule copied. -/
theorem one_copy_ok (hI : Copying I) {rec : Visit P} (hr : VisitOk I rec) {a r : Nat} {s : St P}
    {mk : Nat → Obj P} (hfix : (mk r).fixed) (ho : s.heap[a]? = some (mk r))
    (hq : ∀ r, (mk r).quant = false)
    (ha : ∀ r, Alts (mk r) [r])
    (hch : ∀ r, (mk r).children = [r]) (hcost : ∀ r r' n, stepCost (mk r) n ≤ stepCost (mk r') n)
    (hne : ∀ x, (mk x).entry = false) {b s'}
    (h : rebuild rec r mk s = .ok (b, s')) :
    ∃ ext, ∀ g, Fine I g s → Fine I (g ++ ext) s' ∧ Image I (g ++ ext) a b := by
  refine rebuild_ok hr h (fun g => g[a]? = some (mk r)) (fun g hg => hg.same ho hfix
    (fun o' h => by have := (I.Nquant _ _ _ _ h).2; rw [hq] at this; cases this)) ?_
  intro g y ho' e _ hy
  refine ⟨?_, hI.new _ _ (hq _) (hne y), ?_, ?_, ?_, ?_⟩
  · intro c hc
    rw [hch, List.mem_singleton] at hc
    subst hc
    exact hy.lt'
  · have := (List.getElem?_eq_some_iff.1 ho').1
    simp; omega
  · simp
  · exact hI.image _ _ _ _ _ (getElem?_append_some (getElem?_append_some ho'))
      (getElem?_new _) (hq _) (hq _)
  · intro H hH
    refine cong_alts (getElem?_prefix hH (getElem?_append_some (getElem?_append_some ho')))
      (getElem?_prefix hH (getElem?_new _)) (ha _) (ha _) (hcost _ _) ?_
    exact .cons (hy.sem H ((List.prefix_append _ _).trans hH)) .nil

theorem prod_copy_ok (hI : Copying I) {f : Term P → St P → Except Err (Term P × St P)}
    (hf : StepOk I (TermImage) f) {a m : Nat} {ts : List (Term P)} {s : St P}
    (ho : s.heap[a]? = some (.prod ts m)) {b s'} (h : rebuildAll f ts (.prod · m) s = .ok (b, s')) :
    ∃ ext, ∀ g, Fine I g s → Fine I (g ++ ext) s' ∧ Image I (g ++ ext) a b := by
  refine rebuildAll_ok (R := TermImage) (fun g e x y _ hxy => hxy.mono) hf h
    (fun g => g[a]? = some (.prod ts m)) (fun g hg => hg.same ho trivial) ?_
  intro g ys ho' e _ hp
  refine ⟨?_, hI.new _ _ rfl rfl, ?_, ?_, ?_, ?_⟩
  · exact termImage_children hp
  · have := (List.getElem?_eq_some_iff.1 ho').1
    simp; omega
  · simp
  · exact hI.image _ _ _ _ _ (getElem?_append_some (getElem?_append_some ho')) (getElem?_new _)
      rfl rfl
  · intro H hH
    refine cong_prod (getElem?_prefix hH (getElem?_append_some (getElem?_append_some ho')))
      (getElem?_prefix hH (getElem?_new _)) ?_
    exact pointwise_mono (fun _ _ h => h.equiv ((List.prefix_append _ _).trans hH)) hp

theorem default_ok (hI : Copying I) {n : Nat} {rec : Visit P} (hr : VisitOk I rec) {a : Nat}
    {o : Obj P} {s : St P} {b s'} (ho : s.heap[a]? = some o) (hq : o.quant = false)
    (h : defaultMethod n rec a o s = .ok (b, s')) :
    ∃ ext, ∀ g, Fine I g s → Fine I (g ++ ext) s' ∧ Image I (g ++ ext) a b := by
  cases o with
  | prod ts m => exact prod_copy_ok hI (visitTerm_ok hr) ho h
  | emptyProd => exact keep_ok hI ho rfl h
  | pipeProd v ts => exact keep_ok hI ho rfl h
  | rule ps =>
    exact alts_copy_ok hI (visit_weaken hr) (o := .rule ps) (fun o' => o' = .rule ps)
      (fun g hg => ⟨_, hg.same ho trivial, rfl⟩) (by rintro _ rfl; rfl)
      (by rintro _ rfl; exact alts_rule ps) (by rintro _ rfl _ _; exact Nat.le_refl _) alts_rule
      (fun _ => rfl) (fun _ => rfl) (fun _ _ => hI.new _ _ rfl rfl) h
  | or ps =>
    exact alts_copy_ok hI (visit_weaken hr) (o := .or ps) (fun o' => o' = .or ps)
      (fun g hg => ⟨_, hg.same ho trivial, rfl⟩) (by rintro _ rfl; rfl)
      (by rintro _ rfl; exact alts_or ps) (by rintro _ rfl _ _; exact Nat.le_refl _) alts_or
      (fun _ => rfl) (fun _ => rfl) (fun _ _ => hI.new _ _ rfl rfl) h
  | named r n =>
    exact one_copy_ok hI hr (mk := (.named · n)) trivial ho (fun _ => rfl)
      (fun r => alts_named r n) (fun _ => rfl)
      (fun _ _ _ => Nat.le_refl _) (fun _ => rfl) h
  | interp r n =>
    exact one_copy_ok hI hr (mk := (.interp · n)) trivial ho (fun _ => rfl)
      (fun r => alts_interp r n) (fun _ => rfl)
      (fun _ _ _ => Nat.le_refl _) (fun _ => rfl) h
  | relation r n =>
    exact one_copy_ok hI hr (mk := (.relation · n)) trivial ho (fun _ => rfl)
      (fun r => alts_relation r n) (fun _ => rfl)
      (fun _ _ _ => Nat.le_refl _) (fun _ => rfl) h
  | forward r => exact keep_ok hI ho rfl h
  | empty => exact keep_ok hI ho rfl h
  | pipe p => exact keep_ok hI ho rfl h
  | bnf ps n i r d =>
    refine alts_copy_ok hI (visit_weaken hr) (o := .bnf ps n i r d)
      (fun o' => ∃ n i r, o' = .bnf ps n i r d)
      ?_ (by rintro _ ⟨_, _, _, rfl⟩; rfl)
      (by rintro _ ⟨_, _, _, rfl⟩; exact alts_bnf ps _ _ _ _)
      (by rintro _ ⟨_, _, _, rfl⟩ _ _; exact Nat.le_refl _) alts_rule
      (fun _ => rfl) (fun _ => rfl) (fun _ _ => hI.new _ _ rfl rfl) h
    intro g hg
    obtain ⟨o', h1, h2 | ⟨r, r', _, h3, _⟩ | h2⟩ := hg.get ho
    · cases h2 with
      | refl => exact ⟨_, h1, _, _, _, rfl⟩
      | bnf _ => exact ⟨_, h1, _, _, _, rfl⟩
    · cases h3
    · cases (I.Nquant _ _ _ _ h2).2
  | optional r v => cases hq
  | repeatable r v => cases hq
  | repOptional r v u => cases hq
  | minBounded r m v => cases hq
  | maxBounded r m v => cases hq
  | minMaxBounded r m m' v => cases hq

end Yargy.Pick
