import Verif.Proofs.Transform
/-!
The methods that copy: `RuleTransformator`, and the transformators for alternatives and empty rules.
-/
namespace Yargy

variable {P : Type} {k : Kind} {I : PassInv P} {H : Heap P}

theorem pointwise_left {α β : Type} {R : α → β → Prop} {xs ys} (hp : Pointwise R xs ys) {x}
    (hx : x ∈ xs) : ∃ y ∈ ys, R x y := by
  induction hp with
  | nil => cases hx
  | cons h _ ih =>
    rw [List.mem_cons] at hx
    rcases hx with rfl | hx
    · exact ⟨_, List.mem_cons_self, h⟩
    · obtain ⟨y, h1, h2⟩ := ih hx
      exact ⟨y, List.mem_cons_of_mem _ h1, h2⟩

theorem pointwise_right {α β : Type} {R : α → β → Prop} {xs ys} (hp : Pointwise R xs ys) {y}
    (hy : y ∈ ys) : ∃ x ∈ xs, R x y := by
  induction hp with
  | nil => cases hy
  | cons h _ ih =>
    rw [List.mem_cons] at hy
    rcases hy with rfl | hy
    · exact ⟨_, List.mem_cons_self, h⟩
    · obtain ⟨x, h1, h2⟩ := ih hy
      exact ⟨x, List.mem_cons_of_mem _ h1, h2⟩

/-- An object with alternatives. -/
def Alts (o : Obj P) (ps : List Nat) : Prop :=
  ∀ us, Spells o us ↔ ∃ p ∈ ps, us = [.rule p]

theorem alts_rule (ps : List Nat) : Alts (.rule ps : Obj P) ps := fun us =>
  ⟨fun h => by cases h with | rule h => exact ⟨_, h, rfl⟩, fun ⟨_, h, e⟩ => e ▸ .rule h⟩

theorem alts_or (ps : List Nat) : Alts (.or ps : Obj P) ps := fun us =>
  ⟨fun h => by cases h with | or h => exact ⟨_, h, rfl⟩, fun ⟨_, h, e⟩ => e ▸ .or h⟩

theorem alts_bnf (ps : List Nat) (n i r d) : Alts (.bnf ps n i r d : Obj P) ps := fun us =>
  ⟨fun h => by cases h with | bnf h => exact ⟨_, h, rfl⟩, fun ⟨_, h, e⟩ => e ▸ .bnf h⟩

theorem alts_named (r : Nat) (n) : Alts (.named r n : Obj P) [r] := fun us =>
  ⟨fun h => by cases h; exact ⟨r, by simp, rfl⟩,
   fun ⟨p, h, e⟩ => by rw [List.mem_singleton] at h; subst h; exact e ▸ .named⟩

theorem alts_interp (r : Nat) (n) : Alts (.interp r n : Obj P) [r] := fun us =>
  ⟨fun h => by cases h; exact ⟨r, by simp, rfl⟩,
   fun ⟨p, h, e⟩ => by rw [List.mem_singleton] at h; subst h; exact e ▸ .interp⟩

theorem alts_relation (r : Nat) (n) : Alts (.relation r n : Obj P) [r] := fun us =>
  ⟨fun h => by cases h; exact ⟨r, by simp, rfl⟩,
   fun ⟨p, h, e⟩ => by rw [List.mem_singleton] at h; subst h; exact e ▸ .relation⟩

theorem cong_alts {x y : Nat} {o o' : Obj P} {ps qs : List Nat} (hx : H[x]? = some o)
    (hy : H[y]? = some o') (hl : o.label k = o'.label k) (ho : Alts o ps) (ho' : Alts o' qs)
    (hcost : stepCost o' 1 ≤ stepCost o 1) (hp : Pointwise (Equiv k H) ps qs) : Equiv k H x y := by
  refine equiv_of_spells hx hy hl ?_ ?_
  · intro us hs
    obtain ⟨p, h1, rfl⟩ := (ho us).1 hs
    obtain ⟨q, h2, h3⟩ := pointwise_left hp h1
    exact ⟨[.rule q], (ho' _).2 ⟨q, h2, rfl⟩, .cons (.rule h3) .nil, by simpa using hcost⟩
  · intro us hs
    obtain ⟨q, h1, rfl⟩ := (ho' us).1 hs
    obtain ⟨p, h2, h3⟩ := pointwise_right hp h1
    exact ⟨[.rule p], (ho _).2 ⟨p, h2, rfl⟩, .cons (.rule h3) .nil⟩

theorem label_prod (ts : List (Term P)) (m : Nat) : (Obj.prod ts m).label k = none := by
  cases k <;> rfl

theorem cong_prod {x y : Nat} {ts us : List (Term P)} {m m' : Nat} (hx : H[x]? = some (.prod ts m))
    (hy : H[y]? = some (.prod us m')) (hp : Pointwise (TermEquiv k H) ts us) : Equiv k H x y := by
  refine equiv_of_spells hx hy (by rw [label_prod, label_prod]) ?_ ?_
  · intro vs hs; cases hs; exact ⟨us, .prod, hp, by simp [stepCost]⟩
  · intro vs hs; cases hs; exact ⟨ts, .prod, hp⟩

/-- A production with one rule is like the rule. -/
theorem cong_prod_one {x y p : Nat} {m : Nat} (hp : H[p]? = some (.prod [.rule y] m))
    (h : Equiv k H x y) : Equiv k H x p := by
  constructor
  · intro n w g
    have := h.1 n w g
    refine gen_one.2 ⟨_, _, n, w, hp, .prod, by simp [stepCost], this, by rw [label_prod]; rfl⟩
  · intro n w g
    obtain ⟨o, us, c, v, ho, hs, hc, hu, rfl⟩ := gen_one.1 g
    rw [hp] at ho
    cases ho
    cases hs
    rw [label_prod]
    exact h.2 c v hu

/-! ### Quantifiers -/

/-- The object repeats a rule, so many times. -/
def Quant (o : Obj P) (r : Nat) (N : Nat → Prop) : Prop :=
  ∀ us, Spells o us ↔ ∃ n, N n ∧ us = List.replicate n (.rule r)

theorem quant_optional (r : Nat) (v) : Quant (.optional r v : Obj P) r (· ≤ 1) := fun us =>
  ⟨fun h => by
    cases h with
    | none => exact ⟨0, by omega, rfl⟩
    | one => exact ⟨1, by omega, rfl⟩,
   fun ⟨n, hn, e⟩ => by
    subst e
    match n, hn with
    | 0, _ => exact .none
    | 1, _ => exact .one⟩

theorem quant_repeatable (r : Nat) (v) : Quant (.repeatable r v : Obj P) r (1 ≤ ·) := fun us =>
  ⟨fun h => by cases h with | repeatable h => exact ⟨_, h, rfl⟩, fun ⟨_, h, e⟩ => e ▸ .repeatable h⟩

theorem quant_repOptional (r : Nat) (v u) :
    Quant (.repOptional r v u : Obj P) r (fun _ => True) := fun us =>
  ⟨fun h => by cases h with | repOptional n => exact ⟨n, trivial, rfl⟩,
   fun ⟨n, _, e⟩ => e ▸ .repOptional n⟩

theorem quant_min (r : Nat) (m v) : Quant (.minBounded r m v : Obj P) r (m ≤ ·) := fun us =>
  ⟨fun h => by cases h with | minBounded h => exact ⟨_, h, rfl⟩, fun ⟨_, h, e⟩ => e ▸ .minBounded h⟩

theorem quant_max (r : Nat) (m v) :
    Quant (.maxBounded r m v : Obj P) r (fun n => 1 ≤ n ∧ n ≤ m) := fun us =>
  ⟨fun h => by cases h with | maxBounded h h' => exact ⟨_, ⟨h, h'⟩, rfl⟩,
   fun ⟨_, h, e⟩ => e ▸ .maxBounded h.1 h.2⟩

theorem quant_minMax (r : Nat) (m m' v) :
    Quant (.minMaxBounded r m m' v : Obj P) r (fun n => m ≤ n ∧ n ≤ m') := fun us =>
  ⟨fun h => by cases h with | minMaxBounded h h' => exact ⟨_, ⟨h, h'⟩, rfl⟩,
   fun ⟨_, h, e⟩ => e ▸ .minMaxBounded h.1 h.2⟩

theorem cong_quant {x y r r' : Nat} {o o' : Obj P} {N : Nat → Prop} (hx : H[x]? = some o)
    (hy : H[y]? = some o') (hl : o.label k = o'.label k) (ho : Quant o r N) (ho' : Quant o' r' N)
    (hcost : ∀ n, stepCost o' n ≤ stepCost o n) (h : Equiv k H r r') : Equiv k H x y := by
  refine equiv_of_spells hx hy hl ?_ ?_
  · intro us hs
    obtain ⟨n, h1, rfl⟩ := (ho us).1 hs
    exact ⟨_, (ho' _).2 ⟨n, h1, rfl⟩, pointwise_replicate h n, by simpa using hcost n⟩
  · intro us hs
    obtain ⟨n, h1, rfl⟩ := (ho' us).1 hs
    exact ⟨_, (ho _).2 ⟨n, h1, rfl⟩, pointwise_replicate h n⟩

/-! ### `RuleTransformator` -/

/-- What a transformator must keep for copies to be fine. -/
structure Copying (I : PassInv P) (k : Kind) : Prop where
  bare : ∀ g ps n i r d, I.Q g (.bnf ps n i r d) → Obj.label k (.bnf ps n i r d : Obj P) = none
  new : ∀ g (o : Obj P), o.quant = false → (∀ ps n i r d, o ≠ .bnf ps n i r d) → I.Q g o
  image : ∀ g (a b : Nat) o o', g[a]? = some o → g[b]? = some o' → o.quant = false →
    o'.quant = false → I.X g a b

theorem keep_ok (hI : Copying I k) {a : Nat} {o : Obj P} {s : St P} (ho : s.heap[a]? = some o)
    (hq : o.quant = false) {b s'} (h : Except.ok (a, s) = (Except.ok (b, s') : Except Err _)) :
    ∃ ext, ∀ g, Fine I k g s → Fine I k (g ++ ext) s' ∧ Image I k (g ++ ext) a b := by
  simp only [Except.ok.injEq, Prod.mk.injEq] at h
  obtain ⟨rfl, rfl⟩ := h
  refine ⟨[], fun g hg => ?_⟩
  rw [List.append_nil]
  refine ⟨hg, ⟨hg.lt ho, hg.lt ho, ?_, Sem.refl a⟩⟩
  obtain ⟨o', h1, h2⟩ := hg.get ho
  have : o'.quant = false := by
    rcases h2 with h2 | ⟨r, r', rfl, _⟩
    · cases h2
      · exact hq
      · rfl
    · rfl
  exact hI.image g a a o' o' h1 h1 this this

theorem image_lists {g e : Heap P} {xs ys : List Nat} (hp : Pointwise (Image I k (g ++ e)) xs ys)
    (hH : g ++ e <+: H) : Pointwise (Equiv k H) xs ys :=
  pointwise_mono (fun _ _ h => h.sem H hH) hp

theorem image_lt {g : Heap P} {xs ys : List Nat} (hp : Pointwise (Image I k g) xs ys) :
    ∀ c ∈ ys, c < g.length := by
  intro c hc
  obtain ⟨x, _, h⟩ := pointwise_right hp hc
  exact h.lt'

theorem image_mono : ∀ (g e : Heap P) x y, ClosedHeap g → Image I k g x y → Image I k (g ++ e) x y :=
  fun _ _ _ _ hc h => h.mono hc

/-- Alternatives copied into alternatives. -/
theorem alts_copy_ok (hI : Copying I k) {f : Nat → St P → Except Err (Nat × St P)}
    (hf : StepOk I k (fun g x y => y < g.length ∧ Sem k g x y) f) {a : Nat} {o : Obj P}
    {ps : List Nat} {mk : List Nat → Obj P} {s : St P} {b s'} (T : Obj P → Prop)
    (hT : ∀ g, Fine I k g s → ∃ o', g[a]? = some o' ∧ T o') 
    (hq : ∀ o', T o' → o'.quant = false) (hl : ∀ o', T o' → ∀ qs, o'.label k = (mk qs).label k)
    (ha : ∀ o', T o' → Alts o' ps) (hcost : ∀ o', T o' → ∀ qs, stepCost (mk qs) 1 ≤ stepCost o' 1)
    (hmk : ∀ qs, Alts (mk qs) qs) (hmc : ∀ qs, (mk qs).children = qs)
    (hmq : ∀ qs, (mk qs).quant = false) (hQ : ∀ g qs, I.Q g (mk qs))
    (h : rebuildAll f ps mk s = .ok (b, s')) :
    ∃ ext, ∀ g, Fine I k g s → Fine I k (g ++ ext) s' ∧ Image I k (g ++ ext) a b := by
  refine rebuildAll_ok (R := fun g x y => y < g.length ∧ Sem k g x y) ?_ hf h
    (fun g => ∃ o', g[a]? = some o' ∧ T o') hT ?_
  · intro g e x y _ hxy
    exact ⟨by simp; omega, hxy.2.mono⟩
  · rintro g ys ⟨o', ho', hTo⟩ e _ hp
    refine ⟨?_, hQ _ _, ?_, ?_, ?_, ?_⟩
    · intro c hc
      rw [hmc] at hc
      obtain ⟨x, _, h⟩ := pointwise_right hp hc
      exact h.1
    · have := (List.getElem?_eq_some_iff.1 ho').1
      simp; omega
    · simp
    · exact hI.image _ _ _ o' (mk ys) (getElem?_append_some (getElem?_append_some ho'))
        (getElem?_new _) (hq _ hTo) (hmq _)
    · intro H hH
      refine cong_alts (getElem?_prefix hH (getElem?_append_some (getElem?_append_some ho')))
        (getElem?_prefix hH (getElem?_new _)) (hl _ hTo _) (ha _ hTo) (hmk _) (hcost _ hTo _) ?_
      exact pointwise_mono (fun _ _ hxy => hxy.2 H ((List.prefix_append _ _).trans hH)) hp

theorem visit_weaken {rec : Visit P} (hr : VisitOk I k rec) :
    StepOk I k (fun g x y => y < g.length ∧ Sem k g x y) rec := by
  intro x s y s' h
  obtain ⟨ext, he⟩ := hr x s y s' h
  exact ⟨ext, fun g hg => ⟨(he g hg).1, (he g hg).2.lt', (he g hg).2.sem⟩⟩

/-- One rule copied. -/
theorem one_copy_ok (hI : Copying I k) {rec : Visit P} (hr : VisitOk I k rec) {a r : Nat} {s : St P}
    {mk : Nat → Obj P} (hfix : (mk r).fixed) (ho : s.heap[a]? = some (mk r))
    (hq : ∀ r, (mk r).quant = false)
    (hl : ∀ r r', (mk r).label k = (mk r').label k) (ha : ∀ r, Alts (mk r) [r])
    (hch : ∀ r, (mk r).children = [r]) (hcost : ∀ r r', stepCost (mk r) 1 ≤ stepCost (mk r') 1)
    (hne : ∀ x ps n i r d, mk x ≠ .bnf ps n i r d) {b s'}
    (h : rebuild rec r mk s = .ok (b, s')) :
    ∃ ext, ∀ g, Fine I k g s → Fine I k (g ++ ext) s' ∧ Image I k (g ++ ext) a b := by
  refine rebuild_ok hr h (fun g => g[a]? = some (mk r)) (fun g hg => hg.same ho hfix) ?_
  intro g y ho' e _ hy
  refine ⟨?_, hI.new _ _ (hq _) (hne y), ?_, ?_, ?_, ?_⟩
  · intro c hc
    rw [hch, List.mem_singleton] at hc
    subst hc
    exact hy.lt'
  · have := (List.getElem?_eq_some_iff.1 ho').1
    simp; omega
  · simp
  · exact hI.image _ _ _ _ _ (getElem?_append_some (getElem?_append_some ho'))
      (getElem?_new _) (hq _) (hq _)
  · intro H hH
    refine cong_alts (getElem?_prefix hH (getElem?_append_some (getElem?_append_some ho')))
      (getElem?_prefix hH (getElem?_new _)) (hl _ _) (ha _) (ha _) (hcost _ _) ?_
    exact .cons (hy.sem H ((List.prefix_append _ _).trans hH)) .nil

theorem prod_copy_ok (hI : Copying I k) {f : Term P → St P → Except Err (Term P × St P)}
    (hf : StepOk I k (TermImage k) f) {a m : Nat} {ts : List (Term P)} {s : St P}
    (ho : s.heap[a]? = some (.prod ts m)) {b s'} (h : rebuildAll f ts (.prod · m) s = .ok (b, s')) :
    ∃ ext, ∀ g, Fine I k g s → Fine I k (g ++ ext) s' ∧ Image I k (g ++ ext) a b := by
  refine rebuildAll_ok (R := TermImage k) (fun g e x y _ hxy => hxy.mono) hf h
    (fun g => g[a]? = some (.prod ts m)) (fun g hg => hg.same ho trivial) ?_
  intro g ys ho' e _ hp
  refine ⟨?_, hI.new _ _ rfl (by simp), ?_, ?_, ?_, ?_⟩
  · exact termImage_children hp
  · have := (List.getElem?_eq_some_iff.1 ho').1
    simp; omega
  · simp
  · exact hI.image _ _ _ _ _ (getElem?_append_some (getElem?_append_some ho')) (getElem?_new _)
      rfl rfl
  · intro H hH
    refine cong_prod (getElem?_prefix hH (getElem?_append_some (getElem?_append_some ho')))
      (getElem?_prefix hH (getElem?_new _)) ?_
    exact pointwise_mono (fun _ _ h => h.equiv ((List.prefix_append _ _).trans hH)) hp

theorem default_ok (hI : Copying I k) {n : Nat} {rec : Visit P} (hr : VisitOk I k rec) {a : Nat}
    {o : Obj P} {s : St P} {b s'} (ho : s.heap[a]? = some o) (hq : o.quant = false)
    (h : defaultMethod n rec a o s = .ok (b, s')) :
    ∃ ext, ∀ g, Fine I k g s → Fine I k (g ++ ext) s' ∧ Image I k (g ++ ext) a b := by
  cases o with
  | prod ts m => exact prod_copy_ok hI (visitTerm_ok hr) ho h
  | emptyProd => exact keep_ok hI ho rfl h
  | pipeProd v ts => exact keep_ok hI ho rfl h
  | rule ps =>
    exact alts_copy_ok hI (visit_weaken hr) (o := .rule ps) (fun o' => o' = .rule ps)
      (fun g hg => ⟨_, hg.same ho trivial, rfl⟩) (by rintro _ rfl; rfl)
      (by rintro _ rfl; cases k <;> intro _ <;> rfl)
      (by rintro _ rfl; exact alts_rule ps) (by rintro _ rfl _; exact Nat.le_refl _) alts_rule
      (fun _ => rfl) (fun _ => rfl) (fun _ _ => hI.new _ _ rfl (by simp)) h
  | or ps =>
    exact alts_copy_ok hI (visit_weaken hr) (o := .or ps) (fun o' => o' = .or ps)
      (fun g hg => ⟨_, hg.same ho trivial, rfl⟩) (by rintro _ rfl; rfl)
      (by rintro _ rfl; cases k <;> intro _ <;> rfl)
      (by rintro _ rfl; exact alts_or ps) (by rintro _ rfl _; exact Nat.le_refl _) alts_or
      (fun _ => rfl) (fun _ => rfl) (fun _ _ => hI.new _ _ rfl (by simp)) h
  | named r n =>
    exact one_copy_ok hI hr (mk := (.named · n)) trivial ho (fun _ => rfl)
      (by intro _ _; cases k <;> rfl) (fun r => alts_named r n) (fun _ => rfl)
      (fun _ _ => Nat.le_refl _) (by simp) h
  | interp r n =>
    exact one_copy_ok hI hr (mk := (.interp · n)) trivial ho (fun _ => rfl)
      (by intro _ _; cases k <;> rfl) (fun r => alts_interp r n) (fun _ => rfl)
      (fun _ _ => Nat.le_refl _) (by simp) h
  | relation r n =>
    exact one_copy_ok hI hr (mk := (.relation · n)) trivial ho (fun _ => rfl)
      (by intro _ _; cases k <;> rfl) (fun r => alts_relation r n) (fun _ => rfl)
      (fun _ _ => Nat.le_refl _) (by simp) h
  | forward r => exact keep_ok hI ho rfl h
  | empty => exact keep_ok hI ho rfl h
  | pipe p => exact keep_ok hI ho rfl h
  | bnf ps n i r d =>
    refine alts_copy_ok hI (visit_weaken hr) (o := .bnf ps n i r d)
      (fun o' => (∃ n i r, o' = .bnf ps n i r d) ∧ o'.label k = none)
      ?_ (by rintro _ ⟨⟨_, _, _, rfl⟩, _⟩; rfl)
      (by rintro _ ⟨_, hl⟩ qs; rw [hl]; cases k <;> rfl)
      (by rintro _ ⟨⟨_, _, _, rfl⟩, _⟩; exact alts_bnf ps _ _ _ _)
      (by rintro _ ⟨⟨_, _, _, rfl⟩, _⟩ _; exact Nat.le_refl _) alts_rule
      (fun _ => rfl) (fun _ => rfl) (fun _ _ => hI.new _ _ rfl (by simp)) h
    intro g hg
    obtain ⟨o', h1, h2 | ⟨r, r', _, h3, _⟩⟩ := hg.get ho
    · have hq := hg.inv o' (List.mem_of_getElem? h1)
      cases h2 with
      | refl => exact ⟨_, h1, ⟨_, _, _, rfl⟩, hI.bare _ _ _ _ _ _ hq⟩
      | bnf _ => exact ⟨_, h1, ⟨_, _, _, rfl⟩, hI.bare _ _ _ _ _ _ hq⟩
    · cases h3
  | optional r v => cases hq
  | repeatable r v => cases hq
  | repOptional r v u => cases hq
  | minBounded r m v => cases hq
  | maxBounded r m v => cases hq
  | minMaxBounded r m m' v => cases hq

end Yargy
