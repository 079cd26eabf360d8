import Verif.Proofs.Copying
/-!
The transformators for alternatives, empty rules and rules with one term keep the words of rules.
-/
namespace Yargy

variable {P : Type} {k : Kind} {I : PassInv P} {H : Heap P}

/-- Bounds as the constructors check them; compiled rules without attributes. -/
def baseInv (k : Kind) : PassInv P where
  Q _ o := o.bare k ∧ o.bounds
  X _ _ _ := True
  Qmono _ _ _ _ _ h := h
  Xmono _ _ _ _ _ _ _ h := h

theorem bounds_of_not_quant {o : Obj P} (h : o.quant = false) : o.bounds := by
  cases o <;> first | trivial | cases h

theorem bare_of_ne {o : Obj P} (h : ∀ ps n i r d, o ≠ .bnf ps n i r d) : o.bare k :=
  fun _ _ _ _ _ e => (h _ _ _ _ _ e).elim

theorem baseCopying : Copying (baseInv k : PassInv P) k where
  bare _ _ _ _ _ _ h := h.1 _ _ _ _ _ rfl
  new _ _ hq hne := ⟨bare_of_ne hne, bounds_of_not_quant hq⟩
  image _ _ _ _ _ _ _ _ _ := trivial

/-- A bounded rule copied. -/
theorem quant_copy_ok {rec : Visit P} (hr : VisitOk (baseInv k) k rec) {a r : Nat} {s : St P}
    {mk : Nat → Obj P} {N : Nat → Prop} (hfix : (mk r).fixed) (ho : s.heap[a]? = some (mk r))
    (hl : ∀ r r', (mk r).label k = (mk r').label k) (ha : ∀ r, Quant (mk r) r N)
    (hch : ∀ r, (mk r).children = [r]) (hcost : ∀ r r' n, stepCost (mk r) n ≤ stepCost (mk r') n)
    (hb : ∀ r r', (mk r).bounds → (mk r').bounds)
    (hne : ∀ x ps n i r d, mk x ≠ .bnf ps n i r d) {b s'}
    (h : rebuild rec r mk s = .ok (b, s')) :
    ∃ ext, ∀ g, Fine (baseInv k) k g s →
      Fine (baseInv k) k (g ++ ext) s' ∧ Image (baseInv k) k (g ++ ext) a b := by
  refine rebuild_ok hr h (fun g => g[a]? = some (mk r) ∧ (mk r).bounds)
    (fun g hg => ⟨hg.same ho hfix, (hg.inv _ (List.mem_of_getElem? (hg.same ho hfix))).2⟩) ?_
  intro g y ho' e _ hy
  refine ⟨?_, ⟨bare_of_ne (hne y), hb _ _ ho'.2⟩, ?_, ?_, trivial, ?_⟩
  · intro c hc
    rw [hch, List.mem_singleton] at hc
    subst hc
    exact hy.lt'
  · have := (List.getElem?_eq_some_iff.1 ho'.1).1
    simp; omega
  · simp
  · intro H hH
    exact cong_quant (getElem?_prefix hH (getElem?_append_some (getElem?_append_some ho'.1)))
      (getElem?_prefix hH (getElem?_new _)) (hl _ _) (ha _) (ha _) (hcost _ _)
      (hy.sem H ((List.prefix_append _ _).trans hH))

/-- `RuleTransformator` itself. -/
theorem base_default_ok {n : Nat} {rec : Visit P} (hr : VisitOk (baseInv k) k rec) {a : Nat}
    {o : Obj P} {s : St P} {b s'} (ho : s.heap[a]? = some o)
    (h : defaultMethod n rec a o s = .ok (b, s')) :
    ∃ ext, ∀ g, Fine (baseInv k) k g s →
      Fine (baseInv k) k (g ++ ext) s' ∧ Image (baseInv k) k (g ++ ext) a b := by
  cases hq : o.quant with
  | false => exact default_ok baseCopying hr ho hq h
  | true =>
    cases o with
    | optional r v => simp [defaultMethod] at h
    | repeatable r v => simp [defaultMethod] at h
    | repOptional r v u => simp [defaultMethod] at h
    | minBounded r m v =>
      exact quant_copy_ok hr (mk := (.minBounded · m v)) trivial ho
        (by intro _ _; cases k <;> rfl) (fun r => quant_min r m v) (fun _ => rfl)
        (fun _ _ _ => Nat.le_refl _) (fun _ _ h => h) (by simp) h
    | maxBounded r m v =>
      exact quant_copy_ok hr (mk := (.maxBounded · m v)) trivial ho
        (by intro _ _; cases k <;> rfl) (fun r => quant_max r m v) (fun _ => rfl)
        (fun _ _ _ => Nat.le_refl _) (fun _ _ h => h) (by simp) h
    | minMaxBounded r m m' v =>
      exact quant_copy_ok hr (mk := (.minMaxBounded · m m' v)) trivial ho
        (by intro _ _; cases k <;> rfl) (fun r => quant_minMax r m m' v) (fun _ => rfl)
        (fun _ _ _ => Nat.le_refl _) (fun _ _ h => h) (by simp) h
    | _ => cases hq

/-! ### Alternatives -/

theorem visitProd_ok {rec : Visit P} (hI : Copying I k) (hr : VisitOk I k rec) :
    StepOk I k (fun g x y => y < g.length ∧ Sem k g x y) (visitProd rec) := by
  intro r s p s' h
  unfold visitProd rebuild at h
  cases h1 : rec r s with
  | error e => simp [h1, Except.map] at h
  | ok x =>
    obtain ⟨y, s1⟩ := x
    simp only [h1, Except.map, Except.ok.injEq] at h
    obtain ⟨ext, he⟩ := hr r s y s1 h1
    refine ⟨ext ++ [.prod [.rule y] 0], fun g hg => ?_⟩
    obtain ⟨f1, p1⟩ := he g hg
    have f2 := fine_alloc f1 (o := .prod [.rule y] 0)
      (fun c hc => by
        have := p1.lt'
        simp only [Obj.children, termRules, List.mem_singleton] at hc
        omega) (hI.new _ _ rfl (by simp))
    have ha := alloc_addr f1 (.prod [.rule y] 0)
    rw [h] at f2 ha
    simp only at ha
    rw [← List.append_assoc, ha]
    refine ⟨f2, by simp, fun H hH => ?_⟩
    exact cong_prod_one (getElem?_prefix hH (getElem?_new _))
      (p1.sem H ((List.prefix_append _ _).trans hH))

theorem or_ok : MethodOk (baseInv k : PassInv P) k orMethod := by
  intro n rec hr a o s b s' ho h
  cases o with
  | or rs =>
    exact alts_copy_ok baseCopying (visitProd_ok baseCopying hr) (o := .or rs)
      (fun o' => o' = .or rs)
      (fun g hg => ⟨_, hg.same ho trivial, rfl⟩) (by rintro _ rfl; rfl)
      (by rintro _ rfl; cases k <;> intro _ <;> rfl)
      (by rintro _ rfl; exact alts_or rs) (by rintro _ rfl _; exact Nat.le_refl _) alts_rule
      (fun _ => rfl) (fun _ => rfl) (fun _ _ => baseCopying.new _ _ rfl (by simp)) h
  | _ => exact base_default_ok (n := n) hr ho h

/-! ### Empty rules -/

theorem label_rule (ps : List Nat) : (Obj.rule ps : Obj P).label k = none := by
  cases k <;> rfl

theorem equiv_empty {x y p : Nat} (hx : H[x]? = some .empty) (hy : H[y]? = some (.rule [p]))
    (hp : H[p]? = some .emptyProd) : Equiv k H x y := by
  have l1 : (Obj.empty : Obj P).label k = none := by cases k <;> rfl
  have l2 : (Obj.emptyProd : Obj P).label k = none := by cases k <;> rfl
  constructor
  · intro n w g
    obtain ⟨o, us, c, v, ho, hs, hc, hu, rfl⟩ := gen_one.1 g
    rw [hx] at ho; cases ho; cases hs
    rw [gen_nil] at hu; subst hu
    rw [l1]
    refine gen_one.2 ⟨_, _, 0, [], hy, .rule (List.mem_singleton.2 rfl), by simp [stepCost], ?_,
      by rw [label_rule]⟩
    exact gen_one.2 ⟨_, _, 0, [], hp, .emptyProd, by simp [stepCost], .nil, by rw [l2]; rfl⟩
  · intro n w g
    obtain ⟨o, us, c, v, ho, hs, hc, hu, rfl⟩ := gen_one.1 g
    rw [hy] at ho; cases ho
    cases hs with
    | rule hm =>
      rw [List.mem_singleton] at hm; subst hm
      obtain ⟨o, us, c, v, ho, hs, hc, hu, rfl⟩ := gen_one.1 hu
      rw [hp] at ho; cases ho; cases hs
      rw [gen_nil] at hu; subst hu
      rw [label_rule, l2]
      exact ⟨0, gen_one.2 ⟨_, _, 0, [], hx, .empty, by simp [stepCost], .nil, by rw [l1]; rfl⟩⟩

theorem empty_ok : MethodOk (baseInv k : PassInv P) k emptyMethod := by
  intro n rec hr a o s b s' ho h
  cases o with
  | empty =>
    simp only [emptyMethod, Except.ok.injEq] at h
    refine ⟨[.emptyProd] ++ [.rule [s.heap.length]], fun g hg => ?_⟩
    have hx := hg.same ho trivial
    have f1 := fine_alloc hg (o := .emptyProd) (by simp [Obj.children])
      (baseCopying.new _ _ rfl (by simp))
    have f2 := fine_alloc f1 (o := .rule [(s.alloc .emptyProd).1])
      (by simp [Obj.children, St.alloc, hg.shape.length]; omega) (baseCopying.new _ _ rfl (by simp))
    have ha := alloc_addr f1 (.rule [(s.alloc .emptyProd).1])
    rw [h] at f2 ha
    simp only at ha
    rw [← List.append_assoc, ha]
    refine ⟨f2, ?_, by simp, trivial, fun H hH => ?_⟩
    · have := hg.lt ho; simp; omega
    · refine equiv_empty (p := s.heap.length)
        (getElem?_prefix hH (getElem?_append_some (getElem?_append_some hx)))
        (getElem?_prefix hH (getElem?_new _))
        (getElem?_prefix hH (getElem?_append_some ?_))
      rw [← hg.shape.length]
      exact getElem?_new _
  | _ => exact base_default_ok (n := n) hr ho h

/-! ### Rules with one term -/

/-- A production is like the sequence of its terms. -/
theorem gen_terms_at {p : Nat} {o : Obj P} {ts : List (Term P)} (hp : H[p]? = some o)
    (hq : o = .prod ts 0 ∨ (∃ m, o = .prod ts m) ∨ ∃ v us, o = .pipeProd v us ∧ ts = us.map .pred)
    (n : Nat) (w : List (Sym P)) : Gen k H n [.rule p] w ↔ Gen k H n ts w := by
  have key : ∀ o : Obj P, H[p]? = some o → (∀ us, Spells o us ↔ us = ts) → o.label k = none →
      (∀ n, stepCost o n = 0) → (Gen k H n [.rule p] w ↔ Gen k H n ts w) := by
    intro o hp hs hl hc
    rw [gen_one]
    constructor
    · rintro ⟨o', us, c, v, ho, hs', hc', hu, rfl⟩
      rw [hp] at ho; cases ho
      rw [hs] at hs'; subst hs'
      rw [hl]
      exact hu.mono (by omega)
    · intro g
      exact ⟨o, ts, n, w, hp, (hs ts).2 rfl, by rw [hc]; omega, g, by rw [hl]; rfl⟩
  rcases hq with rfl | ⟨m, rfl⟩ | ⟨v, us, rfl, rfl⟩
  · exact key _ hp (fun us => ⟨fun h => by cases h; rfl, fun h => h ▸ .prod⟩) (label_prod _ _)
      (fun _ => rfl)
  · exact key _ hp (fun us => ⟨fun h => by cases h; rfl, fun h => h ▸ .prod⟩) (label_prod _ _)
      (fun _ => rfl)
  · exact key _ hp (fun us => ⟨fun h => by cases h; rfl, fun h => h ▸ .pipeProd⟩)
      (by cases k <;> rfl) (fun _ => rfl)

/-- A rule with one production is like the production. -/
theorem gen_rule_one {r p : Nat} (hr : H[r]? = some (.rule [p])) (n : Nat) (w : List (Sym P)) :
    Gen k H n [.rule r] w ↔ Gen k H n [.rule p] w := by
  rw [gen_one]
  constructor
  · rintro ⟨o', us, c, v, ho, hs', hc', hu, rfl⟩
    rw [hr] at ho; cases ho
    cases hs' with
    | rule hm =>
      rw [List.mem_singleton] at hm; subst hm
      rw [label_rule]
      exact hu.mono (by omega)
  · intro g
    exact ⟨_, _, n, w, hr, .rule (List.mem_singleton.2 rfl), by simp [stepCost], g,
      by rw [label_rule]; rfl⟩

theorem termsAt_one {h : Heap P} {p : Nat} {t : Term P} (ht : termsAt h p = [t]) :
    ∃ o, h[p]? = some o ∧ o.fixed ∧
      ((∃ m, o = .prod [t] m) ∨ ∃ v us, o = .pipeProd v us ∧ [t] = us.map .pred) := by
  unfold termsAt at ht
  split at ht
  · rename_i ts m ho
    subst ht
    exact ⟨_, ho, trivial, .inl ⟨_, rfl⟩⟩
  · rename_i v ts ho
    exact ⟨_, ho, trivial, .inr ⟨v, ts, rfl, ht.symm⟩⟩
  · cases ht

theorem flattenTerm_ok {rec : Visit P} (hr : VisitOk I k rec) :
    ∀ n, StepOk I k (TermImage k) (flattenTerm rec n) := by
  intro n
  induction n with
  | zero => intro t s u s' h; simp [flattenTerm] at h
  | succ n ih =>
    intro t s u s' h
    cases t with
    | pred p =>
      simp only [flattenTerm, Except.ok.injEq, Prod.mk.injEq] at h
      obtain ⟨rfl, rfl⟩ := h
      exact ⟨[], fun g hg => ⟨by simpa using hg, .pred⟩⟩
    | rule r =>
      simp only [flattenTerm] at h
      split at h
      · rename_i p hrp
        split at h
        · rename_i t' ht'
          obtain ⟨ext, he⟩ := ih t' s u s' h
          refine ⟨ext, fun g hg => ?_⟩
          obtain ⟨f1, i1⟩ := he g hg
          refine ⟨f1, i1.lt, fun H hH => ?_⟩
          obtain ⟨o, hpo, hfix, hterms⟩ := termsAt_one ht'
          have hr' := getElem?_prefix hH (getElem?_append_some (hg.same hrp trivial))
          have hp' := getElem?_prefix hH (getElem?_append_some (hg.same hpo hfix))
          have e1 : ∀ n w, Gen k H n [.rule r] w ↔ Gen k H n [t'] w := fun n w =>
            (gen_rule_one hr' n w).trans (gen_terms_at hp' (.inr hterms) n w)
          have hs := i1.sem H hH
          exact ⟨fun n w g => hs.1 n w ((e1 n w).1 g), fun n w g =>
            let ⟨m, g'⟩ := hs.2 n w g
            ⟨m, (e1 m w).2 g'⟩⟩
        · exact visitTerm_ok hr _ _ _ _ h
      · exact visitTerm_ok hr _ _ _ _ h

theorem flatten_ok : MethodOk (baseInv k : PassInv P) k flattenMethod := by
  intro n rec hr a o s b s' ho h
  cases o with
  | prod ts m =>
    have other : rebuildAll (flattenTerm rec n) ts (.prod · m) s = .ok (b, s') →
        ∃ ext, ∀ g, Fine (baseInv k) k g s →
          Fine (baseInv k) k (g ++ ext) s' ∧ Image (baseInv k) k (g ++ ext) a b :=
      fun h => prod_copy_ok baseCopying (flattenTerm_ok hr n) ho h
    simp only [flattenMethod] at h
    split at h
    · rename_i r
      split at h
      · rename_i p hrp
        obtain ⟨ext, he⟩ := hr p s b s' h
        refine ⟨ext, fun g hg => ?_⟩
        obtain ⟨f1, i1⟩ := he g hg
        refine ⟨f1, ?_, i1.lt', trivial, fun H hH => ?_⟩
        · have := hg.lt ho; simp; omega
        · have ha' := getElem?_prefix hH (getElem?_append_some (hg.same ho trivial))
          have hr' := getElem?_prefix hH (getElem?_append_some (hg.same hrp trivial))
          have e1 : ∀ n w, Gen k H n [.rule a] w ↔ Gen k H n [.rule p] w := fun n w =>
            (gen_terms_at ha' (.inr (.inl ⟨_, rfl⟩)) n w).trans (gen_rule_one hr' n w)
          have hs := i1.sem H hH
          exact ⟨fun n w g => hs.1 n w ((e1 n w).1 g), fun n w g =>
            let ⟨m, g'⟩ := hs.2 n w g
            ⟨m, (e1 m w).2 g'⟩⟩
      · exact other h
    · exact other h
  | _ => exact base_default_ok (n := n) hr ho h

end Yargy
