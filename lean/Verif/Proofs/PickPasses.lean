import Verif.Proofs.PickCopying
import Verif.Proofs.SimplePasses
/-!
The transformators for alternatives, empty rules and rules with one term keep the words with choices of rules.
-/
namespace Yargy.Pick

variable {P : Type} {I : PassInv P} {H : Heap P}

/-- Bounds as the constructors check them; and, before the last pass, no lines of compiled gazetteers. -/
def baseInv (fresh : Bool) : PassInv P where
  Q _ o := o.bounds ∧ (fresh = true → o.entry = false)
  X _ _ _ := True
  Qmono _ _ _ _ _ h := h
  Xmono _ _ _ _ _ _ _ h := h

theorem baseCopying {fresh : Bool} : Copying (baseInv fresh : PassInv P) where
  new _ _ hq he := ⟨bounds_of_not_quant hq, fun _ => he⟩
  image _ _ _ _ _ _ _ _ _ := trivial

/-- A bounded rule copied. -/
theorem quant_copy_ok {fresh : Bool} {rec : Visit P} (hr : VisitOk (baseInv fresh) rec) {a r : Nat} {s : St P}
    {mk : Nat → Obj P} {L : List (Option Note) → Prop} (hfix : (mk r).fixed) (ho : s.heap[a]? = some (mk r))
    (ha : ∀ r, Quant (mk r) r L)
    (hch : ∀ r, (mk r).children = [r]) (hcost : ∀ r r' n, stepCost (mk r) n ≤ stepCost (mk r') n)
    (hb : ∀ r r', (mk r).bounds → (mk r').bounds)
    (hne : ∀ x, (mk x).entry = false) {b s'}
    (h : rebuild rec r mk s = .ok (b, s')) :
    ∃ ext, ∀ g, Fine (baseInv fresh) g s →
      Fine (baseInv fresh) (g ++ ext) s' ∧ Image (baseInv fresh) (g ++ ext) a b := by
  refine rebuild_ok hr h (fun g => g[a]? = some (mk r) ∧ (mk r).bounds)
    (fun g hg => ⟨hg.same ho hfix, (hg.inv _ (List.mem_of_getElem? (hg.same ho hfix))).1⟩) ?_
  intro g y ho' e _ hy
  refine ⟨?_, ⟨hb _ _ ho'.2, fun _ => hne y⟩, ?_, ?_, trivial, ?_⟩
  · intro c hc
    rw [hch, List.mem_singleton] at hc
    subst hc
    exact hy.lt'
  · have := (List.getElem?_eq_some_iff.1 ho'.1).1
    simp; omega
  · simp
  · intro H hH
    exact cong_quant (getElem?_prefix hH (getElem?_append_some (getElem?_append_some ho'.1)))
      (getElem?_prefix hH (getElem?_new _)) (ha _) (ha _) (hcost _ _)
      (hy.sem H ((List.prefix_append _ _).trans hH))

/-- `RuleTransformator` itself. -/
theorem base_default_ok {fresh : Bool} {n : Nat} {rec : Visit P} (hr : VisitOk (baseInv fresh) rec) {a : Nat}
    {o : Obj P} {s : St P} {b s'} (ho : s.heap[a]? = some o)
    (h : defaultMethod n rec a o s = .ok (b, s')) :
    ∃ ext, ∀ g, Fine (baseInv fresh) g s →
      Fine (baseInv fresh) (g ++ ext) s' ∧ Image (baseInv fresh) (g ++ ext) a b := by
  cases hq : o.quant with
  | false => exact default_ok baseCopying hr ho hq h
  | true =>
    cases o with
    | optional r v => simp [defaultMethod] at h
    | repeatable r v => simp [defaultMethod] at h
    | repOptional r v u => simp [defaultMethod] at h
    | minBounded r m v =>
      exact quant_copy_ok hr (mk := (.minBounded · m v)) trivial ho
        (fun r => quant_min r m v) (fun _ => rfl)
        (fun _ _ _ => Nat.le_refl _) (fun _ _ h => h) (fun _ => rfl) h
    | maxBounded r m v =>
      exact quant_copy_ok hr (mk := (.maxBounded · m v)) trivial ho
        (fun r => quant_max r m v) (fun _ => rfl)
        (fun _ _ _ => Nat.le_refl _) (fun _ _ h => h) (fun _ => rfl) h
    | minMaxBounded r m m' v =>
      exact quant_copy_ok hr (mk := (.minMaxBounded · m m' v)) trivial ho
        (fun r => quant_minMax r m m' v) (fun _ => rfl)
        (fun _ _ _ => Nat.le_refl _) (fun _ _ h => h) (fun _ => rfl) h
    | _ => cases hq

/-! ### Alternatives -/

theorem visitProd_ok {rec : Visit P} (hI : Copying I) (hr : VisitOk I rec) :
    StepOk I (fun g x y => y < g.length ∧ Sem g x y) (visitProd rec) := by
  intro r s p s' h
  unfold visitProd rebuild at h
  cases h1 : rec r s with
  | error e => simp [h1, Except.map] at h
  | ok x =>
    obtain ⟨y, s1⟩ := x
    simp only [h1, Except.map, Except.ok.injEq] at h
    obtain ⟨ext, he⟩ := hr r s y s1 h1
    refine ⟨ext ++ [.prod [.rule y] 0], fun g hg => ?_⟩
    obtain ⟨f1, p1⟩ := he g hg
    have f2 := fine_alloc f1 (o := .prod [.rule y] 0)
      (fun c hc => by
        have := p1.lt'
        simp only [Obj.children, termRules, List.mem_singleton] at hc
        omega) (hI.new _ _ rfl rfl)
    have ha := alloc_addr f1 (.prod [.rule y] 0)
    rw [h] at f2 ha
    simp only at ha
    rw [← List.append_assoc, ha]
    refine ⟨f2, by simp, fun H hH => ?_⟩
    exact cong_prod_one (getElem?_prefix hH (getElem?_new _))
      (p1.sem H ((List.prefix_append _ _).trans hH))

theorem or_ok : MethodOk (baseInv true : PassInv P) orMethod := by
  intro n rec hr a o s b s' ho h
  cases o with
  | or rs =>
    exact alts_copy_ok baseCopying (visitProd_ok baseCopying hr) (o := .or rs)
      (fun o' => o' = .or rs)
      (fun g hg => ⟨_, hg.same ho trivial, rfl⟩) (by rintro _ rfl; rfl)
      (by rintro _ rfl; exact alts_or rs) (by rintro _ rfl _ _; exact Nat.le_refl _) alts_rule
      (fun _ => rfl) (fun _ => rfl) (fun _ _ => baseCopying.new _ _ rfl rfl) h
  | _ => exact base_default_ok (n := n) hr ho h

/-! ### Empty rules -/

theorem equiv_empty {x y p : Nat} (hx : H[x]? = some .empty) (hy : H[y]? = some (.rule [p]))
    (hp : H[p]? = some .emptyProd) : Equiv H x y := by
  constructor
  · intro n w g
    obtain ⟨o, us, c, ho, hs, hc, hu⟩ := gen_one.1 g
    rw [hx] at ho; cases ho; cases hs
    refine gen_one.2 ⟨_, _, n, hy, .rule (i := 0) rfl, by simp [stepCost], ?_⟩
    exact gen_one.2 ⟨_, _, c, hp, .emptyProd, by simp only [stepCost]; omega, hu⟩
  · intro n w g
    obtain ⟨o, us, c, ho, hs, hc, hu⟩ := gen_one.1 g
    rw [hy] at ho; cases ho
    obtain ⟨i, q, hi, rfl⟩ := (alts_rule [p] _).1 hs
    cases i with
    | succ i => cases hi
    | zero =>
      cases hi
      obtain ⟨o, us, c, ho, hs, hc, hu⟩ := gen_one.1 hu
      rw [hp] at ho; cases ho; cases hs
      exact ⟨_, gen_one.2 ⟨_, _, _, hx, .empty, Nat.le_refl _, hu⟩⟩

theorem empty_ok : MethodOk (baseInv true : PassInv P) emptyMethod := by
  intro n rec hr a o s b s' ho h
  cases o with
  | empty =>
    simp only [emptyMethod, Except.ok.injEq] at h
    refine ⟨[.emptyProd] ++ [.rule [s.heap.length]], fun g hg => ?_⟩
    have hx := hg.same ho trivial
    have f1 := fine_alloc hg (o := .emptyProd) (by simp [Obj.children])
      (baseCopying.new _ _ rfl rfl)
    have f2 := fine_alloc f1 (o := .rule [(s.alloc .emptyProd).1])
      (by simp [Obj.children, St.alloc, hg.shape.length]; omega) (baseCopying.new _ _ rfl rfl)
    have ha := alloc_addr f1 (.rule [(s.alloc .emptyProd).1])
    rw [h] at f2 ha
    simp only at ha
    rw [← List.append_assoc, ha]
    refine ⟨f2, ?_, by simp, trivial, fun H hH => ?_⟩
    · have := hg.lt ho; simp; omega
    · refine equiv_empty (p := s.heap.length)
        (getElem?_prefix hH (getElem?_append_some (getElem?_append_some hx)))
        (getElem?_prefix hH (getElem?_new _))
        (getElem?_prefix hH (getElem?_append_some ?_))
      rw [← hg.shape.length]
      exact getElem?_new _
  | _ => exact base_default_ok (n := n) hr ho h

/-! ### Rules with one term -/

/-- An object that is replaced in just one way. -/
theorem gen_at {p : Nat} {o : Obj P} {vs : List (Piece P)} (hp : H[p]? = some o)
    (hs : ∀ us, Deals o us ↔ us = vs) (hc : ∀ n, stepCost o n = 0) (n : Nat) (w : List (Mark P)) :
    Gen H n [.rule p] w ↔ Gen H n vs w := by
  rw [gen_one]
  constructor
  · rintro ⟨o', us, c, ho, hs', hc', hu⟩
    rw [hp] at ho; cases ho
    rw [hs] at hs'; subst hs'
    exact hu.mono (by omega)
  · intro g
    exact ⟨o, _, n, hp, (hs _).2 rfl, by rw [hc]; omega, g⟩

/-- A production with one term is like the term. -/
theorem gen_term_at {p m : Nat} {t : Term P} (hp : H[p]? = some (.prod [t] m)) (n : Nat)
    (w : List (Mark P)) : Gen H n [.rule p] w ↔ Gen H n [t.part] w :=
  gen_at hp (fun us => ⟨fun h => by cases h; rfl, fun h => h ▸ .prod⟩) (fun _ => rfl) n w

/-- A line of a gazetteer is like its words, with notes. -/
theorem gen_line_at {p : Nat} {v : Str} {ts : List P} (hp : H[p]? = some (.pipeProd v ts)) (n : Nat)
    (w : List (Mark P)) : Gen H n [.rule p] w ↔
      Gen H n ((entryOf (some v) ts.length 0).map .note ++ ts.map .pred) w :=
  gen_at hp (fun us => ⟨fun h => by cases h; rfl, fun h => h ▸ .pipeProd⟩) (fun _ => rfl) n w

/-- A rule with one production is like the production. -/
theorem gen_rule_one {r p : Nat} (hr : H[r]? = some (.rule [p])) (n : Nat) (w : List (Mark P)) :
    Gen H n [.rule r] w ↔ Gen H n [.rule p] w := by
  rw [gen_one]
  constructor
  · rintro ⟨o', us, c, ho, hs, hc', hu⟩
    rw [hr] at ho; cases ho
    obtain ⟨i, q, hi, rfl⟩ := (alts_rule [p] _).1 hs
    cases i with
    | succ i => cases hi
    | zero => cases hi; exact hu.mono (by omega)
  · intro g
    exact ⟨_, _, n, hr, .rule (i := 0) rfl, by simp [stepCost], g⟩

theorem flattenTerm_ok {rec : Visit P} (hr : VisitOk (baseInv true) rec) :
    ∀ n, StepOk (baseInv true : PassInv P) (TermImage) (flattenTerm rec n) := by
  intro n
  induction n with
  | zero => intro t s u s' h; simp [flattenTerm] at h
  | succ n ih =>
    intro t s u s' h
    cases t with
    | pred p =>
      simp only [flattenTerm, Except.ok.injEq, Prod.mk.injEq] at h
      obtain ⟨rfl, rfl⟩ := h
      exact ⟨[], fun g hg => ⟨by simpa using hg, .pred⟩⟩
    | rule r =>
      simp only [flattenTerm] at h
      split at h
      · rename_i p hrp
        split at h
        · rename_i t' ht'
          obtain ⟨ext, he⟩ := ih t' s u s' h
          refine ⟨ext, fun g hg => ?_⟩
          obtain ⟨f1, i1⟩ := he g hg
          refine ⟨f1, i1.lt, fun H hH => ?_⟩
          obtain ⟨o, hpo, hfix, hterms⟩ := termsAt_one ht'
          have hr' := getElem?_prefix hH (getElem?_append_some (hg.same hrp trivial))
          have hp' := getElem?_prefix hH (getElem?_append_some (hg.same hpo hfix))
          have hterms : ∃ m, o = .prod [t'] m := by
            rcases hterms with h | ⟨v, us, rfl, _⟩
            · exact h
            · have := (hg.inv _ (List.mem_of_getElem? (hg.same hpo hfix))).2 rfl
              cases this
          obtain ⟨m, rfl⟩ := hterms
          have e1 : ∀ n w, Gen H n [.rule r] w ↔ Gen H n [t'.part] w := fun n w =>
            (gen_rule_one hr' n w).trans (gen_term_at hp' n w)
          have hs := i1.sem H hH
          exact ⟨fun n w g => hs.1 n w ((e1 n w).1 g), fun n w g =>
            let ⟨m, g'⟩ := hs.2 n w g
            ⟨m, (e1 m w).2 g'⟩⟩
        · exact visitTerm_ok hr _ _ _ _ h
      · exact visitTerm_ok hr _ _ _ _ h

theorem flatten_ok : MethodOk (baseInv true : PassInv P) flattenMethod := by
  intro n rec hr a o s b s' ho h
  cases o with
  | prod ts m =>
    have other : rebuildAll (flattenTerm rec n) ts (.prod · m) s = .ok (b, s') →
        ∃ ext, ∀ g, Fine (baseInv true) g s →
          Fine (baseInv true) (g ++ ext) s' ∧ Image (baseInv true) (g ++ ext) a b :=
      fun h => prod_copy_ok baseCopying (flattenTerm_ok hr n) ho h
    simp only [flattenMethod] at h
    split at h
    · rename_i r
      split at h
      · rename_i p hrp
        obtain ⟨ext, he⟩ := hr p s b s' h
        refine ⟨ext, fun g hg => ?_⟩
        obtain ⟨f1, i1⟩ := he g hg
        refine ⟨f1, ?_, i1.lt', trivial, fun H hH => ?_⟩
        · have := hg.lt ho; simp; omega
        · have ha' := getElem?_prefix hH (getElem?_append_some (hg.same ho trivial))
          have hr' := getElem?_prefix hH (getElem?_append_some (hg.same hrp trivial))
          have e1 : ∀ n w, Gen H n [.rule a] w ↔ Gen H n [.rule p] w := fun n w =>
            (gen_term_at ha' n w).trans (gen_rule_one hr' n w)
          have hs := i1.sem H hH
          exact ⟨fun n w g => hs.1 n w ((e1 n w).1 g), fun n w g =>
            let ⟨m, g'⟩ := hs.2 n w g
            ⟨m, (e1 m w).2 g'⟩⟩
      · exact other h
    · exact other h
  | _ => exact base_default_ok (n := n) hr ho h

end Yargy.Pick
