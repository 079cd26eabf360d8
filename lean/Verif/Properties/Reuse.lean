import Verif.Spec.History
import Verif.Proofs.FrameCompile
import Verif.Proofs.Congruence
import Verif.Properties.Compile
import Verif.Proofs.Filed
/-!
C47, C48: parsers in a program that makes rules and builds parsers in any order.
-/
namespace Yargy
open Spec

variable {L : Lang} {setOrder : List Str → List Str}

/-! ### Activated predicates -/

/-- Activated for good. -/
def Fixed (p : Pred) : Prop := ∀ c : Context, p.activate c = .ok p

theorem fixed_and {ps : List Pred} (h : ∀ c, activateAll c ps = .ok ps) : Fixed (.and_ ps) := by
  intro c; simp only [Pred.activate, h c]; rfl

theorem fixed_or {ps : List Pred} (h : ∀ c, activateAll c ps = .ok ps) : Fixed (.or_ ps) := by
  intro c; simp only [Pred.activate, h c]; rfl

mutual
theorem activate_fixed {c : Context} : ∀ {p q : Pred}, p.activate c = .ok q → Fixed q
  | .normalized v, q, h => by
    simp only [Pred.activate, bind, Except.bind] at h
    split at h
    · cases h
    · cases h; intro c; rfl
  | .dictionary [], q, h => by cases h; intro c; rfl
  | .dictionary (v :: vs), q, h => by
    simp only [Pred.activate, bind, Except.bind] at h
    split at h
    · cases h
    · cases h; intro c; rfl
  | .gram v, q, h => by
    simp only [Pred.activate, bind, Except.bind] at h
    split at h
    · cases h
    · split at h
      · cases h; intro c; rfl
      · cases h
  | .type v, q, h => by
    simp only [Pred.activate, bind, Except.bind] at h
    split at h
    · cases h
    · cases h; intro c; rfl
  | .tag v, q, h => by cases h; intro c; rfl
  | .custom f ts, q, h => by
    simp only [Pred.activate, bind, Except.bind] at h
    split at h
    · cases h
    · cases h; intro c; rfl
  | .and_ ps, q, h => by
    simp only [Pred.activate, bind, Except.bind] at h
    split at h
    · cases h
    · rename_i qs hq
      cases h
      exact fixed_and (activateAll_fixed hq)
  | .or_ ps, q, h => by
    simp only [Pred.activate, bind, Except.bind] at h
    split at h
    · cases h
    · rename_i qs hq
      cases h
      exact fixed_or (activateAll_fixed hq)
  | .not_ p, q, h => by
    simp only [Pred.activate, bind, Except.bind] at h
    split at h
    · cases h
    · rename_i q' hq
      cases h
      have := activate_fixed hq
      intro c; simp only [Pred.activate, this c]; rfl
  | .true, q, h => by cases h; intro c; rfl
  | .isLower, q, h => by cases h; intro c; rfl
  | .isUpper, q, h => by cases h; intro c; rfl
  | .isTitle, q, h => by cases h; intro c; rfl
  | .isCapitalized, q, h => by cases h; intro c; rfl
  | .eq _, q, h => by cases h; intro c; rfl
  | .lengthEq _, q, h => by cases h; intro c; rfl
  | .gte _, q, h => by cases h; intro c; rfl
  | .lte _, q, h => by cases h; intro c; rfl
  | .caseless _, q, h => by cases h; intro c; rfl
  | .in_ _, q, h => by cases h; intro c; rfl
  | .inCaseless _, q, h => by cases h; intro c; rfl
  | .dict _, q, h => by cases h; intro c; rfl
  | .gramP _, q, h => by cases h; intro c; rfl
  | .typeP _, q, h => by cases h; intro c; rfl
  | .tagP _, q, h => by cases h; intro c; rfl
  | .isSingle, q, h => by cases h; intro c; rfl
  | .customP _ _, q, h => by cases h; intro c; rfl
theorem activateAll_fixed {c : Context} : ∀ {ps qs : List Pred}, activateAll c ps = .ok qs →
    ∀ c', activateAll c' qs = .ok qs
  | [], qs, h => by cases h; intro c; rfl
  | p :: ps, qs, h => by
    simp only [activateAll, bind, Except.bind] at h
    split at h
    · cases h
    · rename_i q hq
      split at h
      · cases h
      · rename_i qs' hqs
        cases h
        have h1 := activate_fixed hq
        have h2 := activateAll_fixed hqs
        intro c'
        simp only [activateAll, h1 c', h2 c']; rfl
end

/-- A context that refuses nothing. -/
def easy : Context := { types := [], morph := some { known := fun _ => true, normalized := fun w => [w] }, hasTag := fun _ => true }

mutual
theorem fixed_askable (hfn : ∀ f v, L.fn f v ≠ .error .notImplemented) {t : Token} : ∀ {p : Pred},
    p.activate easy = .ok p → p.call L t ≠ .error .notImplemented
  | .normalized v, h => by cases h
  | .dictionary [], h => by cases h
  | .dictionary (v :: vs), h => by cases h
  | .gram v, h => by cases h
  | .type v, h => by
    simp only [Pred.activate, bind, Except.bind] at h
    split at h <;> cases h
  | .tag v, h => by cases h
  | .custom f ts, h => by
    simp only [Pred.activate, bind, Except.bind] at h
    split at h <;> cases h
  | .and_ ps, h => by
    simp only [Pred.activate, bind, Except.bind] at h
    split at h
    · cases h
    · rename_i qs hq
      cases h
      simp only [Pred.call]
      exact (fixed_askableAll hfn hq).1
  | .or_ ps, h => by
    simp only [Pred.activate, bind, Except.bind] at h
    split at h
    · cases h
    · rename_i qs hq
      cases h
      simp only [Pred.call]
      exact (fixed_askableAll hfn hq).2
  | .not_ p, h => by
    simp only [Pred.activate, bind, Except.bind] at h
    split at h
    · cases h
    · rename_i q hq
      cases h
      simp only [Pred.call]
      have := fixed_askable hfn (t := t) hq
      cases e : p.call L t with
      | error x => rw [e] at this; intro h; apply this; simpa [Except.map] using h
      | ok b => intro h; cases h
  | .isCapitalized, _ => by
    simp only [Pred.call]
    split <;> (intro h; cases h)
  | .gte n, _ => by
    simp only [Pred.call, intRequired]
    split
    · split <;> (intro h; cases h)
    · intro h; cases h
  | .lte n, _ => by
    simp only [Pred.call, intRequired]
    split
    · split <;> (intro h; cases h)
    · intro h; cases h
  | .dict vs, _ => by
    simp only [Pred.call]
    split <;> (intro h; cases h)
  | .gramP g, _ => by
    simp only [Pred.call, morphRequired]
    split <;> (intro h; cases h)
  | .isSingle, _ => by
    simp only [Pred.call, morphRequired]
    split <;> (intro h; cases h)
  | .tagP v, _ => by
    simp only [Pred.call]
    split <;> (intro h; cases h)
  | .customP f ts, _ => by
    simp only [Pred.call]
    split
    · intro h; cases h
    · exact hfn _ _
  | .true, _ => by intro h; cases h
  | .isLower, _ => by intro h; cases h
  | .isUpper, _ => by intro h; cases h
  | .isTitle, _ => by intro h; cases h
  | .eq _, _ => by intro h; cases h
  | .lengthEq _, _ => by intro h; cases h
  | .caseless _, _ => by intro h; cases h
  | .in_ _, _ => by intro h; cases h
  | .inCaseless _, _ => by intro h; cases h
  | .typeP _, _ => by intro h; cases h
theorem fixed_askableAll (hfn : ∀ f v, L.fn f v ≠ .error .notImplemented) {t : Token} : ∀ {ps : List Pred},
    activateAll easy ps = .ok ps → callAnd L t ps ≠ .error .notImplemented ∧
      callOr L t ps ≠ .error .notImplemented
  | [], _ => ⟨(fun h => nomatch h), (fun h => nomatch h)⟩
  | p :: ps, h => by
    simp only [activateAll, bind, Except.bind] at h
    split at h
    · cases h
    · rename_i q hq
      split at h
      · cases h
      · rename_i qs hqs
        cases h
        have h1 := fixed_askable hfn (t := t) hq
        have h2 := fixed_askableAll hfn (t := t) hqs
        simp only [callAnd, callOr]
        cases e : p.call L t with
        | error x => rw [e] at h1; exact ⟨h1, h1⟩
        | ok b => cases b <;> exact ⟨by first | exact h2.1 | simp, by first | exact h2.2 | simp⟩
end

/-! ### Invariants of programs -/

theorem production_tag {P : Type} (o : Obj P) : production o = o.tag.isProd := by cases o <;> rfl

theorem hasProductions_tag {P : Type} (o : Obj P) : hasProductions o = o.tag.hasProds := by cases o <;> rfl

/-- Gazetteers that were split have activated predicates. -/
def Stored (h : Heap Pred) : Prop :=
  ∀ o ∈ h, (∀ v ps, o = .pipeProd v ps → ∀ p ∈ ps, Fixed p) ∧
    ∀ k ks, o = .pipe (.keys k ks) → ∀ e ∈ ks, ∀ p ∈ e.2, Fixed p

theorem stored_preds {o : Obj Pred} (h : ∀ p ∈ o.preds, Fixed p) :
    (∀ v ps, o = .pipeProd v ps → ∀ p ∈ ps, Fixed p) ∧
    ∀ k ks, o = .pipe (.keys k ks) → ∀ e ∈ ks, ∀ p ∈ e.2, Fixed p := by
  constructor
  · rintro v ps rfl p hp; exact h p hp
  · rintro k ks rfl e he p hp; exact h p (List.mem_flatMap.2 ⟨e, he, hp⟩)

theorem key_fixed {c : Context} {split : Str → List Str} {k : PipeKind} {l : Str} {ps : List Pred}
    (e : pipeKey L c split k l = .ok ps) : ∀ p ∈ ps, Fixed p := by
  cases k with
  | exact =>
    cases e
    intro p hp
    obtain ⟨w, _, rfl⟩ := List.mem_map.1 hp
    intro c; rfl
  | caseless =>
    cases e
    intro p hp
    obtain ⟨w, _, rfl⟩ := List.mem_map.1 hp
    intro c; rfl
  | morph =>
    intro p hp
    obtain ⟨w, _, hw⟩ := (mapM_mem e p).1 hp
    obtain ⟨m, _, rfl⟩ := except_map_ok hw
    intro c; rfl

/-- What activation leaves is activated. -/
theorem activateObj_fixed {c : Context} {split : Str → List Str} {o o' : Obj Pred}
    (hs : (∀ v ps, o = .pipeProd v ps → ∀ p ∈ ps, Fixed p) ∧
      ∀ k ks, o = .pipe (.keys k ks) → ∀ e ∈ ks, ∀ p ∈ e.2, Fixed p)
    (e : activateObj (c.activation L split) o = .ok o') : ∀ p ∈ o'.preds, Fixed p := by
  cases o with
  | prod ts m =>
    obtain ⟨ts', h1, rfl⟩ := except_map_ok e
    intro p hp
    obtain ⟨t, _, ht⟩ := (mapM_mem h1 _).1 (Pass.preds_prod.1 hp)
    cases t with
    | rule r => cases ht
    | pred q =>
      obtain ⟨q', hq, e⟩ := except_map_ok ht
      cases e
      exact activate_fixed hq
  | pipe pl =>
    obtain ⟨pl', h1, rfl⟩ := except_map_ok e
    cases pl with
    | scheme k lines =>
      obtain ⟨ks, h2, rfl⟩ := except_map_ok h1
      intro p hp
      obtain ⟨x, hx, hpx⟩ := List.mem_flatMap.1 hp
      obtain ⟨l, _, hl⟩ := (mapM_mem h2 x).1 hx
      obtain ⟨ps, hps, rfl⟩ := except_map_ok hl
      exact key_fixed hps p hpx
    | keys k ks =>
      cases h1
      intro p hp
      obtain ⟨x, hx, hpx⟩ := List.mem_flatMap.1 hp
      exact hs.2 k ks rfl x hx p hpx
  | pipeProd v ps => cases e; exact hs.1 v ps rfl
  | _ => cases e; intro p hp; cases hp

/-- What the objects of a program are like at any moment. -/
structure Healthy (L : Lang) (setOrder : List Str → List Str) (h : Heap Pred) : Prop where
  sorted : Sorted h
  stored : Stored h
  charted : ∀ o ∈ h, ∃ r, chartRuleOf L setOrder h o = .ok r
  filed : Filed h

theorem rule_at {P : Type} {h : Heap P} {r : Nat} (hr : RuleAt h r) :
    r < h.length ∧ isProdAt h r = false := by
  obtain ⟨o, h1, h2⟩ := hr
  exact ⟨(List.getElem?_eq_some_iff.1 h1).1, by rw [Pass.isProdAt_some h1, ← production_tag]; exact h2⟩

/-- Compiling a rule of a healthy heap. -/
theorem compile_healthy {h h' : Heap Pred} (hs : Sorted h) (hst : Stored h) {c : Context}
    {split : Str → List Str} {pid : Nat → Nat} (hp : ∀ a b, pid a = pid b → a = b) {limit root start : Nat}
    (hr : RuleAt h root) (e : compileRule (c.activation L split) pid limit root h = .ok (start, h')) :
    Compiled (c.activation L split) Fixed h root h' start ∧ Stored h' := by
  obtain ⟨hlt, hpr⟩ := rule_at hr
  have hc := compileRule_compiled (X := Fixed) hp hs hlt hpr
    (fun x o o' _ ho e => activateObj_fixed (hst o (List.mem_of_getElem? ho)) e) e
  refine ⟨hc, fun o ho => ?_⟩
  obtain ⟨a, ha⟩ := List.mem_iff_getElem?.1 ho
  rcases Nat.lt_or_ge a h.length with hl | hl
  · by_cases hra : Reach h root a
    · obtain ⟨o', k1, k2⟩ := hc.done a _ (List.getElem?_eq_getElem hl) hra
      rcases k2 with k | ⟨_, r, k⟩
      · rw [ha] at k; cases k
        exact stored_preds (activateObj_fixed (hst _ (List.getElem_mem hl)) k1)
      · rw [ha] at k; cases k
        exact stored_preds (by intro p hp; cases hp)
    · have := hc.rest a _ (List.getElem?_eq_getElem hl) hra
      rw [ha] at this; cases this
      exact hst _ (List.getElem_mem hl)
  · exact stored_preds (hc.new a o hl ha)

/-- So does a compilation that stops. -/
theorem left_healthy {h : Heap Pred} (hs : Sorted h) (hst : Stored h) (hf : Filed h) {c : Context}
    {split : Str → List Str} {pid : Nat → Nat} (hp : ∀ a b, pid a = pid b → a = b) {limit root : Nat}
    (hr : RuleAt h root) :
    Stopped (c.activation L split) Fixed h root (compileLeft (c.activation L split) pid limit root h) ∧
      Stored (compileLeft (c.activation L split) pid limit root h) ∧
      Filed (compileLeft (c.activation L split) pid limit root h) := by
  obtain ⟨hlt, hpr⟩ := rule_at hr
  obtain ⟨hc, hf'⟩ := compileLeft_stopped (X := Fixed) (limit := limit) hp filed_enduring
    (filed_activate (L := L) (c := c) (split := split)) hs hlt hpr
    (fun x o o' _ ho e => activateObj_fixed (hst o (List.mem_of_getElem? ho)) e) hf
  refine ⟨hc, fun o ho => ?_, hf'⟩
  obtain ⟨a, ha⟩ := List.mem_iff_getElem?.1 ho
  rcases Nat.lt_or_ge a h.length with hl | hl
  · by_cases hra : Reach h root a
    · rcases hc.done a _ (List.getElem?_eq_getElem hl) hra with k | ⟨o', k1, k⟩ | ⟨_, r, k⟩
      · rw [ha] at k; cases k
        exact hst _ (List.getElem_mem hl)
      · rw [ha] at k; cases k
        exact stored_preds (activateObj_fixed (hst _ (List.getElem_mem hl)) k1)
      · rw [ha] at k; cases k
        exact stored_preds (by intro p hp; cases hp)
    · have := hc.rest a _ (List.getElem?_eq_getElem hl) hra
      rw [ha] at this; cases this
      exact hst _ (List.getElem_mem hl)
  · exact stored_preds (hc.new a o hl ha)

/-- The parts of `buildParser`. -/
theorem buildParser_parts {h h' : Heap Pred} {c : Context} {split : Str → List Str} {relation : Nat → Relation}
    {pid : Nat → Nat} {limit root : Nat} {b : Built}
    (e : buildParser L setOrder c split relation pid limit root h = .ok (b, h')) :
    ∃ start, compileRule (c.activation L split) pid limit root h = .ok (start, h') ∧
      toGrammar L setOrder start h' = .ok b.grammar ∧ b.agreement = ⟨relationAt h', relation⟩ := by
  unfold buildParser at e
  simp only [bind, Except.bind] at e
  split at e
  · cases e
  · rename_i x hx
    obtain ⟨start, h1⟩ := x
    simp only at e
    split at e
    · cases e
    · rename_i g hgr
      cases e
      exact ⟨start, hx, hgr, rfl⟩

theorem chartRuleOf_congr {h h' : Heap Pred} {o : Obj Pred}
    (hc : ∀ p ∈ o.children, productionAt h' p = productionAt h p) :
    chartRuleOf L setOrder h' o = chartRuleOf L setOrder h o := by
  cases o with
  | bnf ps n i r k =>
    have : ps.map (productionAt h') = ps.map (productionAt h) := List.map_congr_left hc
    cases k <;> simp only [chartRuleOf, this]
  | _ => rfl

theorem productionAt_congr {h h' : Heap Pred} {p : Nat} (e : h'[p]? = h[p]?) :
    productionAt h' p = productionAt h p := by unfold productionAt; rw [e]

theorem act_healthy {h h' : Heap Pred} (hs : Act L setOrder h h') (hh : Healthy L setOrder h) :
    Healthy L setOrder h' := by
  cases hs with
  | @make o hm =>
    have hget : ∀ c, c < h.length → (h ++ [o])[c]? = h[c]? := fun c hc => List.getElem?_append_left hc
    have isProd : ∀ c, c < h.length → isProdAt (h ++ [o]) c = isProdAt h c := by
      intro c hc; unfold isProdAt; rw [hget c hc]
    have hsort : Sorted (h ++ [o]) := by
      intro a o' ha c hc
      rcases Nat.lt_or_ge a h.length with hl | hl
      · rw [hget a hl] at ha
        obtain ⟨k1, k2⟩ := hh.sorted a o' ha c hc
        exact ⟨by rw [List.length_append]; omega, by rw [isProd c k1]; exact k2⟩
      · have : a = h.length := by
          have := (List.getElem?_eq_some_iff.1 ha).1
          rw [List.length_append, List.length_singleton] at this; omega
        subst this
        rw [List.getElem?_append_right (Nat.le_refl _)] at ha
        simp only [Nat.sub_self, List.getElem?_cons_zero, Option.some.injEq] at ha
        subst ha
        obtain ⟨oc, k1, k2⟩ := hm.parts c hc
        have hcl := (List.getElem?_eq_some_iff.1 k1).1
        refine ⟨by rw [List.length_append]; omega, ?_⟩
        rw [isProd c hcl, Pass.isProdAt_some k1, ← production_tag, k2, hasProductions_tag]
    refine ⟨hsort, ?_, ?_, hh.filed.append (fun x hx => ?_)⟩
    rotate_left 2
    · rw [List.mem_singleton] at hx; subst hx
      cases x with
      | bnf => exact absurd rfl (hm.bnf _ _ _ _ _)
      | pipe p => cases p with
        | keys k ks => exact absurd rfl (hm.keys k ks)
        | scheme => trivial
      | _ => trivial
    · intro x hx
      rcases List.mem_append.1 hx with hx | hx
      · exact hh.stored x hx
      · rw [List.mem_singleton] at hx; subst hx
        exact ⟨fun v ps e => absurd e (hm.pipeProd v ps), fun k ks e => absurd e (hm.keys k ks)⟩
    · intro x hx
      rcases List.mem_append.1 hx with hx | hx
      · obtain ⟨a, ha⟩ := List.mem_iff_getElem?.1 hx
        rw [chartRuleOf_congr (h := h)]
        · exact hh.charted x hx
        · intro p hp
          exact productionAt_congr (hget p (hh.sorted a x ha p hp).1)
      · rw [List.mem_singleton] at hx; subst hx
        cases x <;> first | exact ⟨_, rfl⟩ | exact absurd rfl (hm.bnf _ _ _ _ _)
  | @define a c r ha hr =>
    obtain ⟨hrl, hrp⟩ := rule_at hr
    have hal := (List.getElem?_eq_some_iff.1 ha).1
    have isProd : ∀ c, isProdAt (h.set a (.forward (some r))) c = isProdAt h c := by
      intro c
      by_cases hc : c = a
      · subst hc
        rw [Pass.isProdAt_some (List.getElem?_set_self hal), Pass.isProdAt_some ha]; rfl
      · unfold isProdAt; rw [List.getElem?_set_ne (fun e => hc e.symm)]
    have hprod : ∀ p, productionAt (h.set a (.forward (some r))) p = productionAt h p := by
      intro p
      by_cases hp : p = a
      · subst hp
        unfold productionAt
        rw [List.getElem?_set_self hal, ha]
      · exact productionAt_congr (List.getElem?_set_ne (fun e => hp e.symm))
    refine ⟨?_, ?_, ?_, filed_enduring.define h a r c hh.filed ha⟩
    · intro x o hx d hd
      rw [List.length_set, isProd]
      by_cases hxa : x = a
      · subst hxa
        rw [List.getElem?_set_self hal] at hx; cases hx
        simp only [Obj.children, Option.toList_some, List.mem_singleton] at hd
        subst hd
        exact ⟨hrl, hrp⟩
      · rw [List.getElem?_set_ne (fun e => hxa e.symm)] at hx
        exact hh.sorted x o hx d hd
    · intro x hx
      rcases List.mem_or_eq_of_mem_set hx with hx | rfl
      · exact hh.stored x hx
      · exact stored_preds (by intro p hp; cases hp)
    · intro x hx
      rcases List.mem_or_eq_of_mem_set hx with hx | rfl
      · rw [chartRuleOf_congr (h := h) (fun p _ => hprod p)]
        exact hh.charted x hx
      · exact ⟨_, rfl⟩
  | build hp hr e =>
    obtain ⟨start, h1, h2, _⟩ := buildParser_parts e
    obtain ⟨hc, hst⟩ := compile_healthy hh.sorted hh.stored hp hr h1
    obtain ⟨hlt, hpr⟩ := rule_at hr
    obtain ⟨g2, hf2, heq⟩ := compileRule_endures (X := Fixed) hp filed_enduring filed_activate hh.sorted hlt hpr
      (fun x o o' _ ho e => activateObj_fixed (hh.stored o (List.mem_of_getElem? ho)) e) hh.filed h1
    have hf := heq ▸ filed_names _ _ _ hf2
    exact ⟨hc.sorted, hst, filed_charted hf, hf⟩
  | failed hp hr _ =>
    obtain ⟨hs, hst, hf⟩ := left_healthy hh.sorted hh.stored hh.filed hp hr
    exact ⟨hs.sorted, hst, filed_charted hf, hf⟩

theorem run_healthy {h h' : Heap Pred} (hr : Run L setOrder h h') (hh : Healthy L setOrder h) :
    Healthy L setOrder h' := by
  induction hr with
  | nil => exact hh
  | cons h1 _ ih => exact ih (act_healthy h1 hh)

theorem healthy_nil : Healthy L setOrder [] :=
  ⟨(by intro a o h; cases h), (by intro o h; cases h), (by intro o h; cases h), filed_nil⟩


/-! ### C47: what is built can be used -/

theorem typed_fit {h : Heap Pred} {start : Nat} {ask : Pred → Prop} (ht : Typed chartTags ask h start) {x : Nat}
    (hx : Reach h start x) : ∃ o, h[x]? = some o ∧ FitFor ask h o := by
  obtain ⟨o, k1, k2, k3, k4⟩ := ht x hx
  refine ⟨o, k1, ?_⟩
  cases o <;> first | (cases k2; done) | skip
  · rename_i ts m
    refine .prod (fun y hy => ?_) (fun p hp => k3 p (Pass.preds_prod.2 hp))
    have hc : y ∈ (Obj.prod ts m).children := termRules_mem.2 hy
    obtain ⟨oy, q1, q2, _⟩ := ht y (.step hx k1 hc)
    have q3 := k4 y hc
    rw [Pass.isProdAt_some q1] at q3
    cases oy <;> first | exact ⟨_, _, _, _, _, q1⟩ | (cases q3; done) | (cases q2; done)
  · exact .emptyProd
  · exact .pipeProd k3
  · rename_i ps n i r k
    refine .bnf (fun p hp => ?_)
    obtain ⟨op, q1, _⟩ := ht p (.step hx k1 hp)
    have q3 := k4 p hp
    rw [Pass.isProdAt_some q1] at q3
    exact ⟨op, q1, by rw [production_tag, q3]; rfl⟩

/-- C47: whatever a program did before: if a rule is compiled, the result is a compiled rule, and all
that can be reached from it are compiled rules with productions, and productions with compiled rules and
with predicates that can be asked. Nothing that the chart parser cannot handle is left: no forward rule,
no rule that was not compiled, no predicate that was not activated. -/
theorem built_parser_fit {h h' : Heap Pred} (hrun : Run L setOrder [] h) {c : Context}
    {split : Str → List Str} {pid : Nat → Nat} (hp : ∀ a b, pid a = pid b → a = b) {limit root start : Nat}
    (hfn : ∀ f v, L.fn f v ≠ .error .notImplemented)
    (hr : RuleAt h root) (e : compileRule (c.activation L split) pid limit root h = .ok (start, h')) :
    (∃ ps n i r k, h'[start]? = some (.bnf ps n i r k)) ∧
      ∀ x, Reach h' start x → ∃ o, h'[x]? = some o ∧ FitFor (Askable L) h' o := by
  have hh := run_healthy hrun healthy_nil
  obtain ⟨hc, _⟩ := compile_healthy hh.sorted hh.stored hp hr e
  refine ⟨hc.bnf, fun x hx => typed_fit (fun y hy => ?_) hx⟩
  obtain ⟨o, k1, k2, k3, k4⟩ := hc.typed y hy
  exact ⟨o, k1, k2, fun p hp t => fixed_askable hfn (k3 p hp easy), k4⟩

theorem fit_proper {ask : Pred → Prop} {h : Heap Pred} {start : Nat} (hc : ClosedHeap h)
    (hb : ∃ ps n i r k, h[start]? = some (.bnf ps n i r k))
    (hf : ∀ x, Reach h start x → ∃ o, h[x]? = some o ∧ FitFor ask h o) : proper start h = true := by
  obtain ⟨ps, n, i, r, k, hb⟩ := hb
  have hlt := (List.getElem?_eq_some_iff.1 hb).1
  unfold proper
  rw [Bool.and_eq_true, List.all_eq_true]
  refine ⟨by unfold isBnf; rw [hb], fun x hx => ?_⟩
  obtain ⟨o, h1, h2⟩ := hf x ((reach_iff (fun _ _ h => h) hc hlt x).1 hx)
  unfold properAt
  rw [h1]
  cases h2 with
  | bnf k =>
    refine List.all_eq_true.2 (fun p hp => ?_)
    obtain ⟨o', q1, q2⟩ := k p hp
    unfold isProduction
    rw [q1]
    cases o' <;> first | rfl | cases q2
  | prod k _ =>
    refine termsProper_iff.2 (fun y hy => ?_)
    obtain ⟨_, _, _, _, _, q⟩ := k y hy
    unfold isBnf
    rw [q]
  | emptyProd => rfl
  | pipeProd _ => rfl

/-- C47, in terms of the model of `Parser.__init__`: once the rule is compiled, the check of the grammar
made there never fails. -/
theorem built_proper {h h' : Heap Pred} (hrun : Run L setOrder [] h) {c : Context}
    {split : Str → List Str} {pid : Nat → Nat} (hp : ∀ a b, pid a = pid b → a = b) {limit root start : Nat}
    (hr : RuleAt h root) (e : compileRule (c.activation L split) pid limit root h = .ok (start, h')) :
    proper start h' = true := by
  have hh := run_healthy hrun healthy_nil
  obtain ⟨hc, _⟩ := compile_healthy hh.sorted hh.stored hp hr e
  exact fit_proper hc.sorted.closed hc.bnf (fun x hx => typed_fit hc.typed hx)

/-! ### C48: parsers do not disturb each other -/

theorem activateObj_same {c : Context} {split : Str → List Str} {o o' : Obj Pred} (ht : chartTags o.tag = true)
    (hp : ∀ p ∈ o.preds, Fixed p) (e : activateObj (c.activation L split) o = .ok o') : o' = o := by
  cases o <;> first | (cases ht; done) | (cases e; rfl) | skip
  rename_i ts m
  obtain ⟨ts', h1, rfl⟩ := except_map_ok e
  congr 1
  have key : ∀ (ts ts' : List (Term Pred)), (∀ p, .pred p ∈ ts → Fixed p) →
      ts.mapM (activateTerm (c.activation L split)) = .ok ts' → ts' = ts := by
    intro ts
    induction ts with
    | nil => intro ts' _ h; cases h; rfl
    | cons t ts ih =>
      intro ts' hf h
      rw [List.mapM_cons] at h
      have hd : activateTerm (c.activation L split) t = .ok t := by
        cases t with
        | rule r => rfl
        | pred p => simp only [activateTerm, Context.activation, hf p List.mem_cons_self c]; rfl
      rw [hd] at h
      cases h2 : ts.mapM (activateTerm (c.activation L split)) with
      | error e => rw [h2] at h; cases h
      | ok us =>
        rw [h2] at h; cases h
        rw [ih us (fun p hp => hf p (List.mem_cons_of_mem _ hp)) h2]
  exact key ts ts' (fun p h => hp p (Pass.preds_prod.2 h)) h1

theorem reach_same {P : Type} {h h' : Heap P} {start : Nat} (he : ∀ x, Reach h start x → h'[x]? = h[x]?) (x : Nat) :
    Reach h' start x ↔ Reach h start x := by
  constructor
  · intro hx
    induction hx with
    | root => exact .root
    | step _ ho hc ih => exact .step ih (he _ ih ▸ ho) hc
  · intro hx
    induction hx with
    | root => exact .root
    | step hu ho hc ih => exact .step ih ((he _ hu).trans ho) hc

theorem typed_same {P : Type} {T : Tag → Bool} {X : P → Prop} {h h' : Heap P} {start : Nat}
    (ht : Typed T X h start) (he : ∀ x, Reach h start x → h'[x]? = h[x]?) : Typed T X h' start := by
  intro x hx
  have hx' := (reach_same he x).1 hx
  obtain ⟨o, k1, k2, k3, k4⟩ := ht x hx'
  refine ⟨o, (he x hx').trans k1, k2, k3, fun c hc => ?_⟩
  unfold isProdAt
  rw [he c (.step hx' k1 hc)]
  exact k4 c hc

theorem act_same {h h' : Heap Pred} {start : Nat} (ha : Act L setOrder h h') (hh : Healthy L setOrder h)
    (ht : Typed chartTags Fixed h start) : ∀ x, Reach h start x → h'[x]? = h[x]? := by
  intro x hx
  obtain ⟨o, k1, k2, k3, k4⟩ := ht x hx
  have hlt := (List.getElem?_eq_some_iff.1 k1).1
  cases ha with
  | make => exact List.getElem?_append_left hlt
  | define hd _ =>
    refine List.getElem?_set_ne (fun e => ?_)
    subst e
    rw [hd] at k1; cases k1; cases k2
  | @build c split relation pid limit root b _ hp hr e =>
    obtain ⟨start', h1, _⟩ := buildParser_parts e
    obtain ⟨hc, _⟩ := compile_healthy hh.sorted hh.stored hp hr h1
    by_cases hrx : Reach h root x
    · obtain ⟨o', q1, q2⟩ := hc.done x o k1 hrx
      rcases q2 with q | ⟨⟨d, rfl⟩, _⟩
      · rw [activateObj_same k2 k3 q1] at q
        rw [q, k1]
      · cases k2
    · rw [hc.rest x o k1 hrx, k1]
  | @failed c split relation pid limit root e hp hr _ =>
    obtain ⟨hc, _⟩ := left_healthy (limit := limit) (c := c) (split := split) hh.sorted hh.stored hh.filed hp hr
    by_cases hrx : Reach h root x
    · rcases hc.done x o k1 hrx with q | ⟨o', q1, q⟩ | ⟨⟨d, rfl⟩, _⟩
      · rw [q, k1]
      · rw [activateObj_same k2 k3 q1] at q
        rw [q, k1]
      · cases k2
    · rw [hc.rest x o k1 hrx, k1]

theorem run_same {h h' : Heap Pred} {start : Nat} (hr : Run L setOrder h h') : Healthy L setOrder h →
    Typed chartTags Fixed h start → ∀ x, Reach h start x → h'[x]? = h[x]? := by
  induction hr with
  | nil => intro _ _ x _; rfl
  | cons h1 _ ih =>
    intro hh ht x hx
    have hs := act_same h1 hh ht
    rw [ih (act_healthy h1 hh) (typed_same ht hs) x ((reach_same hs x).2 hx), hs x hx]

theorem mapM_ok_of {α β : Type} {f : α → Except Err β} : ∀ {xs : List α}, (∀ x ∈ xs, ∃ y, f x = .ok y) →
    ∃ ys, xs.mapM f = .ok ys := by
  intro xs
  induction xs with
  | nil => intro _; exact ⟨[], rfl⟩
  | cons x xs ih =>
    intro h
    obtain ⟨y, hy⟩ := h x List.mem_cons_self
    obtain ⟨ys, hys⟩ := ih (fun z hz => h z (List.mem_cons_of_mem _ hz))
    exact ⟨y :: ys, by rw [List.mapM_cons, hy, hys]; rfl⟩

/-- The grammar of the objects below a rule. -/
theorem grammar_same {h h' : Heap Pred} {start : Nat} {G G' : Grammar Pred Token} (hs : SetOrder setOrder)
    (hc : ClosedHeap h) (hc' : ClosedHeap h') (he : ∀ x, Reach h start x → h'[x]? = h[x]?)
    (e : toGrammar L setOrder start h = .ok G) (e' : toGrammar L setOrder start h' = .ok G')
    (hlt : start < h.length) (hlt' : start < h'.length) :
    SameOn (Reach h start) G G' := by
  obtain ⟨g1, g2, _, rs, g3, g4⟩ := toGrammar_ok hc hlt e
  obtain ⟨g1', g2', _, rs', g3', g4'⟩ := toGrammar_ok hc' hlt' e'
  have hP := (library_predict (start := start) hs g4).1
  rw [← g3] at hP
  unfold toGrammar at e e'
  split at e
  · split at e'
    · obtain ⟨rules, k1, rfl⟩ := except_map_ok e
      obtain ⟨rules', k1', rfl⟩ := except_map_ok e'
      have hrule : ∀ r, Reach h start r → rules'[r]? = rules[r]? := by
        intro r hr
        have hr' := he r hr
        cases ho : h[r]? with
        | none =>
          have : h.length ≤ r := List.getElem?_eq_none_iff.1 ho
          rw [ho] at hr'
          have : h'.length ≤ r := List.getElem?_eq_none_iff.1 hr'
          have n1 := (mapM_get k1).1
          have n2 := (mapM_get k1').1
          rw [List.getElem?_eq_none (by omega), List.getElem?_eq_none (by omega)]
        | some o =>
          obtain ⟨y, q1, q2⟩ := (mapM_get k1).2 r o ho
          obtain ⟨y', q1', q2'⟩ := (mapM_get k1').2 r o (hr'.trans ho)
          rw [chartRuleOf_congr (h := h)] at q2'
          · rw [q2] at q2'; cases q2'; rw [q1, q1']
          · intro p hp
            exact productionAt_congr (he p (.step hr ho hp))
      have closed : ∀ r, Reach h start r → ∀ p ∈ (predGrammar L rules start).productions r,
          ∀ x, .rule x ∈ p.terms → Reach h start x := by
        intro r hr p hp x hx
        cases hb : isBnf h r with
        | false => rw [g2.none r hb] at hp; cases hp
        | true =>
          unfold isBnf at hb
          split at hb
          · rename_i ps n i y d ho
            rw [g2.productions r ps n i y d ho] at hp
            obtain ⟨q, hq, rfl⟩ := List.mem_map.1 hp
            exact (prod_terms g2 (.step hr ho hq) x hx).1
          · cases hb
      refine ⟨rfl, .root, rfl, rfl, ?_, ?_, closed, fun r t hr p hp => closed r hr p (hP r t p hp)⟩
      · intro r hr
        unfold Grammar.productions predGrammar
        simp only [hrule r hr]
      · intro r t hr
        unfold Grammar.predict predGrammar
        simp only [hrule r hr]
    · cases e'
  · cases e

/-- C48: a parser keeps giving the same answers whatever the program does afterwards: making rules,
defining or redefining forward rules the parser was built from, building parsers of the same rules in
other contexts, even of the rules that the parser itself uses. The objects it works with are the same;
the grammar they make up is the same as far as the parser can see, and so are all results. -/
theorem parsers_independent {h h1 h2 : Heap Pred} (hs : SetOrder setOrder) (hrun : Run L setOrder [] h)
    {c : Context} {split : Str → List Str} {relation : Nat → Relation} {pid : Nat → Nat}
    (hp : ∀ a b, pid a = pid b → a = b) {limit root : Nat} {b : Built} (hr : RuleAt h root)
    (e : buildParser L setOrder c split relation pid limit root h = .ok (b, h1))
    (hrun' : Run L setOrder h1 h2) :
    (∀ x, Reach h1 b.grammar.start x → h2[x]? = h1[x]?) ∧
    ∃ G, toGrammar L setOrder b.grammar.start h2 = .ok G ∧
      ∀ {H : Type} [DecidableEq H] (hash : Key → H) (toks : List Token) (fuel : Nat),
        findall G ⟨relationAt h2, relation⟩ hash toks fuel = findall b.grammar b.agreement hash toks fuel ∧
        matchText G ⟨relationAt h2, relation⟩ hash toks fuel =
          matchText b.grammar b.agreement hash toks fuel ∧
        ∀ all, extract G ⟨relationAt h2, relation⟩ hash toks all fuel =
          extract b.grammar b.agreement hash toks all fuel := by
  have hh := run_healthy hrun healthy_nil
  obtain ⟨start, e1, e2, e3⟩ := buildParser_parts e
  obtain ⟨hc, _⟩ := compile_healthy hh.sorted hh.stored hp hr e1
  have hh1 := act_healthy (.build hp hr e) hh
  have hh2 := run_healthy hrun' hh1
  have hlt := hc.typed.lt
  have hstart : b.grammar.start = start := (toGrammar_ok hc.sorted.closed hlt e2).1
  rw [hstart]
  have hsame := run_same hrun' hh1 hc.typed
  have ht2 := typed_same hc.typed hsame
  have hb2 : ∃ ps n i r k, h2[start]? = some (.bnf ps n i r k) := by
    obtain ⟨ps, n, i, r, k, hb⟩ := hc.bnf
    exact ⟨ps, n, i, r, k, (hsame start .root).trans hb⟩
  have hpr := fit_proper hh2.sorted.closed hb2 (fun x hx => typed_fit ht2 hx)
  obtain ⟨rules, hrules⟩ := mapM_ok_of hh2.charted
  have hG : toGrammar L setOrder start h2 = .ok (predGrammar L rules start) := by
    unfold toGrammar
    rw [if_pos hpr, hrules]; rfl
  have hA : SameAgreement (Reach h1 start) ⟨relationAt h1, relation⟩ ⟨relationAt h2, relation⟩ :=
    ⟨fun r hr => by simp only [relationAt, hsame r hr], rfl⟩
  have hS := grammar_same hs hc.sorted.closed hh2.sorted.closed hsame e2 hG hlt ht2.lt
  refine ⟨hsame, _, hG, fun hash toks fuel => ?_⟩
  rw [e3]
  exact ⟨findall_sameOn hS hA fuel, matchText_sameOn hS hA fuel, fun all => extract_sameOn hS hA all fuel⟩

/-! ### A program -/

theorem run_trans {h h' h'' : Heap Pred} (h1 : Run L setOrder h h') (h2 : Run L setOrder h' h'') :
    Run L setOrder h h'' := by
  induction h1 with
  | nil => exact h2
  | cons a _ ih => exact .cons a (ih h2)

/-- `Makeable`, computed. -/
def makeable (h : Heap Pred) (o : Obj Pred) : Bool :=
  (o.children.all fun c => match h[c]? with
    | some o' => production o' == hasProductions o
    | none => false) &&
  match o with
  | .bnf .. | .pipeProd .. | .pipe (.keys ..) => false
  | _ => true

theorem makeable_ok {h : Heap Pred} {o : Obj Pred} (e : makeable h o = true) : Makeable h o := by
  unfold makeable at e
  rw [Bool.and_eq_true, List.all_eq_true] at e
  refine ⟨fun c hc => ?_, ?_, ?_, ?_⟩
  · have := e.1 c hc
    split at this
    · rename_i o' ho
      exact ⟨o', ho, beq_iff_eq.1 this⟩
    · cases this
  all_goals intros; rintro rfl; exact absurd e.2 (by simp)

def makeAll : Heap Pred → List (Obj Pred) → Bool
  | _, [] => true
  | h, o :: os => makeable h o && makeAll (h ++ [o]) os

theorem makeAll_run {os : List (Obj Pred)} : ∀ {h : Heap Pred}, makeAll h os = true →
    Run L setOrder h (h ++ os) := by
  induction os with
  | nil => intro h _; rw [List.append_nil]; exact .nil
  | cons o os ih =>
    intro h e
    simp only [makeAll, Bool.and_eq_true] at e
    have := ih e.2
    rw [List.append_assoc] at this
    exact .cons (.make (makeable_ok e.1)) this

/-- What a program made: the forward rule was defined last. -/
def programSource : Heap Pred :=
  [.forward (some 7), .prod [.pred (.eq "a".toList)] 0, .rule [1], .maxBounded 2 2 false,
   .prod [.rule 3, .rule 0] 0, .rule [4], .pipe (.scheme .exact ["b c".toList]), .or [5, 6]]

theorem programSource_run : Run L setOrder [] programSource := by
  have h1 : Run L setOrder [] (.forward none :: programSource.tail) :=
    makeAll_run (h := []) (by decide +kernel)
  refine run_trans h1 (.cons (.define (a := 0) (c := none) (r := 7) rfl ⟨.or [5, 6], rfl, rfl⟩) .nil)

def sampleBuild (root : Nat) (h : Heap Pred) : Except Err (Built × Heap Pred) :=
  buildParser sampleLang sampleOrder sampleContext sampleSplit (fun _ => .gender) id 60 root h

/-- What the program does next: a parser for the whole, another definition of the forward rule, one more
rule, a parser for one of the old rules and for the new one. -/
def later1 : Except Err (Built × Heap Pred) := sampleBuild 0 programSource

def later2 (h1 : Heap Pred) : Except Err (Built × Heap Pred) :=
  sampleBuild 5 (h1.set 0 (.forward (some 2)) ++ [.or [0, 5]])

def later3 (h1 h2 : Heap Pred) : Except Err (Built × Heap Pred) := sampleBuild h1.length h2

def isRuleAt (h : Heap Pred) (a : Nat) : Bool :=
  match h[a]? with
  | some o => !production o
  | none => false

theorem isRuleAt_ok {h : Heap Pred} {a : Nat} (e : isRuleAt h a = true) : RuleAt h a := by
  unfold isRuleAt at e
  split at e
  · rename_i o ho
    refine ⟨o, ho, ?_⟩
    cases h : production o
    · rfl
    · rw [h] at e; cases e
  · cases e

def isForwardTo (h : Heap Pred) (a : Nat) : Option Nat :=
  match h[a]? with
  | some (.forward c) => c
  | _ => none

/-- The hypotheses of `built_parser_fit` and `parsers_independent` are met: a parser is built, and four
things are done afterwards, which change the forward rule and leave more than a hundred new objects. -/
example : (∀ f v, sampleLang.fn f v ≠ .error .notImplemented) ∧ SetOrder sampleOrder ∧
    Run sampleLang sampleOrder [] programSource ∧ RuleAt programSource 0 ∧
    ∃ b h1 h2, sampleBuild 0 programSource = .ok (b, h1) ∧ Run sampleLang sampleOrder h1 h2 ∧
      h1[0]? ≠ h2[0]? ∧ h1.length + 100 < h2.length := by
  refine ⟨(by intro f v h; cases h), sampleOrder_ok, programSource_run, ⟨_, rfl, rfl⟩, ?_⟩
  have key : (match later1 with
      | .ok (_, h1) => (match later2 h1 with
        | .ok (_, h2) => (match later3 h1 h2 with
          | .ok (_, h3) => isForwardTo h1 0 != isForwardTo h3 0 && decide (h1.length + 100 < h3.length) &&
              isRuleAt h2 h1.length
          | .error _ => false)
        | .error _ => false) && (isForwardTo h1 0).isSome && isRuleAt h1 2 && isRuleAt h1 5 &&
          makeable (h1.set 0 (.forward (some 2))) (.or [0, 5]) &&
          isRuleAt (h1.set 0 (.forward (some 2)) ++ [.or [0, 5]]) 5
      | .error _ => false) = true := by decide +kernel
  split at key
  · rename_i b h1 e1
    rw [Bool.and_eq_true, Bool.and_eq_true, Bool.and_eq_true, Bool.and_eq_true, Bool.and_eq_true] at key
    obtain ⟨⟨⟨⟨⟨key, k0⟩, k2⟩, k5⟩, km⟩, kr⟩ := key
    split at key
    · rename_i b2 h2 e2
      split at key
      · rename_i b3 h3 e3
        rw [Bool.and_eq_true, Bool.and_eq_true, bne_iff_ne, decide_eq_true_iff] at key
        refine ⟨b, h1, h3, e1, ?_, fun e => key.1.1 (by unfold isForwardTo; rw [e]), key.1.2⟩
        have hf : ∃ c, h1[0]? = some (.forward c) := by
          unfold isForwardTo at k0
          split at k0
          · rename_i c hc; exact ⟨c, hc⟩
          · cases k0
        obtain ⟨c, hf⟩ := hf
        exact .cons (.define hf (isRuleAt_ok k2)) (.cons (.make (makeable_ok km))
          (.cons (.build (fun _ _ e => e) (isRuleAt_ok kr) e2)
          (.cons (.build (fun _ _ e => e) (isRuleAt_ok key.2) e3) .nil)))
      · cases key
    · cases key
  · cases key

end Yargy
