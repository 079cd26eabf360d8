import Verif.Proofs.ApiWords
import Verif.Properties.Choices
import Verif.Properties.Rebuild
/-! Lemmas on whole programs of calls. -/
namespace Yargy.Api

open Spec

variable {L : Lang} {setOrder : List Str → List Str} {builds : Prop}

theorem build_rule {h h' : Heap Pred} {c : Context} {split : Str → List Str} {relation : Nat → Relation}
    {pid : Nat → Nat} {limit root : Nat} {b : Built} (hh : Healthy L setOrder h)
    (hp : ∀ a b : Nat, pid a = pid b → a = b) (hr : RuleAt h root)
    (e : buildParser L setOrder c split relation pid limit root h = .ok (b, h')) {a : Nat} (ha : RuleAt h a) :
    RuleAt h' a := by
  obtain ⟨start, h1, h2, _⟩ := buildParser_parts e
  obtain ⟨hc, _⟩ := compile_healthy hh.sorted hh.stored hp hr h1
  obtain ⟨o, k1, k2⟩ := ha
  by_cases hra : Reach h root a
  · obtain ⟨o', q1, q2⟩ := hc.done a o k1 hra
    rcases q2 with q | ⟨_, r, q⟩
    · exact ⟨o', q, by rw [production_tag, (activateObj_shape q1).1, ← production_tag]; exact k2⟩
    · exact ⟨_, q, rfl⟩
  · exact ⟨o, hc.rest a o k1 hra, k2⟩

theorem left_rule {h : Heap Pred} {c : Context} {split : Str → List Str} {pid : Nat → Nat} {limit root : Nat}
    (hh : Healthy L setOrder h) (hp : ∀ a b : Nat, pid a = pid b → a = b) (hr : RuleAt h root) {a : Nat}
    (ha : RuleAt h a) : RuleAt (compileLeft (c.activation L split) pid limit root h) a := by
  obtain ⟨hc, _⟩ := left_healthy (L := L) (c := c) (split := split) (limit := limit) hh.sorted hh.stored hh.filed hp hr
  obtain ⟨o, k1, k2⟩ := ha
  by_cases hra : Reach h root a
  · rcases hc.done a o k1 hra with q | ⟨o', q1, q⟩ | ⟨_, r, q⟩
    · exact ⟨o, q, k2⟩
    · exact ⟨o', q, by rw [production_tag, (activateObj_shape q1).1, ← production_tag]; exact k2⟩
    · exact ⟨_, q, rfl⟩
  · exact ⟨o, hc.rest a o k1 hra, k2⟩

theorem holds_grown {w w' : World} (hr : ∀ a, RuleAt w.heap a → RuleAt w'.heap a) (hi : w.its <+: w'.its)
    (hl : w.rels <+: w'.rels) {x : Arg} (hx : Holds w x) : Holds w' x := by
  cases x with
  | rule a => exact hr a hx
  | main t =>
    cases t with
    | rule a => exact hr a hx
    | pred p => trivial
  | relation r => exact Nat.lt_of_lt_of_le hx hl.length_le
  | interpretator i => exact Nat.lt_of_lt_of_le hx hi.length_le
  | _ => trivial

/-- What a program does to the objects. -/
theorem does_run {w w' : World} {log : List (Call × Arg)} (hd : Does L setOrder builds w log w')
    (hh : Healthy L setOrder w.heap) :
    Run L setOrder w.heap w'.heap ∧ w.its <+: w'.its ∧ w.rels <+: w'.rels ∧
      (∀ a, RuleAt w.heap a → RuleAt w'.heap a) ∧ ∀ y ∈ log, Holds w' y.2 := by
  induction hd with
  | nil => exact ⟨.nil, List.prefix_refl _, List.prefix_refl _, fun _ h => h, by intro y hy; cases hy⟩
  | @call w c x w1 log w2 ha e _ ih =>
    have o := apply_ok ha e
    have hr := runWith_run (o.makes L setOrder)
    obtain ⟨k1, k2, k3, k4, k5⟩ := ih (run_healthy hr hh)
    refine ⟨run_trans hr k1, o.its.trans k2, o.rels.trans k3,
      fun a h => k4 a ((makes_grown (o.makes L setOrder)).rule h), ?_⟩
    intro y hy
    rcases List.mem_cons.1 hy with rfl | hy
    · exact holds_grown k4 k2 k3 o.holds
    · exact k5 y hy
  | raised _ _ _ ih => exact ih hh
  | build _ hp hr e _ ih =>
    obtain ⟨k1, k2, k3, k4, k5⟩ := ih (act_healthy (.build hp hr e) hh)
    exact ⟨.cons (.build hp hr e) k1, k2, k3, fun a h => k4 a (build_rule hh hp hr e h), k5⟩
  | failed _ hp hr e _ ih =>
    obtain ⟨k1, k2, k3, k4, k5⟩ := ih (act_healthy (.failed hp hr e) hh)
    exact ⟨.cons (.failed hp hr e) k1, k2, k3, fun a h => k4 a (left_rule hh hp hr h), k5⟩

/-- A program that builds no parser only adds objects and defines forward rules. -/
theorem does_grown {w w' : World} {log : List (Call × Arg)} (hd : Does L setOrder False w log w') :
    Grown w.heap w'.heap ∧ w.its <+: w'.its ∧ Makes L setOrder w.heap w'.heap := by
  induction hd with
  | nil => exact ⟨grown_refl _, List.prefix_refl _, .nil⟩
  | @call w c x w1 log w2 ha e _ ih =>
    have o := apply_ok ha e
    exact ⟨(makes_grown (o.makes L setOrder)).trans ih.1, o.its.trans ih.2.1,
      makes_trans (o.makes L setOrder) ih.2.2⟩
  | raised _ _ _ ih => exact ih
  | build hb => exact hb.elim
  | failed hb => exact hb.elim

/-- The moment at which a call of a program was made. -/
theorem does_split {w w' : World} {log : List (Call × Arg)} (hd : Does L setOrder False w log w') :
    ∀ {l1 l2 : List (Call × Arg)} {c : Call} {x : Arg}, log = l1 ++ (c, x) :: l2 →
      ∃ w1 w2, Does L setOrder False w l1 w1 ∧ (∀ y ∈ args c, Holds w1 y) ∧ c.apply w1 = .ok (x, w2) ∧
        Does L setOrder False w2 l2 w' := by
  induction hd with
  | nil => intro l1 l2 c x e; cases l1 <;> cases e
  | @call w c' x' w1 log w2 ha e hd ih =>
    intro l1 l2 c x hl
    cases l1 with
    | nil =>
      cases hl
      exact ⟨_, _, .nil, ha, e, hd⟩
    | cons y l1 =>
      cases hl
      obtain ⟨u1, u2, k1, k2, k3, k4⟩ := ih rfl
      exact ⟨u1, u2, .call ha e k1, k2, k3, k4⟩
  | raised ha e _ ih =>
    intro l1 l2 c x hl
    obtain ⟨u1, u2, k1, k2, k3, k4⟩ := ih hl
    exact ⟨u1, u2, .raised ha e k1, k2, k3, k4⟩
  | build hb => exact hb.elim
  | failed hb => exact hb.elim

theorem does_made {w w' : World} {log : List (Call × Arg)} (hd : Does L setOrder False w log w') {c : Call}
    {a : Nat} (hm : (c, .rule a) ∈ log) (hc : ∀ x items, c ≠ .define x items) : Made w' c a := by
  obtain ⟨l1, l2, hl⟩ := List.append_of_mem hm
  obtain ⟨w1, w2, _, k2, k3, k4⟩ := does_split hd hl
  obtain ⟨g1, g2, _⟩ := does_grown k4
  exact ((apply_ok k2 k3).made a rfl).grown g1 g2 hc

/-- What is not defined again stays as it is. -/
theorem does_still {w w' : World} {log : List (Call × Arg)} (hd : Does L setOrder False w log w') {f : Nat}
    (hf : f < w.heap.length) (hn : ∀ y items, (Call.define y items, Arg.rule f) ∉ log) :
    w'.heap[f]? = w.heap[f]? := by
  induction hd with
  | nil => rfl
  | @call w c x w1 log w2 ha e hd ih =>
    have o := apply_ok ha e
    have hsame : w1.heap[f]? = w.heap[f]? := by
      cases Classical.em (w1.heap[f]? = w.heap[f]?) with
      | inl h => exact h
      | inr hne =>
        obtain ⟨rfl, y, items, rfl⟩ := o.others f hne hf
        exact absurd List.mem_cons_self (hn y items)
    rw [ih ?_ (fun y items h => hn y items (List.mem_cons_of_mem _ h)), hsame]
    obtain ⟨o', ho⟩ : ∃ o', w.heap[f]? = some o' := ⟨_, List.getElem?_eq_getElem hf⟩
    rw [ho] at hsame
    exact (List.getElem?_eq_some_iff.1 hsame).1
  | raised _ _ _ ih => exact ih hf hn
  | build hb => exact hb.elim
  | failed hb => exact hb.elim

/-- Wrappers lead to earlier objects. -/
def Descends (h : Heap Pred) : Prop := ∀ (a : Nat) o r, h[a]? = some o → wrappedRule o = some r → r < a

theorem descends_makes {h h' : Heap Pred} (hm : Makes L setOrder h h') (hd : Descends h) : Descends h' := by
  induction hm with
  | nil => exact hd
  | @cons h _ _ a _ ih =>
    apply ih
    cases a with
    | @make o ho =>
      intro a o' r e hw
      rcases Nat.lt_or_ge a h.length with hl | hl
      · rw [List.getElem?_append_left hl] at e
        exact hd a o' r e hw
      · rw [List.getElem?_append_right hl] at e
        have hlt := (List.getElem?_eq_some_iff.1 e).1
        have : a = h.length := by simp at hlt; omega
        subst this
        simp only [Nat.sub_self, List.getElem?_cons_zero, Option.some.injEq] at e
        subst e
        have hc : r ∈ o.children := by cases o <;> cases hw <;> simp [Obj.children]
        obtain ⟨o1, h1, _⟩ := ho.parts r hc
        exact (List.getElem?_eq_some_iff.1 h1).1
    | @define f c r hf hr =>
      intro a o' r' e hw
      rcases Nat.decEq f a with hne | rfl
      · rw [List.getElem?_set_ne hne] at e
        exact hd a o' r' e hw
      · rw [List.getElem?_set_self (List.getElem?_eq_some_iff.1 hf).1] at e
        cases e; cases hw
    | build _ _ hx _ => exact hx.elim
    | failed _ _ hx _ => exact hx.elim

theorem inside_of {h : Heap Pred} {a f : Nat} (hi : Carries h a f) :
    (∃ c, h[a]? = some (.forward c) ∧ a = f) ∨ ∃ o r, h[a]? = some o ∧ wrappedRule o = some r ∧ Carries h r f := by
  cases hi with
  | forward e => exact .inl ⟨_, e, rfl⟩
  | wrapper ho hw hi =>
    refine .inr ⟨_, _, ho, ?_, hi⟩
    rcases hw with ⟨v, rfl | rfl⟩ | ⟨v, u, rfl⟩ | ⟨n, v, rfl | rfl⟩ | ⟨n, m, v, rfl⟩ | ⟨n, rfl⟩ | ⟨i, rfl⟩ | ⟨x, rfl⟩ <;> rfl

/-- Where `define` finds the forward rule. -/
theorem forwardOf_iff {h : Heap Pred} (hd : Descends h) : ∀ {n a : Nat}, a < n →
    (∃ f, forwardOf h n a = .ok f ∧ Carries h a f) ∨
      (forwardOf h n a = .error .attributeError ∧ ∀ f, ¬ Carries h a f) := by
  intro n
  induction n with
  | zero => intro a h; omega
  | succ n ih =>
    intro a hlt
    cases ha : h[a]? with
    | none =>
      refine .inr ⟨by rw [forwardOf, ha], fun f hi => ?_⟩
      rcases inside_of hi with ⟨c, h1, _⟩ | ⟨o, r, h1, _⟩ <;> rw [ha] at h1 <;> cases h1
    | some o =>
      cases hw : wrappedRule o with
      | some r =>
        have e : forwardOf h (n + 1) a = forwardOf h n r := by
          rw [forwardOf, ha]
          cases o <;> cases hw <;> rfl
        rcases ih (a := r) (by have := hd a o r ha hw; omega) with ⟨f, h1, h2⟩ | ⟨h1, h2⟩
        · rw [e]; exact .inl ⟨f, h1, forwardOf_inside (e.trans h1)⟩
        · rw [e]
          refine .inr ⟨h1, fun f hi => ?_⟩
          rcases inside_of hi with ⟨c, g1, _⟩ | ⟨o', r', g1, g2, g3⟩
          · rw [ha] at g1; cases g1; cases hw
          · rw [ha] at g1; cases g1
            rw [hw] at g2; cases g2
            exact h2 f g3
      | none =>
        by_cases hf : ∃ c, o = .forward c
        · obtain ⟨c, rfl⟩ := hf
          have e : forwardOf h (n + 1) a = .ok a := by rw [forwardOf, ha]
          exact .inl ⟨a, e, forwardOf_inside e⟩
        · refine .inr ⟨?_, fun f hi => ?_⟩
          · rw [forwardOf, ha]
            cases o <;> first
              | exact absurd ⟨_, rfl⟩ hf
              | (cases hw; done)
              | rfl
          · rcases inside_of hi with ⟨c, g1, _⟩ | ⟨o', r', g1, g2, g3⟩
            · rw [ha] at g1; cases g1; exact hf ⟨_, rfl⟩
            · rw [ha] at g1; cases g1
              rw [hw] at g2; cases g2

end Yargy.Api
