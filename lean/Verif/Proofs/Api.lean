import Verif.Spec.Api
import Verif.Properties.Builds
/-! Lemmas on the calls of a program. -/
namespace Yargy.Api

open Spec

variable {L : Lang} {setOrder : List Str → List Str}

/-- Objects made and forward rules defined, nothing else. -/
abbrev Makes (L : Lang) (setOrder : List Str → List Str) : Heap Pred → Heap Pred → Prop :=
  RunWith L setOrder (fun _ _ => False)

theorem makes_trans {h h' h'' : Heap Pred} (h1 : Makes L setOrder h h') (h2 : Makes L setOrder h' h'') :
    Makes L setOrder h h'' := by
  induction h1 with
  | nil => exact h2
  | cons a _ ih => exact .cons a (ih h2)

/-- What stays as it was: everything but the contents of forward rules. -/
structure Grown (h h' : Heap Pred) : Prop where
  keep : ∀ (a : Nat) o, h[a]? = some o → (∀ c, o ≠ .forward c) → h'[a]? = some o
  forward : ∀ (a : Nat) c, h[a]? = some (.forward c) → ∃ c', h'[a]? = some (.forward c')

theorem grown_refl (h : Heap Pred) : Grown h h := ⟨fun _ _ e _ => e, fun _ c e => ⟨c, e⟩⟩

theorem Grown.trans {h h' h'' : Heap Pred} (h1 : Grown h h') (h2 : Grown h' h'') : Grown h h'' where
  keep a o e hf := h2.keep a o (h1.keep a o e hf) hf
  forward a c e := by
    obtain ⟨c', e'⟩ := h1.forward a c e
    exact h2.forward a c' e'

theorem grown_append (h os : Heap Pred) : Grown h (h ++ os) where
  keep a o e _ := by rw [List.getElem?_append_left (List.getElem?_eq_some_iff.1 e).1]; exact e
  forward a c e := ⟨c, by rw [List.getElem?_append_left (List.getElem?_eq_some_iff.1 e).1]; exact e⟩

theorem grown_define {h : Heap Pred} {f : Nat} {c : Option Nat} (hf : h[f]? = some (.forward c)) (r : Nat) :
    Grown h (h.set f (.forward (some r))) where
  keep a o e hn := by
    rw [List.getElem?_set_ne]
    · exact e
    · rintro rfl
      rw [hf] at e; cases e
      exact hn c rfl
  forward a c' e := by
    rcases Nat.decEq f a with hne | rfl
    · exact ⟨c', by rw [List.getElem?_set_ne hne]; exact e⟩
    · exact ⟨some r, by rw [List.getElem?_set_self (List.getElem?_eq_some_iff.1 e).1]⟩

theorem makes_grown {h h' : Heap Pred} (hm : Makes L setOrder h h') : Grown h h' := by
  induction hm with
  | nil => exact grown_refl _
  | cons a _ ih =>
    refine Grown.trans ?_ ih
    cases a with
    | make _ => exact grown_append _ _
    | define hf _ => exact grown_define hf _
    | build _ _ hx _ => exact hx.elim
    | failed _ _ hx _ => exact hx.elim

theorem Grown.rule {h h' : Heap Pred} (hg : Grown h h') {a : Nat} (hr : RuleAt h a) : RuleAt h' a := by
  obtain ⟨o, ho, hp⟩ := hr
  by_cases hf : ∃ c, o = .forward c
  · obtain ⟨c, rfl⟩ := hf
    obtain ⟨c', e⟩ := hg.forward a c ho
    exact ⟨_, e, rfl⟩
  · exact ⟨o, hg.keep a o ho (fun c e => hf ⟨c, e⟩), hp⟩

/-! ### Items of rules -/

theorem prepareTerms_terms {items : List (Term Pred × Bool)} : ∀ {i : Nat} {m : Option Nat} {ts : List (Term Pred)}
    {k : Nat}, prepareTerms i m items = .ok (ts, k) → ts = items.map Prod.fst := by
  induction items with
  | nil => intro i m ts k e; cases e; rfl
  | cons x rest ih =>
    intro i m ts k e
    obtain ⟨t, b⟩ := x
    unfold prepareTerms at e
    cases b with
    | false =>
      simp only [Bool.false_eq_true, if_false] at e
      cases hr : prepareTerms (i + 1) m rest with
      | error e' => rw [hr] at e; cases e
      | ok y => rw [hr] at e; cases e; rw [ih hr]; rfl
    | true =>
      simp only [if_true] at e
      cases m with
      | some _ => cases e
      | none =>
        simp only at e
        cases hr : prepareTerms (i + 1) (some i) rest with
        | error e' => rw [hr] at e; cases e
        | ok y => rw [hr] at e; cases e; rw [ih hr]; rfl

/-- Whether an item comes marked. -/
theorem prepareItem_marked (x : Arg) : (prepareItem x).2 = marked x := by cases x <;> rfl

/-- At most one item is marked, none if one was before; then its number is the main one. -/
theorem prepareTerms_heads {items : List (Term Pred × Bool)} : ∀ {i : Nat} {m : Option Nat},
    (prepareTerms i m items = .error .valueError ∧
      2 ≤ (items.filter Prod.snd).length + (if m.isSome then 1 else 0)) ∨
    (∃ ts, prepareTerms i m items = .ok (ts, match items.findIdx? Prod.snd with
      | some n => i + n
      | none => m.getD 0) ∧
      (items.filter Prod.snd).length + (if m.isSome then 1 else 0) < 2) := by
  induction items with
  | nil => intro i m; exact .inr ⟨[], rfl, by cases m <;> simp⟩
  | cons x rest ih =>
    intro i m
    obtain ⟨t, b⟩ := x
    unfold prepareTerms
    cases b with
    | false =>
      simp only [Bool.false_eq_true, if_false, List.filter_cons, List.findIdx?_cons]
      rcases ih (i := i + 1) (m := m) with ⟨h1, h2⟩ | ⟨ts, h1, h2⟩
      · exact .inl ⟨by rw [h1]; rfl, h2⟩
      · refine .inr ⟨t :: ts, ?_, h2⟩
        rw [h1]
        cases rest.findIdx? Prod.snd with
        | none => rfl
        | some n => simp [Except.map, Nat.add_assoc, Nat.add_comm 1]
    | true =>
      simp only [if_true, List.filter_cons, List.findIdx?_cons]
      cases m with
      | some n => exact .inl ⟨rfl, by simp⟩
      | none =>
        simp only
        rcases ih (i := i + 1) (m := some i) with ⟨h1, h2⟩ | ⟨ts, h1, h2⟩
        · exact .inl ⟨by rw [h1]; rfl, by simpa using h2⟩
        · refine .inr ⟨t :: ts, ?_, by simpa using h2⟩
          have hn : rest.findIdx? Prod.snd = none := by
            rw [List.findIdx?_eq_none_iff]
            intro x hx
            cases hxb : x.2 with
            | false => rfl
            | true =>
              have := List.length_pos_of_mem (List.mem_filter.2 ⟨hx, hxb⟩)
              have h3 : (rest.filter Prod.snd).length + 1 < 2 := h2
              omega
          rw [h1, hn]; rfl

theorem filter_prepare (items : List Arg) :
    ((items.map prepareItem).filter Prod.snd).length = (items.filter marked).length := by
  induction items with
  | nil => rfl
  | cons x xs ih =>
    rw [List.map_cons, List.filter_cons, List.filter_cons, prepareItem_marked]
    split <;> simp [ih]

theorem find_prepare (items : List Arg) :
    (items.map prepareItem).findIdx? Prod.snd = items.findIdx? marked := by
  rw [List.findIdx?_map]
  congr 1
  funext x
  exact prepareItem_marked x

/-- The terms of a production and the number of its main one. -/
theorem prepared (items : List Arg) :
    (prepareTerms 0 none (items.map prepareItem) = .error .valueError ∧ TwoHeads items) ∨
    (prepareTerms 0 none (items.map prepareItem) =
      .ok (items.map (fun x => (prepareItem x).1), mainItem items) ∧ ¬ TwoHeads items) := by
  rcases prepareTerms_heads (items := items.map prepareItem) (i := 0) (m := none) with ⟨h1, h2⟩ | ⟨ts, h1, h2⟩
  · exact .inl ⟨h1, by rw [filter_prepare] at h2; simpa [TwoHeads] using h2⟩
  · refine .inr ⟨?_, by rw [filter_prepare] at h2; simp [TwoHeads] at h2 ⊢; exact h2⟩
    have ht := prepareTerms_terms h1
    rw [h1, ht, mainItem, find_prepare, List.map_map]
    cases items.findIdx? marked with
    | none => rfl
    | some n => simp

/-! ### What the calls do -/

theorem make_getElem (w : World) (o : Obj Pred) : (w.make o).2.heap[(w.make o).1]? = some o := by
  simp [World.make]

theorem makes_make {w : World} {o : Obj Pred} (ho : Makeable w.heap o) :
    Makes L setOrder w.heap (w.make o).2.heap := .cons (.make ho) .nil

theorem makeable_wrapper {h : Heap Pred} {o : Obj Pred} {r : Nat} (hr : RuleAt h r) (hc : o.children = [r])
    (hp : hasProductions o = false) (hn : ∀ ps n i x k, o ≠ .bnf ps n i x k) (hq : ∀ v ps, o ≠ .pipeProd v ps)
    (hk : ∀ k ks, o ≠ .pipe (.keys k ks)) : Makeable h o := by
  refine ⟨fun c e => ?_, hn, hq, hk⟩
  rw [hc, List.mem_singleton] at e
  subst e
  obtain ⟨o', h1, h2⟩ := hr
  exact ⟨o', h1, by rw [h2, hp]⟩

/-- What `rule(*items)` does. -/
theorem apiRule_ok {items : List Arg} {w : World} (hi : ∀ x ∈ items, Holds w x) {a : Nat} {w' : World}
    (e : apiRule items w = .ok (a, w')) :
    (∀ (L : Lang) (setOrder : List Str → List Str), Makes L setOrder w.heap w'.heap) ∧ w'.its = w.its ∧ w'.rels = w.rels ∧ RuleAt w'.heap a ∧
      ∃ p : Nat, w'.heap[a]? = some (.rule [p]) ∧
        w'.heap[p]? = some (.prod (items.map (fun x => (prepareItem x).1)) (mainItem items)) := by
  unfold apiRule at e
  rcases prepared items with ⟨h1, _⟩ | ⟨h1, _⟩
  · rw [h1] at e; cases e
  rw [h1] at e
  simp only [World.make, Except.ok.injEq, Prod.mk.injEq] at e
  obtain ⟨rfl, rfl⟩ := e
  refine ⟨fun L setOrder => ?_, rfl, rfl, ⟨.rule [w.heap.length], by simp, rfl⟩, w.heap.length, by simp, by simp⟩
  refine .cons (.make (o := .prod (items.map (fun x => (prepareItem x).1)) (mainItem items)) ⟨?_, ?_, ?_, ?_⟩)
    (.cons (.make (o := .rule [w.heap.length]) ⟨?_, ?_, ?_, ?_⟩) .nil)
  · intro c hc
    have : .rule c ∈ items.map (fun x => (prepareItem x).1) := by
      have : ∀ ts : List (Term Pred), c ∈ termRules ts → .rule c ∈ ts := by
        intro ts
        induction ts with
        | nil => intro h; cases h
        | cons t ts ih =>
          intro h
          cases t with
          | pred p => exact List.mem_cons_of_mem _ (ih h)
          | rule r =>
            rcases List.mem_cons.1 h with rfl | h
            · exact List.mem_cons_self
            · exact List.mem_cons_of_mem _ (ih h)
      exact this _ hc
    rw [List.mem_map] at this
    obtain ⟨x, hx, hxc⟩ := this
    have hh := hi x hx
    have : RuleAt w.heap c := by
      cases x with
      | rule a => cases hxc; exact hh
      | main t =>
        cases t with
        | rule a => cases hxc; exact hh
        | pred p => cases hxc
      | _ => cases hxc
    obtain ⟨o, h1, h2⟩ := this
    exact ⟨o, h1, h2⟩
  · intros; rintro ⟨⟩
  · intros; rintro ⟨⟩
  · intros; rintro ⟨⟩
  · intro c hc
    rw [Obj.children, List.mem_singleton] at hc
    subst hc
    exact ⟨.prod (items.map (fun x => (prepareItem x).1)) (mainItem items), by simp, rfl⟩
  · intros; rintro ⟨⟩
  · intros; rintro ⟨⟩
  · intros; rintro ⟨⟩

/-- The rule on which a method works. -/
theorem receiver_ok {x : Arg} {w : World} (hx : Holds w x) {r : Nat} {w' : World}
    (e : receiver x w = .ok (r, w')) :
    (∀ (L : Lang) (setOrder : List Str → List Str), Makes L setOrder w.heap w'.heap) ∧ w'.its = w.its ∧ w'.rels = w.rels ∧ RuleAt w'.heap r ∧ Stands w'.heap x r := by
  unfold receiver at e
  split at e
  · cases e; exact ⟨fun _ _ => .nil, rfl, rfl, hx, .rule⟩
  · obtain ⟨h1, h2, h3, h4, p, h5, h6⟩ := apiRule_ok (by simpa using hx) e
    exact ⟨h1, h2, h3, h4, .pred h5 h6⟩
  · cases e

/-- A rule made of several items. -/
def Consists (h : Heap Pred) (items : List Arg) (a : Nat) : Prop :=
  ∃ p : Nat, h[a]? = some (.rule [p]) ∧
    h[p]? = some (.prod (items.map (fun x => (prepareItem x).1)) (mainItem items))

/-- What a forward rule is defined as. -/
def DefinedAs (h : Heap Pred) (items : List Arg) (r : Nat) : Prop :=
  items = [.rule r] ∨ Consists h items r

/-- The objects that calls make. -/
inductive Made (w : World) : Call → Nat → Prop
  | rule {items a} : Consists w.heap items a → Made w (.rule items) a
  | empty {a : Nat} : w.heap[a]? = some .empty → Made w .empty a
  | forward {a : Nat} {c} : w.heap[a]? = some (.forward c) → Made w .forward a
  | or_ {items} {a : Nat} : items.all Arg.isRule = true → w.heap[a]? = some (.or (argRules items)) →
      Made w (.or_ items) a
  | optional {x v r b} {a : Nat} : Stands w.heap x r → v.getD (.bool false) = .bool b →
      w.heap[a]? = some (.optional r b) → Made w (.optional x v) a
  | repeatable {x min max b r} {a : Nat} {o lo hi} : Stands w.heap x r → w.heap[a]? = some o →
      o.repetition = some (r, b, lo, hi) →
      (if given min then bound min = some (lo : Int) else lo = 1) →
      (if given max then ∃ n, hi = some n ∧ bound max = some (n : Int) else hi = none) →
      (∀ n, hi = some n → lo ≤ n) → 1 ≤ lo →
      Made w (.repeatable x min max (.bool b)) a
  | named {x n r} {a : Nat} : Stands w.heap x r → w.heap[a]? = some (.named r n) → Made w (.named x (.str n)) a
  | interp {x t i r} {a : Nat} : Stands w.heap x r → Target w t i → w.heap[a]? = some (.interp r i) →
      Made w (.interpretation x t) a
  | relation {x i r} {a : Nat} : Stands w.heap x r → w.heap[a]? = some (.relation r i) →
      Made w (.match_ x (.relation i)) a
  | pipeline {kind ls} {a : Nat} : w.heap[a]? = some (.pipe (.scheme kind ls)) →
      Made w (.pipeline kind (ls.map .str)) a
  | define {x items r} {a : Nat} : DefinedAs w.heap items r → w.heap[a]? = some (.forward (some r)) →
      Made w (.define x items) a

theorem _root_.Yargy.Spec.Stands.grown {h h' : Heap Pred} (hg : Grown h h') {x : Arg} {r : Nat} (hs : Stands h x r) :
    Stands h' x r := by
  cases hs with
  | rule => exact .rule
  | pred h1 h2 => exact .pred (hg.keep _ _ h1 (by rintro c ⟨⟩)) (hg.keep _ _ h2 (by rintro c ⟨⟩))

theorem Consists.grown {h h' : Heap Pred} (hg : Grown h h') {items : List Arg} {a : Nat}
    (hc : Consists h items a) : Consists h' items a := by
  obtain ⟨p, h1, h2⟩ := hc
  exact ⟨p, hg.keep _ _ h1 (by rintro c ⟨⟩), hg.keep _ _ h2 (by rintro c ⟨⟩)⟩

theorem prefix_get {α : Type} {l l' : List α} (hp : l <+: l') {i : Nat} {x : α} (h : l[i]? = some x) :
    l'[i]? = some x := by
  obtain ⟨t, rfl⟩ := hp
  rw [List.getElem?_append_left (List.getElem?_eq_some_iff.1 h).1]; exact h

theorem target_grown {w w' : World} (hp : w.its <+: w'.its) {t : Arg} {i : Nat} (ht : Target w t i) :
    Target w' t i := by
  cases t <;> first | exact ht | exact prefix_get hp ht

/-- What a call made stays, except for what forward rules are defined as. -/
theorem Made.grown {w w' : World} (hg : Grown w.heap w'.heap) (hp : w.its <+: w'.its) {c : Call} {a : Nat}
    (hd : ∀ x items, c ≠ .define x items) (hm : Made w c a) : Made w' c a := by
  cases hm with
  | rule h => exact .rule (h.grown hg)
  | empty h => exact .empty (hg.keep _ _ h (by rintro c ⟨⟩))
  | forward h =>
    obtain ⟨c', h'⟩ := hg.forward _ _ h
    exact .forward h'
  | or_ h1 h2 => exact .or_ h1 (hg.keep _ _ h2 (by rintro c ⟨⟩))
  | optional h1 h2 h3 => exact .optional (h1.grown hg) h2 (hg.keep _ _ h3 (by rintro c ⟨⟩))
  | repeatable h1 h2 h3 h4 h5 h6 h7 =>
    exact .repeatable (h1.grown hg) (hg.keep _ _ h2 (by rintro c rfl; cases h3)) h3 h4 h5 h6 h7
  | named h1 h2 => exact .named (h1.grown hg) (hg.keep _ _ h2 (by rintro c ⟨⟩))
  | interp h1 h2 h3 => exact .interp (h1.grown hg) (target_grown hp h2) (hg.keep _ _ h3 (by rintro c ⟨⟩))
  | relation h1 h2 => exact .relation (h1.grown hg) (hg.keep _ _ h2 (by rintro c ⟨⟩))
  | pipeline h => exact .pipeline (hg.keep _ _ h (by rintro c ⟨⟩))
  | define => exact absurd rfl (hd _ _)

/-- What a successful call does. -/
structure Outcome (w : World) (c : Call) (x : Arg) (w' : World) : Prop where
  makes : ∀ (L : Lang) (setOrder : List Str → List Str), Makes L setOrder w.heap w'.heap
  its : w.its <+: w'.its
  rels : w.rels <+: w'.rels
  holds : Holds w' x
  made : ∀ a, x = .rule a → Made w' c a
  others : ∀ f, w'.heap[f]? ≠ w.heap[f]? → f < w.heap.length → x = .rule f ∧ ∃ y items, c = .define y items

theorem wrapped_ok {w w1 : World} {c : Call} {o : Obj Pred} {x : Arg} {w' : World}
    (hm : ∀ (L : Lang) (setOrder : List Str → List Str), Makes L setOrder w.heap w1.heap)
    (hpre : w.heap <+: w1.heap) (hi : w.its <+: w1.its) (hr : w.rels <+: w1.rels)
    (ho : Makeable w1.heap o) (hrule : production o = false)
    (e : w1.wrapped o = (x, w'))
    (made : ∀ (a : Nat), Grown w1.heap w'.heap → w'.its = w1.its → w'.heap[a]? = some o → Made w' c a) :
    Outcome w c x w' := by
  simp only [World.wrapped, World.make, Prod.mk.injEq] at e
  obtain ⟨rfl, rfl⟩ := e
  refine ⟨fun L so => makes_trans (hm L so) (.cons (.make ho) .nil), hi, hr, ⟨o, by simp, hrule⟩, ?_, ?_⟩
  · rintro a ⟨⟩
    exact made _ (grown_append _ _) rfl (by simp)
  · intro f hne hlt
    refine absurd ?_ hne
    obtain ⟨os, hos⟩ := hpre
    show (w1.heap ++ [o])[f]? = _
    rw [← hos, List.append_assoc, List.getElem?_append_left hlt]

theorem apiRule_prefix {items : List Arg} {w : World} {a : Nat} {w' : World}
    (e : apiRule items w = .ok (a, w')) : w.heap <+: w'.heap := by
  unfold apiRule at e
  split at e
  · cases e
  · simp only [World.make, Except.ok.injEq, Prod.mk.injEq] at e
    obtain ⟨_, rfl⟩ := e
    exact ⟨_, (List.append_assoc _ _ _).symm⟩

theorem receiver_prefix {x : Arg} {w : World} {r : Nat} {w' : World}
    (e : receiver x w = .ok (r, w')) : w.heap <+: w'.heap := by
  unfold receiver at e
  split at e
  · cases e; exact List.prefix_refl _
  · exact apiRule_prefix e
  · cases e

theorem asBound_ok {x : Arg} {least n : Nat} (e : asBound x least = .ok n) :
    bound x = some (n : Int) ∧ least ≤ n := by
  unfold asBound at e
  have hb : x.number = bound x := by cases x <;> rfl
  rw [hb] at e
  split at e
  · cases e
  · rename_i m hm
    split at e
    · cases e
    · cases e
      rename_i hlt
      rw [hm]
      exact ⟨congrArg some (by omega), by omega⟩

theorem truthy_given (x : Arg) : x.truthy = given x := by
  cases x with
  | str s => cases s <;> rfl
  | int n =>
    by_cases h : n = 0
    · subst h; rfl
    · have : given (.int n) = true := by
        cases n with
        | ofNat m => cases m with
          | zero => exact absurd rfl h
          | succ m => rfl
        | negSucc m => rfl
      rw [this]; simp [Arg.truthy, h]
  | bool b => cases b <;> rfl
  | _ => rfl

theorem wrapper_makeable {h : Heap Pred} {o : Obj Pred} {r : Nat} (hr : RuleAt h r) (hw : wrappedRule o = some r) :
    Makeable h o ∧ production o = false := by
  cases o <;> first
    | (cases hw; done)
    | (cases hw
       exact ⟨makeable_wrapper hr rfl rfl (by intros; rintro ⟨⟩) (by intros; rintro ⟨⟩) (by intros; rintro ⟨⟩), rfl⟩)

theorem except_bind_ok {ε α β : Type} {x : Except ε α} {f : α → Except ε β} {b : β}
    (h : (x >>= f) = .ok b) : ∃ a, x = .ok a ∧ f a = .ok b := by
  cases x with
  | error e => cases h
  | ok a => exact ⟨a, rfl, h⟩

theorem except_map_ok {ε α β : Type} {x : Except ε α} {f : α → β} {b : β}
    (h : x.map f = .ok b) : ∃ a, x = .ok a ∧ f a = b := by
  cases x with
  | error e => cases h
  | ok a => exact ⟨a, rfl, by cases h; rfl⟩

theorem still {w : World} {c : Call} {x : Arg} (hx : Holds w x) (hn : ∀ a, x ≠ .rule a) : Outcome w c x w :=
  ⟨fun _ _ => .nil, List.prefix_refl _, List.prefix_refl _, hx, fun a e => absurd e (hn a),
    fun _ h _ => absurd rfl h⟩

theorem related {w : World} {c : Call} {r : Relation} {x : Arg} {w' : World} (e : w.relate r = (x, w')) :
    Outcome w c x w' := by
  simp only [World.relate, Prod.mk.injEq] at e
  obtain ⟨rfl, rfl⟩ := e
  exact ⟨fun _ _ => .nil, List.prefix_refl _, List.prefix_append _ _,
    show w.rels.length < (w.rels ++ [r]).length by simp, (fun a e => by cases e), fun _ h _ => absurd rfl h⟩

theorem asBool_ok {x : Arg} {b : Bool} (e : asBool x = .ok b) : x = .bool b := by
  unfold asBool at e
  split at e
  · cases e; rfl
  · cases e

theorem asLines_ok {lines : List Arg} : ∀ {ls : List Str}, asLines lines = .ok ls → lines = ls.map .str := by
  induction lines with
  | nil => intro ls e; cases e; rfl
  | cons x rest ih =>
    intro ls e
    cases x with
    | str s =>
      obtain ⟨l, h1, h2⟩ := except_map_ok e
      subst h2
      rw [List.map_cons, ← ih h1]
    | _ => cases e

theorem tokenInterpretator_ok {t : Arg} {i : Interpretator} (e : tokenInterpretator t = .ok i) (w : World) :
    Target (w.interpret i).2 t (w.interpret i).1 := by
  cases t <;> first
    | (cases e; done)
    | (cases e; simp [World.interpret, Target])

theorem argRules_holds {items : List Arg} {w : World} (hi : ∀ x ∈ items, Holds w x) :
    ∀ c ∈ argRules items, RuleAt w.heap c := by
  intro c hc
  rw [argRules, List.mem_filterMap] at hc
  obtain ⟨x, hx, hxc⟩ := hc
  cases x with
  | rule a => cases hxc; exact hi _ hx
  | _ => cases hxc

theorem forwardOf_inside {h : Heap Pred} : ∀ {n a f : Nat}, forwardOf h n a = .ok f → Carries h a f := by
  intro n
  induction n with
  | zero => intro a f e; cases e
  | succ n ih =>
    intro a f e
    unfold forwardOf at e
    split at e
    · rename_i c ho
      cases e; exact .forward ho
    · rename_i o _ ho
      split at e
      · rename_i r hw
        refine .wrapper ho ?_ (ih e)
        cases o <;> first
          | (cases hw; done)
          | (cases hw; simp)
      · cases e
    · cases e

theorem inside_forward {h : Heap Pred} {a f : Nat} (hi : Carries h a f) : ∃ c, h[f]? = some (.forward c) := by
  induction hi with
  | forward e => exact ⟨_, e⟩
  | wrapper _ _ _ ih => exact ih

theorem defineForward_ok {h h' : Heap Pred} {f r : Nat} (e : defineForward f r h = .ok h') :
    (∀ c, h[r]? ≠ some (.forward c)) ∧ h' = h.set f (.forward (some r)) := by
  unfold defineForward at e
  split at e
  · cases e
  · rename_i hn
    cases e
    exact ⟨fun c hc => hn c hc, rfl⟩

theorem apply_ok {w : World} {c : Call} {x : Arg} {w' : World} (hh : ∀ y ∈ args c, Holds w y)
    (e : c.apply w = .ok (x, w')) : Outcome w c x w' := by
  cases c with
  | agreement r => exact related (Except.ok.inj e)
  | interpretator i =>
    cases e
    exact ⟨fun _ _ => .nil, List.prefix_append _ _, List.prefix_refl _,
      show w.its.length < (w.its ++ [i]).length by simp, (fun a e => by cases e), fun _ h _ => absurd rfl h⟩
  | rule items =>
    obtain ⟨⟨a, w1⟩, h1, h2⟩ := except_map_ok (show (apiRule items w).map _ = _ from e)
    cases h2
    obtain ⟨k1, k2, k3, k4, k5⟩ := apiRule_ok hh h1
    obtain ⟨os, hos⟩ := apiRule_prefix h1
    refine ⟨k1, k2 ▸ List.prefix_refl _, k3 ▸ List.prefix_refl _, k4, ?_, ?_⟩
    · rintro a' ⟨⟩; exact .rule k5
    · intro f hne hlt
      rw [← hos, List.getElem?_append_left hlt] at hne
      exact absurd rfl hne
  | empty =>
    refine wrapped_ok (fun _ _ => .nil) (List.prefix_refl _) (List.prefix_refl _) (List.prefix_refl _) ?_ ?_
      (Except.ok.inj e) (fun a _ _ h => .empty h)
    · exact ⟨(by intro c hc; cases hc), by intros; rintro ⟨⟩, by intros; rintro ⟨⟩, by intros; rintro ⟨⟩⟩
    · rfl
  | forward =>
    refine wrapped_ok (fun _ _ => .nil) (List.prefix_refl _) (List.prefix_refl _) (List.prefix_refl _) ?_ ?_
      (Except.ok.inj e) (fun a _ _ h => .forward h)
    · exact ⟨(by intro c hc; cases hc), by intros; rintro ⟨⟩, by intros; rintro ⟨⟩, by intros; rintro ⟨⟩⟩
    · rfl
  | and_ items =>
    replace e : apiAnd items w = .ok (x, w') := e
    unfold apiAnd at e
    split at e
    · cases e; exact still trivial (by rintro a ⟨⟩)
    · split at e
      · exact related (Except.ok.inj e)
      · cases e
  | or_ items =>
    replace e : apiOr items w = .ok (x, w') := e
    unfold apiOr at e
    split at e
    · cases e; exact still trivial (by rintro a ⟨⟩)
    · split at e
      · exact related (Except.ok.inj e)
      · split at e
        · rename_i hr
          refine wrapped_ok (fun _ _ => .nil) (List.prefix_refl _) (List.prefix_refl _) (List.prefix_refl _) ?_ ?_
            (o := .or (argRules items)) (Except.ok.inj e) (fun a _ _ h => .or_ hr h)
          · refine ⟨fun c hc => ?_, by intros; rintro ⟨⟩, by intros; rintro ⟨⟩, by intros; rintro ⟨⟩⟩
            obtain ⟨o, h1, h2⟩ := argRules_holds hh c hc
            exact ⟨o, h1, h2⟩
          · rfl
        · cases e
  | not_ y =>
    replace e : apiNot y w = .ok (x, w') := e
    unfold apiNot at e
    split at e
    · cases e; exact still trivial (by rintro a ⟨⟩)
    · split at e
      · exact related (Except.ok.inj e)
      · cases e
    · cases e
  | main y =>
    replace e : apiMain y w = .ok (x, w') := e
    unfold apiMain at e
    split at e
    · cases e; exact still (hh (.rule _) List.mem_cons_self) (by rintro a ⟨⟩)
    · cases e; exact still trivial (by rintro a ⟨⟩)
    · cases e
  | optional y v =>
    replace e : apiOptional y v w = .ok (x, w') := e
    unfold apiOptional at e
    split at e
    · cases e
    · obtain ⟨⟨r, w1⟩, h1, h2⟩ := except_bind_ok e
      obtain ⟨b, h3, h4⟩ := except_bind_ok h2
      obtain ⟨k1, k2, k3, k4, k5⟩ := receiver_ok (hh y List.mem_cons_self) h1
      have hw := wrapper_makeable k4 (o := .optional r b) rfl
      exact wrapped_ok k1 (receiver_prefix h1) (k2 ▸ List.prefix_refl _) (k3 ▸ List.prefix_refl _) hw.1 hw.2
        (Except.ok.inj h4) (fun a hg _ h => .optional (k5.grown hg) (asBool_ok h3) h)
  | repeatable y min max v =>
    replace e : apiRepeatable y min max v w = .ok (x, w') := e
    unfold apiRepeatable at e
    obtain ⟨⟨r, w1⟩, h1, h2⟩ := except_bind_ok e
    obtain ⟨b, h3, h4⟩ := except_bind_ok h2
    obtain ⟨k1, k2, k3, k4, k5⟩ := receiver_ok (hh y List.mem_cons_self) h1
    have hv := asBool_ok h3
    subst hv
    rw [truthy_given, truthy_given] at h4
    have done {o : Obj Pred} {lo : Nat} {hi : Option Nat} (hw : wrappedRule o = some r)
        (e : w1.wrapped o = (x, w')) (h5 : o.repetition = some (r, b, lo, hi))
        (h6 : if given min then bound min = some (lo : Int) else lo = 1)
        (h7 : if given max then ∃ n, hi = some n ∧ bound max = some (n : Int) else hi = none)
        (h8 : ∀ n, hi = some n → lo ≤ n) (h9 : 1 ≤ lo) : Outcome w (.repeatable y min max (.bool b)) x w' := by
      have hw' := wrapper_makeable k4 hw
      exact wrapped_ok k1 (receiver_prefix h1) (k2 ▸ List.prefix_refl _) (k3 ▸ List.prefix_refl _) hw'.1 hw'.2
        e (fun a hg _ h => .repeatable (k5.grown hg) h h5 h6 h7 h8 h9)
    cases hmin : given min <;> cases hmax : given max <;> rw [hmin, hmax] at h4 <;>
      simp only [Bool.and_true, Bool.and_false, Bool.false_eq_true, if_false, if_true] at h4
    · exact done (lo := 1) (hi := none) rfl (Except.ok.inj h4) rfl (by simp [hmin]) (by simp [hmax])
        (by rintro n ⟨⟩) (Nat.le_refl 1)
    · obtain ⟨hi, h5, h6⟩ := except_bind_ok h4
      obtain ⟨g1, g2⟩ := asBound_ok h5
      exact done (lo := 1) (hi := some hi) rfl (Except.ok.inj h6) rfl (by simp [hmin]) (by simp [hmax, g1])
        (by rintro n ⟨⟩; exact g2) (Nat.le_refl 1)
    · obtain ⟨lo, h5, h6⟩ := except_bind_ok h4
      obtain ⟨g1, g2⟩ := asBound_ok h5
      exact done (lo := lo) (hi := none) rfl (Except.ok.inj h6) rfl (by simp [hmin, g1]) (by simp [hmax])
        (by rintro n ⟨⟩) g2
    · obtain ⟨lo, h5, h6⟩ := except_bind_ok h4
      obtain ⟨_, _, h7⟩ := except_bind_ok h6
      obtain ⟨hi, h8, h9⟩ := except_bind_ok h7
      obtain ⟨g1, g2⟩ := asBound_ok h5
      obtain ⟨g3, g4⟩ := asBound_ok h8
      exact done (lo := lo) (hi := some hi) rfl (Except.ok.inj h9) rfl (by simp [hmin, g1]) (by simp [hmax, g3])
        (by rintro n ⟨⟩; exact g4) g2
  | named y n =>
    replace e : apiNamed y n w = .ok (x, w') := e
    unfold apiNamed at e
    obtain ⟨⟨r, w1⟩, h1, h2⟩ := except_bind_ok e
    obtain ⟨k1, k2, k3, k4, k5⟩ := receiver_ok (hh y List.mem_cons_self) h1
    cases n with
    | str s =>
      have hw := wrapper_makeable k4 (o := .named r s) rfl
      exact wrapped_ok k1 (receiver_prefix h1) (k2 ▸ List.prefix_refl _) (k3 ▸ List.prefix_refl _) hw.1 hw.2
        (Except.ok.inj h2) (fun a hg _ h => .named (k5.grown hg) h)
    | _ => cases h2
  | match_ y n =>
    replace e : apiMatch y n w = .ok (x, w') := e
    unfold apiMatch at e
    obtain ⟨⟨r, w1⟩, h1, h2⟩ := except_bind_ok e
    obtain ⟨k1, k2, k3, k4, k5⟩ := receiver_ok (hh y List.mem_cons_self) h1
    cases n with
    | relation i =>
      have hw := wrapper_makeable k4 (o := .relation r i) rfl
      exact wrapped_ok k1 (receiver_prefix h1) (k2 ▸ List.prefix_refl _) (k3 ▸ List.prefix_refl _) hw.1 hw.2
        (Except.ok.inj h2) (fun a hg _ h => .relation (k5.grown hg) h)
    | _ => cases h2
  | interpretation y t =>
    replace e : apiInterpretation y t w = .ok (x, w') := e
    have hy := hh y List.mem_cons_self
    unfold apiInterpretation at e
    cases y with
    | rule a =>
      obtain ⟨⟨i, w1⟩, h1, h2⟩ := except_bind_ok e
      have hw1 : w1.heap = w.heap ∧ w.its <+: w1.its ∧ w1.rels = w.rels ∧ Target w1 t i := by
        unfold ruleInterpretator at h1
        split at h1
        · cases h1; exact ⟨rfl, List.prefix_refl _, rfl, rfl⟩
        · cases h1; exact ⟨rfl, List.prefix_append _ _, rfl, by simp [World.interpret, Target]⟩
        · obtain ⟨it, g1, g2⟩ := except_map_ok h1
          have := tokenInterpretator_ok g1 w
          rw [g2] at this
          cases g2
          exact ⟨rfl, List.prefix_append _ _, rfl, this⟩
      obtain ⟨g1, g2, g3, g4⟩ := hw1
      have hw := wrapper_makeable (h := w1.heap) (o := .interp a i) (r := a) (by rw [g1]; exact hy) rfl
      exact wrapped_ok (by rw [g1]; exact fun _ _ => .nil) (g1 ▸ List.prefix_refl _) g2 (g3 ▸ List.prefix_refl _)
        hw.1 hw.2 (Except.ok.inj h2) (fun b hg hi h => .interp .rule (target_grown (by rw [hi]; exact List.prefix_refl _) g4) h)
    | pred p =>
      obtain ⟨it, h1, h2⟩ := except_bind_ok e
      obtain ⟨⟨r, w2⟩, h3, h4⟩ := except_bind_ok h2
      have ht := tokenInterpretator_ok h1 w
      obtain ⟨k1, k2, k3, k4, p', k5, k6⟩ := apiRule_ok (w := (w.interpret it).2) (items := [.pred p])
        (by intro z hz; rw [List.mem_singleton] at hz; subst hz; exact trivial) h3
      have hw := wrapper_makeable k4 (o := .interp r (w.interpret it).1) rfl
      refine wrapped_ok k1 (show w.heap <+: w2.heap from apiRule_prefix (w := (w.interpret it).2) h3) ?_ (k3 ▸ List.prefix_refl _) hw.1 hw.2
        (Except.ok.inj h4) (fun b hg hi h => .interp ((Stands.pred k5 k6).grown hg) (target_grown ?_ ht) h)
      · rw [k2]; exact List.prefix_append _ _
      · rw [hi, k2]; exact List.prefix_refl _
    | _ => cases e
  | define y items =>
    replace e : apiDefine y items w = .ok (x, w') := e
    unfold apiDefine at e
    cases y with
    | rule a =>
      obtain ⟨f, h1, h2⟩ := except_bind_ok e
      obtain ⟨c, hf⟩ := inside_forward (forwardOf_inside h1)
      have hflt := (List.getElem?_eq_some_iff.1 hf).1
      have fin {w1 : World} {r : Nat} {h : Heap Pred}
          (k1 : ∀ (L : Lang) (setOrder : List Str → List Str), Makes L setOrder w.heap w1.heap)
          (k2 : w1.its = w.its) (k3 : w1.rels = w.rels) (k4 : RuleAt w1.heap r) (k5 : w.heap <+: w1.heap)
          (k6 : ∀ h, Grown w1.heap h → DefinedAs h items r) (k7 : defineForward f r w1.heap = .ok h)
          (k8 : (Arg.rule f, { w1 with heap := h }) = (x, w')) : Outcome w (.define (.rule a) items) x w' := by
        obtain ⟨g1, rfl⟩ := defineForward_ok k7
        cases k8
        have hf1 : w1.heap[f]? = some (.forward c) := prefix_get k5 hf
        have hg := grown_define hf1 r
        refine ⟨fun L so => makes_trans (k1 L so) (.cons (.define hf1 k4) .nil), k2 ▸ List.prefix_refl _,
          k3 ▸ List.prefix_refl _, hg.rule ⟨_, hf1, rfl⟩, ?_, ?_⟩
        · rintro a' ⟨⟩
          exact .define (k6 _ hg) (by rw [List.getElem?_set_self (List.getElem?_eq_some_iff.1 hf1).1])
        · intro f' hne hlt
          rcases Nat.decEq f f' with hff | rfl
          · exfalso
            apply hne
            show (w1.heap.set f _)[f']? = _
            rw [List.getElem?_set_ne hff]
            obtain ⟨os, hos⟩ := k5
            rw [← hos, List.getElem?_append_left hlt]
          · exact ⟨rfl, _, _, rfl⟩
      have gen (h3 : (do
          let (r, w1) ← apiRule items w
          let h ← defineForward f r w1.heap
          return (Arg.rule f, { w1 with heap := h })) = (.ok (x, w') : Except Err _)) :
          Outcome w (.define (.rule a) items) x w' := by
        obtain ⟨⟨r, w1⟩, g1, g2⟩ := except_bind_ok h3
        obtain ⟨h, g3, g4⟩ := except_bind_ok g2
        obtain ⟨k1, k2, k3, k4, k5⟩ := apiRule_ok (fun z hz => hh z (List.mem_cons_of_mem _ hz)) g1
        exact fin k1 k2 k3 k4 (apiRule_prefix g1) (fun h hg => .inr (Consists.grown hg k5)) g3 (Except.ok.inj g4)
      split at h2
      · cases h2
      · rename_i r
        obtain ⟨h, g3, g4⟩ := except_bind_ok h2
        exact fin (fun _ _ => .nil) rfl rfl (hh (.rule r) (by simp [args])) (List.prefix_refl _)
          (fun h hg => .inl rfl) g3 (Except.ok.inj g4)
      · exact gen h2
    | _ => cases e
  | pipeline kind lines =>
    obtain ⟨ls, h1, h2⟩ := except_map_ok (show (asLines lines).map _ = _ from e)
    have := asLines_ok h1
    subst this
    refine wrapped_ok (fun _ _ => .nil) (List.prefix_refl _) (List.prefix_refl _) (List.prefix_refl _) ?_ ?_
      h2 (fun a _ _ h => .pipeline h)
    · exact ⟨(by intro c hc; cases hc), by intros; rintro ⟨⟩, by intros; rintro ⟨⟩, by intros; rintro ⟨⟩⟩
    · rfl
  | morph y m =>
    replace e : apiMorph y m w = .ok (x, w') := e
    unfold apiMorph at e
    split at e
    · cases e; exact still trivial (by rintro a ⟨⟩)
    · cases e
  | const y v =>
    replace e : apiConst y v w = .ok (x, w') := e
    unfold apiConst at e
    split at e
    · cases e; exact still trivial (by rintro a ⟨⟩)
    · cases e
  | custom y f =>
    replace e : apiCustom y f w = .ok (x, w') := e
    unfold apiCustom at e
    split at e
    · cases e; exact still trivial (by rintro a ⟨⟩)
    · obtain ⟨n, _, h2⟩ := except_map_ok e
      cases h2; exact still trivial (by rintro a ⟨⟩)
    · obtain ⟨n, _, h2⟩ := except_map_ok e
      cases h2; exact still trivial (by rintro a ⟨⟩)
    · cases e

end Yargy.Api
