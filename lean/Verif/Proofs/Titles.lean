import Verif.Proofs.Leftover
import Verif.Proofs.CompileWords
/-!
Where the names of compiled rules come from.
-/
namespace Yargy
open Spec

variable {P : Type}

theorem genName_inj {m n : Nat} (h : genName m = genName n) : m = n := by
  unfold genName at h
  rw [List.cons.injEq] at h
  have h := h.2
  rw [show toString m = Nat.repr m from rfl, show toString n = Nat.repr n from rfl, Nat.toList_repr,
    Nat.toList_repr] at h
  rw [← Nat.ofDigitChars_ten_toDigits (n := m), h, Nat.ofDigitChars_ten_toDigits]

/-- A name that Python takes for one. -/
def Real : Option Str → Prop
  | some (_ :: _) => True
  | _ => False

theorem real_genName (n : Nat) : Real (some (genName n)) := by unfold genName; trivial

/-- A compiled rule without a name. -/
def Nameless (h : Heap P) (a : Nat) : Prop := ∃ ps n i r k, h[a]? = some (.bnf ps n i r k) ∧ ¬ Real n

theorem generateNames_skip : ∀ (as : List Nat) (count : Nat) (h : Heap P) (a : Nat), a ∉ as →
    (generateNames as count h)[a]? = h[a]? := by
  intro as
  induction as with
  | nil => intro _ _ _ _; rfl
  | cons x as ih =>
    intro count h a ha
    have hne : x ≠ a := fun e => ha (e ▸ List.mem_cons_self)
    have hn : a ∉ as := fun e => ha (List.mem_cons_of_mem _ e)
    simp only [generateNames]
    split
    · split
      · exact ih _ _ _ hn
      · rw [ih _ _ _ hn, List.getElem?_set_ne hne]
    · exact ih _ _ _ hn

theorem generateNames_real : ∀ (as : List Nat) (count : Nat) (h : Heap P) (a : Nat), ¬ Nameless h a →
    (generateNames as count h)[a]? = h[a]? := by
  intro as
  induction as with
  | nil => intro _ _ _ _; rfl
  | cons x as ih =>
    intro count h a ha
    simp only [generateNames]
    split
    · rename_i ps n i r k hx
      split
      · exact ih _ _ _ ha
      · rename_i hn
        have hne : x ≠ a := by
          rintro rfl
          refine ha ⟨_, _, _, _, _, hx, ?_⟩
          match n with
          | none => exact id
          | some [] => exact id
          | some (c :: cs) => exact absurd rfl (hn c cs)
        have e : (h.set x (.bnf ps (some (genName count)) i r k))[a]? = h[a]? := List.getElem?_set_ne hne
        rw [ih, e]
        rintro ⟨ps', n', i', r', k', h1, h2⟩
        exact ha ⟨ps', n', i', r', k', e ▸ h1, h2⟩
    · exact ih _ _ _ ha

/-- Rules without names are given different ones. -/
theorem generateNames_fresh : ∀ (as : List Nat) (count : Nat) (h : Heap P), as.Nodup →
    ∀ x ∈ as, Nameless h x → ∃ i, count ≤ i ∧ nameAt (generateNames as count h) x = some (genName i) ∧
      ∀ y ∈ as, y ≠ x → Nameless h y → nameAt (generateNames as count h) y ≠ some (genName i) := by
  intro as
  induction as with
  | nil => intro _ _ _ x hx; cases hx
  | cons a as ih =>
    intro count h hnd x hx hxn
    replace ⟨ha, hnd⟩ := List.nodup_cons.1 hnd


    by_cases hna : Nameless h a
    · obtain ⟨ps, n, i, r, k, h1, h2⟩ := hna
      have hstep : generateNames (a :: as) count h =
          generateNames as (count + 1) (h.set a (.bnf ps (some (genName count)) i r k)) := by
        simp only [generateNames, h1]
        split
        · exact absurd trivial h2
        · rfl
      rw [hstep]
      have hat : nameAt (generateNames as (count + 1) (h.set a (.bnf ps (some (genName count)) i r k))) a =
          some (genName count) := by
        unfold nameAt
        rw [generateNames_skip _ _ _ _ ha, List.getElem?_set_self (List.getElem?_eq_some_iff.1 h1).1]
      have hless : ∀ y, y ≠ a → Nameless h y → Nameless (h.set a (.bnf ps (some (genName count)) i r k)) y := by
        rintro y hy ⟨ps', n', i', r', k', q1, q2⟩
        exact ⟨ps', n', i', r', k', by rw [List.getElem?_set_ne (Ne.symm hy)]; exact q1, q2⟩
      by_cases hxa : x = a
      · subst hxa
        refine ⟨count, Nat.le_refl _, hat, fun y hy hyx hyn e => ?_⟩
        obtain ⟨j, j1, j2, _⟩ := ih (count + 1) (h.set x (.bnf ps (some (genName count)) i r k)) hnd y
          ((List.mem_cons.1 hy).resolve_left hyx) (hless y hyx hyn)
        rw [j2] at e
        have := genName_inj (Option.some.inj e)
        omega
      · obtain ⟨j, j1, j2, j3⟩ := ih (count + 1) (h.set a (.bnf ps (some (genName count)) i r k)) hnd x
          ((List.mem_cons.1 hx).resolve_left hxa) (hless x hxa hxn)
        refine ⟨j, by omega, j2, fun y hy hyx hyn e => ?_⟩
        by_cases hya : y = a
        · subst hya
          rw [hat] at e
          have := genName_inj (Option.some.inj e)
          omega
        · exact j3 y ((List.mem_cons.1 hy).resolve_left hya) hyx (hless y hya hyn) e
    · have hstep : generateNames (a :: as) count h = generateNames as count h := by
        simp only [generateNames]
        split
        · rename_i ps n i r k h1
          split
          · rfl
          · rename_i hn
            refine absurd ⟨_, _, _, _, _, h1, ?_⟩ hna
            match n with
            | none => exact id
            | some [] => exact id
            | some (c :: cs) => exact absurd rfl (hn c cs)
        · rfl
      rw [hstep]
      have hxa : x ≠ a := by rintro rfl; exact hna hxn
      obtain ⟨j, j1, j2, j3⟩ := ih count h hnd x ((List.mem_cons.1 hx).resolve_left hxa) hxn
      refine ⟨j, j1, j2, fun y hy hyx hyn => ?_⟩
      have hya : y ≠ a := by rintro rfl; exact hna hyn
      exact j3 y ((List.mem_cons.1 hy).resolve_left hya) hyx hyn

/-- Afterwards all have names. -/
theorem generateNames_named (as : List Nat) (count : Nat) (h : Heap P) (hnd : as.Nodup) {a : Nat}
    (ha : a ∈ as) : ¬ Nameless (generateNames as count h) a := by
  rintro ⟨ps, n, i, r, k, h1, h2⟩
  by_cases hn : Nameless h a
  · obtain ⟨j, _, j2, _⟩ := generateNames_fresh as count h hnd a ha hn
    unfold nameAt at j2
    rw [h1] at j2
    simp only at j2
    rw [j2] at h2
    exact h2 (real_genName j)
  · rw [generateNames_real as count h a hn] at h1
    exact hn ⟨ps, n, i, r, k, h1, h2⟩

/-- Naming rules that have names changes nothing. -/
theorem generateNames_none : ∀ (as : List Nat) (count : Nat) (h : Heap P), (∀ a ∈ as, ¬ Nameless h a) →
    generateNames as count h = h := by
  intro as count h hn
  refine List.ext_getElem? (fun a => ?_)
  by_cases ha : a ∈ as
  · exact generateNames_real as count h a (hn a ha)
  · exact generateNames_skip as count h a ha

/-! ### Names come from the program -/

/-- Names of rules, and of rules compiled after the first `n0` objects, are known ones. -/
structure Titled (Ok : Str → Prop) (n0 : Nat) (g : Heap P) : Prop where
  len : n0 ≤ g.length
  given : ∀ (a r : Nat) n, g[a]? = some (.named r n) → Ok n
  made : ∀ (a : Nat) ps n i r k, n0 ≤ a → g[a]? = some (.bnf ps (some n) i r k) → Ok n

theorem Titled.append {Ok : Str → Prop} {n0 : Nat} {g : Heap P} (ht : Titled Ok n0 g) {os : List (Obj P)}
    (h1 : ∀ r n, .named r n ∈ os → Ok n) (h2 : ∀ ps n i r k, .bnf ps (some n) i r k ∈ os → Ok n) :
    Titled Ok n0 (g ++ os) := by
  have key : ∀ {a : Nat} {o : Obj P}, (g ++ os)[a]? = some o → g[a]? = some o ∨ o ∈ os := by
    intro a o h
    rcases Nat.lt_or_ge a g.length with hl | hl
    · rw [List.getElem?_append_left hl] at h; exact .inl h
    · rw [List.getElem?_append_right hl] at h; exact .inr (List.mem_of_getElem? h)
  refine ⟨by rw [List.length_append]; have := ht.len; omega, fun a r n h => ?_, fun a ps n i r k hn h => ?_⟩
  · exact (key h).elim (ht.given a r n) (h1 r n)
  · exact (key h).elim (ht.made a ps n i r k hn) (h2 ps n i r k)

theorem Titled.set {Ok : Str → Prop} {n0 : Nat} {g : Heap P} (ht : Titled Ok n0 g) {a : Nat} {o : Obj P}
    (h1 : ∀ r n, o = .named r n → Ok n) (h2 : ∀ ps n i r k, n0 ≤ a → o = .bnf ps (some n) i r k → Ok n) :
    Titled Ok n0 (g.set a o) := by
  have key : ∀ {x : Nat} {u : Obj P}, (g.set a o)[x]? = some u → g[x]? = some u ∨ x = a ∧ u = o := by
    intro x u h
    by_cases hx : a = x
    · subst hx
      have hl := (List.getElem?_eq_some_iff.1 h).1
      rw [List.length_set] at hl
      rw [List.getElem?_set_self hl] at h
      exact .inr ⟨rfl, (Option.some.inj h).symm⟩
    · rw [List.getElem?_set_ne hx] at h; exact .inl h
  refine ⟨by rw [List.length_set]; exact ht.len, fun x r n h => ?_, fun x ps n i r k hn h => ?_⟩
  · exact (key h).elim (ht.given x r n) (fun e => h1 r n e.2.symm)
  · exact (key h).elim (ht.made x ps n i r k hn) (fun e => h2 ps n i r k (e.1 ▸ hn) e.2.symm)

theorem titled_enduring {Ok : Str → Prop} {n0 : Nat} : Enduring Ok (Titled (P := P) Ok n0) where
  alloc {g o} ht ho := by
    refine ht.append (fun r n h => ?_) (fun ps n i r k h => ?_)
    · rw [List.mem_singleton] at h; subst h; exact ho
    · rw [List.mem_singleton] at h; subst h; cases k <;> exact ho.elim
  given ht ha := ht.given _ _ _ ha
  attr {g b x} ht hx := by
    unfold setAttrAt
    split
    · rename_i ps n i r k e
      cases x with
      | name m =>
        refine ht.set (fun r n h => by cases h) (fun ps n i r k _ h => ?_)
        cases h
        exact hx _ rfl
      | interp _ =>
        refine ht.set (fun r n h => by cases h) (fun ps n i r k hn h => ?_)
        cases h
        exact ht.made b _ _ _ _ _ hn e
      | relation _ =>
        refine ht.set (fun r n h => by cases h) (fun ps n i r k hn h => ?_)
        cases h
        exact ht.made b _ _ _ _ _ hn e
    · exact ht
  keys {s a p b s'} ht ha e := by
    unfold pipeBnf at e
    split at e
    · cases e
    · split at e
      · cases e
      · simp only [allocKeys_eq, St.alloc] at e
        cases e
        simp only [List.append_assoc]
        refine ht.append (fun r n h => ?_) (fun ps n i r k h => ?_)
        · rcases List.mem_append.1 h with h | h
          · obtain ⟨_, _, e⟩ := List.mem_map.1 h; cases e
          · rw [List.mem_singleton] at h; cases h
        · rcases List.mem_append.1 h with h | h
          · obtain ⟨_, _, e⟩ := List.mem_map.1 h; cases e
          · rw [List.mem_singleton] at h; cases h
  define g a b c ht ha := ht.set (fun r n h => by cases h) (fun ps n i r k _ h => by cases h)
  terms g a ts m ts' ht ha := ht.set (fun r n h => by cases h) (fun ps n i r k _ h => by cases h)

theorem titled_activate {A : Activation P} {Ok : Str → Prop} {n0 : Nat} (g : Heap P) (a : Nat) (g' : Heap P)
    (ht : Titled Ok n0 g) (e : activateAt A g a = .ok g') : Titled Ok n0 g' := by
  unfold activateAt at e
  split at e
  · cases e; exact ht
  · rename_i o ho
    obtain ⟨o', h1, rfl⟩ := except_map_ok e
    rcases (activateObj_ok (k := .plain) h1).2.2.2.2 with rfl | ⟨ts, ts', m, rfl, rfl⟩ | ⟨p, p', rfl, rfl⟩
    · exact ht.set (fun r n h => by subst h; exact ht.given _ _ _ ho)
        (fun ps n i r k hn h => by subst h; exact ht.made _ _ _ _ _ _ hn ho)
    · exact ht.set (fun r n h => by cases h) (fun ps n i r k _ h => by cases h)
    · exact ht.set (fun r n h => by cases h) (fun ps n i r k _ h => by cases h)

end Yargy
