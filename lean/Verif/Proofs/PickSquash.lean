import Verif.Proofs.PickExtended
import Verif.Proofs.SquashPass
/-!
`SquashExtendedTransformator` copies rules, in which a quantifier put on a quantifier is replaced by what it
stands for.
-/
namespace Yargy.Pick

variable {P : Type} {H : Heap P}

theorem repeats_quant {o : Obj P} {c : Nat} (h : o.repeats = some c) :
    o.quant = true ∧ c ∈ o.children := by
  cases o <;> first | (cases h; exact ⟨rfl, by simp [Obj.children]⟩) | cases h

theorem repeats_none {o : Obj P} : o.repeats = none ↔ o.quant = false := by
  cases o <;> simp [Obj.repeats, Obj.quant]

/-- No quantifier on a quantifier. -/
def single (g : Heap P) (o : Obj P) : Prop := ∀ c, o.repeats = some c → tight g c

theorem on_quant {o q o' : Obj P} (h : o.on q = some o') : o'.quant = true ∧ o.quant = true ∧ q.quant = true := by
  cases o <;> cases q <;> first | (cases h; exact ⟨rfl, rfl, rfl⟩) | cases h

theorem on_repeats {o q o' : Obj P} (h : o.on q = some o') : o'.repeats = q.repeats := by
  cases o <;> cases q <;> first | (cases h; rfl) | cases h

theorem on_bounds {o q o' : Obj P} (h : o.on q = some o') : o.bounds ∧ o'.bounds ∧ q.bounds := by
  cases o <;> cases q <;> first | (cases h; exact ⟨trivial, trivial, trivial⟩) | cases h

/-- Quantifiers on quantifiers are taken for what they stand for. -/
def nestInv (h0 : Heap P) : PassInv P where
  Q g o := (o.bounds ∧ o.entry = false) ∧ single g o
  X g a b := tight g a → tight g b
  N g a o o' := h0[a]? = some o' ∧ ∃ (c : Nat) (q : Obj P), o'.repeats = some c ∧ h0[c]? = some q ∧
    g[c]? = some q ∧ o'.on q = some o
  Qmono g e o hc ho h := ⟨h.1, fun c hr x hx => by
    rw [List.getElem?_append_left (hc o ho c (repeats_quant hr).2)] at hx
    exact h.2 c hr x hx⟩
  Xmono g e a b hc ha hb h := by
    intro ht o ho
    rw [List.getElem?_append_left hb] at ho
    exact h (fun o' ho' => ht o' (getElem?_append_some ho')) o ho
  Nquant := by
    rintro g a o o' ⟨_, c, q, _, _, _, h⟩
    exact ⟨(on_quant h).1, (on_quant h).2.1⟩
  Nmono := by
    rintro g e a o o' ⟨h1, c, q, h2, h3, h4, h5⟩
    exact ⟨h1, c, q, h2, h3, getElem?_append_some h4, h5⟩

theorem single_of_not_quant {g : Heap P} {o : Obj P} (h : o.quant = false) : single g o := by
  intro c hc
  rw [(repeats_quant hc).1] at h
  cases h

theorem singleCopying {h0 : Heap P} : Copying (nestInv h0) where
  new _ _ hq he := ⟨⟨bounds_of_not_quant hq, he⟩, single_of_not_quant hq⟩
  image g a b o o' _ hb _ hq' := by
    intro _ x hx; rw [hb] at hx; cases hx; exact hq'

variable {h0 : Heap P}

abbrev Goal (h0 : Heap P) (a : Nat) (s : St P) (b : Nat) (s' : St P) : Prop :=
  ∃ ext, ∀ g, Fine (nestInv h0) g s →
    Fine (nestInv h0) (g ++ ext) s' ∧ Image (nestInv h0) (g ++ ext) a b

/-- What stands at an address in both heaps is a quantifier in both or in none. -/
theorem tight_ghost {I : PassInv P} {g e : Heap P} {s : St P} {c : Nat} (hg : Fine I g s)
    (hlt : c < g.length) (h : ∀ o, s.heap[c]? = some o → o.quant = false) : tight (g ++ e) c := by
  intro o ho
  rw [List.getElem?_append_left hlt] at ho
  have hl : c < s.heap.length := by rw [← hg.shape.length]; exact hlt
  obtain ⟨o1, ho1⟩ : ∃ o1, s.heap[c]? = some o1 := ⟨_, List.getElem?_eq_getElem hl⟩
  obtain ⟨o', h1, h2⟩ := hg.get ho1
  rw [ho] at h1; cases h1
  have := h _ ho1
  rcases h2 with h2 | ⟨r, r', rfl, _⟩ | h2
  · cases h2
    · exact this
    · rfl
  · rfl
  · rw [(I.Nquant _ _ _ _ h2).2] at this; cases this

theorem quant_fixed {o : Obj P} (h : o.quant = true) : o.fixed := by
  cases o <;> first | trivial | cases h

theorem quant_entry {o : Obj P} (h : o.quant = true) : o.entry = false := by
  cases o <;> first | rfl | cases h

/-- A quantifier on a quantifier is taken for what it stands for. -/
theorem nested {g : Heap P} {a child : Nat} {o q : Obj P} {s : St P} (hg : Fine (nestInv h0) g s)
    (ho : s.heap[a]? = some o) (hr : o.repeats = some child) (hc : s.heap[child]? = some q)
    (hq : q.quant = true) : ∃ o1, g[a]? = some o1 ∧ o.on q = some o1 := by
  obtain ⟨q1, hg1, hl1⟩ := hg.get hc
  have hq1 : q1.quant = true := by
    rcases hl1 with h2 | ⟨r, r', _, rfl, _⟩ | h2
    · cases h2
      · exact hq
      · cases hq
    · cases hq
    · exact ((nestInv h0).Nquant _ _ _ _ h2).1
  obtain ⟨o1, h1, h2 | ⟨r, r', _, rfl, _⟩ | h2⟩ := hg.get ho
  · cases h2 with
    | refl =>
      have := (hg.inv o (List.mem_of_getElem? h1)).2 child hr q1 hg1
      rw [hq1] at this; cases this
    | bnf => cases hr
  · cases hr
  · obtain ⟨_, c, q2, h3, h4, h5, h6⟩ := h2
    rw [hr] at h3; cases h3
    rw [hg1] at h5; cases h5
    refine ⟨o1, h1, ?_⟩
    rcases hl1 with h2 | ⟨r, r', _, rfl, _⟩ | h2
    · cases h2
      · exact h6
      · cases hq
    · cases hq
    · have := h2.1
      rw [h4] at this; cases this; exact h6

theorem equiv_same {x y : Nat} {o : Obj P} (hx : H[x]? = some o) (hy : H[y]? = some o) : Equiv H x y := by
  refine ⟨fun n w g => ?_, fun n w g => ⟨n, ?_⟩⟩
  · obtain ⟨o', us, c, ho, h⟩ := gen_one.1 g
    rw [hx] at ho; cases ho
    exact gen_one.2 ⟨_, us, c, hy, h⟩
  · obtain ⟨o', us, c, ho, h⟩ := gen_one.1 g
    rw [hy] at ho; cases ho
    exact gen_one.2 ⟨_, us, c, hx, h⟩

/-- It is replaced by what it stands for, which is then visited. -/
theorem nested_ok {rec : Visit P} (hr : VisitOk (nestInv h0) rec) {a child : Nat} {o q o1 : Obj P} {s : St P}
    (ho : s.heap[a]? = some o) (hrep : o.repeats = some child) (hc : s.heap[child]? = some q)
    (hon : o.on q = some o1) {b s'} (h : visitNew rec o1 s = .ok (b, s')) : Goal h0 a s b s' := by
  obtain ⟨ext, he⟩ := hr _ _ _ _ h
  refine ⟨[o1] ++ ext, fun g hg => ?_⟩
  obtain ⟨o2, hga, h2⟩ := nested hg ho hrep hc (on_quant hon).2.2
  rw [hon] at h2; cases h2
  have hm := List.mem_of_getElem? hga
  have f1 := fine_alloc hg (o := o1) (fun c hc => by have := hg.closed _ hm c hc; omega)
    ((nestInv h0).Qmono _ _ _ hg.closed hm (hg.inv _ hm))
  obtain ⟨f2, i2⟩ := he _ f1
  rw [← hg.shape.length] at i2
  rw [← List.append_assoc]
  refine ⟨f2, ?_, i2.lt', ?_, ?_⟩
  · have := hg.lt ho; simp; omega
  · intro ht
    have := ht _ (getElem?_append_some (getElem?_append_some hga))
    rw [(on_quant hon).1] at this; cases this
  · intro H hH
    exact (equiv_same (getElem?_prefix hH (getElem?_append_some (getElem?_append_some hga)))
      (getElem?_prefix hH (getElem?_append_some (getElem?_new _)))).trans (i2.sem H hH)

/-- A quantifier copied around the image of what it repeats. -/
theorem single_copy_ok {rec : Visit P} (hr : VisitOk (nestInv h0) rec) {a r : Nat} {s : St P}
    {mk : Nat → Obj P} {L : List (Option Note) → Prop} (ho : s.heap[a]? = some (mk r))
    (hrep : ∀ r, (mk r).repeats = some r) (ha : ∀ r, Quant (mk r) r L)
    (hch : ∀ r, (mk r).children = [r]) (hcost : ∀ r r' n, stepCost (mk r) n ≤ stepCost (mk r') n)
    (hb : ∀ r r', (mk r).bounds → (mk r').bounds)
    (hq : ∀ o, s.heap[r]? = some o → o.quant = false) {b s'}
    (h : rebuild rec r mk s = .ok (b, s')) : Goal h0 a s b s' := by
  have hfix := quant_fixed (repeats_quant (hrep r)).1
  have hno : ∀ g, Fine (nestInv h0) g s → ∀ o', ¬ (nestInv h0).N g a o' (mk r) := by
    rintro g hg o' ⟨_, c, q, h1, _, h3, h4⟩
    rw [hrep] at h1; cases h1
    have := tight_ghost (e := []) hg (List.getElem?_eq_some_iff.1 h3).1 hq q (by simpa using h3)
    rw [(on_quant h4).2.2] at this; cases this
  refine rebuild_ok hr h (fun g => Fine (nestInv h0) g s) (fun g hg => hg) ?_
  intro g y hg e hcl hy
  have hga := hg.same ho hfix (hno g hg)
  have ia := hg.inv _ (List.mem_of_getElem? hga)
  have hc : ∀ c ∈ (mk y).children, c < (g ++ e).length := by
    intro c hc
    rw [hch, List.mem_singleton] at hc
    subst hc
    exact hy.lt'
  have hty : tight (g ++ e) y := hy.extra
    (tight_ghost hg (hg.closed _ (List.mem_of_getElem? hga) r (by simp [hch])) hq)
  refine ⟨hc, ⟨⟨hb _ _ ia.1.1, quant_entry (repeats_quant (hrep y)).1⟩, ?_⟩, ?_, ?_, ?_, ?_⟩
  · intro c hcy x hx
    rw [hrep] at hcy; cases hcy
    rw [List.getElem?_append_left hy.lt'] at hx
    exact hty x hx
  · have := hg.lt ho
    simp; omega
  · simp
  · intro ht
    have := ht _ (getElem?_append_some (getElem?_append_some hga))
    rw [(repeats_quant (hrep r)).1] at this
    cases this
  · intro H hH
    exact cong_quant (getElem?_prefix hH (getElem?_append_some (getElem?_append_some hga)))
      (getElem?_prefix hH (getElem?_new _)) (ha _) (ha _) (hcost _ _)
      (hy.sem H ((List.prefix_append _ _).trans hH))

theorem squashBounded_ok {rec : Visit P} (hr : VisitOk (nestInv h0) rec) {a child : Nat} {s : St P}
    {mk : Nat → Obj P} {L : List (Option Note) → Prop} (ho : s.heap[a]? = some (mk child))
    (hrep : ∀ r, (mk r).repeats = some r) (ha : ∀ r, Quant (mk r) r L)
    (hch : ∀ r, (mk r).children = [r]) (hcost : ∀ r r' n, stepCost (mk r) n ≤ stepCost (mk r') n)
    (hb : ∀ r r', (mk r).bounds → (mk r').bounds) (hbnd : ∀ r q, (mk r).on q = none) {b s'}
    (h : squashBounded rec child mk s = .ok (b, s')) : Goal h0 a s b s' := by
  by_cases hq : ∃ q, s.heap[child]? = some q ∧ q.quant = true
  · obtain ⟨q, hc, hq⟩ := hq
    refine ⟨[], fun g hg => ?_⟩
    obtain ⟨o1, _, h1⟩ := nested hg ho (hrep child) hc hq
    rw [hbnd] at h1; cases h1
  · have hq' : ∀ o, s.heap[child]? = some o → o.quant = false := by
      intro o ho
      cases hx : o.quant with
      | false => rfl
      | true => exact (hq ⟨o, ho, hx⟩).elim
    refine single_copy_ok hr ho hrep ha hch hcost hb hq' ?_
    unfold squashBounded at h
    split at h
    · rename_i hc; have := hq' _ hc; cases this
    · rename_i hc; have := hq' _ hc; cases this
    · rename_i hc; have := hq' _ hc; cases this
    · exact h

theorem squash_ok : MethodOk (nestInv h0) squashMethod := by
  intro n rec hr a o s b s' ho h
  cases hquant : o.quant with
  | false =>
    refine default_ok singleCopying (n := n) hr ho hquant ?_
    cases o <;> first | exact h | cases hquant
  | true =>
    cases hrep : o.repeats with
    | none => rw [repeats_none.1 hrep] at hquant; cases hquant
    | some child =>
      by_cases hq : ∃ q, s.heap[child]? = some q ∧ q.quant = true
      · obtain ⟨q, hc, hq⟩ := hq
        cases hon : o.on q with
        | none =>
          refine ⟨[], fun g hg => ?_⟩
          obtain ⟨o1, _, h1⟩ := nested hg ho hrep hc hq
          rw [hon] at h1; cases h1
        | some o1 =>
          refine nested_ok hr ho hrep hc hon ?_
          cases o with
          | optional r v =>
            cases hrep
            cases q <;> first
              | (cases hon; simpa only [squashMethod, hc] using h)
              | cases hon
          | repeatable r v =>
            cases hrep
            cases q <;> first
              | (cases hon; simpa only [squashMethod, hc] using h)
              | cases hon
          | _ => cases hon
      · have hq' : ∀ o, s.heap[child]? = some o → o.quant = false := by
          intro o ho
          cases hx : o.quant with
          | false => rfl
          | true => exact (hq ⟨o, ho, hx⟩).elim
        cases o with
        | repeatable r rev =>
          cases hrep
          refine single_copy_ok hr (mk := (.repeatable · rev)) ho (fun _ => rfl)
            (fun r => quant_repeatable r rev) (fun _ => rfl) (fun _ _ _ => Nat.le_refl _)
            (fun _ _ h => h) hq' ?_
          simp only [squashMethod] at h
          split at h <;> first | exact h | (rename_i hc; have := hq' _ hc; cases this)
        | optional r rev =>
          cases hrep
          refine single_copy_ok hr (mk := (.optional · rev)) ho (fun _ => rfl)
            (fun r => quant_optional r rev) (fun _ => rfl) (fun _ _ _ => Nat.le_refl _)
            (fun _ _ h => h) hq' ?_
          simp only [squashMethod] at h
          split at h <;> first | exact h | (rename_i hc; have := hq' _ hc; cases this)
        | repOptional r rr ro =>
          cases hrep
          refine single_copy_ok hr (mk := (.repOptional · rr ro)) ho (fun _ => rfl)
            (fun r => quant_repOptional r rr ro) (fun _ => rfl) (fun _ _ _ => Nat.le_refl _)
            (fun _ _ h => h) hq' ?_
          simp only [squashMethod] at h
          split at h <;> first | exact h | (rename_i hc; have := hq' _ hc; cases this)
        | minBounded r m rev =>
          cases hrep
          exact squashBounded_ok hr (mk := (.minBounded · m rev)) ho (fun _ => rfl)
            (fun r => quant_min r m rev) (fun _ => rfl) (fun _ _ _ => Nat.le_refl _)
            (fun _ _ h => h) (fun _ _ => rfl) h
        | maxBounded r m rev =>
          cases hrep
          exact squashBounded_ok hr (mk := (.maxBounded · m rev)) ho (fun _ => rfl)
            (fun r => quant_max r m rev) (fun _ => rfl) (fun _ _ _ => Nat.le_refl _)
            (fun _ _ h => h) (fun _ _ => rfl) h
        | minMaxBounded r m m' rev =>
          cases hrep
          exact squashBounded_ok hr (mk := (.minMaxBounded · m m' rev)) ho (fun _ => rfl)
            (fun r => quant_minMax r m m' rev) (fun _ => rfl) (fun _ _ _ => Nat.le_refl _)
            (fun _ _ h => h) (fun _ _ => rfl) h
        | _ => cases hquant

end Yargy.Pick
