import Verif.Proofs.TotalGrow
/-!
New objects refer to objects made before them; only forward rules refer to later ones. Forward rules are
defined by rules of certain classes, and rules of these classes are replaced by rules of these classes.
-/
namespace Yargy

variable {P : Type}

/-- Rules that are neither quantifiers nor forward rules. -/
def solid : Tag → Bool
  | .quant | .forward | .prod | .emptyProd | .pipeProd => false
  | _ => true

def SolidAt (h : Heap P) (a : Nat) : Prop := ∃ o, h[a]? = some o ∧ solid o.tag = true

/-- What is new refers to something older, unless it is a forward rule; gazetteers are not made. -/
def YoungObj (a : Nat) (o : Obj P) : Prop :=
  o.tag ≠ .pipe ∧ (o.tag ≠ .forward → ∀ c ∈ o.children, c < a)

/-- Quantifiers that never become a forward rule. -/
def firmQuant : Obj P → Bool
  | .optional _ _ | .minBounded _ _ _ | .minMaxBounded _ _ _ _ => true
  | .maxBounded _ m _ => decide (2 ≤ m)
  | _ => false

/-- No quantifiers but those, one in another. -/
inductive Soft (h : Heap P) : Nat → Prop
  | solid {a} : SolidAt h a → Soft h a
  | forward {a c} : h[a]? = some (.forward c) → Soft h a
  | quant {a c o} : h[a]? = some o → firmQuant o = true → o.children = [c] → Soft h c → Soft h a

/-- What forward rules may be defined by. -/
def Hard (h : Heap P) (a : Nat) : Prop := Soft h a ∧ ∀ c, h[a]? ≠ some (.forward c)

/-- Solid, soft and hard rules are replaced by such rules. -/
def KeptSolid (h : Heap P) (a b : Nat) : Prop :=
  (SolidAt h a → SolidAt h b) ∧ (Soft h a → Soft h b) ∧ (Hard h a → Hard h b)

theorem SolidAt.hard {h : Heap P} {a : Nat} (hs : SolidAt h a) : Hard h a := by
  refine ⟨.solid hs, fun c hc => ?_⟩
  obtain ⟨o, h1, h2⟩ := hs
  rw [hc] at h1; cases h1; cases h2

theorem firmQuant_tag {o : Obj P} (h : firmQuant o = true) : o.tag = .quant := by
  cases o <;> first | rfl | cases h

theorem soft_plain {h : Heap P} {a : Nat} {o : Obj P} (ho : h[a]? = some o) (hq : o.tag ≠ .quant)
    (hf : o.tag ≠ .forward) (hs : Soft h a) : solid o.tag = true := by
  cases hs with
  | solid k => obtain ⟨o', h1, h2⟩ := k; rw [ho] at h1; cases h1; exact h2
  | forward k => rw [ho] at k; cases k; exact absurd rfl hf
  | quant k1 k2 => rw [ho] at k1; cases k1; exact absurd (firmQuant_tag k2) hq

theorem soft_quant {h : Heap P} {a : Nat} {o : Obj P} (ho : h[a]? = some o) (hq : o.tag = .quant)
    (hs : Soft h a) : firmQuant o = true ∧ ∀ c ∈ o.children, Soft h c := by
  cases hs with
  | solid k => obtain ⟨o', h1, h2⟩ := k; rw [ho] at h1; cases h1; rw [hq] at h2; cases h2
  | forward k => rw [ho] at k; cases k; cases hq
  | quant k1 k2 k3 k4 =>
    rw [ho] at k1; cases k1
    refine ⟨k2, fun c hc => ?_⟩
    rw [k3, List.mem_singleton] at hc
    subst hc; exact k4

/-- Something that is not a quantifier was replaced. -/
theorem kept_plain {g : Heap P} {a b : Nat} {o : Obj P} (ho : g[a]? = some o) (hq : o.tag ≠ .quant)
    (hf : o.tag ≠ .forward) (hs : solid o.tag = true → SolidAt g b) : KeptSolid g a b := by
  have h2 : Soft g a → SolidAt g b := fun h => hs (soft_plain ho hq hf h)
  exact ⟨fun h => h2 (.solid h), fun h => .solid (h2 h), fun h => (h2 h.1).hard⟩

/-- A quantifier was replaced. -/
theorem kept_quant {g : Heap P} {a b : Nat} {o : Obj P} (ho : g[a]? = some o) (hq : o.tag = .quant)
    (hs : firmQuant o = true → (∀ c ∈ o.children, Soft g c) → Hard g b) : KeptSolid g a b := by
  have h2 : Soft g a → Hard g b := fun h => hs (soft_quant ho hq h).1 (soft_quant ho hq h).2
  refine ⟨fun h => ?_, fun h => (h2 h).1, fun h => h2 h.1⟩
  obtain ⟨o', h3, h4⟩ := h
  rw [ho] at h3; cases h3; rw [hq] at h4; cases h4

theorem hard_quant {g : Heap P} {a c : Nat} {o : Obj P} (ho : g[a]? = some o) (hq : firmQuant o = true)
    (hc : o.children = [c]) (hs : Soft g c) : Hard g a := by
  refine ⟨.quant ho hq hc hs, fun d hd => ?_⟩
  rw [ho] at hd; cases hd; cases hq

/-- `n` objects are there at the start; `D` tells which may be looked at. -/
structure Young (n : Nat) (D : Nat → Prop) (s : St P) : Prop where
  new : ∀ (a : Nat) o, n ≤ a → s.heap[a]? = some o → YoungObj a o
  fwd : ∀ (a : Nat) c, D a → s.heap[a]? = some (.forward c) → ∃ y, c = some y ∧ Hard s.heap y
  shut : ∀ (a : Nat) o, s.heap[a]? = some o → ∀ c ∈ o.children, c < s.heap.length
  memo : ∀ e ∈ s.memo, e.1 < s.heap.length ∧ e.2 < s.heap.length ∧ KeptSolid s.heap e.1 e.2

/-- Objects keep their class, quantifiers stay as they are. -/
structure After (g g' : Heap P) : Prop where
  len : g.length ≤ g'.length
  tags : ∀ (a : Nat) o, g[a]? = some o → ∃ o', g'[a]? = some o' ∧ o'.tag = o.tag ∧ (o.tag = .quant → o' = o)

theorem After.refl (g : Heap P) : After g g := ⟨Nat.le_refl _, fun _ o h => ⟨o, h, rfl, fun _ => rfl⟩⟩

theorem After.trans {g g' g'' : Heap P} (h1 : After g g') (h2 : After g' g'') : After g g'' := by
  refine ⟨Nat.le_trans h1.len h2.len, fun a o h => ?_⟩
  obtain ⟨o', k1, k2, q2⟩ := h1.tags a o h
  obtain ⟨o'', k3, k4, q4⟩ := h2.tags a o' k1
  exact ⟨o'', k3, k4.trans k2, fun hq => (q4 (k2.trans hq)).trans (q2 hq)⟩

theorem After.append (g e : Heap P) : After g (g ++ e) :=
  ⟨by simp, fun _ o h => ⟨o, getElem?_append_some h, rfl, fun _ => rfl⟩⟩

theorem After.solid {g g' : Heap P} (h : After g g') {a : Nat} (hs : SolidAt g a) : SolidAt g' a := by
  obtain ⟨o, h1, h2⟩ := hs
  obtain ⟨o', h3, h4, _⟩ := h.tags a o h1
  exact ⟨o', h3, h4 ▸ h2⟩

theorem After.solid_back {g g' : Heap P} (h : After g g') {a : Nat} (ha : a < g.length) (hs : SolidAt g' a) :
    SolidAt g a := by
  obtain ⟨o, h1, h2⟩ := hs
  obtain ⟨o', h3, h4, _⟩ := h.tags a _ (List.getElem?_eq_getElem ha)
  rw [h1] at h3; cases h3
  exact ⟨_, List.getElem?_eq_getElem ha, h4 ▸ h2⟩

theorem After.forward {g g' : Heap P} (h : After g g') {a : Nat} {c : Option Nat} (hs : g[a]? = some (.forward c)) :
    ∃ d, g'[a]? = some (.forward d) := by
  obtain ⟨o', h3, h4, _⟩ := h.tags a _ hs
  cases o' <;> first | (cases h4; done) | exact ⟨_, h3⟩

theorem After.forward_back {g g' : Heap P} (h : After g g') {a : Nat} {c : Option Nat} (ha : a < g.length)
    (hs : g'[a]? = some (.forward c)) : ∃ d, g[a]? = some (.forward d) := by
  obtain ⟨o', h3, h4, _⟩ := h.tags a _ (List.getElem?_eq_getElem ha)
  rw [hs] at h3; cases h3
  rw [List.getElem?_eq_getElem ha]
  generalize g[a] = o at h4
  cases o <;> first | (cases h4; done) | exact ⟨_, rfl⟩

theorem After.soft {g g' : Heap P} (h : After g g') {a : Nat} (hs : Soft g a) : Soft g' a := by
  induction hs with
  | solid k => exact .solid (h.solid k)
  | forward k => obtain ⟨d, k'⟩ := h.forward k; exact .forward k'
  | quant k1 k2 k3 _ ih =>
    obtain ⟨o', h3, _, h5⟩ := h.tags _ _ k1
    rw [h5 (firmQuant_tag k2)] at h3
    exact .quant h3 k2 k3 ih

theorem After.soft_back {g g' : Heap P} (h : After g g')
    (hc : ∀ (a : Nat) o, g[a]? = some o → ∀ c ∈ o.children, c < g.length) {a : Nat} (ha : a < g.length)
    (hs : Soft g' a) : Soft g a := by
  induction hs with
  | solid k => exact .solid (h.solid_back ha k)
  | forward k => obtain ⟨d, k'⟩ := h.forward_back ha k; exact .forward k'
  | @quant a c o k1 k2 k3 _ ih =>
    have e := List.getElem?_eq_getElem ha
    obtain ⟨o', h3, h4, h5⟩ := h.tags _ _ e
    rw [k1] at h3; cases h3
    rw [firmQuant_tag k2] at h4
    rw [← h5 h4.symm] at e
    exact .quant e k2 k3 (ih (hc _ _ e c (by rw [k3]; exact List.mem_singleton.2 rfl)))

theorem Hard.lt {g : Heap P} {a : Nat} (hs : Hard g a) : a < g.length := by
  rcases hs.1 with ⟨o, k, _⟩ | k | k <;> exact (List.getElem?_eq_some_iff.1 k).1

theorem After.hard {g g' : Heap P} (h : After g g') {a : Nat} (hs : Hard g a) : Hard g' a := by
  refine ⟨h.soft hs.1, fun c hc => ?_⟩
  obtain ⟨d, hd⟩ := h.forward_back hs.lt hc
  exact hs.2 d hd

theorem After.hard_back {g g' : Heap P} (h : After g g')
    (hc : ∀ (a : Nat) o, g[a]? = some o → ∀ c ∈ o.children, c < g.length) {a : Nat} (ha : a < g.length)
    (hs : Hard g' a) : Hard g a := by
  refine ⟨h.soft_back hc ha hs.1, fun c hc => ?_⟩
  obtain ⟨d, hd⟩ := h.forward hc
  exact hs.2 d hd

theorem After.kept {g g' : Heap P} (h : After g g')
    (hc : ∀ (a : Nat) o, g[a]? = some o → ∀ c ∈ o.children, c < g.length) {a b : Nat} (ha : a < g.length)
    (hk : KeptSolid g a b) : KeptSolid g' a b :=
  ⟨fun hs => h.solid (hk.1 (h.solid_back ha hs)), fun hs => h.soft (hk.2.1 (h.soft_back hc ha hs)),
    fun hs => h.hard (hk.2.2 (h.hard_back hc ha hs))⟩

variable {n : Nat} {D : Nat → Prop}

variable (n D) in
/-- What a step keeps. -/
def YoungStep {α β : Type} (Post : Nat → β → Prop) (R : Heap P → α → β → Prop)
    (f : α → St P → Except Err (β × St P)) : Prop :=
  ∀ x s y s', Young n D s → f x s = .ok (y, s') →
    Young n D s' ∧ After s.heap s'.heap ∧ Post s'.heap.length y ∧ R s'.heap x y

variable (n D) in
abbrev YoungVisit (rec : Visit P) : Prop :=
  YoungStep n D (fun l b => b < l) KeptSolid rec

variable (n D) in
/-- What the methods of a transformator keep. -/
def MethodYoung (m : Method P) : Prop :=
  ∀ k rec, YoungVisit n D rec → ∀ (a : Nat) o (s : St P) b s', Young n D s →
    s.heap[a]? = some o → m k rec a o s = .ok (b, s') →
    Young n D s' ∧ After s.heap s'.heap ∧ b < s'.heap.length ∧ KeptSolid s'.heap a b

theorem visit_young {m : Method P} {pid : Nat → Nat} (hp : ∀ a b, pid a = pid b → a = b)
    (hm : MethodYoung n D m) : ∀ k, YoungVisit n D (visit m pid k) := by
  intro k
  induction k with
  | zero => intro a s b s' _ h; simp [visit] at h
  | succ k ih =>
    intro a s b s' hy h
    unfold visit at h
    cases hl : s.lookup pid a with
    | some c =>
      simp only [hl, Except.ok.injEq, Prod.mk.injEq] at h
      obtain ⟨rfl, rfl⟩ := h
      unfold St.lookup at hl
      cases hf : s.memo.find? (fun e => decide (pid e.1 = pid a)) with
      | none => simp [hf] at hl
      | some e =>
        simp only [hf, Option.map_some, Option.some.injEq] at hl
        have h1 := List.find?_some hf
        have h2 := List.mem_of_find?_eq_some hf
        have : e.1 = a := hp _ _ (by simpa using h1)
        obtain ⟨_, k1, k2⟩ := hy.memo e h2
        subst this hl
        exact ⟨hy, After.refl _, k1, k2⟩
    | none =>
      simp only [hl] at h
      cases ho : s.heap[a]? with
      | none => simp [ho] at h
      | some o =>
        simp only [ho] at h
        cases hr : m k (visit m pid k) a o s with
        | error e => simp [hr] at h
        | ok r =>
          obtain ⟨b', s1⟩ := r
          simp only [hr, Except.ok.injEq, Prod.mk.injEq] at h
          obtain ⟨rfl, rfl⟩ := h
          obtain ⟨h1, h3, h4, h5⟩ := hm k _ ih a o s b' s1 hy ho hr
          refine ⟨⟨h1.new, h1.fwd, h1.shut, ?_⟩, h3, h4, h5⟩
          intro e he
          simp only [List.mem_cons] at he
          rcases he with rfl | he
          · exact ⟨Nat.lt_of_lt_of_le (List.getElem?_eq_some_iff.1 ho).1 h3.len, h4, h5⟩
          · exact h1.memo e he

/-- Several objects are added. -/
theorem Young.append {s : St P} (hy : Young n D s) {e : Heap P}
    (he : ∀ (i : Nat) o, e[i]? = some o → YoungObj (s.heap.length + i) o)
    (hf : ∀ (i : Nat) c, e[i]? = some (.forward c) → ∃ y, c = some y ∧ Hard (s.heap ++ e) y) :
    Young n D { s with heap := s.heap ++ e } := by
  refine ⟨fun a o ha ho => ?_, fun a c ha ho => ?_, fun a o ho c hc => ?_, fun x hx => ?_⟩
  · rcases Nat.lt_or_ge a s.heap.length with hl | hl
    · rw [List.getElem?_append_left hl] at ho
      exact hy.new a o ha ho
    · rw [List.getElem?_append_right hl] at ho
      have := he _ _ ho
      rwa [show s.heap.length + (a - s.heap.length) = a by omega] at this
  · rcases Nat.lt_or_ge a s.heap.length with hl | hl
    · rw [List.getElem?_append_left hl] at ho
      obtain ⟨y, h1, h2⟩ := hy.fwd a c ha ho
      exact ⟨y, h1, (After.append _ _).hard h2⟩
    · rw [List.getElem?_append_right hl] at ho
      exact hf _ _ ho
  · rcases Nat.lt_or_ge a s.heap.length with hl | hl
    · rw [List.getElem?_append_left hl] at ho
      have := hy.shut a o ho c hc
      simp; omega
    · have hal : a < (s.heap ++ e).length := (List.getElem?_eq_some_iff.1 ho).1
      rw [List.getElem?_append_right hl] at ho
      by_cases ht : o.tag = .forward
      · cases o <;> first | (cases ht; done) | skip
        rename_i d
        obtain ⟨y, rfl, h1⟩ := hf _ _ ho
        have : c = y := by simpa [Obj.children] using hc
        subst this
        exact h1.lt
      · have := (he _ _ ho).2 ht c hc
        show c < (s.heap ++ e).length
        omega
  · obtain ⟨k0, k1, k2⟩ := hy.memo x hx
    exact ⟨by simp; omega, by simp; omega, (After.append _ _).kept hy.shut k0 k2⟩

theorem Young.alloc {s : St P} (hy : Young n D s) {o : Obj P} (ho : YoungObj s.heap.length o)
    (hf : o.tag ≠ .forward) : Young n D (s.alloc o).2 := by
  refine hy.append ?_ ?_
  · intro i x hx
    match i, hx with
    | 0, hx => simp at hx; subst hx; exact ho
    | k + 1, hx => simp at hx
  · intro i c hc
    match i, hc with
    | 0, hc => simp at hc; subst hc; exact absurd rfl hf
    | k + 1, hc => simp at hc

theorem mapSt_young {α β : Type} {Post : Nat → β → Prop} {R : Heap P → α → β → Prop}
    (hPost : ∀ l l' y, l ≤ l' → Post l y → Post l' y) {f : α → St P → Except Err (β × St P)}
    (hf : YoungStep n D Post R f) :
    ∀ (xs : List α) s ys s', Young n D s → mapSt f xs s = .ok (ys, s') →
      Young n D s' ∧ After s.heap s'.heap ∧ ∀ y ∈ ys, Post s'.heap.length y := by
  intro xs
  induction xs with
  | nil => intro s ys s' hy h; cases h; exact ⟨hy, After.refl _, by simp⟩
  | cons x xs ih =>
    intro s ys s' hy h
    simp only [mapSt] at h
    split at h
    · cases h
    · rename_i h1
      split at h
      · cases h
      · rename_i h2
        cases h
        obtain ⟨i1, i3, i4, _⟩ := hf _ _ _ _ hy h1
        obtain ⟨j1, j3, j4⟩ := ih _ _ _ i1 h2
        refine ⟨j1, i3.trans j3, ?_⟩
        intro y hy'
        rcases List.mem_cons.1 hy' with rfl | hy'
        · exact hPost _ _ _ j3.len i4
        · exact j4 y hy'

theorem solidAt_of {h : Heap P} {a : Nat} {o : Obj P} (ho : h[a]? = some o) : SolidAt h a ↔ solid o.tag = true := by
  constructor
  · rintro ⟨o', h1, h2⟩; rw [ho] at h1; cases h1; exact h2
  · intro h; exact ⟨o, ho, h⟩

/-- The end of a method: a new object in the place of something that is not a quantifier. -/
theorem young_new {s s1 : St P} {a : Nat} {o o' : Obj P} (ho : s.heap[a]? = some o) (hy : Young n D s1)
    (ha : After s.heap s1.heap) (ho' : YoungObj s1.heap.length o') (hf : o'.tag ≠ .forward)
    (hq : o.tag ≠ .quant ∧ o.tag ≠ .forward) (hs : solid o.tag = true → solid o'.tag = true) :
    Young n D (s1.alloc o').2 ∧ After s.heap (s1.alloc o').2.heap ∧
      (s1.alloc o').1 < (s1.alloc o').2.heap.length ∧ KeptSolid (s1.alloc o').2.heap a (s1.alloc o').1 := by
  have af := ha.trans (After.append s1.heap [o'])
  refine ⟨hy.alloc ho' hf, af, by simp [St.alloc], ?_⟩
  obtain ⟨o1, k1, k2, _⟩ := af.tags a o ho
  exact kept_plain k1 (k2 ▸ hq.1) (k2 ▸ hq.2) (fun h => ⟨o', getElem?_new o', hs (k2 ▸ h)⟩)

theorem rebuild_young {rec : Visit P} (hr : YoungVisit n D rec) {a r : Nat} {o : Obj P} {mk : Nat → Obj P}
    {s s' : St P} {b : Nat} (hy : Young n D s)
    (ho : s.heap[a]? = some o) (htag : ∀ c, (mk c).tag ≠ .forward ∧ (mk c).tag ≠ .pipe)
    (hch : ∀ c, (mk c).children = [c])
    (hq : o.tag ≠ .forward ∧ (o.tag = .quant → o.children = [r] ∧ ∀ c, firmQuant o = true → firmQuant (mk c) = true))
    (hs : ∀ c, solid o.tag = true → solid (mk c).tag = true) (h : rebuild rec r mk s = .ok (b, s')) :
    Young n D s' ∧ After s.heap s'.heap ∧ b < s'.heap.length ∧ KeptSolid s'.heap a b := by
  unfold rebuild at h
  cases hx : rec r s with
  | error e => rw [hx] at h; cases h
  | ok x =>
    rw [hx] at h
    obtain ⟨h1, h3, h4, h5⟩ := hr _ _ _ _ hy hx
    simp only [Except.map, Except.ok.injEq] at h
    have yo : YoungObj x.2.heap.length (mk x.1) := ⟨(htag _).2, fun _ c hc => by
        rw [hch, List.mem_singleton] at hc; subst hc; exact h4⟩
    by_cases hqo : o.tag = .quant
    · have af := h3.trans (After.append x.2.heap [mk x.1])
      obtain ⟨o1, k1, k2, k3⟩ := af.tags a o ho
      have := k3 hqo
      subst this
      obtain ⟨q1, q2⟩ := hq.2 hqo
      have kept : KeptSolid (x.2.alloc (mk x.1)).2.heap a (x.2.alloc (mk x.1)).1 := by
        refine kept_quant k1 hqo (fun hfirm hsoft => ?_)
        refine hard_quant (getElem?_new _) (q2 _ hfirm) (hch _) ?_
        have hsr := hsoft r (by rw [q1]; exact List.mem_singleton.2 rfl)
        have hrl : r < x.2.heap.length :=
          Nat.lt_of_lt_of_le (hy.shut a _ ho r (by rw [q1]; exact List.mem_singleton.2 rfl)) h3.len
        exact (After.append _ _).soft (h5.2.1 ((After.append _ _).soft_back h1.shut hrl hsr))
      have res : Young n D (x.2.alloc (mk x.1)).2 ∧ After s.heap (x.2.alloc (mk x.1)).2.heap ∧
          (x.2.alloc (mk x.1)).1 < (x.2.alloc (mk x.1)).2.heap.length ∧
          KeptSolid (x.2.alloc (mk x.1)).2.heap a (x.2.alloc (mk x.1)).1 :=
        ⟨h1.alloc yo (htag _).1, af, by simp [St.alloc], kept⟩
      rw [h] at res
      exact res
    · have := young_new (o' := mk x.1) ho h1 h3 yo (htag _).1 ⟨hqo, hq.1⟩ (hs x.1)
      rw [h] at this
      exact this

theorem rebuildAll_young {α β : Type} {Post : Nat → β → Prop} {R : Heap P → α → β → Prop}
    (hPost : ∀ l l' y, l ≤ l' → Post l y → Post l' y) {f : α → St P → Except Err (β × St P)}
    (hf : YoungStep n D Post R f) {a : Nat} {o : Obj P} {xs : List α} {mk : List β → Obj P}
    {s s' : St P} {b : Nat} (hy : Young n D s)
    (ho : s.heap[a]? = some o) (htag : ∀ ys, (mk ys).tag ≠ .forward ∧ (mk ys).tag ≠ .pipe)
    (hch : ∀ ys l, (∀ y ∈ ys, Post l y) → ∀ c ∈ (mk ys).children, c < l)
    (hq : o.tag ≠ .quant ∧ o.tag ≠ .forward)
    (hs : ∀ ys, solid o.tag = true → solid (mk ys).tag = true) (h : rebuildAll f xs mk s = .ok (b, s')) :
    Young n D s' ∧ After s.heap s'.heap ∧ b < s'.heap.length ∧ KeptSolid s'.heap a b := by
  unfold rebuildAll at h
  cases hx : mapSt f xs s with
  | error e => rw [hx] at h; cases h
  | ok x =>
    rw [hx] at h
    obtain ⟨h1, h3, h4⟩ := mapSt_young hPost hf _ _ _ _ hy hx
    simp only [Except.map, Except.ok.injEq] at h
    have := young_new (o' := mk x.1) ho h1 h3 ⟨(htag _).2, fun _ => hch _ _ h4⟩ (htag _).1 hq (hs x.1)
    rw [h] at this
    exact this

/-- The rules among the terms are there. -/
def TermLt (l : Nat) (t : Term P) : Prop := ∀ r, t = .rule r → r < l

theorem termLt_mono (l l' : Nat) (t : Term P) (h : l ≤ l') (ht : TermLt l t) : TermLt l' t :=
  fun r e => Nat.lt_of_lt_of_le (ht r e) h

theorem lt_mono (l l' b : Nat) (h : l ≤ l') (hb : b < l) : b < l' := Nat.lt_of_lt_of_le hb h

theorem visitTerm_young {rec : Visit P} (hr : YoungVisit n D rec) :
    YoungStep n D TermLt (fun _ _ _ => True) (visitTerm rec) := by
  intro t s u s' hy h
  cases t with
  | pred p => cases h; exact ⟨hy, After.refl _, (by intro r e; cases e), trivial⟩
  | rule r =>
    simp only [visitTerm] at h
    cases hx : rec r s with
    | error e => rw [hx] at h; cases h
    | ok x =>
      rw [hx] at h
      cases h
      obtain ⟨h1, h3, h4, _⟩ := hr _ _ _ _ hy hx
      exact ⟨h1, h3, (by intro r e; cases e; exact h4), trivial⟩

theorem prod_children {ts : List (Term P)} {k : Nat} {l : Nat} (h : ∀ t ∈ ts, TermLt l t) :
    ∀ c ∈ (Obj.prod ts k).children, c < l := by
  intro c hc
  exact h _ (termRules_mem.1 hc) c rfl

theorem default_young {k : Nat} {rec : Visit P} (hr : YoungVisit n D rec)
    {a : Nat} {o : Obj P} {s : St P} {b : Nat} {s' : St P} (hy : Young n D s) (ho : s.heap[a]? = some o)
    (h : defaultMethod k rec a o s = .ok (b, s')) :
    Young n D s' ∧ After s.heap s'.heap ∧ b < s'.heap.length ∧ KeptSolid s'.heap a b := by
  have self : Young n D s ∧ After s.heap s.heap ∧ a < s.heap.length ∧ KeptSolid s.heap a a :=
    ⟨hy, After.refl _, (List.getElem?_eq_some_iff.1 ho).1, fun h => h, fun h => h, fun h => h⟩
  cases o <;> simp only [defaultMethod] at h
  case emptyProd => cases h; exact self
  case pipeProd => cases h; exact self
  case empty => cases h; exact self
  case pipe => cases h; exact self
  case forward => cases h; exact self
  case optional => cases h
  case repeatable => cases h
  case repOptional => cases h
  case prod ts m =>
    exact rebuildAll_young termLt_mono (visitTerm_young hr) hy ho (by simp [Obj.tag])
      (fun ys l hl => prod_children hl) (by simp [Obj.tag]) (fun _ h => h) h
  case rule => refine rebuildAll_young lt_mono hr hy ho ?_ ?_ ?_ ?_ h <;> simp [Obj.tag, Obj.children]
  case or =>
    refine rebuildAll_young lt_mono hr hy ho ?_ ?_ ?_ ?_ h
    · simp [Obj.tag]
    · simp [Obj.children]
    · simp [Obj.tag]
    · intro _ h; exact h
  case bnf => refine rebuildAll_young lt_mono hr hy ho ?_ ?_ ?_ ?_ h <;> simp [Obj.tag, Obj.children, solid]
  all_goals
    refine rebuild_young hr hy ho ?_ ?_ ?_ ?_ h
    · intro c; simp [Obj.tag]
    · intro c; rfl
    · refine ⟨by simp [Obj.tag], fun h => ?_⟩
      first
        | (cases h; done)
        | exact ⟨rfl, fun _ h => h⟩
    · intro c h; exact h

/-! ### Squashing -/

/-- Something is put in the place of a quantifier. -/
theorem visitNew_young {rec : Visit P} (hr : YoungVisit n D rec) {a : Nat} {o o' : Obj P}
    {s s' : St P} {b : Nat} (hy : Young n D s)
    (ho : s.heap[a]? = some o) (hqo : o.tag = .quant) (ho' : YoungObj s.heap.length o')
    (hf : o'.tag ≠ .forward)
    (hk : firmQuant o = true → (∀ c ∈ o.children, Soft s.heap c) →
      firmQuant o' = true ∧ ∃ c, o'.children = [c] ∧ Soft s.heap c)
    (h : visitNew rec o' s = .ok (b, s')) :
    Young n D s' ∧ After s.heap s'.heap ∧ b < s'.heap.length ∧ KeptSolid s'.heap a b := by
  obtain ⟨h1, h3, h4, h6⟩ := hr _ _ _ _ (hy.alloc ho' hf) h
  have h5 := (After.append s.heap [o']).trans h3
  refine ⟨h1, h5, h4, ?_⟩
  obtain ⟨o1, k1, _, k3⟩ := h5.tags a o ho
  have := k3 hqo
  subst this
  refine kept_quant k1 hqo (fun hfirm hsoft => h6.2.2 ?_)
  obtain ⟨q1, c, q2, q3⟩ := hk hfirm (fun c hc => h5.soft_back hy.shut (hy.shut a _ ho c hc) (hsoft c hc))
  obtain ⟨o2, w1, _, w3⟩ := h3.tags s.heap.length o' (getElem?_new o')
  rw [w3 (firmQuant_tag q1)] at w1
  exact hard_quant w1 q1 q2 (h5.soft q3)

theorem quant_obj {l g : Nat} {o : Obj P} (hq : o.tag = .quant) (hc : o.children = [g]) (hg : g < l) : YoungObj l o :=
  ⟨by rw [hq]; decide, fun _ c h => by rw [hc, List.mem_singleton] at h; subst h; exact hg⟩

/-- A quantifier around what is in the quantifier below. -/
theorem squash_young_new {rec : Visit P} (hr : YoungVisit n D rec) {a c g : Nat} {o oc o' : Obj P}
    {s s' : St P} {b : Nat} (hy : Young n D s)
    (ho : s.heap[a]? = some o) (hqo : o.tag = .quant) (hco : c ∈ o.children) (hoc : s.heap[c]? = some oc)
    (hqc : oc.tag = .quant) (hg : g ∈ oc.children)
    (hq : o'.tag = .quant) (hc : o'.children = [g])
    (hfirm : firmQuant o = true → firmQuant oc = true → firmQuant o' = true)
    (h : visitNew rec o' s = .ok (b, s')) :
    Young n D s' ∧ After s.heap s'.heap ∧ b < s'.heap.length ∧ KeptSolid s'.heap a b :=
  visitNew_young hr hy ho hqo (quant_obj hq hc (hy.shut c oc hoc g hg)) (by rw [hq]; decide)
    (fun h1 h2 => by
      obtain ⟨k1, k2⟩ := soft_quant hoc hqc (h2 c hco)
      exact ⟨hfirm h1 k1, g, hc, k2 g hg⟩) h

theorem quant_young_rebuild {rec : Visit P} (hr : YoungVisit n D rec) {a r : Nat} {o : Obj P} {mk : Nat → Obj P}
    {s s' : St P} {b : Nat} (hy : Young n D s) (ho : s.heap[a]? = some o) (hqo : o.tag = .quant)
    (hco : o.children = [r])
    (hq : ∀ c, (mk c).tag = .quant) (hc : ∀ c, (mk c).children = [c])
    (hfirm : ∀ c, firmQuant o = true → firmQuant (mk c) = true)
    (h : rebuild rec r mk s = .ok (b, s')) :
    Young n D s' ∧ After s.heap s'.heap ∧ b < s'.heap.length ∧ KeptSolid s'.heap a b :=
  rebuild_young hr hy ho (fun c => by rw [hq]; decide) hc ⟨by rw [hqo]; decide, fun _ => ⟨hco, hfirm⟩⟩
    (fun c h => by rw [hqo] at h; cases h) h

theorem squashBounded_young {rec : Visit P} (hr : YoungVisit n D rec) {a c : Nat} {o : Obj P} {mk : Nat → Obj P}
    {s s' : St P} {b : Nat} (hy : Young n D s) (ho : s.heap[a]? = some o) (hqo : o.tag = .quant)
    (hco : o.children = [c])
    (hq : ∀ c, (mk c).tag = .quant) (hc : ∀ c, (mk c).children = [c])
    (hfirm : ∀ c, firmQuant o = true → firmQuant (mk c) = true)
    (h : squashBounded rec c mk s = .ok (b, s')) :
    Young n D s' ∧ After s.heap s'.heap ∧ b < s'.heap.length ∧ KeptSolid s'.heap a b := by
  have hcm : c ∈ o.children := by rw [hco]; exact List.mem_singleton.2 rfl
  unfold squashBounded at h
  split at h
  · rename_i g rev hoc
    exact squash_young_new hr hy ho hqo hcm hoc rfl List.mem_cons_self rfl rfl (fun _ h => by cases h) h
  · cases h
  · rename_i g rev hoc
    have hg := hy.shut c _ hoc g List.mem_cons_self
    have y1 := hy.alloc (o := mk g) (quant_obj (hq g) (hc g) hg) (by rw [hq]; decide)
    have ho1 : (s.alloc (mk g)).2.heap[a]? = some o := getElem?_append_some ho
    have a1 : After s.heap (s.alloc (mk g)).2.heap := After.append _ _
    obtain ⟨h1, h2, h3, h4⟩ := visitNew_young (o' := .optional s.heap.length rev) hr y1 ho1 hqo
      (quant_obj rfl rfl (by simp [St.alloc])) (by simp [Obj.tag]) (fun k1 k2 => by
        refine ⟨rfl, s.heap.length, rfl, ?_⟩
        have k3 := a1.soft_back hy.shut (hy.shut a o ho c hcm) (k2 c hcm)
        exact .quant (getElem?_new _) (hfirm g k1) (hc g)
          (a1.soft ((soft_quant hoc rfl k3).2 g List.mem_cons_self))) h
    exact ⟨h1, (After.append _ _).trans h2, h3, h4⟩
  · exact quant_young_rebuild hr hy ho hqo hco hq hc hfirm h

theorem squash_young : MethodYoung n D (squashMethod : Method P) := by
  intro k rec hr a o s b s' hy ho h
  unfold squashMethod at h
  split at h
  · split at h
    case h_2 => cases h
    case h_7 => refine quant_young_rebuild hr hy ho rfl rfl ?_ ?_ ?_ h <;> first | (intro; rfl) | exact fun _ h => h
    all_goals
      rename_i hoc
      exact squash_young_new hr hy ho rfl List.mem_cons_self hoc rfl List.mem_cons_self rfl rfl
        (fun h => by cases h) h
  · split at h
    · rename_i hoc
      exact squash_young_new hr hy ho rfl List.mem_cons_self hoc rfl List.mem_cons_self rfl rfl
        (fun _ h => by cases h) h
    · cases h
    · rename_i hoc
      exact squash_young_new hr hy ho rfl List.mem_cons_self hoc rfl List.mem_cons_self rfl rfl
        (fun _ _ => rfl) h
    · refine quant_young_rebuild hr hy ho rfl rfl ?_ ?_ ?_ h <;> first | (intro; rfl) | exact fun _ h => h
  · split at h
    case h_7 => refine quant_young_rebuild hr hy ho rfl rfl ?_ ?_ ?_ h <;> first | (intro; rfl) | exact fun _ h => h
    all_goals
      rename_i hoc
      exact squash_young_new hr hy ho rfl List.mem_cons_self hoc rfl List.mem_cons_self rfl rfl
        (fun h => by cases h) h
  · refine squashBounded_young hr hy ho rfl rfl ?_ ?_ ?_ h <;> first | (intro; rfl) | exact fun _ h => h
  · refine squashBounded_young hr hy ho rfl rfl ?_ ?_ ?_ h <;> first | (intro; rfl) | exact fun _ h => h
  · refine squashBounded_young hr hy ho rfl rfl ?_ ?_ ?_ h <;> first | (intro; rfl) | exact fun _ h => h
  · exact default_young hr hy ho h

/-! ### Alternatives, empty rules -/

theorem visitProd_young {rec : Visit P} (hr : YoungVisit n D rec) :
    YoungStep n D (fun l b => b < l) (fun _ _ _ => True) (visitProd rec) := by
  intro r s p s' hy h
  unfold visitProd rebuild at h
  cases hx : rec r s with
  | error e => rw [hx] at h; cases h
  | ok x =>
    rw [hx] at h
    obtain ⟨h1, h2, h3, _⟩ := hr _ _ _ _ hy hx
    cases h
    refine ⟨h1.alloc ⟨by simp [Obj.tag], fun _ c hc => ?_⟩ (by simp [Obj.tag]), h2.trans (After.append _ _),
      by simp [St.alloc], trivial⟩
    have : c = x.1 := by simpa [Obj.children, termRules] using hc
    subst this
    exact h3

theorem or_young : MethodYoung n D (orMethod : Method P) := by
  intro k rec hr a o s b s' hy ho h
  unfold orMethod at h
  split at h
  · refine rebuildAll_young lt_mono (visitProd_young hr) hy ho ?_ ?_ ?_ ?_ h
    · simp [Obj.tag]
    · simp [Obj.children]
    · simp [Obj.tag]
    · intro _ _; rfl
  · exact default_young hr hy ho h

theorem empty_young : MethodYoung n D (emptyMethod : Method P) := by
  intro k rec hr a o s b s' hy ho h
  unfold emptyMethod at h
  split at h
  · simp only [Except.ok.injEq] at h
    have y1 := hy.alloc (o := .emptyProd) ⟨by simp [Obj.tag], fun _ c hc => by cases hc⟩ (by simp [Obj.tag])
    have := young_new (s1 := (s.alloc .emptyProd).2) (o' := .rule [s.heap.length]) ho y1 (After.append _ _)
      ⟨by simp [Obj.tag], fun _ c hc => by
        have : c = s.heap.length := by simpa [Obj.children] using hc
        subst this
        simp [St.alloc]⟩ (by simp [Obj.tag]) (by simp [Obj.tag]) (fun _ => rfl)
    rw [show ((s.alloc .emptyProd).2.alloc (.rule [s.heap.length])) = (b, s') from h] at this
    exact this
  · exact default_young hr hy ho h

/-! ### Rules with one term -/

theorem flattenTerm_young {rec : Visit P} (hr : YoungVisit n D rec) (k : Nat) :
    YoungStep n D TermLt (fun _ _ _ => True) (flattenTerm rec k) := by
  induction k with
  | zero => intro t s y s' _ h; simp [flattenTerm] at h
  | succ k ih =>
    intro t s y s' hy h
    cases t with
    | pred p => cases h; exact ⟨hy, After.refl _, (by intro r e; cases e), trivial⟩
    | rule r =>
      simp only [flattenTerm] at h
      split at h
      · split at h
        · exact ih _ _ _ _ hy h
        · exact visitTerm_young hr _ _ _ _ hy h
      · exact visitTerm_young hr _ _ _ _ hy h

theorem flatten_young : MethodYoung n D (flattenMethod : Method P) := by
  intro k rec hr a o s b s' hy ho h
  unfold flattenMethod at h
  split at h
  · rename_i ts m
    have go : rebuildAll (flattenTerm rec k) ts (.prod · m) s = .ok (b, s') →
        Young n D s' ∧ After s.heap s'.heap ∧ b < s'.heap.length ∧ KeptSolid s'.heap a b := fun h =>
      rebuildAll_young termLt_mono (flattenTerm_young hr k) hy ho (by simp [Obj.tag])
        (fun ys l hl => prod_children hl) (by simp [Obj.tag]) (fun _ h => h) h
    split at h
    · split at h
      · rename_i p hr1
        obtain ⟨h1, h2, h3, _⟩ := hr p s b s' hy h
        obtain ⟨o1, k1, k2, _⟩ := h2.tags a _ ho
        exact ⟨h1, h2, h3, kept_plain k1 (by rw [k2]; simp [Obj.tag]) (by rw [k2]; simp [Obj.tag])
          (fun h => by rw [k2] at h; cases h)⟩
      · exact go h
    · exact go h
  · exact default_young hr hy ho h

/-! ### Quantifiers -/

variable (n D) in
/-- Something is made. -/
structure YoungMake (s s' : St P) (b : Nat) : Prop where
  young : Young n D s'
  after : After s.heap s'.heap
  lt : b < s'.heap.length

theorem YoungMake.trans {s s' s'' : St P} {b c : Nat} (h1 : YoungMake n D s s' b) (h2 : YoungMake n D s' s'' c) :
    YoungMake n D s s'' c := ⟨h2.young, h1.after.trans h2.after, h2.lt⟩

theorem alloc_make {s : St P} (hy : Young n D s) {o : Obj P} (ho : YoungObj s.heap.length o)
    (hf : o.tag ≠ .forward) : YoungMake n D s (s.alloc o).2 (s.alloc o).1 :=
  ⟨hy.alloc ho hf, After.append _ _, by simp [St.alloc]⟩

theorem rule_make {s : St P} (hy : Young n D s) {items : List Nat} (hi : ∀ x ∈ items, x < s.heap.length) :
    YoungMake n D s (s.rule items).2 (s.rule items).1 := by
  have m1 := alloc_make (o := .prod (items.map .rule) 0) hy ⟨by simp [Obj.tag], fun _ c hc => by
    have := termRules_mem.1 hc
    rw [List.mem_map] at this
    obtain ⟨x, hx, e⟩ := this
    cases e
    exact hi _ hx⟩ (by simp [Obj.tag])
  exact m1.trans (alloc_make m1.young ⟨by simp [Obj.tag], fun _ c hc => by
    have : c = s.heap.length := by simpa [Obj.children] using hc
    subst this
    simp [St.alloc]⟩ (by simp [Obj.tag]))

theorem or_obj {l x y : Nat} {rev : Bool} (hx : x < l) (hy : y < l) :
    YoungObj l (.or (if rev then [x, y] else [y, x]) : Obj P) := by
  refine ⟨by simp [Obj.tag], fun _ c hc => ?_⟩
  simp only [Obj.children] at hc
  cases rev <;> simp at hc <;> omega

theorem maxBound_make {item : Nat} (rev : Bool) : ∀ (k : Nat) (s : St P), Young n D s → item < s.heap.length →
    YoungMake n D s (maxBound item rev k s).2 (maxBound item rev k s).1
  | 0, s, hy, hi => ⟨hy, After.refl _, hi⟩
  | 1, s, hy, hi => ⟨hy, After.refl _, hi⟩
  | k + 2, s, hy, hi => by
    have m1 := maxBound_make rev (k + 1) s hy hi
    simp only [maxBound]
    have i1 := Nat.lt_of_lt_of_le hi m1.after.len
    have m2 := rule_make m1.young (items := [item, (maxBound item rev (k + 1) s).1]) (by
      intro x hx
      simp only [List.mem_cons, List.not_mem_nil, or_false] at hx
      rcases hx with rfl | rfl
      · exact i1
      · exact m1.lt)
    exact (m1.trans m2).trans (alloc_make m2.young (or_obj (Nat.lt_of_lt_of_le i1 m2.after.len) m2.lt)
      (by simp [Obj.tag]))

theorem mkOptional_make {item : Nat} (rev : Bool) {s : St P} (hy : Young n D s) (hi : item < s.heap.length) :
    YoungMake n D s (mkOptional item rev s).2 (mkOptional item rev s).1 := by
  have m1 := alloc_make (o := .empty) hy ⟨by simp [Obj.tag], fun _ c hc => by cases hc⟩ (by simp [Obj.tag])
  exact m1.trans (alloc_make m1.young (or_obj (Nat.lt_of_lt_of_le hi m1.after.len) m1.lt) (by simp [Obj.tag]))

theorem mkRepeatable_make {item : Nat} (rev : Bool) {s : St P} (hy : Young n D s) (hi : item < s.heap.length) :
    YoungMake n D s (mkRepeatable item rev s).2 (mkRepeatable item rev s).1 := by
  have e : (mkRepeatable item rev s).2 = { s with heap := s.heap ++
      [.forward (some (s.heap.length + 3)), .prod [.rule item, .rule s.heap.length] 0,
       .rule [s.heap.length + 1],
       .or (if rev then [item, s.heap.length + 2] else [s.heap.length + 2, item])] } := by
    simp [mkRepeatable, St.rule, St.alloc]
  rw [e]
  refine ⟨hy.append ?_ ?_, After.append _ _, by simp [mkRepeatable, St.alloc]⟩
  · intro i o ho
    rcases Pass.getElem?_four ho with ⟨rfl, rfl⟩ | ⟨rfl, rfl⟩ | ⟨rfl, rfl⟩ | ⟨rfl, rfl⟩
    · exact ⟨by simp [Obj.tag], fun h => absurd rfl h⟩
    · refine ⟨by simp [Obj.tag], fun _ c hc => ?_⟩
      simp only [Obj.children, termRules, List.mem_cons, List.not_mem_nil, or_false] at hc
      omega
    · refine ⟨by simp [Obj.tag], fun _ c hc => ?_⟩
      simp only [Obj.children, List.mem_cons, List.not_mem_nil, or_false] at hc
      omega
    · exact or_obj (by omega) (by omega)
  · intro i c hc
    rcases Pass.getElem?_four hc with ⟨rfl, e⟩ | ⟨rfl, e⟩ | ⟨rfl, e⟩ | ⟨rfl, e⟩ <;> cases e
    refine ⟨_, rfl, SolidAt.hard ⟨.or (if rev then [item, s.heap.length + 2] else [s.heap.length + 2, item]), ?_, rfl⟩⟩
    rw [List.getElem?_append_right (by omega)]
    simp

theorem mkRepOptional_make {item : Nat} (rr ro : Bool) {s : St P} (hy : Young n D s) (hi : item < s.heap.length) :
    YoungMake n D s (mkRepOptional item rr ro s).2 (mkRepOptional item rr ro s).1 := by
  have e : (mkRepOptional item rr ro s).2 = { s with heap := s.heap ++
      [.forward (some (s.heap.length + 4)), .empty, .prod [.rule item, .rule s.heap.length] 0,
       .rule [s.heap.length + 2],
       .or (repOptionalOrder (s.heap.length + 1) (s.heap.length + 3) item rr ro)] } := by
    simp [mkRepOptional, St.rule, St.alloc]
  rw [e]
  refine ⟨hy.append ?_ ?_, After.append _ _, by simp [mkRepOptional, St.alloc]⟩
  · intro i o ho
    rcases Pass.getElem?_five ho with ⟨rfl, rfl⟩ | ⟨rfl, rfl⟩ | ⟨rfl, rfl⟩ | ⟨rfl, rfl⟩ | ⟨rfl, rfl⟩
    · exact ⟨by simp [Obj.tag], fun h => absurd rfl h⟩
    · exact ⟨by simp [Obj.tag], fun _ c hc => by cases hc⟩
    · refine ⟨by simp [Obj.tag], fun _ c hc => ?_⟩
      simp only [Obj.children, termRules, List.mem_cons, List.not_mem_nil, or_false] at hc
      omega
    · refine ⟨by simp [Obj.tag], fun _ c hc => ?_⟩
      simp only [Obj.children, List.mem_cons, List.not_mem_nil, or_false] at hc
      omega
    · refine ⟨by simp [Obj.tag], fun _ c hc => ?_⟩
      simp only [Obj.children, repOptionalOrder] at hc
      cases rr <;> cases ro <;> simp at hc <;> omega
  · intro i c hc
    rcases Pass.getElem?_five hc with ⟨rfl, e⟩ | ⟨rfl, e⟩ | ⟨rfl, e⟩ | ⟨rfl, e⟩ | ⟨rfl, e⟩ <;> cases e
    refine ⟨_, rfl, SolidAt.hard ⟨.or (repOptionalOrder (s.heap.length + 1) (s.heap.length + 3) item rr ro), ?_, rfl⟩⟩
    rw [List.getElem?_append_right (by omega)]
    simp

theorem make_young {rec : Visit P} (hr : YoungVisit n D rec) {a r : Nat} {o : Obj P}
    {s s' : St P} {b : Nat} (hy : Young n D s) (ho : s.heap[a]? = some o) (hqo : o.tag = .quant)
    {f : Nat × St P → Nat × St P}
    (hf : ∀ x s, Young n D s → x < s.heap.length → YoungMake n D s (f (x, s)).2 (f (x, s)).1)
    (hs : ∀ y, firmQuant o = true → SolidAt (f y).2.heap (f y).1)
    (h : (rec r s).map f = .ok (b, s')) :
    Young n D s' ∧ After s.heap s'.heap ∧ b < s'.heap.length ∧ KeptSolid s'.heap a b := by
  cases hx : rec r s with
  | error e => rw [hx] at h; cases h
  | ok x =>
    rw [hx] at h
    obtain ⟨h1, h2, h3, _⟩ := hr _ _ _ _ hy hx
    have m := hf x.1 x.2 h1 h3
    have hs' := hs x
    simp only [Except.map, Except.ok.injEq] at h
    rw [show f (x.1, x.2) = (b, s') from h] at m
    rw [h] at hs'
    have h5 := h2.trans m.after
    obtain ⟨o1, k1, _, k3⟩ := h5.tags a o ho
    have := k3 hqo
    subst this
    exact ⟨m.young, h5, m.lt, kept_quant k1 hqo (fun k _ => (hs' k).hard)⟩

theorem rule_solid (s : St P) (items : List Nat) : SolidAt (s.rule items).2.heap (s.rule items).1 :=
  ⟨_, getElem?_new _, rfl⟩

theorem maxBound_solid {item : Nat} {rev : Bool} : ∀ {k : Nat}, 2 ≤ k → ∀ s : St P,
    SolidAt (maxBound item rev k s).2.heap (maxBound item rev k s).1
  | k + 2, _, s => by
    simp only [maxBound]
    exact ⟨_, getElem?_new _, rfl⟩

theorem times_make {x t m : Nat} {s s1 : St P} (h1 : YoungMake n D s s1 t) (hx : x < s.heap.length) :
    YoungMake n D s (s1.rule (List.replicate m x ++ [t])).2 (s1.rule (List.replicate m x ++ [t])).1 := by
  refine h1.trans (rule_make h1.young ?_)
  intro y hy
  rw [List.mem_append, List.mem_singleton] at hy
  rcases hy with hy | rfl
  · rw [List.eq_of_mem_replicate hy]; exact Nat.lt_of_lt_of_le hx h1.after.len
  · exact h1.lt

theorem extended_young : MethodYoung n D (extendedMethod : Method P) := by
  intro k rec hr a o s b s' hy ho h
  unfold extendedMethod at h
  split at h
  · exact make_young hr hy ho rfl (fun x s hy hx => mkRepeatable_make _ hy hx) (fun _ h => by cases h) h
  · exact make_young hr hy ho rfl (fun x s hy hx => mkOptional_make _ hy hx)
      (fun _ _ => ⟨_, getElem?_new _, rfl⟩) h
  · exact make_young hr hy ho rfl (fun x s hy hx => mkRepOptional_make _ _ hy hx) (fun _ h => by cases h) h
  · exact make_young hr hy ho rfl (fun x s hy hx => times_make (mkRepeatable_make _ hy hx) hx)
      (fun _ _ => rule_solid _ _) h
  · exact make_young hr hy ho rfl (fun x s hy hx => maxBound_make _ _ _ hy hx)
      (fun _ hm => maxBound_solid (of_decide_eq_true hm) _) h
  · exact make_young hr hy ho rfl (fun x s hy hx => times_make (maxBound_make _ _ _ hy hx) hx)
      (fun _ _ => rule_solid _ _) h
  · exact default_young hr hy ho h

/-! ### Compiled rules -/

theorem setAttrAt_at (h : Heap P) (b : Nat) (x : Attr) :
    setAttrAt h b x = h ∨ ∃ ps n i r k n' i' r', h[b]? = some (.bnf ps n i r k) ∧
      setAttrAt h b x = h.set b (.bnf ps n' i' r' k) := by
  unfold setAttrAt
  split
  · rename_i ps n i r k hb
    cases x
    · exact .inr ⟨ps, n, i, r, k, _, _, _, hb, rfl⟩
    · exact .inr ⟨ps, n, i, r, k, _, _, _, hb, rfl⟩
    · exact .inr ⟨ps, n, i, r, k, _, _, _, hb, rfl⟩
  · exact .inl rfl

theorem setAttr_make {s : St P} (hy : Young n D s) {b : Nat} (x : Attr) (hb : b < s.heap.length) :
    YoungMake n D s { s with heap := setAttrAt s.heap b x } b := by
  rcases setAttrAt_at s.heap b x with e | ⟨ps, n', i, r, k, n'', i', r', hb', e⟩
  · rw [e]; exact ⟨hy, After.refl _, hb⟩
  · rw [e]
    have back : ∀ (a : Nat) o, (s.heap.set b (.bnf ps n'' i' r' k))[a]? = some o →
        ∃ o', s.heap[a]? = some o' ∧ o'.tag = o.tag ∧ o'.children = o.children ∧
          (o.tag = .forward → o' = o) := by
      intro a o ha
      rw [List.getElem?_set] at ha
      split at ha
      · rename_i hab
        subst hab
        cases ha
        exact ⟨_, hb', rfl, rfl, fun h => by cases h⟩
      · exact ⟨o, ha, rfl, rfl, fun _ => rfl⟩
    have af : After s.heap (s.heap.set b (.bnf ps n'' i' r' k)) := by
      refine ⟨by simp, fun a o ha => ?_⟩
      by_cases hab : b = a
      · subst hab
        rw [hb'] at ha; cases ha
        exact ⟨_, List.getElem?_set_self hb, rfl, fun h => by cases h⟩
      · exact ⟨o, by rw [List.getElem?_set_ne hab]; exact ha, rfl, fun _ => rfl⟩
    refine ⟨⟨?_, ?_, ?_, ?_⟩, af, by simpa using hb⟩
    · intro a o ha ho
      obtain ⟨o', k1, k2, k3, _⟩ := back a o ho
      have := hy.new a o' ha k1
      exact ⟨k2 ▸ this.1, fun ht c hc => this.2 (k2 ▸ ht) c (k3 ▸ hc)⟩
    · intro a c ha hc
      obtain ⟨o', k1, _, _, k4⟩ := back a _ hc
      rw [k4 rfl] at k1
      obtain ⟨y, w1, w2⟩ := hy.fwd a c ha k1
      exact ⟨y, w1, af.hard w2⟩
    · intro a o ho c hc
      obtain ⟨o', k1, _, k3, _⟩ := back a o ho
      simpa using hy.shut a o' k1 c (k3 ▸ hc)
    · intro e he
      obtain ⟨k0, k1, k2⟩ := hy.memo e he
      exact ⟨by simpa using k0, by simpa using k1, af.kept hy.shut k0 k2⟩

theorem lift_make {s : St P} (hy : Young n D s) {b : Nat} (hb : b < s.heap.length) :
    YoungMake n D s (s.lift b).2 (s.lift b).1 := by
  have m1 := alloc_make (o := .prod [.rule b] 0) hy ⟨by simp [Obj.tag], fun _ c hc => by
    have : c = b := by simpa [Obj.children, termRules] using hc
    subst this; exact hb⟩ (by simp [Obj.tag])
  exact m1.trans (alloc_make m1.young ⟨by simp [Obj.tag], fun _ c hc => by
    have : c = s.heap.length := by simpa [Obj.children] using hc
    subst this
    simp [St.alloc]⟩ (by simp [Obj.tag]))

theorem lift_solid (s : St P) (b : Nat) : SolidAt (s.lift b).2.heap (s.lift b).1 := by
  refine ⟨_, getElem?_new _, rfl⟩

theorem visitWrapped_young {parents : Nat → Nat} {rec : Visit P} (hr : YoungVisit n D rec) {r : Nat}
    {s s' : St P} {b : Nat} (hy : Young n D s) (h : visitWrapped parents rec r s = .ok (b, s')) :
    YoungMake n D s s' b := by
  unfold visitWrapped at h
  split at h
  · rename_i c hc
    simp only [Except.ok.injEq] at h
    have := lift_make hy (List.getElem?_eq_some_iff.1 hc).1
    rw [h] at this; exact this
  · split at h
    · cases h
    · cases hx : rec r s with
      | error e => rw [hx] at h; cases h
      | ok x =>
        rw [hx] at h
        obtain ⟨h1, h2, h3, _⟩ := hr _ _ _ _ hy hx
        simp only [Except.map, Except.ok.injEq] at h
        split at h
        · have := lift_make h1 h3
          rw [h] at this
          exact YoungMake.trans ⟨h1, h2, h3⟩ this
        · subst h; exact ⟨h1, h2, h3⟩

theorem visitWrapper_young {parents : Nat → Nat} {rec : Visit P} (hr : YoungVisit n D rec) {a r : Nat} {x : Attr}
    {s s' : St P} {b : Nat} (hy : Young n D s)
    (h : visitWrapper parents rec r x s = .ok (b, s')) :
    Young n D s' ∧ After s.heap s'.heap ∧ b < s'.heap.length ∧ KeptSolid s'.heap a b := by
  unfold visitWrapper at h
  split at h
  · cases h
  · rename_i c s1 h1
    have m1 := visitWrapped_young hr hy h1
    split at h
    · cases h
    · rename_i has hh
      have hc : SolidAt s1.heap c := by
        unfold hasAttr at hh
        split at hh
        · rename_i hb; exact ⟨_, hb, rfl⟩
        · cases hh
      have key : ∀ {s2 : St P} {b' : Nat}, YoungMake n D s s2 b' → SolidAt s2.heap b' →
          Young n D { s2 with heap := setAttrAt s2.heap b' x } ∧ After s.heap (setAttrAt s2.heap b' x) ∧
            b' < (setAttrAt s2.heap b' x).length ∧ KeptSolid (setAttrAt s2.heap b' x) a b' := by
        intro s2 b' m hs
        have m' := setAttr_make m.young x m.lt
        have hb := m'.after.solid hs
        exact ⟨m'.young, m.after.trans m'.after, m'.lt, fun _ => hb, fun _ => .solid hb, fun _ => hb.hard⟩
      cases has
      · cases h
        exact key m1 hc
      · cases h
        exact key (m1.trans (lift_make m1.young m1.lt)) (lift_solid _ _)

theorem allocKeys_make : ∀ (keys : List (Str × List P)) (s : St P), Young n D s →
    Young n D (allocKeys keys s).2 ∧ After s.heap (allocKeys keys s).2.heap ∧
      ∀ p ∈ (allocKeys keys s).1, p < (allocKeys keys s).2.heap.length
  | [], s, hy => ⟨hy, After.refl _, by intro p hp; cases hp⟩
  | (v, ts) :: rest, s, hy => by
    have m1 := alloc_make (o := .pipeProd v ts) hy ⟨by simp [Obj.tag], fun _ c hc => by cases hc⟩ (by simp [Obj.tag])
    obtain ⟨h1, h2, h3⟩ := allocKeys_make rest _ m1.young
    refine ⟨h1, m1.after.trans h2, ?_⟩
    intro p hp
    simp only [allocKeys, List.mem_cons] at hp
    rcases hp with rfl | hp
    · exact Nat.lt_of_lt_of_le m1.lt h2.len
    · exact h3 p hp

theorem bnf_young (parents : Nat → Nat) : MethodYoung n D (bnfMethod parents : Method P) := by
  intro k rec hr a o s b s' hy ho h
  unfold bnfMethod at h
  split at h
  · refine rebuildAll_young lt_mono hr hy ho ?_ ?_ ?_ ?_ h <;> simp [Obj.tag, Obj.children, solid]
  · refine rebuildAll_young lt_mono hr hy ho ?_ ?_ ?_ ?_ h <;> simp [Obj.tag, Obj.children, solid]
  · cases h
  · cases h
  · exact visitWrapper_young hr hy h
  · exact visitWrapper_young hr hy h
  · exact visitWrapper_young hr hy h
  · rename_i p
    unfold pipeBnf at h
    split at h
    · cases h
    · split at h
      · cases h
      · rename_i kind keys _
        obtain ⟨h1, h2, h3⟩ := allocKeys_make (n := n) (D := D) keys s hy
        simp only [Except.ok.injEq] at h
        have := young_new (o' := .bnf (allocKeys keys s).1 none none none (some kind)) ho h1 h2
          ⟨by simp [Obj.tag], fun _ => h3⟩ (by simp [Obj.tag]) (by simp [Obj.tag]) (fun _ => rfl)
        rw [h] at this
        exact this
  · exact default_young hr hy ho h

end Yargy
