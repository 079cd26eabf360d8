import Verif.Proofs.RuleWords
/-!
Transformators keep the words of rules: what is common to all of them.

A heap during a transformation is compared with a "ghost" heap in which no forward rule is ever
redefined; images are equivalent to originals in the ghost heap and all its extensions.
-/
namespace Yargy

variable {P : Type} {k : Kind}

/-- Equivalent now and later. -/
def Sem (k : Kind) (g : Heap P) (x y : Nat) : Prop := ∀ H, g <+: H → Equiv k H x y

theorem Sem.mono {g e : Heap P} {x y} (h : Sem k g x y) : Sem k (g ++ e) x y :=
  fun H hH => h H ((List.prefix_append g e).trans hH)

theorem Sem.refl {g : Heap P} (x) : Sem k g x x := fun _ _ => Equiv.refl x

theorem Sem.trans {g : Heap P} {x y z} (h1 : Sem k g x y) (h2 : Sem k g y z) : Sem k g x z :=
  fun H hH => (h1 H hH).trans (h2 H hH)

/-- The same objects, up to the contents of forward rules, which are equivalent. -/
structure Shape (k : Kind) (g h : Heap P) : Prop where
  length : g.length = h.length
  at_ : ∀ (a : Nat) (o : Obj P), g[a]? = some o → ∃ o', h[a]? = some o' ∧
    (Like k o o' ∨ ∃ r r', o = .forward (some r) ∧ o' = .forward (some r') ∧ r' < g.length ∧
      Sem k g r r')

theorem Shape.agree {g h : Heap P} (hs : Shape k g h) : Agree k g h where
  length := hs.length
  at_ := by
    intro a o ho
    obtain ⟨o', h1, h2 | ⟨r, r', h2, h3, _, h4⟩⟩ := hs.at_ a o ho
    · exact ⟨o', h1, .inl h2⟩
    · exact ⟨o', h1, .inr ⟨r, r', h2, h3, h4⟩⟩

/-- The six objects that repeat. -/
def Obj.quant : Obj P → Bool
  | .optional _ _ => true
  | .repeatable _ _ => true
  | .repOptional _ _ _ => true
  | .minBounded _ _ _ => true
  | .maxBounded _ _ _ => true
  | .minMaxBounded _ _ _ _ => true
  | _ => false

/-- What a transformator keeps true of all objects, and of items and their images; which quantifiers are
taken for something else. -/
structure PassInv (P : Type) where
  Q : Heap P → Obj P → Prop
  X : Heap P → Nat → Nat → Prop
  N : Heap P → Nat → Obj P → Obj P → Prop := fun _ _ _ _ => False
  Nquant : ∀ g a o o', N g a o o' → o.quant = true ∧ o'.quant = true := by
    intro g a o o' h; exact False.elim h
  Nmono : ∀ g e a o o', N g a o o' → N (g ++ e) a o o' := by intro g e a o o' h; exact False.elim h
  Qmono : ∀ g e o, ClosedHeap g → o ∈ g → Q g o → Q (g ++ e) o
  Xmono : ∀ g e a b, ClosedHeap g → a < g.length → b < g.length → X g a b → X (g ++ e) a b

variable {I : PassInv P}

structure Image (I : PassInv P) (k : Kind) (g : Heap P) (a b : Nat) : Prop where
  lt : a < g.length
  lt' : b < g.length
  extra : I.X g a b
  sem : Sem k g a b

structure Fine (I : PassInv P) (k : Kind) (g : Heap P) (s : St P) : Prop where
  shape : Shape k g s.heap
  closed : ClosedHeap g
  inv : ∀ o ∈ g, I.Q g o
  memo : ∀ e ∈ s.memo, Image I k g e.1 e.2

theorem Image.mono {g e : Heap P} {a b} (hc : ClosedHeap g) (h : Image I k g a b) :
    Image I k (g ++ e) a b where
  lt := by have := h.lt; simp; omega
  lt' := by have := h.lt'; simp; omega
  extra := I.Xmono _ _ _ _ hc h.lt h.lt' h.extra
  sem := h.sem.mono

/-- A step of a transformator does what `R` says. -/
def StepOk {α β : Type} (I : PassInv P) (k : Kind) (R : Heap P → α → β → Prop)
    (f : α → St P → Except Err (β × St P)) : Prop :=
  ∀ x s y s', f x s = .ok (y, s') → ∃ ext, ∀ g, Fine I k g s →
    Fine I k (g ++ ext) s' ∧ R (g ++ ext) x y

abbrev VisitOk (I : PassInv P) (k : Kind) (rec : Visit P) : Prop := StepOk I k (Image I k) rec

/-- A method does it for all items. -/
def MethodOk (I : PassInv P) (k : Kind) (m : Method P) : Prop :=
  ∀ n rec, VisitOk I k rec → ∀ (a : Nat) o (s : St P) b s', s.heap[a]? = some o →
    m n rec a o s = .ok (b, s') →
    ∃ ext, ∀ g, Fine I k g s → Fine I k (g ++ ext) s' ∧ Image I k (g ++ ext) a b

theorem visit_ok {m : Method P} {pid : Nat → Nat} (hp : ∀ a b, pid a = pid b → a = b)
    (hm : MethodOk I k m) : ∀ n, VisitOk I k (visit m pid n) := by
  intro n
  induction n with
  | zero => intro a s b s' h; simp [visit] at h
  | succ n ih =>
    intro a s b s' h
    unfold visit at h
    cases hl : s.lookup pid a with
    | some c =>
      simp only [hl, Except.ok.injEq, Prod.mk.injEq] at h
      obtain ⟨rfl, rfl⟩ := h
      refine ⟨[], fun g hg => ⟨by simpa using hg, ?_⟩⟩
      unfold St.lookup at hl
      cases hf : s.memo.find? (fun e => decide (pid e.1 = pid a)) with
      | none => simp [hf] at hl
      | some e =>
        simp only [hf, Option.map_some, Option.some.injEq] at hl
        have h1 := List.find?_some hf
        have h2 := List.mem_of_find?_eq_some hf
        have : e.1 = a := hp _ _ (by simpa using h1)
        have := hg.memo e h2
        simp_all
    | none =>
      simp only [hl] at h
      cases ho : s.heap[a]? with
      | none => simp [ho] at h
      | some o =>
        simp only [ho] at h
        cases hr : m n (visit m pid n) a o s with
        | error e => simp [hr] at h
        | ok r =>
          obtain ⟨b', s1⟩ := r
          simp only [hr, Except.ok.injEq, Prod.mk.injEq] at h
          obtain ⟨rfl, rfl⟩ := h
          obtain ⟨ext, hext⟩ := hm n _ ih a o s b' s1 ho hr
          refine ⟨ext, fun g hg => ?_⟩
          obtain ⟨h1, h2⟩ := hext g hg
          refine ⟨⟨h1.shape, h1.closed, h1.inv, ?_⟩, h2⟩
          intro e he
          simp only [List.mem_cons] at he
          rcases he with rfl | he
          · exact h2
          · exact h1.memo e he

/-! ### Allocation -/

theorem closed_snoc {g : Heap P} {o : Obj P} (hc : ClosedHeap g)
    (ho : ∀ c ∈ o.children, c < g.length + 1) : ClosedHeap (g ++ [o]) := by
  intro x hx c hcx
  simp only [List.length_append, List.length_cons, List.length_nil]
  rw [List.mem_append, List.mem_singleton] at hx
  rcases hx with hx | rfl
  · have := hc x hx c hcx; omega
  · exact ho c hcx

theorem shape_snoc {g h : Heap P} {o o' : Obj P} (hs : Shape k g h) (hl : Like k o o') :
    Shape k (g ++ [o]) (h ++ [o']) where
  length := by simp [hs.length]
  at_ := by
    intro a x hx
    by_cases hlt : a < g.length
    · rw [List.getElem?_append_left hlt] at hx
      obtain ⟨o', h1, h2⟩ := hs.at_ a x hx
      refine ⟨o', ?_, ?_⟩
      · rw [List.getElem?_append_left (by rw [← hs.length]; exact hlt)]
        exact h1
      · rcases h2 with h2 | ⟨r, r', h2, h3, h4, h5⟩
        · exact .inl h2
        · exact .inr ⟨r, r', h2, h3, by simp; omega, h5.mono⟩
    · rw [List.getElem?_append_right (by omega)] at hx
      have : a - g.length = 0 := by
        have := (List.getElem?_eq_some_iff.1 hx).1
        simp at this; omega
      rw [this] at hx
      simp at hx
      subst hx
      refine ⟨o', ?_, Or.inl hl⟩
      rw [List.getElem?_append_right (by rw [← hs.length]; omega), ← hs.length, this]
      rfl

theorem fine_alloc {g : Heap P} {s : St P} {o : Obj P} (hf : Fine I k g s)
    (ho : ∀ c ∈ o.children, c < g.length + 1) (hq : I.Q (g ++ [o]) o) :
    Fine I k (g ++ [o]) (s.alloc o).2 where
  shape := shape_snoc hf.shape (.refl o)
  closed := closed_snoc hf.closed ho
  inv := by
    intro x hx
    rw [List.mem_append, List.mem_singleton] at hx
    rcases hx with hx | rfl
    · exact I.Qmono _ _ _ hf.closed hx (hf.inv x hx)
    · exact hq
  memo := fun e he => (hf.memo e he).mono hf.closed

theorem alloc_addr {g : Heap P} {s : St P} (hf : Fine I k g s) (o : Obj P) :
    (s.alloc o).1 = g.length := hf.shape.length.symm

/-- What is at an address other than a forward rule or a compiled rule. -/
theorem Fine.get {g : Heap P} {s : St P} (hf : Fine I k g s) {a : Nat} {o : Obj P}
    (h : s.heap[a]? = some o) :
    ∃ o', g[a]? = some o' ∧
      (Like k o' o ∨ ∃ r r', o' = .forward (some r) ∧ o = .forward (some r') ∧ r' < g.length ∧
        Sem k g r r') := by
  have hlt : a < g.length := by
    rw [hf.shape.length]; exact (List.getElem?_eq_some_iff.1 h).1
  obtain ⟨o', h1, h2⟩ := hf.shape.at_ a g[a] (List.getElem?_eq_getElem hlt)
  rw [h] at h1
  cases h1
  exact ⟨_, List.getElem?_eq_getElem hlt, h2⟩

/-- Objects that are kept as they are. -/
def Obj.fixed : Obj P → Prop
  | .forward _ => False
  | .bnf _ _ _ _ _ => False
  | _ => True

theorem Fine.same {g : Heap P} {s : St P} (hf : Fine I k g s) {a : Nat} {o : Obj P}
    (h : s.heap[a]? = some o) (ho : o.fixed) : g[a]? = some o := by
  obtain ⟨o', h1, h2 | ⟨r, r', _, rfl, _⟩⟩ := hf.get h
  · cases h2 with
    | refl => exact h1
    | bnf => exact ho.elim
  · exact ho.elim

theorem Fine.lt {g : Heap P} {s : St P} (hf : Fine I k g s) {a : Nat} {o : Obj P}
    (h : s.heap[a]? = some o) : a < g.length := by
  rw [hf.shape.length]; exact (List.getElem?_eq_some_iff.1 h).1

theorem getElem?_append_some {g e : Heap P} {a : Nat} {o : Obj P} (h : g[a]? = some o) :
    (g ++ e)[a]? = some o := by
  rw [List.getElem?_append_left (List.getElem?_eq_some_iff.1 h).1]; exact h

theorem getElem?_prefix {g H : Heap P} {a : Nat} {o : Obj P} (hp : g <+: H) (h : g[a]? = some o) :
    H[a]? = some o := by
  obtain ⟨e, rfl⟩ := hp
  exact getElem?_append_some h

theorem getElem?_new {g : Heap P} (o : Obj P) : (g ++ [o])[g.length]? = some o := by simp

/-! ### Lists of items -/

theorem pointwise_mono {α β : Type} {R R' : α → β → Prop} (h : ∀ a b, R a b → R' a b) {xs ys}
    (hp : Pointwise R xs ys) : Pointwise R' xs ys := by
  induction hp with
  | nil => exact .nil
  | cons h1 _ ih => exact .cons (h _ _ h1) ih

theorem mapSt_ok {α β : Type} {R : Heap P → α → β → Prop}
    (hR : ∀ g e x y, ClosedHeap g → R g x y → R (g ++ e) x y)
    {f : α → St P → Except Err (β × St P)} (hf : StepOk I k R f) :
    StepOk I k (fun g xs ys => Pointwise (R g) xs ys) (mapSt f) := by
  intro xs
  induction xs with
  | nil =>
    intro s ys s' h
    simp only [mapSt, Except.ok.injEq, Prod.mk.injEq] at h
    obtain ⟨rfl, rfl⟩ := h
    exact ⟨[], fun g hg => ⟨by simpa using hg, .nil⟩⟩
  | cons x xs ih =>
    intro s ys s' h
    unfold mapSt at h
    cases h1 : f x s with
    | error e => simp [h1] at h
    | ok r =>
      obtain ⟨y, s1⟩ := r
      simp only [h1] at h
      cases h2 : mapSt f xs s1 with
      | error e => simp [h2] at h
      | ok r =>
        obtain ⟨ys', s2⟩ := r
        simp only [h2, Except.ok.injEq, Prod.mk.injEq] at h
        obtain ⟨rfl, rfl⟩ := h
        obtain ⟨e1, he1⟩ := hf x s y s1 h1
        obtain ⟨e2, he2⟩ := ih s1 ys' s2 h2
        refine ⟨e1 ++ e2, fun g hg => ?_⟩
        obtain ⟨f1, r1⟩ := he1 g hg
        obtain ⟨f2, r2⟩ := he2 _ f1
        rw [← List.append_assoc]
        exact ⟨f2, .cons (hR _ _ _ _ f1.closed r1) r2⟩

/-- Images of terms. -/
structure TermImage (k : Kind) (g : Heap P) (t u : Term P) : Prop where
  lt : ∀ b, u = .rule b → b < g.length
  sem : ∀ H, g <+: H → TermEquiv k H t u

theorem TermImage.pred {g : Heap P} {p : P} : TermImage k g (.pred p) (.pred p) :=
  ⟨fun _ h => (by cases h), fun _ _ => .pred⟩

theorem TermImage.rule {g : Heap P} {a b : Nat} (hb : b < g.length) (hs : Sem k g a b) :
    TermImage k g (.rule a) (.rule b) :=
  ⟨fun _ h => by cases h; exact hb, fun H hH => .rule (hs H hH)⟩

theorem TermImage.mono {g e : Heap P} {t u} (h : TermImage k g t u) :
    TermImage k (g ++ e) t u :=
  ⟨fun b hb => by have := h.lt b hb; simp; omega,
   fun H hH => h.sem H ((List.prefix_append _ _).trans hH)⟩

theorem TermImage.equiv {g H : Heap P} {t u} (h : TermImage k g t u) (hp : g <+: H) :
    TermEquiv k H t u := h.sem H hp

theorem visitTerm_ok {rec : Visit P} (hr : VisitOk I k rec) :
    StepOk I k (TermImage k) (visitTerm rec) := by
  intro t s u s' h
  cases t with
  | pred p =>
    simp only [visitTerm, Except.ok.injEq, Prod.mk.injEq] at h
    obtain ⟨rfl, rfl⟩ := h
    exact ⟨[], fun g hg => ⟨by simpa using hg, .pred⟩⟩
  | rule r =>
    simp only [visitTerm] at h
    cases h1 : rec r s with
    | error e => simp [h1, Except.map] at h
    | ok x =>
      obtain ⟨b, s1⟩ := x
      simp only [h1, Except.map, Except.ok.injEq, Prod.mk.injEq] at h
      obtain ⟨rfl, rfl⟩ := h
      obtain ⟨ext, he⟩ := hr r s b s1 h1
      refine ⟨ext, fun g hg => ?_⟩
      obtain ⟨f1, i1⟩ := he g hg
      exact ⟨f1, .rule i1.lt' i1.sem⟩

theorem termImage_children {g : Heap P} {ts us : List (Term P)}
    (hp : Pointwise (TermImage k g) ts us) : ∀ c ∈ termRules us, c < g.length := by
  induction hp with
  | nil => intro c hc; simp [termRules] at hc
  | @cons t u ts us h1 _ ih =>
    intro c hc
    cases u with
    | pred => exact ih c (by simpa [termRules] using hc)
    | rule b =>
      simp only [termRules, List.mem_cons] at hc
      rcases hc with rfl | hc
      · exact h1.lt _ rfl
      · exact ih c hc

/-- Makes a new object out of images of several items. -/
theorem rebuildAll_ok {α β : Type} {R : Heap P → α → β → Prop}
    (hR : ∀ g e x y, ClosedHeap g → R g x y → R (g ++ e) x y)
    {f : α → St P → Except Err (β × St P)} (hf : StepOk I k R f) {a : Nat} {xs : List α}
    {mk : List β → Obj P} {s : St P} {b : Nat} {s' : St P}
    (h : rebuildAll f xs mk s = .ok (b, s')) (T : Heap P → Prop)
    (hT : ∀ g, Fine I k g s → T g)
    (hnew : ∀ g ys, T g → ∀ e, ClosedHeap (g ++ e) → Pointwise (R (g ++ e)) xs ys →
      (∀ c ∈ (mk ys).children, c < (g ++ e).length) ∧ I.Q ((g ++ e) ++ [mk ys]) (mk ys) ∧
      Image I k ((g ++ e) ++ [mk ys]) a (g ++ e).length) :
    ∃ ext, ∀ g, Fine I k g s → Fine I k (g ++ ext) s' ∧ Image I k (g ++ ext) a b := by
  unfold rebuildAll at h
  cases h1 : mapSt f xs s with
  | error e => simp [h1, Except.map] at h
  | ok r =>
    obtain ⟨ys, s1⟩ := r
    simp only [h1, Except.map, Except.ok.injEq] at h
    obtain ⟨ext, he⟩ := mapSt_ok hR hf xs s ys s1 h1
    refine ⟨ext ++ [mk ys], fun g hg => ?_⟩
    obtain ⟨f1, p1⟩ := he g hg
    obtain ⟨c1, q1, i1⟩ := hnew g ys (hT g hg) ext f1.closed p1
    have f2 := fine_alloc f1 (o := mk ys) (fun c hc => by have := c1 c hc; omega) q1
    have ha := alloc_addr f1 (mk ys)
    rw [h] at f2 ha
    rw [← List.append_assoc]
    simp only at ha
    rw [ha]
    exact ⟨f2, i1⟩

/-- Makes a new object out of the image of an item. -/
theorem rebuild_ok {rec : Visit P} (hf : VisitOk I k rec) {a r : Nat} {mk : Nat → Obj P} {s : St P}
    {b : Nat} {s' : St P} (h : rebuild rec r mk s = .ok (b, s')) (T : Heap P → Prop)
    (hT : ∀ g, Fine I k g s → T g)
    (hnew : ∀ g y, T g → ∀ e, ClosedHeap (g ++ e) → Image I k (g ++ e) r y →
      (∀ c ∈ (mk y).children, c < (g ++ e).length) ∧ I.Q ((g ++ e) ++ [mk y]) (mk y) ∧
      Image I k ((g ++ e) ++ [mk y]) a (g ++ e).length) :
    ∃ ext, ∀ g, Fine I k g s → Fine I k (g ++ ext) s' ∧ Image I k (g ++ ext) a b := by
  unfold rebuild at h
  cases h1 : rec r s with
  | error e => simp [h1, Except.map] at h
  | ok x =>
    obtain ⟨y, s1⟩ := x
    simp only [h1, Except.map, Except.ok.injEq] at h
    obtain ⟨ext, he⟩ := hf r s y s1 h1
    refine ⟨ext ++ [mk y], fun g hg => ?_⟩
    obtain ⟨f1, p1⟩ := he g hg
    obtain ⟨c1, q1, i1⟩ := hnew g y (hT g hg) ext f1.closed p1
    have f2 := fine_alloc f1 (o := mk y) (fun c hc => by have := c1 c hc; omega) q1
    have ha := alloc_addr f1 (mk y)
    rw [h] at f2 ha
    rw [← List.append_assoc]
    simp only at ha
    rw [ha]
    exact ⟨f2, i1⟩

/-! ### Redefining the forward rules -/

theorem shape_set {g h : Heap P} (hs : Shape k g h) {a b r r0 : Nat}
    (ha : h[a]? = some (.forward (some r))) (hg : g[a]? = some (.forward (some r0)))
    (hb : b < g.length) (hsem : Sem k g r0 b) :
    Shape k g (h.set a (.forward (some b))) where
  length := by simp [hs.length]
  at_ := by
    intro x o ho
    obtain ⟨o', h1, h2⟩ := hs.at_ x o ho
    by_cases hx : a = x
    · subst hx
      rw [hg] at ho
      cases ho
      have hlt : a < h.length := (List.getElem?_eq_some_iff.1 ha).1
      exact ⟨.forward (some b), by simp [hlt], .inr ⟨r0, b, rfl, rfl, hb, hsem⟩⟩
    · refine ⟨o', ?_, h2⟩
      rw [List.getElem?_set_ne hx]
      exact h1

theorem redefine_ok {m : Method P} {pid : Nat → Nat} (hp : ∀ a b, pid a = pid b → a = b)
    (hm : MethodOk I k m) {limit : Nat} : ∀ n queue seen s s',
    redefine m pid limit n queue seen s = .ok s' → ∃ ext, ∀ g, Fine I k g s →
      Fine I k (g ++ ext) s' := by
  intro n
  induction n with
  | zero => intro queue seen s s' h; simp [redefine] at h
  | succ n ih =>
    intro queue seen s s' h
    cases queue with
    | nil =>
      simp only [redefine, Except.ok.injEq] at h
      subst h
      exact ⟨[], fun g hg => by simpa using hg⟩
    | cons a queue =>
      have other : ∀ (q : List Nat) sn, redefine m pid limit n q sn s = .ok s' →
          ∃ ext, ∀ g, Fine I k g s → Fine I k (g ++ ext) s' := fun q sn hq => ih _ _ _ _ hq
      unfold redefine at h
      split at h
      · rename_i r ho
        cases h1 : visit m pid limit r s with
        | error e => simp [h1] at h
        | ok x =>
          obtain ⟨b, s1⟩ := x
          simp only [h1] at h
          cases h2 : defineForward a b s1.heap with
          | error e => simp [h2] at h
          | ok h' =>
            simp only [h2] at h
            obtain ⟨e1, he1⟩ := visit_ok hp hm limit r s b s1 h1
            obtain ⟨e2, he2⟩ := ih _ _ _ _ h
            refine ⟨e1 ++ e2, fun g hg => ?_⟩
            obtain ⟨f1, i1⟩ := he1 g hg
            rw [← List.append_assoc]
            refine he2 _ ?_
            have hh' : h' = s1.heap.set a (.forward (some b)) := by
              unfold defineForward at h2
              split at h2
              · cases h2
              · cases h2; rfl
            subst hh'
            refine ⟨?_, f1.closed, f1.inv, f1.memo⟩
            obtain ⟨o0, hg0, hl⟩ := hg.get ho
            have hr : ∃ r0, o0 = .forward (some r0) ∧ Sem k g r0 r := by
              rcases hl with hl | ⟨r0, r', h3, h4, h5, h6⟩
              · cases hl
                exact ⟨r, rfl, Sem.refl r⟩
              · cases h4
                exact ⟨r0, h3, h6⟩
            obtain ⟨r0, rfl, hsem⟩ := hr
            obtain ⟨o1, ho1, hl1⟩ := f1.shape.at_ a _ (getElem?_append_some hg0)
            have : ∃ r1, o1 = .forward (some r1) := by
              rcases hl1 with hl1 | ⟨_, r', _, h4, _⟩
              · cases hl1; exact ⟨r0, rfl⟩
              · exact ⟨r', h4⟩
            obtain ⟨r1, rfl⟩ := this
            exact shape_set f1.shape ho1 (getElem?_append_some hg0) i1.lt' (hsem.mono.trans i1.sem)
      · exact other _ _ h

theorem transform_ok {m : Method P} {pid : Nat → Nat} (hp : ∀ a b, pid a = pid b → a = b)
    (hm : MethodOk I k m) {limit root b : Nat} {h h' : Heap P}
    (ht : transform m pid limit root h = .ok (b, h')) (hc : ClosedHeap h) (hq : ∀ o ∈ h, I.Q h o) :
    ∃ ext, Shape k (h ++ ext) h' ∧ ClosedHeap (h ++ ext) ∧ (∀ o ∈ h ++ ext, I.Q (h ++ ext) o) ∧
      Image I k (h ++ ext) root b := by
  unfold transform at ht
  cases h1 : redefine m pid limit limit [root] [pid root] { heap := h } with
  | error e => simp [h1] at ht
  | ok s =>
    simp only [h1] at ht
    cases h2 : visit m pid limit root s with
    | error e => simp [h2, Except.map] at ht
    | ok x =>
      obtain ⟨b', s2⟩ := x
      simp only [h2, Except.map, Except.ok.injEq, Prod.mk.injEq] at ht
      obtain ⟨rfl, rfl⟩ := ht
      obtain ⟨e1, he1⟩ := redefine_ok hp hm _ _ _ _ _ h1
      obtain ⟨e2, he2⟩ := visit_ok hp hm limit root s b' s2 h2
      have f0 : Fine I k h { heap := h } :=
        ⟨⟨rfl, fun a o ho => ⟨o, ho, .inl (.refl o)⟩⟩, hc, hq, by simp⟩
      obtain ⟨f2, i2⟩ := he2 _ (he1 h f0)
      refine ⟨e1 ++ e2, ?_⟩
      rw [← List.append_assoc]
      exact ⟨f2.shape, f2.closed, f2.inv, i2⟩

theorem Like.children {o o' : Obj P} (h : Like k o o') : o.children = o'.children := by
  cases h <;> rfl

theorem Shape.closed {g h : Heap P} (hs : Shape k g h) (hc : ClosedHeap g) : ClosedHeap h := by
  intro o ho c hcc
  obtain ⟨a, ha⟩ := List.mem_iff_getElem?.1 ho
  have hlt : a < g.length := by
    rw [hs.length]; exact (List.getElem?_eq_some_iff.1 ha).1
  obtain ⟨o', h1, h2⟩ := hs.at_ a g[a] (List.getElem?_eq_getElem hlt)
  rw [ha] at h1
  cases h1
  rw [← hs.length]
  rcases h2 with h2 | ⟨r, r', _, rfl, h4, _⟩
  · rw [← h2.children] at hcc
    exact hc _ (List.getElem_mem hlt) c hcc
  · simp only [Obj.children, Option.toList, List.mem_singleton] at hcc
    omega

/-- A property of objects that does not look into forward rules or at the attributes of compiled
rules. -/
theorem Shape.all {g h : Heap P} (hs : Shape k g h) {Q : Obj P → Prop}
    (hl : ∀ o o', Like k o o' → Q o → Q o') (hf : ∀ r, Q (.forward r)) (hq : ∀ o ∈ g, Q o) :
    ∀ o ∈ h, Q o := by
  intro o ho
  obtain ⟨a, ha⟩ := List.mem_iff_getElem?.1 ho
  have hlt : a < g.length := by
    rw [hs.length]; exact (List.getElem?_eq_some_iff.1 ha).1
  obtain ⟨o', h1, h2⟩ := hs.at_ a g[a] (List.getElem?_eq_getElem hlt)
  rw [ha] at h1
  cases h1
  rcases h2 with h2 | ⟨r, r', _, rfl, h4, _⟩
  · exact hl _ _ h2 (hq _ (List.getElem_mem hlt))
  · exact hf _

/-- A closed heap and an extension have the same words. -/
theorem words_extend {h e : Heap P} (hc : ClosedHeap h) {a : Nat} (ha : a < h.length)
    (w : List (Sym P)) : Words k h a w ↔ Words k (h ++ e) a w := by
  unfold Words
  rw [says_iff_gen, says_iff_gen]
  constructor
  · rintro ⟨n, g⟩; exact ⟨n, g.heap_mono (List.prefix_append _ _)⟩
  · rintro ⟨n, g⟩
    refine ⟨n, g.heap_back (List.prefix_append _ _) hc ?_⟩
    intro b hb
    simp at hb
    omega

/-- What a transformation does to the words of the rule, and to those of all other rules. -/
theorem transform_words {m : Method P} {pid : Nat → Nat} (hp : ∀ a b, pid a = pid b → a = b)
    (hm : MethodOk I k m) {limit root b : Nat} {h h' : Heap P}
    (ht : transform m pid limit root h = .ok (b, h')) (hc : ClosedHeap h) (hq : ∀ o ∈ h, I.Q h o) :
    root < h.length → (∀ w, Words k h root w ↔ Words k h' b w) ∧
    (∀ a, a < h.length → ∀ w, Words k h a w ↔ Words k h' a w) := by
  intro hroot
  obtain ⟨ext, h1, h2, _, h4⟩ := transform_ok hp hm ht hc hq
  have all : ∀ a, a < h.length → ∀ w, Words k h a w ↔ Words k h' a w := fun a ha w =>
    (words_extend hc ha w).trans (h1.agree.words a w)
  refine ⟨fun w => ?_, all⟩
  rw [all root hroot w, ← h1.agree.words, ← h1.agree.words]
  have he := h4.sem _ (List.prefix_refl _)
  unfold Words
  rw [says_iff_gen, says_iff_gen]
  exact ⟨fun ⟨n, g⟩ => ⟨n, he.1 _ _ g⟩, fun ⟨n, g⟩ => he.2 _ _ g⟩

end Yargy
