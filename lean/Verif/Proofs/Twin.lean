import Verif.Spec.Renaming
import Verif.Spec.Compile
import Verif.Proofs.Walk
/-!
Compiling looks at nothing but what can be reached from the rule: two heaps that agree there, up to the
addresses, stay so.
-/
namespace Yargy

variable {P : Type}

theorem termRules_rename {f : Nat → Nat} (ts : List (Term P)) :
    termRules (ts.map (Term.rename f)) = (termRules ts).map f := by
  induction ts with
  | nil => rfl
  | cons t ts ih => cases t <;> simp only [List.map_cons, Term.rename, termRules, ih]

theorem children_rename {f : Nat → Nat} (o : Obj P) : (o.rename f).children = o.children.map f := by
  cases o <;> simp only [Obj.rename, Obj.children, List.map_cons, List.map_nil, termRules_rename]
  rename_i r; cases r <;> rfl

namespace Twins

/-- What is the same for the two heaps: the addresses in a set `D`, into which all new addresses fall,
correspond to each other. -/
structure Map where
  f : Nat → Nat
  D : Nat → Prop
  inj : ∀ a b, D a → D b → f a = f b → a = b

variable {F : Map}

/-- Two heaps that agree on `D`. -/
structure Twin (F : Map) (h g : Heap P) : Prop where
  get : ∀ a, F.D a → g[F.f a]? = (h[a]?).map (Obj.rename F.f)
  closed : ∀ a o, F.D a → h[a]? = some o → ∀ c ∈ o.children, F.D c
  fresh : ∀ k, F.D (h.length + k) ∧ F.f (h.length + k) = g.length + k

theorem Twin.lt {h g : Heap P} (T : Twin F h g) {a : Nat} (ha : F.D a) (hl : a < h.length) :
    F.f a < g.length := by
  have := T.get a ha
  rw [List.getElem?_eq_getElem hl] at this
  exact (List.getElem?_eq_some_iff.1 this).1

theorem Twin.append {h g : Heap P} (T : Twin F h g) {o : Obj P} (ho : ∀ c ∈ o.children, F.D c) :
    Twin F (h ++ [o]) (g ++ [o.rename F.f]) where
  get a ha := by
    rcases Nat.lt_trichotomy a h.length with hl | rfl | hl
    · rw [List.getElem?_append_left hl, List.getElem?_append_left (T.lt ha hl)]
      exact T.get a ha
    · have := (T.fresh 0).2
      simp only [Nat.add_zero] at this
      rw [this]
      simp
    · obtain ⟨k, rfl⟩ := Nat.exists_eq_add_of_lt hl
      have := (T.fresh (k + 1)).2
      rw [Nat.add_assoc, this]
      simp
  closed a o' ha h' := by
    rcases Nat.lt_or_ge a h.length with hl | hl
    · rw [List.getElem?_append_left hl] at h'
      exact T.closed a o' ha h'
    · rw [List.getElem?_append_right hl] at h'
      cases hk : a - h.length with
      | zero => rw [hk] at h'; simp only [List.getElem?_cons_zero, Option.some.injEq] at h'; subst h'; exact ho
      | succ k => rw [hk] at h'; simp at h'
  fresh k := by
    have := T.fresh (k + 1)
    simp only [List.length_append, List.length_singleton]
    rw [show h.length + 1 + k = h.length + (k + 1) by omega, show g.length + 1 + k = g.length + (k + 1) by omega]
    exact this

theorem Twin.set {h g : Heap P} (T : Twin F h g) {b : Nat} {o : Obj P} (hb : F.D b)
    (ho : ∀ c ∈ o.children, F.D c) : Twin F (h.set b o) (g.set (F.f b) (o.rename F.f)) where
  get a ha := by
    by_cases e : b = a
    · subst e
      rcases Nat.lt_or_ge b h.length with hl | hl
      · rw [List.getElem?_set_self hl, List.getElem?_set_self (T.lt ha hl)]; rfl
      · have h1 := T.get b ha
        rw [List.getElem?_eq_none hl] at h1
        have h2 := List.getElem?_eq_none_iff.1 h1
        rw [List.getElem?_eq_none (by simpa using h2), List.getElem?_eq_none (by simpa using hl)]; rfl
    · rw [List.getElem?_set_ne e, List.getElem?_set_ne (fun h => e (F.inj _ _ hb ha h))]
      exact T.get a ha
  closed a o' ha h' := by
    by_cases e : b = a
    · subst e
      have hl := (List.getElem?_eq_some_iff.1 h').1
      rw [List.length_set] at hl
      rw [List.getElem?_set_self hl] at h'; cases h'; exact ho
    · rw [List.getElem?_set_ne e] at h'
      exact T.closed a o' ha h'
  fresh k := by simp only [List.length_set]; exact T.fresh k

/-- Two states of a transformator. -/
structure TwinSt (F : Map) (s t : St P) : Prop where
  heap : Twin F s.heap t.heap
  memo : t.memo = s.memo.map (fun e => (F.f e.1, F.f e.2))
  inD : ∀ e ∈ s.memo, F.D e.1 ∧ F.D e.2

/-- Two results: the same exception, or related values and states. -/
inductive Res {α β : Type} (F : Map) (R : α → β → Prop) :
    Except Err (α × St P) → Except Err (β × St P) → Prop
  | error (e) : Res F R (.error e) (.error e)
  | ok {x y s t} : R x y → TwinSt F s t → Res F R (.ok (x, s)) (.ok (y, t))

/-- Corresponding addresses. -/
def Addr (F : Map) (a b : Nat) : Prop := F.D a ∧ b = F.f a

def Addrs (F : Map) (as bs : List Nat) : Prop := (∀ a ∈ as, F.D a) ∧ bs = as.map F.f

theorem Res.map {α β γ δ : Type} {R : α → β → Prop} {R' : γ → δ → Prop} {x : Except Err (α × St P)}
    {y : Except Err (β × St P)} {k : α × St P → γ × St P} {l : β × St P → δ × St P} (h : Res F R x y)
    (hk : ∀ a b s t, R a b → TwinSt F s t → R' (k (a, s)).1 (l (b, t)).1 ∧ TwinSt F (k (a, s)).2 (l (b, t)).2) :
    Res F R' (x.map k) (y.map l) := by
  cases h with
  | error e => exact .error e
  | ok h1 h2 => obtain ⟨q1, q2⟩ := hk _ _ _ _ h1 h2; exact .ok q1 q2

/-- Corresponding visits. -/
def VisitTwin (F : Map) (rec rec' : Visit P) : Prop :=
  ∀ a s t, F.D a → TwinSt F s t → Res F (Addr F) (rec a s) (rec' (F.f a) t)

/-- Corresponding methods. -/
def MethodTwin (F : Map) (m m' : Method P) : Prop :=
  ∀ n rec rec' a o s t, VisitTwin F rec rec' → F.D a → (∀ c ∈ o.children, F.D c) → TwinSt F s t →
    Res F (Addr F) (m n rec a o s) (m' n rec' (F.f a) (o.rename F.f) t)

theorem alloc_twin {s t : St P} (h : TwinSt F s t) {o : Obj P} (ho : ∀ c ∈ o.children, F.D c) :
    Addr F (s.alloc o).1 (t.alloc (o.rename F.f)).1 ∧ TwinSt F (s.alloc o).2 (t.alloc (o.rename F.f)).2 := by
  have := h.heap.fresh 0
  exact ⟨⟨this.1, this.2.symm⟩, h.heap.append ho, h.memo, h.inD⟩

theorem find?_same {α : Type} {p q : α → Bool} : ∀ {l : List α}, (∀ e ∈ l, p e = q e) → l.find? p = l.find? q
  | [], _ => rfl
  | x :: l, h => by
    rw [List.find?_cons, List.find?_cons, h x List.mem_cons_self,
      find?_same (fun e he => h e (List.mem_cons_of_mem _ he))]

theorem lookup_twin {s t : St P} (h : TwinSt F s t) {a : Nat} (ha : F.D a) :
    t.lookup id (F.f a) = (s.lookup id a).map F.f ∧ ∀ b, s.lookup id a = some b → F.D b := by
  unfold St.lookup
  constructor
  · rw [h.memo, List.find?_map]
    have : s.memo.find? ((fun e : Nat × Nat => decide (id e.1 = id (F.f a))) ∘ fun e : Nat × Nat => (F.f e.1, F.f e.2)) =
        s.memo.find? fun e => decide (id e.1 = id a) := by
      refine find?_same (fun e he => ?_)
      have : F.f e.1 = F.f a ↔ e.1 = a := ⟨F.inj _ _ (h.inD e he).1 ha, fun h => by rw [h]⟩
      simp only [Function.comp, id, this]
    rw [this]
    simp only [Option.map_map]
    rfl
  · intro b hb
    obtain ⟨e, he, rfl⟩ := Option.map_eq_some_iff.1 hb
    exact (h.inD e (List.mem_of_find?_eq_some he)).2

theorem visit_twin {m m' : Method P} (hm : MethodTwin F m m') (n : Nat) :
    VisitTwin F (visit m id n) (visit m' id n) := by
  induction n with
  | zero => intro a s t _ _; exact .error _
  | succ n ih =>
    intro a s t ha h
    unfold visit
    obtain ⟨l1, l2⟩ := lookup_twin h ha
    rw [l1]
    cases hl : s.lookup id a with
    | some b => exact .ok ⟨l2 b hl, rfl⟩ h
    | none =>
      simp only [Option.map_none]
      rw [h.heap.get a ha]
      cases ho : s.heap[a]? with
      | none => exact .error _
      | some o =>
        simp only [Option.map_some]
        have := hm n _ _ a o s t ih ha (h.heap.closed a o ha ho) h
        cases h1 : m n (visit m id n) a o s with
        | error e =>
          rw [h1] at this
          cases h2 : m' n (visit m' id n) (F.f a) (o.rename F.f) t with
          | error e' => rw [h2] at this; cases this; exact .error _
          | ok y => rw [h2] at this; cases this
        | ok x =>
          rw [h1] at this
          cases h2 : m' n (visit m' id n) (F.f a) (o.rename F.f) t with
          | error e' => rw [h2] at this; cases this
          | ok y =>
            rw [h2] at this
            cases this with
            | ok r1 r2 =>
              obtain ⟨q1, rfl⟩ := r1
              refine .ok ⟨q1, rfl⟩ ⟨r2.heap, by simp only [r2.memo, List.map_cons], ?_⟩
              intro e he
              rcases List.mem_cons.1 he with rfl | he
              · exact ⟨ha, q1⟩
              · exact r2.inD e he

/-- Corresponding lists. -/
def Both {α β : Type} (d : α → Prop) (φ : α → β) (xs : List α) (ys : List β) : Prop :=
  (∀ x ∈ xs, d x) ∧ ys = xs.map φ

theorem mapSt_twin {α β γ δ : Type} {d : α → Prop} {e : γ → Prop} {φ : α → β} {ψ : γ → δ}
    {k : α → St P → Except Err (γ × St P)} {l : β → St P → Except Err (δ × St P)}
    (hk : ∀ a s t, d a → TwinSt F s t → Res F (fun x y => e x ∧ y = ψ x) (k a s) (l (φ a) t)) :
    ∀ (as : List α), (∀ a ∈ as, d a) → ∀ {s t : St P}, TwinSt F s t →
      Res F (Both e ψ) (mapSt k as s) (mapSt l (as.map φ) t) := by
  intro as
  induction as with
  | nil => intro _ s t h; exact .ok ⟨(by intro x hx; cases hx), rfl⟩ h
  | cons a as ih =>
    intro ha s t h
    simp only [List.map_cons, mapSt]
    have h1 := hk a s t (ha a List.mem_cons_self) h
    generalize k a s = x at h1
    generalize l (φ a) t = y at h1
    cases h1 with
    | error e => exact .error e
    | ok h1 h2 =>
      simp only
      have h3 := ih (fun b hb => ha b (List.mem_cons_of_mem _ hb)) h2
      rename_i _ _ s1 t1
      generalize mapSt k as s1 = x' at h3
      generalize mapSt l (as.map φ) t1 = y' at h3
      cases h3 with
      | error e => exact .error e
      | ok h3 h4 =>
        refine .ok ⟨?_, by rw [h1.2, h3.2, List.map_cons]⟩ h4
        intro z hz
        rcases List.mem_cons.1 hz with rfl | hz
        · exact h1.1
        · exact h3.1 z hz

/-- The rules in a term. -/
def TermIn (F : Map) (t : Term P) : Prop := ∀ r, t = .rule r → F.D r

theorem termIn_iff {ts : List (Term P)} : (∀ t ∈ ts, TermIn F t) ↔ ∀ c ∈ termRules ts, F.D c := by
  induction ts with
  | nil => simp [termRules]
  | cons t ts ih =>
    cases t with
    | pred p =>
      simp only [List.mem_cons, forall_eq_or_imp, termRules, ih]
      exact ⟨fun h => h.2, fun h => ⟨(by intro r e; cases e), h⟩⟩
    | rule r =>
      simp only [List.mem_cons, forall_eq_or_imp, termRules, ih]
      exact ⟨fun h => ⟨h.1 r rfl, h.2⟩, fun h => ⟨(by intro r e; cases e; exact h.1), h.2⟩⟩

abbrev ResAddr (F : Map) (x y : Except Err (Nat × St P)) : Prop := Res F (Addr F) x y

abbrev ResTerm (F : Map) (x y : Except Err (Term P × St P)) : Prop :=
  Res F (fun t u => TermIn F t ∧ u = t.rename F.f) x y

theorem visitTerm_twin {rec rec' : Visit P} (hr : VisitTwin F rec rec') (x : Term P) (s t : St P)
    (hx : TermIn F x) (h : TwinSt F s t) :
    ResTerm F (visitTerm rec x s) (visitTerm rec' (x.rename F.f) t) := by
  cases x with
  | pred p => exact .ok ⟨hx, rfl⟩ h
  | rule r =>
    refine (hr r s t (hx r rfl) h).map ?_
    rintro a b s t ⟨h1, rfl⟩ h2
    exact ⟨⟨(by intro r e; cases e; exact h1), rfl⟩, h2⟩

/-- Two ways to make an object. -/
def Makes (F : Map) {α β : Type} (R : α → β → Prop) (mk : α → Obj P) (mk' : β → Obj P) : Prop :=
  ∀ x y, R x y → mk' y = (mk x).rename F.f ∧ ∀ c ∈ (mk x).children, F.D c

theorem alloc_twin' {s t : St P} (h : TwinSt F s t) {o o' : Obj P} (e : o' = o.rename F.f)
    (ho : ∀ c ∈ o.children, F.D c) : Addr F (s.alloc o).1 (t.alloc o').1 ∧ TwinSt F (s.alloc o).2 (t.alloc o').2 := by
  subst e; exact alloc_twin h ho

theorem rebuild_twin {rec rec' : Visit P} (hr : VisitTwin F rec rec') {r : Nat} (hD : F.D r)
    {mk mk' : Nat → Obj P} (hm : Makes F (Addr F) mk mk') {s t : St P} (h : TwinSt F s t) :
    ResAddr F (rebuild rec r mk s) (rebuild rec' (F.f r) mk' t) := by
  refine (hr r s t hD h).map ?_
  intro a b s t h1 h2
  obtain ⟨q1, q2⟩ := hm a b h1
  exact alloc_twin' h2 q1 q2

theorem rebuildAll_twin {α β γ δ : Type} {d : α → Prop} {e : γ → Prop} {φ : α → β} {ψ : γ → δ}
    {k : α → St P → Except Err (γ × St P)} {l : β → St P → Except Err (δ × St P)}
    (hk : ∀ a s t, d a → TwinSt F s t → Res F (fun x y => e x ∧ y = ψ x) (k a s) (l (φ a) t))
    {as : List α} (ha : ∀ a ∈ as, d a) {mk : List γ → Obj P} {mk' : List δ → Obj P}
    (hm : Makes F (Both e ψ) mk mk') {s t : St P} (h : TwinSt F s t) :
    ResAddr F (rebuildAll k as mk s) (rebuildAll l (as.map φ) mk' t) := by
  refine (mapSt_twin hk as ha h).map ?_
  intro a b s t h1 h2
  obtain ⟨q1, q2⟩ := hm a b h1
  exact alloc_twin' h2 q1 q2

theorem makes_one {mk mk' : Nat → Obj P} (h : ∀ a, mk' (F.f a) = (mk a).rename F.f)
    (hc : ∀ a, (mk a).children = [a]) : Makes F (Addr F) mk mk' := by
  rintro a b ⟨h1, rfl⟩
  refine ⟨h a, fun c hc' => ?_⟩
  rw [hc, List.mem_singleton] at hc'
  exact hc' ▸ h1

theorem makes_all {mk mk' : List Nat → Obj P} (h : ∀ as, mk' (as.map F.f) = (mk as).rename F.f)
    (hc : ∀ as, (mk as).children = as) : Makes F (Both F.D F.f) mk mk' := by
  rintro a b ⟨h1, rfl⟩
  refine ⟨h a, fun c hc' => ?_⟩
  rw [hc] at hc'
  exact h1 c hc'

theorem makes_prod (m : Nat) : Makes F (Both (TermIn F) (Term.rename F.f)) (Obj.prod (P := P) · m) (.prod · m) := by
  rintro a b ⟨h1, rfl⟩
  exact ⟨rfl, termIn_iff.1 h1⟩

theorem default_twin : MethodTwin F (defaultMethod (P := P)) defaultMethod := by
  intro n rec rec' a o s t hr ha ho h
  cases o with
  | prod ts m => exact rebuildAll_twin (visitTerm_twin hr) (termIn_iff.2 ho) (makes_prod m) h
  | rule ps => exact rebuildAll_twin hr ho (makes_all (fun _ => rfl) (fun _ => rfl)) h
  | or rs => exact rebuildAll_twin hr ho (makes_all (fun _ => rfl) (fun _ => rfl)) h
  | bnf ps _ _ _ _ => exact rebuildAll_twin hr ho (makes_all (mk := .rule) (fun _ => rfl) (fun _ => rfl)) h
  | optional _ _ => exact .error _
  | repeatable _ _ => exact .error _
  | repOptional _ _ _ => exact .error _
  | minBounded r min v =>
    exact rebuild_twin hr (ho r List.mem_cons_self)
      (makes_one (mk := (Obj.minBounded · min v)) (mk' := (Obj.minBounded · min v)) (fun _ => rfl) (fun _ => rfl)) h
  | maxBounded r max v =>
    exact rebuild_twin hr (ho r List.mem_cons_self)
      (makes_one (mk := (Obj.maxBounded · max v)) (mk' := (Obj.maxBounded · max v)) (fun _ => rfl) (fun _ => rfl)) h
  | minMaxBounded r min max v =>
    exact rebuild_twin hr (ho r List.mem_cons_self)
      (makes_one (mk := (Obj.minMaxBounded · min max v)) (mk' := (Obj.minMaxBounded · min max v)) (fun _ => rfl) (fun _ => rfl)) h
  | named r n =>
    exact rebuild_twin hr (ho r List.mem_cons_self)
      (makes_one (mk := (Obj.named · n)) (mk' := (Obj.named · n)) (fun _ => rfl) (fun _ => rfl)) h
  | interp r i =>
    exact rebuild_twin hr (ho r List.mem_cons_self)
      (makes_one (mk := (Obj.interp · i)) (mk' := (Obj.interp · i)) (fun _ => rfl) (fun _ => rfl)) h
  | relation r x =>
    exact rebuild_twin hr (ho r List.mem_cons_self)
      (makes_one (mk := (Obj.relation · x)) (mk' := (Obj.relation · x)) (fun _ => rfl) (fun _ => rfl)) h
  | emptyProd => exact .ok ⟨ha, rfl⟩ h
  | pipeProd _ _ => exact .ok ⟨ha, rfl⟩ h
  | forward _ => exact .ok ⟨ha, rfl⟩ h
  | empty => exact .ok ⟨ha, rfl⟩ h
  | pipe _ => exact .ok ⟨ha, rfl⟩ h

/-! ### Squashing -/

theorem visitNew_twin {rec rec' : Visit P} (hr : VisitTwin F rec rec') {s t : St P} (h : TwinSt F s t)
    {o o' : Obj P} (e : o' = o.rename F.f) (ho : ∀ c ∈ o.children, F.D c) :
    ResAddr F (visitNew rec o s) (visitNew rec' o' t) := by
  subst e
  obtain ⟨⟨h1, h2⟩, h3⟩ := alloc_twin h ho
  have := hr _ _ _ h1 h3
  rw [← h2] at this
  exact this

theorem one {a : Nat} (h : F.D a) : ∀ c ∈ [a], F.D c := by
  intro c hc; rw [List.mem_singleton] at hc; exact hc ▸ h

theorem child_get {s t : St P} (h : TwinSt F s t) {r : Nat} (hr : F.D r) :
    t.heap[F.f r]? = (s.heap[r]?).map (Obj.rename F.f) ∧
      ∀ o, s.heap[r]? = some o → ∀ c ∈ o.children, F.D c :=
  ⟨h.heap.get r hr, fun o ho => h.heap.closed r o hr ho⟩

theorem squashBounded_twin {rec rec' : Visit P} (hr : VisitTwin F rec rec') {r : Nat} (hD : F.D r)
    {mk mk' : Nat → Obj P} (hm : ∀ a, mk' (F.f a) = (mk a).rename F.f) (hc : ∀ a, (mk a).children = [a])
    {s t : St P} (h : TwinSt F s t) : ResAddr F (squashBounded rec r mk s) (squashBounded rec' (F.f r) mk' t) := by
  obtain ⟨h1, h2⟩ := child_get h hD
  unfold squashBounded
  rw [h1]
  cases ho : s.heap[r]? with
  | none => exact rebuild_twin hr hD (makes_one hm hc) h
  | some o =>
    have hch := h2 o ho
    cases o <;> first
      | exact rebuild_twin hr hD (makes_one hm hc) h
      | exact .error _
      | exact visitNew_twin hr h rfl hch
      | skip
    rename_i g v
    have hg := hch g List.mem_cons_self
    simp only [Option.map_some, Obj.rename]
    obtain ⟨⟨k1, k2⟩, k3⟩ := alloc_twin' h (hm g) (by rw [hc]; exact one hg)
    rw [show (t.alloc (mk' (F.f g))) = ((t.alloc (mk' (F.f g))).1, (t.alloc (mk' (F.f g))).2) from rfl, k2]
    exact visitNew_twin hr k3 (o := .optional _ v) rfl (one k1)

theorem squash_twin : MethodTwin F (squashMethod (P := P)) squashMethod := by
  intro n rec rec' a o s t hr ha ho h
  have key : ∀ (r : Nat) (hD : F.D r) (mk mk' : Nat → Obj P), (∀ a, mk' (F.f a) = (mk a).rename F.f) →
      (∀ a, (mk a).children = [a]) → ResAddr F (rebuild rec r mk s) (rebuild rec' (F.f r) mk' t) :=
    fun r hD mk mk' h1 h2 => rebuild_twin hr hD (makes_one h1 h2) h
  have new : ∀ (o o' : Obj P), o' = o.rename F.f → (∀ c ∈ o.children, F.D c) →
      ResAddr F (visitNew rec o s) (visitNew rec' o' t) := fun o o' e hc => visitNew_twin hr h e hc
  cases o with
  | repeatable r v =>
    have hD := ho r List.mem_cons_self
    obtain ⟨h1, h2⟩ := child_get h hD
    simp only [Obj.rename, squashMethod]
    rw [h1]
    cases ho : s.heap[r]? with
    | none => exact key r hD _ _ (fun _ => rfl) (fun _ => rfl)
    | some o =>
      have hch := h2 o ho
      cases o <;> first
        | exact key r hD _ _ (fun _ => rfl) (fun _ => rfl)
        | exact .error _
        | exact new _ _ rfl hch
  | optional r v =>
    have hD := ho r List.mem_cons_self
    obtain ⟨h1, h2⟩ := child_get h hD
    simp only [Obj.rename, squashMethod]
    rw [h1]
    cases ho : s.heap[r]? with
    | none => exact key r hD _ _ (fun _ => rfl) (fun _ => rfl)
    | some o =>
      have hch := h2 o ho
      cases o <;> first
        | exact key r hD _ _ (fun _ => rfl) (fun _ => rfl)
        | exact .error _
        | exact new _ _ rfl hch
  | repOptional r v u =>
    have hD := ho r List.mem_cons_self
    obtain ⟨h1, h2⟩ := child_get h hD
    simp only [Obj.rename, squashMethod]
    rw [h1]
    cases ho : s.heap[r]? with
    | none => exact key r hD _ _ (fun _ => rfl) (fun _ => rfl)
    | some o =>
      have hch := h2 o ho
      cases o <;> first
        | exact key r hD _ _ (fun _ => rfl) (fun _ => rfl)
        | exact .error _
        | exact new _ _ rfl hch
  | minBounded r min v =>
    exact squashBounded_twin hr (ho _ List.mem_cons_self) (mk := (.minBounded · min v)) (fun _ => rfl) (fun _ => rfl) h
  | maxBounded r max v =>
    exact squashBounded_twin hr (ho _ List.mem_cons_self) (mk := (.maxBounded · max v)) (fun _ => rfl) (fun _ => rfl) h
  | minMaxBounded r min max v =>
    exact squashBounded_twin hr (ho _ List.mem_cons_self) (mk := (.minMaxBounded · min max v)) (fun _ => rfl)
      (fun _ => rfl) h
  | prod => exact default_twin n rec rec' a _ s t hr ha ho h
  | emptyProd => exact default_twin n rec rec' a _ s t hr ha ho h
  | pipeProd => exact default_twin n rec rec' a _ s t hr ha ho h
  | rule => exact default_twin n rec rec' a _ s t hr ha ho h
  | or => exact default_twin n rec rec' a _ s t hr ha ho h
  | named => exact default_twin n rec rec' a _ s t hr ha ho h
  | interp => exact default_twin n rec rec' a _ s t hr ha ho h
  | relation => exact default_twin n rec rec' a _ s t hr ha ho h
  | forward => exact default_twin n rec rec' a _ s t hr ha ho h
  | empty => exact default_twin n rec rec' a _ s t hr ha ho h
  | pipe => exact default_twin n rec rec' a _ s t hr ha ho h
  | bnf => exact default_twin n rec rec' a _ s t hr ha ho h

/-! ### Replacing quantifiers -/

theorem rule_twin {s t : St P} (h : TwinSt F s t) {as : List Nat} (ha : ∀ a ∈ as, F.D a) :
    Addr F (s.rule as).1 (t.rule (as.map F.f)).1 ∧ TwinSt F (s.rule as).2 (t.rule (as.map F.f)).2 := by
  unfold St.rule
  have e : Obj.prod ((as.map F.f).map Term.rule) 0 = (Obj.prod (P := P) (as.map Term.rule) 0).rename F.f := by
    simp only [Obj.rename, List.map_map]; rfl
  have hc : ∀ c ∈ (Obj.prod (P := P) (as.map Term.rule) 0).children, F.D c := by
    refine termIn_iff.1 (fun t ht r hr => ?_)
    obtain ⟨x, hx, rfl⟩ := List.mem_map.1 ht
    cases hr; exact ha _ hx
  obtain ⟨⟨k1, k2⟩, k3⟩ := alloc_twin' h e hc
  generalize s.alloc (Obj.prod (P := P) (as.map Term.rule) 0) = x at k1 k2 k3
  generalize t.alloc (Obj.prod ((as.map F.f).map Term.rule) 0) = y at k2 k3
  obtain ⟨p, s1⟩ := x
  obtain ⟨q, t1⟩ := y
  simp only at k1 k2 k3 ⊢
  exact alloc_twin' k3 (o := .rule [p]) (by rw [k2]; rfl) (one k1)

theorem or_twin {s t : St P} (h : TwinSt F s t) {a b : Nat} (ha : F.D a) (hb : F.D b) (rev : Bool) :
    Addr F (s.alloc (.or (if rev then [a, b] else [b, a]))).1
        (t.alloc (.or (if rev then [F.f a, F.f b] else [F.f b, F.f a]))).1 ∧
      TwinSt F (s.alloc (.or (if rev then [a, b] else [b, a]))).2
        (t.alloc (.or (if rev then [F.f a, F.f b] else [F.f b, F.f a]))).2 := by
  refine alloc_twin' h (by cases rev <;> rfl) ?_
  intro c hc
  cases rev <;> simp [Obj.children] at hc <;> rcases hc with rfl | rfl <;> assumption

theorem maxBound_twin {item : Nat} (hi : F.D item) (rev : Bool) : ∀ (n : Nat) {s t : St P}, TwinSt F s t →
    Addr F (maxBound item rev n s).1 (maxBound (F.f item) rev n t).1 ∧
      TwinSt F (maxBound item rev n s).2 (maxBound (F.f item) rev n t).2
  | 0, s, t, h => ⟨⟨hi, rfl⟩, h⟩
  | 1, s, t, h => ⟨⟨hi, rfl⟩, h⟩
  | n + 2, s, t, h => by
    obtain ⟨⟨k1, k2⟩, k3⟩ := maxBound_twin hi rev (n + 1) h
    unfold maxBound
    generalize maxBound item rev (n + 1) s = x at k1 k2 k3
    generalize maxBound (F.f item) rev (n + 1) t = y at k2 k3
    obtain ⟨inner, s1⟩ := x
    obtain ⟨inner', t1⟩ := y
    simp only at k1 k2 k3 ⊢
    subst k2
    obtain ⟨⟨l1, l2⟩, l3⟩ := rule_twin k3 (as := [item, inner])
      (by intro a ha; simp only [List.mem_cons, List.not_mem_nil, or_false] at ha; rcases ha with rfl | rfl <;> assumption)
    simp only [List.map_cons, List.map_nil] at l1 l2 l3
    generalize s1.rule [item, inner] = x at l1 l2 l3
    generalize t1.rule [F.f item, F.f inner] = y at l2 l3
    obtain ⟨a, s2⟩ := x
    obtain ⟨a', t2⟩ := y
    simp only at l1 l2 l3 ⊢
    subst l2
    exact or_twin l3 hi l1 rev

theorem mkRepeatable_twin {item : Nat} (hi : F.D item) (rev : Bool) {s t : St P} (h : TwinSt F s t) :
    Addr F (mkRepeatable item rev s).1 (mkRepeatable (F.f item) rev t).1 ∧
      TwinSt F (mkRepeatable item rev s).2 (mkRepeatable (F.f item) rev t).2 := by
  unfold mkRepeatable
  have fr := h.heap.fresh 3
  obtain ⟨⟨k1, k2⟩, k3⟩ := alloc_twin' h (o := .forward (some (s.heap.length + 3)))
    (o' := .forward (some (t.heap.length + 3))) (by simp only [Obj.rename, Option.map_some, fr.2]) (one fr.1)
  generalize s.alloc (.forward (some (s.heap.length + 3))) = x at k1 k2 k3
  generalize t.alloc (.forward (some (t.heap.length + 3))) = y at k2 k3
  obtain ⟨temp, s1⟩ := x
  obtain ⟨temp', t1⟩ := y
  simp only at k1 k2 k3 ⊢
  subst k2
  obtain ⟨⟨l1, l2⟩, l3⟩ := rule_twin k3 (as := [item, temp])
    (by intro a ha; simp only [List.mem_cons, List.not_mem_nil, or_false] at ha; rcases ha with rfl | rfl <;> assumption)
  simp only [List.map_cons, List.map_nil] at l1 l2 l3
  generalize s1.rule [item, temp] = x at l1 l2 l3
  generalize t1.rule [F.f item, F.f temp] = y at l2 l3
  obtain ⟨a, s2⟩ := x
  obtain ⟨a', t2⟩ := y
  simp only at l1 l2 l3 ⊢
  subst l2
  exact ⟨⟨k1, rfl⟩, (or_twin l3 hi l1 rev).2⟩

theorem mkOptional_twin {item : Nat} (hi : F.D item) (rev : Bool) {s t : St P} (h : TwinSt F s t) :
    Addr F (mkOptional item rev s).1 (mkOptional (F.f item) rev t).1 ∧
      TwinSt F (mkOptional item rev s).2 (mkOptional (F.f item) rev t).2 := by
  unfold mkOptional
  obtain ⟨⟨k1, k2⟩, k3⟩ := alloc_twin' h (o := .empty) (o' := .empty) rfl (by intro c hc; cases hc)
  generalize s.alloc .empty = x at k1 k2 k3
  generalize t.alloc .empty = y at k2 k3
  obtain ⟨a, s1⟩ := x
  obtain ⟨a', t1⟩ := y
  simp only at k1 k2 k3 ⊢
  subst k2
  exact or_twin k3 hi k1 rev

theorem mkRepOptional_twin {item : Nat} (hi : F.D item) (rr ro : Bool) {s t : St P} (h : TwinSt F s t) :
    Addr F (mkRepOptional item rr ro s).1 (mkRepOptional (F.f item) rr ro t).1 ∧
      TwinSt F (mkRepOptional item rr ro s).2 (mkRepOptional (F.f item) rr ro t).2 := by
  unfold mkRepOptional
  have fr := h.heap.fresh 4
  obtain ⟨⟨k1, k2⟩, k3⟩ := alloc_twin' h (o := .forward (some (s.heap.length + 4)))
    (o' := .forward (some (t.heap.length + 4))) (by simp only [Obj.rename, Option.map_some, fr.2]) (one fr.1)
  generalize s.alloc (.forward (some (s.heap.length + 4))) = x at k1 k2 k3
  generalize t.alloc (.forward (some (t.heap.length + 4))) = y at k2 k3
  obtain ⟨temp, s1⟩ := x
  obtain ⟨temp', t1⟩ := y
  simp only at k1 k2 k3 ⊢
  subst k2
  obtain ⟨⟨j1, j2⟩, j3⟩ := alloc_twin' k3 (o := .empty) (o' := .empty) rfl (by intro c hc; cases hc)
  generalize s1.alloc .empty = x at j1 j2 j3
  generalize t1.alloc .empty = y at j2 j3
  obtain ⟨e, s2⟩ := x
  obtain ⟨e', t2⟩ := y
  simp only at j1 j2 j3 ⊢
  subst j2
  obtain ⟨⟨l1, l2⟩, l3⟩ := rule_twin j3 (as := [item, temp])
    (by intro a ha; simp only [List.mem_cons, List.not_mem_nil, or_false] at ha; rcases ha with rfl | rfl <;> assumption)
  simp only [List.map_cons, List.map_nil] at l1 l2 l3
  generalize s2.rule [item, temp] = x at l1 l2 l3
  generalize t2.rule [F.f item, F.f temp] = y at l2 l3
  obtain ⟨a, s3⟩ := x
  obtain ⟨a', t3⟩ := y
  simp only at l1 l2 l3 ⊢
  subst l2
  refine ⟨⟨k1, rfl⟩, (alloc_twin' l3 ?_ ?_).2⟩
  · cases rr <;> cases ro <;> rfl
  · intro c hc
    cases rr <;> cases ro <;> simp [Obj.children, repOptionalOrder] at hc <;>
      rcases hc with rfl | rfl | rfl <;> assumption

theorem bounded_twin {item t' : Nat} (hi : F.D item) (ht : F.D t') (n : Nat) {s t : St P} (h : TwinSt F s t) :
    Addr F (s.rule (List.replicate n item ++ [t'])).1 (t.rule (List.replicate n (F.f item) ++ [F.f t'])).1 ∧
      TwinSt F (s.rule (List.replicate n item ++ [t'])).2
        (t.rule (List.replicate n (F.f item) ++ [F.f t'])).2 := by
  have := rule_twin h (as := List.replicate n item ++ [t']) (by
    intro a ha
    rcases List.mem_append.1 ha with ha | ha
    · rw [List.eq_of_mem_replicate ha]; exact hi
    · rw [List.mem_singleton] at ha; exact ha ▸ ht)
  simpa only [List.map_append, List.map_replicate, List.map_cons, List.map_nil] using this

theorem extended_twin : MethodTwin F (extendedMethod (P := P)) extendedMethod := by
  intro n rec rec' a o s t hr ha ho h
  have d := default_twin (F := F) n rec rec' a o s t hr ha ho h
  cases o with
  | repeatable r rev =>
    refine (hr r s t (ho r List.mem_cons_self) h).map ?_
    rintro x y s t ⟨h1, rfl⟩ h2
    exact mkRepeatable_twin h1 rev h2
  | optional r rev =>
    refine (hr r s t (ho r List.mem_cons_self) h).map ?_
    rintro x y s t ⟨h1, rfl⟩ h2
    exact mkOptional_twin h1 rev h2
  | repOptional r rr ro =>
    refine (hr r s t (ho r List.mem_cons_self) h).map ?_
    rintro x y s t ⟨h1, rfl⟩ h2
    exact mkRepOptional_twin h1 rr ro h2
  | minBounded r min rev =>
    refine (hr r s t (ho r List.mem_cons_self) h).map ?_
    rintro x y s t ⟨h1, rfl⟩ h2
    obtain ⟨⟨k1, k2⟩, k3⟩ := mkRepeatable_twin h1 rev h2
    simp only
    rw [k2]
    exact bounded_twin h1 k1 _ k3
  | maxBounded r max rev =>
    refine (hr r s t (ho r List.mem_cons_self) h).map ?_
    rintro x y s t ⟨h1, rfl⟩ h2
    exact maxBound_twin h1 rev max h2
  | minMaxBounded r min max rev =>
    refine (hr r s t (ho r List.mem_cons_self) h).map ?_
    rintro x y s t ⟨h1, rfl⟩ h2
    obtain ⟨⟨k1, k2⟩, k3⟩ := maxBound_twin h1 rev (max - min + 1) h2
    simp only
    rw [k2]
    exact bounded_twin h1 k1 _ k3
  | prod => exact d
  | emptyProd => exact d
  | pipeProd => exact d
  | rule => exact d
  | or => exact d
  | named => exact d
  | interp => exact d
  | relation => exact d
  | forward => exact d
  | empty => exact d
  | pipe => exact d
  | bnf => exact d

/-! ### Alternatives, empty rules, rules with one term -/

theorem or_method_twin : MethodTwin F (orMethod (P := P)) orMethod := by
  intro n rec rec' a o s t hr ha ho h
  have d := default_twin (F := F) n rec rec' a o s t hr ha ho h
  cases o with
  | or rs =>
    refine rebuildAll_twin (P := P) (k := visitProd rec) (l := visitProd rec') (d := F.D) (e := F.D) (fun a s t ha h => ?_)
      ho (makes_all (fun _ => rfl) (fun _ => rfl)) h
    exact rebuild_twin hr ha (makes_one (fun _ => rfl) (fun _ => rfl)) h
  | repeatable => exact d
  | optional => exact d
  | repOptional => exact d
  | minBounded => exact d
  | maxBounded => exact d
  | minMaxBounded => exact d
  | prod => exact d
  | emptyProd => exact d
  | pipeProd => exact d
  | rule => exact d
  | named => exact d
  | interp => exact d
  | relation => exact d
  | forward => exact d
  | empty => exact d
  | pipe => exact d
  | bnf => exact d

theorem empty_twin : MethodTwin F (emptyMethod (P := P)) emptyMethod := by
  intro n rec rec' a o s t hr ha ho h
  have d := default_twin (F := F) n rec rec' a o s t hr ha ho h
  cases o with
  | empty =>
    simp only [Obj.rename, emptyMethod]
    obtain ⟨⟨k1, k2⟩, k3⟩ := alloc_twin' h (o := .emptyProd) (o' := .emptyProd) rfl (by intro c hc; cases hc)
    obtain ⟨l1, l2⟩ := alloc_twin' k3 (o := .rule [_]) (o' := .rule [(t.alloc .emptyProd).1])
      (by rw [k2]; rfl) (one k1)
    exact .ok l1 l2
  | or => exact d
  | repeatable => exact d
  | optional => exact d
  | repOptional => exact d
  | minBounded => exact d
  | maxBounded => exact d
  | minMaxBounded => exact d
  | prod => exact d
  | emptyProd => exact d
  | pipeProd => exact d
  | rule => exact d
  | named => exact d
  | interp => exact d
  | relation => exact d
  | forward => exact d
  | pipe => exact d
  | bnf => exact d

theorem termsAt_twin {h g : Heap P} (T : Twin F h g) {p : Nat} (hp : F.D p) :
    termsAt g (F.f p) = (termsAt h p).map (Term.rename F.f) ∧ ∀ x ∈ termsAt h p, TermIn F x := by
  unfold termsAt
  rw [T.get p hp]
  cases ho : h[p]? with
  | none => exact ⟨rfl, (by intro x hx; cases hx)⟩
  | some o =>
    have hc := T.closed p o hp ho
    cases o <;> first
      | exact ⟨rfl, termIn_iff.2 hc⟩
      | exact ⟨rfl, (by intro x hx; cases hx; done)⟩
      | skip
    rename_i v ts
    refine ⟨by simp only [Option.map_some, Obj.rename, List.map_map]; rfl, ?_⟩
    intro x hx r e
    obtain ⟨y, _, rfl⟩ := List.mem_map.1 hx
    cases e

theorem flattenTerm_twin {rec rec' : Visit P} (hr : VisitTwin F rec rec') : ∀ (n : Nat) (x : Term P)
    (s t : St P), TermIn F x → TwinSt F s t →
    ResTerm F (flattenTerm rec n x s) (flattenTerm rec' n (x.rename F.f) t) := by
  intro n
  induction n with
  | zero => intro x s t _ _; exact .error _
  | succ n ih =>
    intro x s t hx h
    cases x with
    | pred p => exact .ok ⟨hx, rfl⟩ h
    | rule r =>
      have d := visitTerm_twin hr (.rule r) s t hx h
      simp only [Term.rename] at d
      have hD := hx r rfl
      obtain ⟨h1, h2⟩ := child_get h hD
      simp only [Term.rename, flattenTerm]
      rw [h1]
      cases ho : s.heap[r]? with
      | none => exact d
      | some o =>
        cases o with
        | rule ps =>
          cases ps with
          | nil => exact d
          | cons p ps =>
            cases ps with
            | cons _ _ => exact d
            | nil =>
              simp only [Option.map_some, Obj.rename, List.map_cons, List.map_nil]
              obtain ⟨k1, k2⟩ := termsAt_twin h.heap (h2 _ ho p List.mem_cons_self)
              rw [k1]
              cases hts : termsAt s.heap p with
              | nil => exact d
              | cons x xs =>
                cases xs with
                | cons _ _ => exact d
                | nil => exact ih x s t (k2 x (by rw [hts]; exact List.mem_cons_self)) h
        | _ => exact d

theorem flatten_twin : MethodTwin F (flattenMethod (P := P)) flattenMethod := by
  intro n rec rec' a o s t hr ha ho h
  have d := default_twin (F := F) n rec rec' a o s t hr ha ho h
  cases o with
  | prod ts m =>
    have e := rebuildAll_twin (flattenTerm_twin hr n) (termIn_iff.2 ho) (makes_prod m) h
    cases ts with
    | nil => exact e
    | cons x xs =>
      cases x with
      | pred p => exact e
      | rule r =>
        cases xs with
        | cons _ _ => exact e
        | nil =>
          have hD := ho r List.mem_cons_self
          obtain ⟨h1, h2⟩ := child_get h hD
          simp only [Obj.rename, List.map_cons, List.map_nil, Term.rename, flattenMethod]
          rw [h1]
          cases ho : s.heap[r]? with
          | none => exact e
          | some o =>
            cases o with
            | rule ps =>
              cases ps with
              | nil => exact e
              | cons p ps =>
                cases ps with
                | cons _ _ => exact e
                | nil => exact hr p s t (h2 _ ho p List.mem_cons_self) h
            | _ => exact e
  | or => exact d
  | repeatable => exact d
  | optional => exact d
  | repOptional => exact d
  | minBounded => exact d
  | maxBounded => exact d
  | minMaxBounded => exact d
  | emptyProd => exact d
  | pipeProd => exact d
  | rule => exact d
  | named => exact d
  | interp => exact d
  | relation => exact d
  | forward => exact d
  | empty => exact d
  | pipe => exact d
  | bnf => exact d

end Twins
end Yargy
