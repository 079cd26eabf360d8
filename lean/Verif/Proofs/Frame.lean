import Verif.Proofs.Activation
/-!
What a transformator changes and what it leaves alone: nothing but forward rules among the objects that
are there before, and the result is made of new objects.
-/
namespace Yargy

variable {P : Type}

/-- The predicates an object mentions. -/
def Obj.preds : Obj P → List P
  | .prod ts _ => ts.filterMap (fun t => match t with | .pred p => some p | .rule _ => none)
  | .pipeProd _ ps => ps
  | .pipe (.keys _ keys) => keys.flatMap Prod.snd
  | _ => []

/-- The classes of objects, as far as the transformators tell them apart. -/
inductive Tag where
  | prod | emptyProd | pipeProd | rule | or | quant | wrap | forward | empty | pipe | bnf
  deriving DecidableEq

def Obj.tag : Obj P → Tag
  | .prod _ _ => .prod
  | .emptyProd => .emptyProd
  | .pipeProd _ _ => .pipeProd
  | .rule _ => .rule
  | .or _ => .or
  | .optional _ _ => .quant
  | .repeatable _ _ => .quant
  | .repOptional _ _ _ => .quant
  | .minBounded _ _ _ => .quant
  | .maxBounded _ _ _ => .quant
  | .minMaxBounded _ _ _ _ => .quant
  | .named _ _ => .wrap
  | .interp _ _ => .wrap
  | .relation _ _ => .wrap
  | .forward _ => .forward
  | .empty => .empty
  | .pipe _ => .pipe
  | .bnf _ _ _ _ _ => .bnf

/-- Productions, in contrast to rules. -/
def Tag.isProd : Tag → Bool
  | .prod | .emptyProd | .pipeProd => true
  | _ => false

/-- Whose children are productions. -/
def Tag.hasProds : Tag → Bool
  | .rule | .bnf => true
  | _ => false

/-- What transformators hand on as it is. -/
def Tag.leaf : Tag → Bool
  | .emptyProd | .pipeProd | .empty | .pipe => true
  | _ => false

def isProdAt (h : Heap P) (a : Nat) : Bool :=
  match h[a]? with
  | some o => o.tag.isProd
  | none => false

theorem Like.tag {k : Kind} {o o' : Obj P} (h : Like k o o') : o.tag = o'.tag := by cases h <;> rfl

theorem Like.preds {k : Kind} {o o' : Obj P} (h : Like k o o') : o.preds = o'.preds := by
  cases h <;> rfl

/-- A pass: the heap and the rule it starts with, the classes of objects below the rule and below the
result, what is known of the predicates, whether new forward rules are made. -/
structure Pass (P : Type) where
  heap : Heap P
  root : Nat
  births : Bool
  inT : Tag → Bool
  outT : Tag → Bool
  X : P → Prop

namespace Pass
variable (F : Pass P)

/-- A forward rule that was there before. -/
def Old (a : Nat) : Prop := ∃ c, F.heap[a]? = some (.forward c)

/-- What the pass may look at. -/
def Dom (a : Nat) : Prop := F.heap.length ≤ a ∨ Reach F.heap F.root a

/-- Below, without looking into old forward rules. -/
inductive Via (g : Heap P) : Nat → Nat → Prop
  | refl (a) : Via g a a
  | step {a o c x} : ¬ F.Old a → g[a]? = some o → c ∈ o.children → Via g c x → Via g a x

/-- Below, without looking into any forward rule. -/
inductive Via0 (g : Heap P) : Nat → Nat → Prop
  | refl (a) : Via0 g a a
  | step {a o c x} : g[a]? = some o → o.tag ≠ .forward → c ∈ o.children → Via0 g c x → Via0 g a x

/-- Nothing is left to be done below. -/
def Plain (g : Heap P) (a : Nat) : Prop :=
  ∀ x o, Via0 g a x → g[x]? = some o → F.outT o.tag = true

/-- Forward rules below something that is done already are below its image. -/
def Keep (g : Heap P) (a b : Nat) : Prop :=
  F.births = true → F.Plain g a → ∀ y c, g[y]? = some (.forward c) → Via0 g a y → Via0 g b y

/-- An object of the result. -/
def Good (g : Heap P) (x : Nat) : Prop :=
  ∃ o, g[x]? = some o ∧ F.outT o.tag = true ∧ (∀ p ∈ o.preds, F.X p) ∧
    (F.heap.length ≤ x ∨ o.tag.leaf = true)

/-- What is below the result is part of the result, or an old forward rule below the item. -/
def Ok (g : Heap P) (a b : Nat) : Prop :=
  ∀ x, F.Via g b x → (F.Old x ∧ F.Via g a x) ∨ (¬ F.Old x ∧ F.Good g x)

structure Result (g : Heap P) (a b : Nat) : Prop where
  lt : b < g.length
  dom : F.Dom b
  sort : isProdAt g b = isProdAt g a
  ok : F.Ok g a b
  keep : F.Keep g a b

/-- An object of the pass: its class, its predicates, its children. -/
structure Fit (g : Heap P) (o : Obj P) : Prop where
  tag : F.inT o.tag = true
  preds : ∀ p ∈ o.preds, F.X p
  kids : ∀ c ∈ o.children, F.Dom c ∧ c < g.length ∧ isProdAt g c = o.tag.hasProds

def FwdOk (g : Heap P) (T : Nat) (c : Option Nat) : Prop :=
  F.births = true ∧ (∀ x, F.Via g T x → F.Old x ∨ F.Good g x) ∧
    ∀ y, c = some y → ∀ d, g[y]? ≠ some (.forward d)

structure Inv (s : St P) : Prop where
  len : F.heap.length ≤ s.heap.length
  frame : ∀ (a : Nat) o, F.heap[a]? = some o → s.heap[a]? = some o ∨
    (F.Old a ∧ F.Dom a ∧ ∃ r, s.heap[a]? = some (.forward (some r)))
  dom : ∀ (a : Nat) o, F.Dom a → s.heap[a]? = some o → F.Fit s.heap o
  memo : ∀ e ∈ s.memo, F.Dom e.1 ∧ e.1 < s.heap.length ∧ F.Result s.heap e.1 e.2
  fwd : ∀ (T : Nat) c, F.heap.length ≤ T → s.heap[T]? = some (.forward c) → F.FwdOk s.heap T c

/-- How the heap changes during a visit. -/
structure Ext (g g' : Heap P) : Prop where
  len : g.length ≤ g'.length
  at_ : ∀ (a : Nat) o, g[a]? = some o → g'[a]? = some o ∨
    (F.heap.length ≤ a ∧ ∃ o', g'[a]? = some o' ∧ Like .plain o o')

variable {F}

theorem Old.lt {a : Nat} (h : F.Old a) : a < F.heap.length := by
  obtain ⟨c, h⟩ := h; exact (List.getElem?_eq_some_iff.1 h).1

theorem not_old {a : Nat} (h : F.heap.length ≤ a) : ¬ F.Old a := fun h' => by
  have := h'.lt; omega

theorem Ext.refl (g : Heap P) : F.Ext g g := ⟨Nat.le_refl _, fun _ _ h => .inl h⟩

theorem Ext.like {g g' : Heap P} (h : F.Ext g g') {a : Nat} {o : Obj P} (ha : g[a]? = some o) :
    ∃ o', g'[a]? = some o' ∧ Like .plain o o' := by
  rcases h.at_ a o ha with h | ⟨_, h⟩
  · exact ⟨o, h, .refl o⟩
  · exact h

theorem Like.trans' {o o' o'' : Obj P} (h1 : Like .plain o o') (h2 : Like .plain o' o'') :
    Like .plain o o'' := by
  cases h1 with
  | refl => exact h2
  | bnf => cases h2 <;> exact .bnf (by rw [label_plain, label_plain])

theorem Ext.trans {g g' g'' : Heap P} (h1 : F.Ext g g') (h2 : F.Ext g' g'') : F.Ext g g'' := by
  refine ⟨Nat.le_trans h1.len h2.len, fun a o ha => ?_⟩
  rcases h1.at_ a o ha with h | ⟨hl, o', h, hk⟩
  · exact h2.at_ a o h
  · rcases h2.at_ a o' h with h' | ⟨_, o'', h', hk'⟩
    · exact .inr ⟨hl, o', h', hk⟩
    · exact .inr ⟨hl, o'', h', Like.trans' hk hk'⟩

theorem Ext.append (g e : Heap P) : F.Ext g (g ++ e) :=
  ⟨by simp, fun _ _ h => .inl (getElem?_append_some h)⟩

theorem Ext.back {g g' : Heap P} (h : F.Ext g g') {a : Nat} {o' : Obj P} (ha : a < g.length)
    (h' : g'[a]? = some o') : ∃ o, g[a]? = some o ∧ Like .plain o o' := by
  obtain ⟨o'', h1, h2⟩ := h.like (List.getElem?_eq_getElem ha)
  rw [h1] at h'; cases h'
  exact ⟨_, List.getElem?_eq_getElem ha, h2⟩

theorem Ext.isProdAt {g g' : Heap P} (h : F.Ext g g') {a : Nat} (ha : a < g.length) :
    isProdAt g' a = isProdAt g a := by
  obtain ⟨o', h1, h2⟩ := h.like (List.getElem?_eq_getElem ha)
  unfold Yargy.isProdAt
  rw [h1, List.getElem?_eq_getElem ha]
  simp only [h2.tag]

/-- Children of what may be looked at may be looked at. -/
def Shut (F : Pass P) (g : Heap P) : Prop :=
  ∀ (a : Nat) o, F.Dom a → g[a]? = some o → ∀ c ∈ o.children, F.Dom c ∧ c < g.length

theorem Inv.shut {s : St P} (h : F.Inv s) : F.Shut s.heap := fun a o ha ho c hc =>
  ⟨((h.dom a o ha ho).kids c hc).1, ((h.dom a o ha ho).kids c hc).2.1⟩

theorem Ext.via {g g' : Heap P} (h : F.Ext g g') {a x : Nat} (hv : F.Via g a x) : F.Via g' a x := by
  induction hv with
  | refl => exact .refl _
  | step h1 h2 h3 _ ih =>
    obtain ⟨o', h4, h5⟩ := h.like h2
    exact .step h1 h4 (h5.children ▸ h3) ih

theorem Ext.via_back {g g' : Heap P} (h : F.Ext g g') (hs : F.Shut g) {a x : Nat}
    (hv : F.Via g' a x) : F.Dom a → a < g.length → F.Via g a x := by
  induction hv with
  | refl => intro _ _; exact .refl _
  | step h1 h2 h3 _ ih =>
    intro hd hl
    obtain ⟨o, h4, h5⟩ := h.back hl h2
    have hc := h5.children ▸ h3
    obtain ⟨k1, k2⟩ := hs _ o hd h4 _ hc
    exact .step h1 h4 hc (ih k1 k2)

theorem Ext.via0 {g g' : Heap P} (h : F.Ext g g') {a x : Nat} (hv : Via0 g a x) : Via0 g' a x := by
  induction hv with
  | refl => exact .refl _
  | step h1 h2 h3 _ ih =>
    obtain ⟨o', h4, h5⟩ := h.like h1
    exact .step h4 (h5.tag ▸ h2) (h5.children ▸ h3) ih

theorem Ext.via0_back {g g' : Heap P} (h : F.Ext g g') (hs : F.Shut g) {a x : Nat}
    (hv : Via0 g' a x) : F.Dom a → a < g.length → Via0 g a x ∧ x < g.length := by
  induction hv with
  | refl => intro _ h; exact ⟨.refl _, h⟩
  | step h1 h2 h3 _ ih =>
    intro hd hl
    obtain ⟨o, h4, h5⟩ := h.back hl h1
    have hc := h5.children ▸ h3
    obtain ⟨k1, k2⟩ := hs _ o hd h4 _ hc
    exact ⟨.step h4 (h5.tag ▸ h2) hc (ih k1 k2).1, (ih k1 k2).2⟩

theorem Ext.keep {g g' : Heap P} (h : F.Ext g g') (hs : F.Shut g) {a b : Nat} (hd : F.Dom a)
    (hl : a < g.length) (hk : F.Keep g a b) : F.Keep g' a b := by
  intro hb hp y c hy hv
  obtain ⟨h1, h2⟩ := h.via0_back hs hv hd hl
  obtain ⟨o, h3, h4⟩ := h.back h2 hy
  refine h.via0 (hk hb ?_ y c (by cases h4; exact h3) h1)
  intro x o hx ho
  obtain ⟨o', h5, h6⟩ := h.like ho
  rw [h6.tag]
  exact hp x o' (h.via0 hx) h5

theorem Ext.good {g g' : Heap P} (h : F.Ext g g') {x : Nat} (hg : F.Good g x) : F.Good g' x := by
  obtain ⟨o, h1, h2, h3, h4⟩ := hg
  obtain ⟨o', h5, h6⟩ := h.like h1
  exact ⟨o', h5, h6.tag ▸ h2, h6.preds ▸ h3, h6.tag ▸ h4⟩

theorem Ext.ok {g g' : Heap P} (h : F.Ext g g') (hs : F.Shut g) {a b : Nat} (hd : F.Dom b)
    (hl : b < g.length) (hk : F.Ok g a b) : F.Ok g' a b := by
  intro x hx
  rcases hk x (h.via_back hs hx hd hl) with ⟨h1, h2⟩ | ⟨h1, h2⟩
  · exact .inl ⟨h1, h.via h2⟩
  · exact .inr ⟨h1, h.good h2⟩

theorem Ext.result {g g' : Heap P} (h : F.Ext g g') (hs : F.Shut g) {a b : Nat} (hd : F.Dom a)
    (ha : a < g.length) (hr : F.Result g a b) : F.Result g' a b where
  lt := Nat.lt_of_lt_of_le hr.lt h.len
  dom := hr.dom
  sort := by rw [h.isProdAt hr.lt, h.isProdAt ha]; exact hr.sort
  ok := h.ok hs hr.dom hr.lt hr.ok
  keep := h.keep hs hd ha hr.keep

/-- A result for something below is a result for what is above. -/
theorem Result.above {g : Heap P} {a c b : Nat} (hb : F.births = false) (h : F.Result g c b)
    (hs : isProdAt g c = isProdAt g a) (hv : ∀ x, F.Old x → F.Via g c x → F.Via g a x) :
    F.Result g a b where
  lt := h.lt
  dom := h.dom
  sort := h.sort.trans hs
  keep := by intro h; rw [hb] at h; cases h
  ok := by
    intro x hx
    rcases h.ok x hx with ⟨h1, h2⟩ | h1
    · exact .inl ⟨h1, hv x h1 h2⟩
    · exact .inr h1

theorem Ok.above {g : Heap P} {a c b : Nat} (h : F.Ok g c b)
    (hv : ∀ x, F.Old x → F.Via g c x → F.Via g a x) : F.Ok g a b := by
  intro x hx
  rcases h x hx with ⟨h1, h2⟩ | h1
  · exact .inl ⟨h1, hv x h1 h2⟩
  · exact .inr h1

/-- New objects that refer to each other and to results. -/
theorem ok_set {g : Heap P} {a : Nat} (S : Nat → Prop)
    (hS : ∀ b, S b → ∃ o, g[b]? = some o ∧ F.outT o.tag = true ∧ (∀ p ∈ o.preds, F.X p) ∧
      F.heap.length ≤ b ∧ ∀ c ∈ o.children, S c ∨ F.Ok g a c) : ∀ b, S b → F.Ok g a b := by
  have main : ∀ b x, F.Via g b x → S b → (F.Old x ∧ F.Via g a x) ∨ (¬ F.Old x ∧ F.Good g x) := by
    intro b x hv
    induction hv with
    | refl b =>
      intro hb
      obtain ⟨o, h1, h2, h3, h4, _⟩ := hS b hb
      exact .inr ⟨not_old h4, o, h1, h2, h3, .inl h4⟩
    | step h1 h2 h3 h4 ih =>
      intro hb
      obtain ⟨o', k1, _, _, _, k5⟩ := hS _ hb
      rw [h2] at k1; cases k1
      rcases k5 _ h3 with h | h
      · exact ih h
      · exact h _ h4
  exact fun b hb x hx => main b x hx hb

theorem Ext.inv_frame {s : St P} {g : Heap P} (h : F.Inv s) (he : F.Ext s.heap g) (a : Nat) (o : Obj P)
    (ha : F.heap[a]? = some o) : g[a]? = some o ∨ (F.Old a ∧ F.Dom a ∧ ∃ r, g[a]? = some (.forward (some r))) := by
  have hl : a < F.heap.length := (List.getElem?_eq_some_iff.1 ha).1
  have keep : ∀ o', s.heap[a]? = some o' → g[a]? = some o' := by
    intro o' ho'
    rcases he.at_ a o' ho' with h1 | ⟨h1, _⟩
    · exact h1
    · omega
  rcases h.frame a o ha with h1 | ⟨h1, h2, r, h3⟩
  · exact .inl (keep _ h1)
  · exact .inr ⟨h1, h2, r, keep _ h3⟩

theorem Fit.ext {g g' : Heap P} (he : F.Ext g g') {o o' : Obj P} (hl : Like .plain o o')
    (h : F.Fit g o) : F.Fit g' o' where
  tag := hl.tag ▸ h.tag
  preds := hl.preds ▸ h.preds
  kids := by
    intro c hc
    rw [← hl.children] at hc
    obtain ⟨h1, h2, h3⟩ := h.kids c hc
    exact ⟨h1, Nat.lt_of_lt_of_le h2 he.len, by rw [he.isProdAt h2, h3, hl.tag]⟩

theorem FwdOk.ext {g g' : Heap P} (he : F.Ext g g') (hs : F.Shut g) {T : Nat} {c : Option Nat}
    (hT : g[T]? = some (.forward c)) (hd : F.Dom T) (h : F.FwdOk g T c) : F.FwdOk g' T c := by
  have hlt := (List.getElem?_eq_some_iff.1 hT).1
  refine ⟨h.1, fun x hx => ?_, fun y hy d hd' => ?_⟩
  · rcases h.2.1 x (he.via_back hs hx hd hlt) with h1 | h1
    · exact .inl h1
    · exact .inr (he.good h1)
  · subst hy
    obtain ⟨o, h1, h2⟩ := he.back (hs T _ hd hT y (by simp [Obj.children])).2 hd'
    cases h2
    exact h.2.2 y rfl _ h1

/-- The invariant survives changes of the attributes of new rules and new objects. -/
theorem Inv.extend {s : St P} (h : F.Inv s) {g : Heap P} (he : F.Ext s.heap g)
    (hn : ∀ (a : Nat) o, s.heap.length ≤ a → g[a]? = some o → F.Fit g o)
    (hf : ∀ (T : Nat) c, s.heap.length ≤ T → g[T]? = some (.forward c) → F.FwdOk g T c) :
    F.Inv { s with heap := g } where
  len := Nat.le_trans h.len he.len
  frame := he.inv_frame h
  dom := by
    intro a o hd ho
    by_cases hl : a < s.heap.length
    · obtain ⟨o', h1, h2⟩ := he.back hl ho
      exact (h.dom a o' hd h1).ext he h2
    · exact hn a o (by omega) ho
  memo := by
    intro e hm
    obtain ⟨h1, h2, h3⟩ := h.memo e hm
    exact ⟨h1, Nat.lt_of_lt_of_le h2 he.len, he.result h.shut h1 h2 h3⟩
  fwd := by
    intro T c hT hg
    by_cases hl : T < s.heap.length
    · obtain ⟨o', h1, h2⟩ := he.back hl hg
      cases h2
      exact (h.fwd T c hT h1).ext he h.shut h1 (.inl hT)
    · exact hf T c (by omega) hg

/-- A new object that is not a forward rule. -/
theorem Inv.alloc {s : St P} (h : F.Inv s) {o : Obj P} (ho : F.Fit s.heap o)
    (hn : ∀ c, o ≠ .forward c) : F.Inv (s.alloc o).2 := by
  have he : F.Ext s.heap (s.heap ++ [o]) := Ext.append _ _
  refine h.extend he ?_ ?_
  · intro a x hl hx
    rw [List.getElem?_append_right hl] at hx
    have : x = o := by
      cases h' : a - s.heap.length with
      | zero => rw [h'] at hx; simpa using hx.symm
      | succ n => rw [h'] at hx; simp at hx
    subst this
    exact ho.ext he (.refl _)
  · intro T c hl hx
    rw [List.getElem?_append_right hl] at hx
    cases h' : T - s.heap.length with
    | zero => rw [h'] at hx; simp at hx; exact absurd hx (hn c)
    | succ n => rw [h'] at hx; simp at hx

/-! ### Visits -/

variable (F) in
/-- A step does what `R` says of inputs that meet `Pre`. -/
def StepFits {α β : Type} (Pre : Heap P → α → Prop) (R : Heap P → α → β → Prop)
    (f : α → St P → Except Err (β × St P)) : Prop :=
  ∀ x s y s', F.Inv s → Pre s.heap x → f x s = .ok (y, s') →
    F.Inv s' ∧ F.Ext s.heap s'.heap ∧ R s'.heap x y

variable (F) in
def Item (g : Heap P) (a : Nat) : Prop := F.Dom a ∧ a < g.length

variable (F) in
abbrev VisitFits (rec : Visit P) : Prop := F.StepFits F.Item F.Result rec

variable (F) in
def MethodFits (m : Method P) : Prop :=
  ∀ n rec, F.VisitFits rec → ∀ (a : Nat) o (s : St P) b s', F.Inv s → F.Dom a → s.heap[a]? = some o →
    m n rec a o s = .ok (b, s') → F.Inv s' ∧ F.Ext s.heap s'.heap ∧ F.Result s'.heap a b

theorem visit_fits {m : Method P} {pid : Nat → Nat} (hp : ∀ a b, pid a = pid b → a = b)
    (hm : F.MethodFits m) : ∀ n, F.VisitFits (visit m pid n) := by
  intro n
  induction n with
  | zero => intro a s b s' _ _ h; simp [visit] at h
  | succ n ih =>
    intro a s b s' hi hd h
    unfold visit at h
    cases hl : s.lookup pid a with
    | some c =>
      simp only [hl, Except.ok.injEq, Prod.mk.injEq] at h
      obtain ⟨rfl, rfl⟩ := h
      refine ⟨hi, Ext.refl _, ?_⟩
      unfold St.lookup at hl
      cases hf : s.memo.find? (fun e => decide (pid e.1 = pid a)) with
      | none => simp [hf] at hl
      | some e =>
        simp only [hf, Option.map_some, Option.some.injEq] at hl
        have h1 := List.find?_some hf
        have h2 := List.mem_of_find?_eq_some hf
        have : e.1 = a := hp _ _ (by simpa using h1)
        have := hi.memo e h2
        simp_all
    | none =>
      simp only [hl] at h
      cases ho : s.heap[a]? with
      | none => simp [ho] at h
      | some o =>
        simp only [ho] at h
        cases hr : m n (visit m pid n) a o s with
        | error e => simp [hr] at h
        | ok r =>
          obtain ⟨b', s1⟩ := r
          simp only [hr, Except.ok.injEq, Prod.mk.injEq] at h
          obtain ⟨rfl, rfl⟩ := h
          obtain ⟨h1, h2, h3⟩ := hm n _ ih a o s b' s1 hi hd.1 ho hr
          refine ⟨⟨h1.len, h1.frame, h1.dom, ?_, h1.fwd⟩, h2, h3⟩
          intro e he
          simp only [List.mem_cons] at he
          rcases he with rfl | he
          · exact ⟨hd.1, Nat.lt_of_lt_of_le hd.2 h2.len, h3⟩
          · exact h1.memo e he

theorem mapSt_fits {α β : Type} {Pre : Heap P → α → Prop} {R : Heap P → α → β → Prop}
    (hPre : ∀ g g' x, F.Ext g g' → Pre g x → Pre g' x)
    (hR : ∀ g g' x y, F.Ext g g' → F.Shut g → Pre g x → R g x y → R g' x y)
    {f : α → St P → Except Err (β × St P)} (hf : F.StepFits Pre R f) :
    ∀ (xs : List α) s ys s', F.Inv s → (∀ x ∈ xs, Pre s.heap x) → mapSt f xs s = .ok (ys, s') →
      F.Inv s' ∧ F.Ext s.heap s'.heap ∧ Pointwise (R s'.heap) xs ys := by
  intro xs
  induction xs with
  | nil => intro s ys s' hi _ h; cases h; exact ⟨hi, Ext.refl _, .nil⟩
  | cons x xs ih =>
    intro s ys s' hi hx h
    simp only [mapSt] at h
    split at h
    · cases h
    · rename_i h1
      split at h
      · cases h
      · rename_i h2
        cases h
        obtain ⟨i1, e1, r1⟩ := hf _ _ _ _ hi (hx x List.mem_cons_self) h1
        obtain ⟨i2, e2, r2⟩ := ih _ _ _ i1
          (fun z hz => hPre _ _ _ e1 (hx z (List.mem_cons_of_mem _ hz))) h2
        exact ⟨i2, e1.trans e2,
          .cons (hR _ _ _ _ e2 i1.shut (hPre _ _ _ e1 (hx x List.mem_cons_self)) r1) r2⟩

theorem item_ext (g g' : Heap P) (a : Nat) (he : F.Ext g g') (h : F.Item g a) : F.Item g' a :=
  ⟨h.1, Nat.lt_of_lt_of_le h.2 he.len⟩

theorem result_ext (g g' : Heap P) (a b : Nat) (he : F.Ext g g') (hs : F.Shut g) (h : F.Item g a)
    (hr : F.Result g a b) : F.Result g' a b := he.result hs h.1 h.2 hr

/-- The children of an item that is not an old forward rule are below it. -/
theorem below {g : Heap P} {a : Nat} {o : Obj P} (hn : ¬ F.Old a) (ho : g[a]? = some o) {c : Nat}
    (hc : c ∈ o.children) : ∀ x, F.Old x → F.Via g c x → F.Via g a x :=
  fun _ _ h => .step hn ho hc h

theorem isProdAt_some {g : Heap P} {a : Nat} {o : Obj P} (h : g[a]? = some o) :
    isProdAt g a = o.tag.isProd := by unfold isProdAt; rw [h]

theorem Inv.old_forward {s : St P} (h : F.Inv s) {a : Nat} (ho : F.Old a) :
    ∃ c, s.heap[a]? = some (.forward c) := by
  obtain ⟨c, hc⟩ := ho
  rcases h.frame a _ hc with h1 | ⟨_, _, r, h1⟩
  · exact ⟨c, h1⟩
  · exact ⟨some r, h1⟩

/-- What an item that is not a forward rule is replaced by: a new object with results for children. -/
theorem result_new {s : St P} {a : Nat} {o o' : Obj P} (hi : F.Inv s) (hd : F.Dom a)
    (ho : s.heap[a]? = some o) (hn : ∀ c, o ≠ .forward c) (hn' : ∀ c, o' ≠ .forward c)
    (htag : F.outT o'.tag = true) (htag' : F.inT o'.tag = true)
    (hsort : o'.tag.isProd = o.tag.isProd) (hX : ∀ p ∈ o'.preds, F.X p)
    (hk : ∀ c ∈ o'.children, c < s.heap.length ∧ F.Dom c ∧ isProdAt s.heap c = o'.tag.hasProds ∧
      F.Ok s.heap a c)
    (hkeep : F.births = true → F.outT o.tag = true → ∀ c ∈ o.children, ∃ c' ∈ o'.children,
      F.Keep s.heap c c') :
    F.Inv (s.alloc o').2 ∧ F.Ext s.heap (s.alloc o').2.heap ∧
      F.Result (s.alloc o').2.heap a (s.alloc o').1 := by
  have hfit : F.Fit s.heap o' :=
    ⟨htag', hX, fun c hc => ⟨(hk c hc).2.1, (hk c hc).1, (hk c hc).2.2.1⟩⟩
  have he : F.Ext s.heap (s.heap ++ [o']) := Ext.append _ _
  have hi' : F.Inv (s.alloc o').2 := hi.alloc hfit hn'
  refine ⟨hi', he, ?_⟩
  have hnew : (s.heap ++ [o'])[s.heap.length]? = some o' := getElem?_new o'
  have kept : F.Keep (s.heap ++ [o']) a s.heap.length := by
    intro hb hp y c hy hv
    have ho' := getElem?_append_some (e := [o']) ho
    cases hv with
    | refl =>
      rw [ho'] at hy
      simp only [Option.some.injEq] at hy
      exact absurd hy (hn c)
    | step h1 h2 h3 h4 =>
      rw [ho'] at h1; cases h1
      obtain ⟨c', hc', hkc⟩ := hkeep hb (hp a _ (.refl a) ho') _ h3
      have hck := hi.shut a o hd ho _ h3
      refine .step hnew (fun e => ?_) hc' (he.keep hi.shut hck.1 hck.2 hkc hb ?_ y c hy h4)
      · cases o' <;> first | exact absurd rfl (hn' _) | cases e
      · intro x ox hx hox
        exact hp x ox (.step ho' h2 h3 hx) hox
  refine ⟨by simp [St.alloc], .inl hi.len, ?_, ?_, kept⟩
  · show isProdAt (s.heap ++ [o']) s.heap.length = isProdAt (s.heap ++ [o']) a
    rw [isProdAt_some hnew, isProdAt_some (getElem?_append_some ho), hsort]
  · show F.Ok (s.heap ++ [o']) a s.heap.length
    refine ok_set (fun b => b = s.heap.length) ?_ _ rfl
    rintro b rfl
    refine ⟨o', hnew, htag, hX, hi.len, fun c hc => .inr ?_⟩
    obtain ⟨k1, k2, _, k4⟩ := hk c hc
    exact he.ok hi.shut k2 k1 k4

theorem Inv.not_old {s : St P} (h : F.Inv s) {a : Nat} {o : Obj P} (ho : s.heap[a]? = some o)
    (hn : ∀ c, o ≠ .forward c) : ¬ F.Old a := by
  intro hold
  obtain ⟨c, hc⟩ := h.old_forward hold
  rw [ho] at hc; cases hc
  exact hn c rfl

theorem Ext.get {g g' : Heap P} (he : F.Ext g g') {a : Nat} {o : Obj P} (ho : g[a]? = some o)
    (hb : o.tag ≠ .bnf) : g'[a]? = some o := by
  obtain ⟨o', h1, h2⟩ := he.like ho
  cases h2 with
  | refl => exact h1
  | bnf => exact absurd rfl hb

/-- The item itself, handed on. -/
theorem result_self {s : St P} {a : Nat} {o : Obj P} (hi : F.Inv s) (hd : F.Dom a)
    (ho : s.heap[a]? = some o) (hl : o.tag.leaf = true) (htag : F.outT o.tag = true) :
    F.Result s.heap a a := by
  have hno : ¬ F.Old a := hi.not_old ho (by rintro c rfl; cases hl)
  refine ⟨(List.getElem?_eq_some_iff.1 ho).1, hd, rfl, ?_, fun _ _ _ _ _ h => h⟩
  have hch : o.children = [] := by cases o <;> first | rfl | cases hl
  intro x hx
  cases hx with
  | refl => exact .inr ⟨hno, o, ho, htag, (hi.dom a o hd ho).preds, .inr hl⟩
  | step _ h2 h3 _ =>
    rw [ho] at h2; cases h2
    rw [hch] at h3; cases h3

theorem result_forward {s : St P} {a : Nat} {c : Option Nat} (hi : F.Inv s) (hd : F.Dom a)
    (ho : s.heap[a]? = some (.forward c)) : F.Result s.heap a a := by
  refine ⟨(List.getElem?_eq_some_iff.1 ho).1, hd, rfl, ?_, fun _ _ _ _ _ h => h⟩
  intro x hx
  by_cases hx' : F.Old x
  · exact .inl ⟨hx', hx⟩
  · refine .inr ⟨hx', ?_⟩
    by_cases hold : F.Old a
    · cases hx with
      | refl => exact absurd hold hx'
      | step h1 _ _ _ => exact absurd hold h1
    · have hlt : F.heap.length ≤ a := by
        refine Nat.le_of_not_lt (fun hlt => hold ?_)
        rcases hi.frame a _ (List.getElem?_eq_getElem hlt) with h1 | ⟨h1, _⟩
        · rw [ho] at h1
          simp only [Option.some.injEq] at h1
          exact ⟨c, by rw [List.getElem?_eq_getElem hlt, ← h1]⟩
        · exact h1
      rcases (hi.fwd a c hlt ho).2.1 x hx with h1 | h1
      · exact absurd h1 hx'
      · exact h1

/-! ### Methods that copy -/

theorem pointwise_mem_right {α β : Type} {R : α → β → Prop} {xs ys} (hp : Pointwise R xs ys) {y}
    (hy : y ∈ ys) : ∃ x ∈ xs, R x y := by
  induction hp with
  | nil => cases hy
  | cons h1 _ ih =>
    rw [List.mem_cons] at hy
    rcases hy with rfl | hy
    · exact ⟨_, List.mem_cons_self, h1⟩
    · obtain ⟨x, hx, hr⟩ := ih hy
      exact ⟨x, List.mem_cons_of_mem _ hx, hr⟩

theorem pointwise_mem_left {α β : Type} {R : α → β → Prop} {xs ys} (hp : Pointwise R xs ys) {x}
    (hx : x ∈ xs) : ∃ y ∈ ys, R x y := by
  induction hp with
  | nil => cases hx
  | cons h1 _ ih =>
    rw [List.mem_cons] at hx
    rcases hx with rfl | hx
    · exact ⟨_, List.mem_cons_self, h1⟩
    · obtain ⟨x, hx, hr⟩ := ih hx
      exact ⟨x, List.mem_cons_of_mem _ hx, hr⟩

theorem Inv.items {s : St P} (hi : F.Inv s) {a : Nat} {o : Obj P} (hd : F.Dom a)
    (ho : s.heap[a]? = some o) : ∀ c ∈ o.children, F.Item s.heap c :=
  fun c hc => ⟨((hi.dom a o hd ho).kids c hc).1, ((hi.dom a o hd ho).kids c hc).2.1⟩

/-- Visiting the children one by one and making a new object. -/
theorem rebuildAll_fits {rec : Visit P} (hr : F.VisitFits rec) {a : Nat} {o : Obj P} {s s' : St P}
    {b : Nat} {xs : List Nat} {mk : List Nat → Obj P} (hi : F.Inv s) (hd : F.Dom a)
    (ho : s.heap[a]? = some o) (hb : o.tag ≠ .forward) (hxs : xs = o.children)
    (htag : ∀ ys, F.outT (mk ys).tag = true) (htag' : ∀ ys, F.inT (mk ys).tag = true)
    (hsort : ∀ ys, (mk ys).tag.isProd = o.tag.isProd)
    (hprods : ∀ ys, (mk ys).tag.hasProds = o.tag.hasProds) (hX : ∀ ys, (mk ys).preds = [])
    (hch : ∀ ys, (mk ys).children = ys) (hnf : ∀ ys, (mk ys).tag ≠ .forward)
    (h : rebuildAll rec xs mk s = .ok (b, s')) :
    F.Inv s' ∧ F.Ext s.heap s'.heap ∧ F.Result s'.heap a b := by
  unfold rebuildAll at h
  cases hm : mapSt rec xs s with
  | error e => rw [hm] at h; cases h
  | ok y =>
    obtain ⟨ys, s1⟩ := y
    rw [hm] at h
    simp only [Except.map, Except.ok.injEq] at h
    obtain ⟨i1, e1, p1⟩ := mapSt_fits item_ext result_ext hr xs s ys s1 hi
      (fun x hx => hi.items hd ho x (hxs ▸ hx)) hm
    obtain ⟨o1, ho1, hl1⟩ := e1.like ho
    have hnf1 : ∀ c, o1 ≠ .forward c := by
      rintro c rfl; exact hb hl1.tag
    obtain ⟨q1, q2, q3⟩ := result_new (o' := mk ys) i1 hd ho1 hnf1
      (fun c e => hnf ys (by rw [e]; rfl)) (htag ys) (htag' ys) (by rw [hsort, hl1.tag])
      (by rw [hX]; intro p hp; cases hp) (by
        intro c hc
        rw [hch] at hc
        obtain ⟨x, hx, hrx⟩ := pointwise_mem_right p1 hc
        have hx' := hxs ▸ hx
        refine ⟨hrx.lt, hrx.dom, ?_, hrx.ok.above ?_⟩
        · rw [hrx.sort, e1.isProdAt (hi.items hd ho x hx').2, hprods]
          exact ((hi.dom a o hd ho).kids x hx').2.2
        · exact below (i1.not_old ho1 hnf1) ho1 (hl1.children ▸ hx')) (by
        intro _ _ c hc
        rw [← hl1.children, ← hxs] at hc
        obtain ⟨y, hy, hry⟩ := pointwise_mem_left p1 hc
        exact ⟨y, (hch ys).symm ▸ hy, hry.keep⟩)
    rw [← show (s1.alloc (mk ys)).1 = b from by rw [h]]
    rw [← show (s1.alloc (mk ys)).2 = s' from by rw [h]]
    exact ⟨q1, e1.trans q2, q3⟩

/-- The same for one child. -/
theorem rebuild_fits {rec : Visit P} (hr : F.VisitFits rec) {a r : Nat} {o : Obj P} {s s' : St P}
    {b : Nat} {mk : Nat → Obj P} (hi : F.Inv s) (hd : F.Dom a)
    (ho : s.heap[a]? = some o) (hb : o.tag ≠ .forward) (hxs : o.children = [r])
    (htag : ∀ y, F.outT (mk y).tag = true) (htag' : ∀ y, F.inT (mk y).tag = true)
    (hsort : ∀ y, (mk y).tag.isProd = o.tag.isProd)
    (hprods : ∀ y, (mk y).tag.hasProds = o.tag.hasProds) (hX : ∀ y, (mk y).preds = [])
    (hch : ∀ y, (mk y).children = [y]) (hnf : ∀ y, (mk y).tag ≠ .forward)
    (h : rebuild rec r mk s = .ok (b, s')) :
    F.Inv s' ∧ F.Ext s.heap s'.heap ∧ F.Result s'.heap a b := by
  unfold rebuild at h
  cases hm : rec r s with
  | error e => rw [hm] at h; cases h
  | ok y =>
    obtain ⟨y, s1⟩ := y
    rw [hm] at h
    simp only [Except.map, Except.ok.injEq] at h
    have hx : r ∈ o.children := hxs ▸ List.mem_singleton_self r
    obtain ⟨i1, e1, hrx⟩ := hr r s y s1 hi (hi.items hd ho r hx) hm
    obtain ⟨o1, ho1, hl1⟩ := e1.like ho
    have hnf1 : ∀ c, o1 ≠ .forward c := by
      rintro c rfl; exact hb hl1.tag
    obtain ⟨q1, q2, q3⟩ := result_new (o' := mk y) i1 hd ho1 hnf1
      (fun c e => hnf y (by rw [e]; rfl)) (htag y) (htag' y) (by rw [hsort, hl1.tag])
      (by rw [hX]; intro p hp; cases hp) (by
        intro c hc
        rw [hch, List.mem_singleton] at hc
        subst hc
        refine ⟨hrx.lt, hrx.dom, ?_, hrx.ok.above ?_⟩
        · rw [hrx.sort, e1.isProdAt (hi.items hd ho r hx).2, hprods]
          exact ((hi.dom a o hd ho).kids r hx).2.2
        · exact below (i1.not_old ho1 hnf1) ho1 (hl1.children ▸ hx)) (by
        intro _ _ c hc
        rw [← hl1.children, hxs, List.mem_singleton] at hc
        subst hc
        exact ⟨y, (hch y).symm ▸ List.mem_singleton_self y, hrx.keep⟩)
    rw [← show (s1.alloc (mk y)).1 = b from by rw [h]]
    rw [← show (s1.alloc (mk y)).2 = s' from by rw [h]]
    exact ⟨q1, e1.trans q2, q3⟩

/-! ### Terms -/

variable (F) in
def TermPre (g : Heap P) : Term P → Prop
  | .pred p => F.X p
  | .rule r => F.Item g r ∧ isProdAt g r = false

variable (F) in
/-- A term is replaced by a predicate, or by a result. -/
inductive TermResult (g : Heap P) : Term P → Term P → Prop
  | pred (t) {p} : (F.births = true → ∃ q, t = .pred q) → F.X p → TermResult g t (.pred p)
  | rule {r y} : F.Result g r y → TermResult g (.rule r) (.rule y)

theorem termPre_ext (g g' : Heap P) (t : Term P) (he : F.Ext g g') (h : F.TermPre g t) :
    F.TermPre g' t := by
  cases t with
  | pred p => exact h
  | rule r => exact ⟨item_ext _ _ _ he h.1, by rw [he.isProdAt h.1.2]; exact h.2⟩

theorem termResult_ext (g g' : Heap P) (t u : Term P) (he : F.Ext g g') (hs : F.Shut g)
    (h : F.TermPre g t) (hr : F.TermResult g t u) : F.TermResult g' t u := by
  cases hr with
  | pred _ hb hp => exact .pred _ hb hp
  | rule hr => exact .rule (he.result hs h.1.1 h.1.2 hr)

theorem visitTerm_fits {rec : Visit P} (hr : F.VisitFits rec) :
    F.StepFits F.TermPre F.TermResult (visitTerm rec) := by
  intro t s y s' hi ht h
  cases t with
  | pred p => cases h; exact ⟨hi, Ext.refl _, .pred _ (fun _ => ⟨p, rfl⟩) ht⟩
  | rule r =>
    simp only [visitTerm] at h
    cases hm : rec r s with
    | error e => rw [hm] at h; cases h
    | ok y =>
      rw [hm] at h
      cases h
      obtain ⟨h1, h2, h3⟩ := hr r s _ _ hi ht.1 hm
      exact ⟨h1, h2, .rule h3⟩

theorem preds_prod {ts : List (Term P)} {m : Nat} {p : P} :
    p ∈ (Obj.prod ts m).preds ↔ .pred p ∈ ts := by
  unfold Obj.preds
  rw [List.mem_filterMap]
  constructor
  · rintro ⟨t, h1, h2⟩
    cases t with
    | pred q => simp only [Option.some.injEq] at h2; subst h2; exact h1
    | rule r => cases h2
  · intro h; exact ⟨_, h, rfl⟩

theorem Inv.terms {s : St P} (hi : F.Inv s) {a m : Nat} {ts : List (Term P)} (hd : F.Dom a)
    (ho : s.heap[a]? = some (.prod ts m)) : ∀ t ∈ ts, F.TermPre s.heap t := by
  intro t ht
  have hf := hi.dom a _ hd ho
  cases t with
  | pred p => exact hf.preds p (preds_prod.2 ht)
  | rule r =>
    obtain ⟨h1, h2, h3⟩ := hf.kids r (termRules_mem.2 ht)
    exact ⟨⟨h1, h2⟩, h3⟩

/-- A production is copied, its terms replaced. -/
theorem prod_fits {f : Term P → St P → Except Err (Term P × St P)}
    (hf : F.StepFits F.TermPre F.TermResult f) {a m : Nat} {ts : List (Term P)} {s s' : St P} {b : Nat}
    (hi : F.Inv s) (hd : F.Dom a) (ho : s.heap[a]? = some (.prod ts m)) (htag : F.outT .prod = true)
    (htag' : F.inT .prod = true) (h : rebuildAll f ts (.prod · m) s = .ok (b, s')) :
    F.Inv s' ∧ F.Ext s.heap s'.heap ∧ F.Result s'.heap a b := by
  unfold rebuildAll at h
  cases hm : mapSt f ts s with
  | error e => rw [hm] at h; cases h
  | ok y =>
    obtain ⟨us, s1⟩ := y
    rw [hm] at h
    simp only [Except.map, Except.ok.injEq] at h
    obtain ⟨i1, e1, p1⟩ := mapSt_fits termPre_ext termResult_ext hf ts s us s1 hi (hi.terms hd ho) hm
    have ho1 := e1.get ho (by simp [Obj.tag])
    obtain ⟨q1, q2, q3⟩ := result_new (o' := .prod us m) i1 hd ho1 (by intro c e; cases e)
      (by intro c e; cases e) htag htag' rfl (by
        intro p hp
        obtain ⟨x, hx, hrx⟩ := pointwise_mem_right p1 (preds_prod.1 hp)
        cases hrx with
        | pred _ _ h => exact h) (by
        intro c hc
        obtain ⟨x, hx, hrx⟩ := pointwise_mem_right p1 (termRules_mem.1 hc)
        cases hrx with
        | @rule r _ hrx =>
          have hpre := hi.terms hd ho _ hx
          refine ⟨hrx.lt, hrx.dom, ?_, hrx.ok.above ?_⟩
          · rw [hrx.sort, e1.isProdAt hpre.1.2]; exact hpre.2
          · exact below (i1.not_old ho1 (by intro c e; cases e)) ho1 (termRules_mem.2 hx)) (by
        intro hb _ c hc
        obtain ⟨y, hy, hry⟩ := pointwise_mem_left p1 (termRules_mem.1 hc)
        cases hry with
        | pred _ h _ => obtain ⟨q, e⟩ := h hb; cases e
        | rule hry => exact ⟨_, termRules_mem.2 hy, hry.keep⟩)
    rw [← show (s1.alloc (.prod us m)).1 = b from by rw [h]]
    rw [← show (s1.alloc (.prod us m)).2 = s' from by rw [h]]
    exact ⟨q1, e1.trans q2, q3⟩

/-- The methods of `RuleTransformator`, for objects of classes that the pass may leave. -/
theorem default_fits (hsub : ∀ t, F.outT t = true → F.inT t = true) {n : Nat} {rec : Visit P}
    (hr : F.VisitFits rec) {a : Nat} {o : Obj P} {s : St P} {b s'} (hi : F.Inv s) (hd : F.Dom a)
    (ho : s.heap[a]? = some o) (htag : o.tag ≠ .bnf → F.outT o.tag = true)
    (hbnf : o.tag = .bnf → F.outT .rule = true) (h : defaultMethod n rec a o s = .ok (b, s')) :
    F.Inv s' ∧ F.Ext s.heap s'.heap ∧ F.Result s'.heap a b := by
  cases o <;> simp only [defaultMethod] at h <;>
    simp only [Obj.tag, ne_eq, reduceCtorEq, not_false_eq_true, forall_const] at htag hbnf
  case prod ts m => exact prod_fits (visitTerm_fits hr) hi hd ho htag (hsub _ htag) h
  case emptyProd => cases h; exact ⟨hi, Ext.refl _, result_self hi hd ho rfl htag⟩
  case pipeProd => cases h; exact ⟨hi, Ext.refl _, result_self hi hd ho rfl htag⟩
  case empty => cases h; exact ⟨hi, Ext.refl _, result_self hi hd ho rfl htag⟩
  case pipe => cases h; exact ⟨hi, Ext.refl _, result_self hi hd ho rfl htag⟩
  case forward => cases h; exact ⟨hi, Ext.refl _, result_forward hi hd ho⟩
  case optional => cases h
  case repeatable => cases h
  case repOptional => cases h
  case rule =>
    refine rebuildAll_fits hr hi hd ho (by simp [Obj.tag]) rfl ?_ ?_ ?_ ?_ ?_ ?_ ?_ h <;>
      intro <;> first | exact htag | exact hsub _ htag | rfl | simp [Obj.tag]
  case or =>
    refine rebuildAll_fits hr hi hd ho (by simp [Obj.tag]) rfl ?_ ?_ ?_ ?_ ?_ ?_ ?_ h <;>
      intro <;> first | exact htag | exact hsub _ htag | rfl | simp [Obj.tag]
  case bnf =>
    refine rebuildAll_fits hr hi hd ho (by simp [Obj.tag]) rfl ?_ ?_ ?_ ?_ ?_ ?_ ?_ h <;>
      intro <;> first | exact hbnf | exact hsub _ hbnf | rfl | simp [Obj.tag]
  all_goals
    refine rebuild_fits hr hi hd ho (by simp [Obj.tag]) ?_ ?_ ?_ ?_ ?_ ?_ ?_ ?_ h <;>
      first
      | rfl
      | (intro; first | exact htag | exact hsub _ htag | rfl | simp [Obj.tag])

end Pass
end Yargy
