import Verif.Proofs.FrameCompile
/-!
What `BNFTransformator` does with the names, interpretators and relations: they are set on compiled rules
in place. A compiled rule belongs to a chain of wrappers around one rule; only the last wrapper of the
chain is used elsewhere.
-/
namespace Yargy

variable {P : Type}

/-- A wrapper, what it wraps and what it puts on it. -/
inductive Puts : Obj P → Nat → Attr → Prop
  | named {r n} : Puts (.named r n) r (.name n)
  | interp {r i} : Puts (.interp r i) r (.interp i)
  | relation {r x} : Puts (.relation r x) r (.relation x)

theorem Puts.tag {o : Obj P} {r x} (h : Puts o r x) : o.tag = .wrap := by cases h <;> rfl

theorem Puts.children {o : Obj P} {r x} (h : Puts o r x) : o.children = [r] := by cases h <;> rfl

theorem puts_of_wrap {o : Obj P} (h : o.tag = .wrap) : ∃ r x, Puts o r x := by
  cases o <;> first | (cases h; done) | exact ⟨_, _, .named⟩ | exact ⟨_, _, .interp⟩ | exact ⟨_, _, .relation⟩

/-- What a compiled rule says after an attribute it does not have was set. -/
theorem label_set {o : Obj P} {r : Nat} {x : Attr} (hp : Puts o r x) {h : Heap P} {b : Nat}
    {ps n i t kind} (hb : h[b]? = some (.bnf ps n i t kind)) (hh : hasAttr h b x = .ok false) :
    ∃ n' i' t', setAttrAt h b x = h.set b (.bnf ps n' i' t' kind) ∧ ∀ k,
      (Obj.bnf ps n' i' t' kind : Obj P).label k =
        ((o.label k).or ((Obj.bnf ps n i t kind : Obj P).label k)) ∧
      (o.label k = none ∨ (Obj.bnf ps n i t kind : Obj P).label k = none) := by
  cases hp with
  | @named _ m =>
    refine ⟨some m, i, t, by simp [setAttrAt, hb], fun k => ?_⟩
    have hn : n.bind realName = none := by
      simp only [hasAttr, hb, Except.ok.injEq] at hh
      cases n with
      | none => rfl
      | some n =>
        cases n with
        | nil => simp [realName]
        | cons _ _ => cases hh
    cases k <;> simp [Obj.label, hn]
  | @interp _ j =>
    refine ⟨n, some j, t, by simp [setAttrAt, hb], fun k => ?_⟩
    simp only [hasAttr, hb, Except.ok.injEq] at hh
    cases i with
    | none => cases k <;> simp [Obj.label]
    | some _ => cases hh
  | @relation _ j =>
    refine ⟨n, i, some j, by simp [setAttrAt, hb], fun k => ?_⟩
    simp only [hasAttr, hb, Except.ok.injEq] at hh
    cases t with
    | none => cases k <;> simp [Obj.label]
    | some _ => cases hh

/-! ### The setting -/

/-- A heap, the rule to compile and the counts of parents. -/
structure Job (P : Type) where
  heap : Heap P
  root : Nat
  pid : Nat → Nat
  pc : Nat → Nat

namespace Job
variable (J : Job P)

/-- What is assumed: rules in normal form, and the counts notice two different parents. -/
structure Ok : Prop where
  pid : ∀ a b, J.pid a = J.pid b → a = b
  typed : Typed flatTags (fun _ => True) J.heap J.root
  parents : ∀ (a a' : Nat) o o' c, Reach J.heap J.root a → Reach J.heap J.root a' →
    J.heap[a]? = some o → J.heap[a']? = some o' → c ∈ o.children → c ∈ o'.children → a ≠ a' → 2 ≤ J.pc c

/-- A child of something that is not a forward rule. -/
def Kid (c a : Nat) : Prop := ∃ o, J.heap[a]? = some o ∧ o.tag ≠ .forward ∧ c ∈ o.children

/-- Properly below, without looking into forward rules. -/
inductive Under : Nat → Nat → Prop
  | kid {c a} : J.Kid c a → Under c a
  | step {d c a} : J.Kid c a → Under d c → Under d a

variable {J}

theorem Under.trans {d c a : Nat} (h1 : J.Under d c) (h2 : J.Under c a) : J.Under d a := by
  induction h2 with
  | kid h => exact .step h h1
  | step h _ ih => exact .step h ih

theorem not_under {a : Nat} (h : Acc J.Kid a) : ¬ J.Under a a := by
  induction h with
  | intro a _ ih =>
    intro hu
    cases hu with
    | kid h => exact ih a h (.kid h)
    | step h h' => exact ih _ h (Under.trans (.kid h) h')

variable (J)

def Look (s : St P) (a b : Nat) : Prop := s.lookup J.pid a = some b

/-- The image of a rule inside a new production. -/
def Goes (s : St P) (r y : Nat) : Prop :=
  J.Look s r y ∨ (y = r ∧ ∃ c, J.heap[r]? = some (.forward c))

inductive TermLook (s : St P) : Term P → Term P → Prop
  | pred (p) : TermLook s (.pred p) (.pred p)
  | rule {r y} : J.Look s r y → TermLook s (.rule r) (.rule y)

/-- What a chain of wrappers that share a compiled rule puts on it. -/
inductive Chain (s : St P) (k : Kind) : Nat → Nat → Option Attr → Prop
  | base {a b o} : J.Look s a b → J.heap[a]? = some o → o.tag ≠ .wrap → Chain s k a b none
  | lifted {a b o r x y} : J.Look s a b → J.heap[a]? = some o → Puts o r x → J.Goes s r y → y ≠ b →
      Chain s k a b (o.label k)
  | same {a b o r x l} : J.Look s a b → J.heap[a]? = some o → Puts o r x → Chain s k r b l →
      (o.label k = none ∨ l = none) → Chain s k a b ((o.label k).or l)

/-- How the image of an object looks. -/
inductive Stands (s : St P) : Obj P → Nat → Nat → Prop
  | prod {ts m us a b} : s.heap[b]? = some (.prod us m) → Pointwise (J.TermLook s) ts us →
      J.heap.length ≤ b → Stands s (.prod ts m) a b
  | emptyProd {a} : Stands s .emptyProd a a
  | pipeProd {v ts a} : Stands s (.pipeProd v ts) a a
  | forward {c a} : Stands s (.forward c) a a
  | rule {ps qs n i r a b} : s.heap[b]? = some (.bnf qs n i r none) → Pointwise (J.Look s) ps qs →
      J.heap.length ≤ b → Stands s (.rule ps) a b
  | lifted {o r x y p n i t a b} : Puts o r x → s.heap[b]? = some (.bnf [p] n i t none) →
      s.heap[p]? = some (.prod [.rule y] 0) → J.Goes s r y → y ≠ b → J.heap.length ≤ b → Stands s o a b
  | same {o r x a b} : Puts o r x → J.Look s r b → J.pc r = 1 → J.heap.length ≤ b →
      (∀ k, ∃ l, J.Chain s k r b l ∧ (o.label k = none ∨ l = none)) → Stands s o a b
  | pipe {kind keys l n i t a b} :
      s.heap[b]? = some (.bnf (List.range' l keys.length) n i t (some kind)) →
      (∀ i, ∀ h : i < keys.length, s.heap[l + i]? = some (.pipeProd keys[i].1 keys[i].2)) →
      J.heap.length ≤ b → Stands s (.pipe (.keys kind keys)) a b

/-- The last of its chain. -/
def Top (s : St P) (a : Nat) : Prop :=
  ∀ (w : Nat) o b, J.heap[w]? = some o → o.tag = .wrap → a ∈ o.children → J.Look s w b → ¬ J.Look s a b

structure Track (s : St P) : Prop where
  len : J.heap.length ≤ s.heap.length
  frame : ∀ (a : Nat) o, J.heap[a]? = some o → s.heap[a]? = some o ∨
    ∃ r y, o = .forward (some r) ∧ s.heap[a]? = some (.forward (some y)) ∧ J.Look s r y ∧
      Reach J.heap J.root a
  memo : ∀ a b, J.Look s a b → Reach J.heap J.root a ∧ b < s.heap.length ∧ Acc J.Kid a ∧
    ∃ o, J.heap[a]? = some o ∧ J.Stands s o a b
  lab : ∀ (a b : Nat) o, J.Look s a b → J.heap[a]? = some o → o.tag.isProd = false → o.tag ≠ .forward →
    J.Top s a → ∀ k, ∃ o', s.heap[b]? = some o' ∧ J.Chain s k a b (o'.label k)
  one : ∀ a a' b, J.heap.length ≤ b → J.Look s a b → J.Look s a' b → J.Top s a → J.Top s a' → a = a'

structure Grow (s s' : St P) : Prop where
  len : s.heap.length ≤ s'.heap.length
  at_ : ∀ (a : Nat) o, s.heap[a]? = some o → s'.heap[a]? = some o ∨
    (J.heap.length ≤ a ∧ ∃ o', s'.heap[a]? = some o' ∧ Like .plain o o')
  look : ∀ a b, J.Look s a b → J.Look s' a b

variable {J}

theorem Grow.refl (s : St P) : J.Grow s s := ⟨Nat.le_refl _, fun _ _ h => .inl h, fun _ _ h => h⟩

theorem Grow.trans {s s' s'' : St P} (h1 : J.Grow s s') (h2 : J.Grow s' s'') : J.Grow s s'' := by
  refine ⟨Nat.le_trans h1.len h2.len, fun a o ha => ?_, fun a b h => h2.look a b (h1.look a b h)⟩
  rcases h1.at_ a o ha with h | ⟨hl, o', h, hk⟩
  · exact h2.at_ a o h
  · rcases h2.at_ a o' h with h' | ⟨_, o'', h', hk'⟩
    · exact .inr ⟨hl, o', h', hk⟩
    · exact .inr ⟨hl, o'', h', Pass.Like.trans' hk hk'⟩

theorem Grow.bnf {s s' : St P} (h : J.Grow s s') {b : Nat} {ps n i t kind}
    (hb : s.heap[b]? = some (.bnf ps n i t kind)) :
    ∃ n' i' t', s'.heap[b]? = some (.bnf ps n' i' t' kind) := by
  rcases h.at_ _ _ hb with h | ⟨_, o', h, hl⟩
  · exact ⟨_, _, _, h⟩
  · cases hl <;> exact ⟨_, _, _, h⟩

theorem Grow.get {s s' : St P} (h : J.Grow s s') {b : Nat} {o : Obj P} (hb : s.heap[b]? = some o)
    (ho : o.tag ≠ .bnf) : s'.heap[b]? = some o := by
  rcases h.at_ _ _ hb with h | ⟨_, o', h, hl⟩
  · exact h
  · cases hl with
    | refl => exact h
    | bnf => exact absurd rfl ho

theorem Goes.mono {s s' : St P} (hg : ∀ a b, J.Look s a b → J.Look s' a b) {r y : Nat}
    (h : J.Goes s r y) : J.Goes s' r y := by
  rcases h with h | h
  · exact .inl (hg _ _ h)
  · exact .inr h

theorem TermLook.mono {s s' : St P} (hg : ∀ a b, J.Look s a b → J.Look s' a b) {t u : Term P}
    (h : J.TermLook s t u) : J.TermLook s' t u := by
  cases h with
  | pred p => exact .pred p
  | rule h => exact .rule (hg _ _ h)

theorem Chain.mono {s s' : St P} (hg : ∀ a b, J.Look s a b → J.Look s' a b) {k : Kind} {a b : Nat}
    {l : Option Attr} (h : J.Chain s k a b l) : J.Chain s' k a b l := by
  induction h with
  | base h1 h2 h3 => exact .base (hg _ _ h1) h2 h3
  | lifted h1 h2 h3 h4 h5 => exact .lifted (hg _ _ h1) h2 h3 (h4.mono hg) h5
  | same h1 h2 h3 _ h5 ih => exact .same (hg _ _ h1) h2 h3 ih h5

theorem Stands.mono {s s' : St P} (hg : J.Grow s s') {o : Obj P} {a b : Nat} (h : J.Stands s o a b) :
    J.Stands s' o a b := by
  cases h with
  | prod h1 h2 h3 =>
    exact .prod (hg.get h1 (by simp [Obj.tag])) (pointwise_mono (fun _ _ h => h.mono hg.look) h2) h3
  | emptyProd => exact .emptyProd
  | pipeProd => exact .pipeProd
  | forward => exact .forward
  | rule h1 h2 h3 =>
    obtain ⟨_, _, _, h⟩ := hg.bnf h1
    exact .rule h (pointwise_mono (fun _ _ h => hg.look _ _ h) h2) h3
  | lifted h1 h2 h3 h4 h5 h6 =>
    obtain ⟨_, _, _, h⟩ := hg.bnf h2
    exact .lifted h1 h (hg.get h3 (by simp [Obj.tag])) (h4.mono hg.look) h5 h6
  | same h1 h2 h3 h4 h5 =>
    refine .same h1 (hg.look _ _ h2) h3 h4 (fun k => ?_)
    obtain ⟨l, q1, q2⟩ := h5 k
    exact ⟨l, q1.mono hg.look, q2⟩
  | pipe h1 h2 h3 =>
    obtain ⟨_, _, _, h⟩ := hg.bnf h1
    exact .pipe h (fun i hi => hg.get (h2 i hi) (by simp [Obj.tag])) h3

theorem Top.anti {s s' : St P} (hg : ∀ a b, J.Look s a b → J.Look s' a b) {a : Nat}
    (h : J.Top s' a) : J.Top s a :=
  fun w o b h1 h2 h3 h4 h5 => h w o b h1 h2 h3 (hg _ _ h4) (hg _ _ h5)

theorem look_unique {s : St P} {a b b' : Nat} (h : J.Look s a b) (h' : J.Look s a b') : b = b' := by
  unfold Look at h h'
  rw [h] at h'; cases h'; rfl

theorem look_cons (hp : ∀ a b, J.pid a = J.pid b → a = b) {g : Heap P} {m : List (Nat × Nat)}
    {a b x y : Nat} : J.Look ⟨g, (a, b) :: m⟩ x y ↔ (x = a ∧ y = b) ∨ (x ≠ a ∧ J.Look ⟨g, m⟩ x y) := by
  unfold Look St.lookup
  simp only [List.find?_cons]
  by_cases e : J.pid a = J.pid x
  · have := hp _ _ e
    subst this
    simp [eq_comm]
  · have hne : x ≠ a := fun h => e (by rw [h])
    simp [e, hne]

theorem look_heap {g g' : Heap P} {m : List (Nat × Nat)} {x y : Nat} :
    J.Look ⟨g, m⟩ x y ↔ J.Look ⟨g', m⟩ x y := Iff.rfl

/-- A new entry for a new object. -/
theorem Track.fresh (hJ : J.Ok) {s : St P} (ht : J.Track s) {a b : Nat} {o : Obj P} {e : Heap P}
    (hn : ∀ c, ¬ J.Look s a c) (hr : Reach J.heap J.root a) (hacc : Acc J.Kid a)
    (ho : J.heap[a]? = some o) (hb : s.heap.length ≤ b) (hb' : b < (s.heap ++ e).length)
    (hst : J.Stands ⟨s.heap ++ e, (a, b) :: s.memo⟩ o a b)
    (hlab : o.tag.isProd = false → o.tag ≠ .forward → ∀ k, ∃ o', (s.heap ++ e)[b]? = some o' ∧
      J.Chain ⟨s.heap ++ e, (a, b) :: s.memo⟩ k a b (o'.label k)) :
    J.Track ⟨s.heap ++ e, (a, b) :: s.memo⟩ ∧ J.Grow s ⟨s.heap ++ e, (a, b) :: s.memo⟩ := by
  have hcons := fun x y => look_cons (J := J) hJ.pid (g := s.heap ++ e) (m := s.memo) (a := a) (b := b)
    (x := x) (y := y)
  have hlook : ∀ x y, J.Look s x y → J.Look ⟨s.heap ++ e, (a, b) :: s.memo⟩ x y := fun x y h =>
    (hcons x y).2 (.inr ⟨fun e => hn y (e ▸ h), h⟩)
  have hg : J.Grow s ⟨s.heap ++ e, (a, b) :: s.memo⟩ :=
    ⟨by simp, fun _ _ h => .inl (getElem?_append_some h), hlook⟩
  refine ⟨⟨?_, ?_, ?_, ?_, ?_⟩, hg⟩
  · exact Nat.le_trans ht.len hg.len
  · intro x ox hx
    rcases ht.frame x ox hx with h | ⟨r, y, h1, h2, h3, h4⟩
    · exact .inl (getElem?_append_some h)
    · exact .inr ⟨r, y, h1, getElem?_append_some h2, hlook _ _ h3, h4⟩
  · intro x y hxy
    rcases (hcons x y).1 hxy with ⟨rfl, rfl⟩ | ⟨_, h⟩
    · exact ⟨hr, hb', hacc, o, ho, hst⟩
    · obtain ⟨h1, h2, h3, ox, h4, h5⟩ := ht.memo x y h
      exact ⟨h1, Nat.lt_of_lt_of_le h2 hg.len, h3, ox, h4, h5.mono hg⟩
  · intro x y ox hxy hox h1 h2 htop k
    rcases (hcons x y).1 hxy with ⟨rfl, rfl⟩ | ⟨_, h⟩
    · rw [ho] at hox; cases hox
      exact hlab h1 h2 k
    · obtain ⟨o', k1, k2⟩ := ht.lab x y ox h hox h1 h2 (htop.anti hlook) k
      exact ⟨o', getElem?_append_some k1, k2.mono hlook⟩
  · intro x x' y hy hx hx' t t'
    rcases (hcons x y).1 hx with ⟨rfl, rfl⟩ | ⟨_, h⟩
    · rcases (hcons x' y).1 hx' with ⟨rfl, _⟩ | ⟨_, h'⟩
      · rfl
      · have := (ht.memo x' y h').2.1; omega
    · rcases (hcons x' y).1 hx' with ⟨rfl, rfl⟩ | ⟨_, h'⟩
      · have := (ht.memo x y h).2.1; omega
      · exact ht.one x x' y hy h h' (t.anti hlook) (t'.anti hlook)

/-- A new entry for something that stays. -/
theorem Track.leaf (hJ : J.Ok) {s : St P} (ht : J.Track s) {a : Nat} {o : Obj P}
    (hn : ∀ c, ¬ J.Look s a c) (hr : Reach J.heap J.root a) (hacc : Acc J.Kid a)
    (ho : J.heap[a]? = some o) (hst : ∀ s, J.Stands s o a a)
    (htag : o.tag.isProd = true ∨ o.tag = .forward) :
    J.Track ⟨s.heap, (a, a) :: s.memo⟩ ∧ J.Grow s ⟨s.heap, (a, a) :: s.memo⟩ := by
  have hcons := fun x y => look_cons (J := J) hJ.pid (g := s.heap) (m := s.memo) (a := a) (b := a)
    (x := x) (y := y)
  have hlt := (List.getElem?_eq_some_iff.1 ho).1
  have hlook : ∀ x y, J.Look s x y → J.Look ⟨s.heap, (a, a) :: s.memo⟩ x y := fun x y h =>
    (hcons x y).2 (.inr ⟨fun e => hn y (e ▸ h), h⟩)
  have hg : J.Grow s ⟨s.heap, (a, a) :: s.memo⟩ :=
    ⟨Nat.le_refl _, fun _ _ h => .inl h, hlook⟩
  refine ⟨⟨ht.len, ?_, ?_, ?_, ?_⟩, hg⟩
  · intro x ox hx
    rcases ht.frame x ox hx with h | ⟨r, y, h1, h2, h3, h4⟩
    · exact .inl h
    · exact .inr ⟨r, y, h1, h2, hlook _ _ h3, h4⟩
  · intro x y hxy
    rcases (hcons x y).1 hxy with ⟨rfl, rfl⟩ | ⟨_, h⟩
    · exact ⟨hr, Nat.lt_of_lt_of_le hlt ht.len, hacc, o, ho, hst _⟩
    · obtain ⟨h1, h2, h3, ox, h4, h5⟩ := ht.memo x y h
      exact ⟨h1, h2, h3, ox, h4, h5.mono hg⟩
  · intro x y ox hxy hox h1 h2 htop k
    rcases (hcons x y).1 hxy with ⟨rfl, rfl⟩ | ⟨_, h⟩
    · rw [ho] at hox; cases hox
      rcases htag with h | h
      · rw [h] at h1; cases h1
      · exact absurd h h2
    · obtain ⟨o', k1, k2⟩ := ht.lab x y ox h hox h1 h2 (htop.anti hlook) k
      exact ⟨o', k1, k2.mono hlook⟩
  · intro x x' y hy hx hx' t t'
    rcases (hcons x y).1 hx with ⟨rfl, rfl⟩ | ⟨_, h⟩
    · omega
    · rcases (hcons x' y).1 hx' with ⟨rfl, rfl⟩ | ⟨_, h'⟩
      · omega
      · exact ht.one x x' y hy h h' (t.anti hlook) (t'.anti hlook)

/-- A wrapper that takes over the compiled rule of what it wraps. -/
theorem Track.taken (hJ : J.Ok) {s : St P} (ht : J.Track s) {w r b : Nat} {o : Obj P} {x : Attr}
    (hn : ∀ c, ¬ J.Look s w c) (hr : Reach J.heap J.root w) (hacc : Acc J.Kid w)
    (ho : J.heap[w]? = some o) (hput : Puts o r x) (hlook : J.Look s r b) (hpc : J.pc r = 1)
    (hh : hasAttr s.heap b x = .ok false) :
    J.Track ⟨setAttrAt s.heap b x, (w, b) :: s.memo⟩ ∧
      J.Grow s ⟨setAttrAt s.heap b x, (w, b) :: s.memo⟩ := by
  obtain ⟨ob, hob, htag⟩ := Pass.hasAttr_bnf hh
  obtain ⟨hrr, hblt, _, or_, hor, hstr⟩ := ht.memo r b hlook
  have hsort : isProdAt J.heap r = false := by
    obtain ⟨o', h1, _, _, h4⟩ := hJ.typed w hr
    rw [ho] at h1; cases h1
    rw [h4 r (by rw [hput.children]; simp), hput.tag]; rfl
  have hprod : or_.tag.isProd = false := by
    unfold isProdAt at hsort
    rw [hor] at hsort
    exact hsort
  -- what is wrapped is not a leaf
  have hnf : or_.tag ≠ .forward := by
    intro hf
    cases hstr with
    | forward =>
      rcases ht.frame _ _ hor with h | ⟨_, _, _, h, _⟩
      · rw [hob] at h; cases h; cases htag
      · rw [hob] at h; cases h; cases htag
    | lifted hp => rw [hp.tag] at hf; cases hf
    | same hp => rw [hp.tag] at hf; cases hf
    | _ => cases hf
  have hge : J.heap.length ≤ b := by
    cases hstr with
    | prod _ _ h => exact h
    | emptyProd => cases hprod
    | pipeProd => cases hprod
    | forward => exact absurd rfl hnf
    | rule _ _ h => exact h
    | lifted _ _ _ _ _ h => exact h
    | same _ _ _ h _ => exact h
    | pipe _ _ h => exact h
  have htop : J.Top s r := by
    intro w' o' b' h1 h2 h3 h4 h5
    have hne : w' ≠ w := fun e => hn b' (e ▸ h4)
    have := hJ.parents w' w o' o r (ht.memo w' b' h4).1 hr h1 ho h3 (by rw [hput.children]; simp) hne
    omega
  cases ob with
  | bnf ps n i t kind =>
    obtain ⟨n', i', t', hset, hl⟩ := label_set hput hob hh
    rw [hset]
    have hcons := fun y z => look_cons (J := J) hJ.pid (g := s.heap.set b (.bnf ps n' i' t' kind))
      (m := s.memo) (a := w) (b := b) (x := y) (y := z)
    have hlook' : ∀ y z, J.Look s y z →
        J.Look ⟨s.heap.set b (.bnf ps n' i' t' kind), (w, b) :: s.memo⟩ y z := fun y z h =>
      (hcons y z).2 (.inr ⟨fun e => hn z (e ▸ h), h⟩)
    have hself : (s.heap.set b (.bnf ps n' i' t' kind))[b]? = some (.bnf ps n' i' t' kind) := by
      rw [List.getElem?_set_self hblt]
    have hother : ∀ y : Nat, y ≠ b → (s.heap.set b (.bnf ps n' i' t' kind))[y]? = s.heap[y]? := by
      intro y hy
      rw [List.getElem?_set_ne (Ne.symm hy)]
    have hg : J.Grow s ⟨s.heap.set b (.bnf ps n' i' t' kind), (w, b) :: s.memo⟩ := by
      refine ⟨by simp, fun y oy hy => ?_, hlook'⟩
      by_cases e : y = b
      · subst e
        rw [hob] at hy; cases hy
        exact .inr ⟨hge, _, hself, .bnf (by rw [label_plain, label_plain])⟩
      · left
        show (s.heap.set b _)[y]? = _
        rw [hother y e]; exact hy
    have hnew : J.Look ⟨s.heap.set b (.bnf ps n' i' t' kind), (w, b) :: s.memo⟩ w b :=
      (hcons w b).2 (.inl ⟨rfl, rfl⟩)
    have hgone : ¬ J.Top ⟨s.heap.set b (.bnf ps n' i' t' kind), (w, b) :: s.memo⟩ r := fun h =>
      h w o b ho hput.tag (by rw [hput.children]; simp) hnew (hlook' _ _ hlook)
    have honly : ∀ y, J.Look s y b →
        ¬ J.Top ⟨s.heap.set b (.bnf ps n' i' t' kind), (w, b) :: s.memo⟩ y := by
      intro y hy hty
      have := ht.one y r b hge hy hlook (hty.anti hlook') htop
      subst this
      exact hgone hty
    refine ⟨⟨Nat.le_trans ht.len hg.len, ?_, ?_, ?_, ?_⟩, hg⟩
    · intro y oy hy
      have hyb : y ≠ b := fun e => by
        have := (List.getElem?_eq_some_iff.1 hy).1; omega
      rcases ht.frame y oy hy with h | ⟨r', z, h1, h2, h3, h4⟩
      · left
        show (s.heap.set b _)[y]? = _
        rw [hother y hyb]; exact h
      · right
        refine ⟨r', z, h1, ?_, hlook' _ _ h3, h4⟩
        show (s.heap.set b _)[y]? = _
        rw [hother y hyb]; exact h2
    · intro y z hyz
      rcases (hcons y z).1 hyz with ⟨rfl, rfl⟩ | ⟨_, h⟩
      · exact ⟨hr, Nat.lt_of_lt_of_le hblt hg.len, hacc, o, ho, .same hput (hlook' _ _ hlook) hpc hge
          (fun k => by
            obtain ⟨o', k1, k2⟩ := ht.lab r z or_ hlook hor hprod hnf htop k
            rw [hob] at k1; cases k1
            exact ⟨_, k2.mono hlook', (hl k).2⟩)⟩
      · obtain ⟨h1, h2, h3, oy, h4, h5⟩ := ht.memo y z h
        exact ⟨h1, Nat.lt_of_lt_of_le h2 hg.len, h3, oy, h4, h5.mono hg⟩
    · intro y z oy hyz hoy h1 h2 hty k
      rcases (hcons y z).1 hyz with ⟨rfl, rfl⟩ | ⟨_, h⟩
      · rw [ho] at hoy; cases hoy
        obtain ⟨o', k1, k2⟩ := ht.lab r z or_ hlook hor hprod hnf htop k
        rw [hob] at k1; cases k1
        refine ⟨_, hself, ?_⟩
        rw [(hl k).1]
        exact .same hnew ho hput (k2.mono hlook') (hl k).2
      · by_cases e : z = b
        · subst e
          exact absurd hty (honly y h)
        · obtain ⟨o', k1, k2⟩ := ht.lab y z oy h hoy h1 h2 (hty.anti hlook') k
          refine ⟨o', ?_, k2.mono hlook'⟩
          show (s.heap.set b _)[z]? = _
          rw [hother z e]; exact k1
    · intro y y' z hz hy hy' t1 t2
      rcases (hcons y z).1 hy with ⟨rfl, rfl⟩ | ⟨_, h⟩
      · rcases (hcons y' z).1 hy' with ⟨rfl, _⟩ | ⟨_, h'⟩
        · rfl
        · exact absurd t2 (honly y' h')
      · rcases (hcons y' z).1 hy' with ⟨rfl, rfl⟩ | ⟨_, h'⟩
        · exact absurd t1 (honly y h)
        · exact ht.one y y' z hz h h' (t1.anti hlook') (t2.anti hlook')
  | _ => cases htag

/-! ### Visits -/

variable (J) in
/-- A step that visits what is below `K`. -/
def StepT {α β : Type} (Pre : α → Prop) (R : St P → α → β → Prop) (K : α → Nat → Prop)
    (f : α → St P → Except Err (β × St P)) : Prop :=
  ∀ x s y s', J.Track s → Pre x → f x s = .ok (y, s') → J.Track s' ∧ J.Grow s s' ∧ R s' x y ∧
    ∀ c b, J.Look s' c b → (∃ b', J.Look s c b') ∨ K x c

variable (J) in
abbrev VisitT (rec : Visit P) : Prop :=
  J.StepT (Reach J.heap J.root) J.Look (fun a c => c = a ∨ J.Under c a) rec

theorem mapSt_track {α β : Type} {Pre : α → Prop} {R : St P → α → β → Prop} {K : α → Nat → Prop}
    (hR : ∀ s s' x y, J.Grow s s' → R s x y → R s' x y) {f : α → St P → Except Err (β × St P)}
    (hf : J.StepT Pre R K f) : ∀ (xs : List α) (s : St P) (ys : List β) (s' : St P), J.Track s →
      (∀ x ∈ xs, Pre x) → mapSt f xs s = .ok (ys, s') →
      J.Track s' ∧ J.Grow s s' ∧ Pointwise (R s') xs ys ∧
        ∀ c b, J.Look s' c b → (∃ b', J.Look s c b') ∨ ∃ x ∈ xs, K x c := by
  intro xs
  induction xs with
  | nil =>
    intro s ys s' ht _ h
    simp only [mapSt, Except.ok.injEq, Prod.mk.injEq] at h
    obtain ⟨rfl, rfl⟩ := h
    exact ⟨ht, .refl _, .nil, fun c b h => .inl ⟨b, h⟩⟩
  | cons x xs ih =>
    intro s ys s' ht hpre h
    simp only [mapSt] at h
    cases h1 : f x s with
    | error e => simp [h1] at h
    | ok y =>
      obtain ⟨y, s1⟩ := y
      simp only [h1] at h
      cases h2 : mapSt f xs s1 with
      | error e => simp [h2] at h
      | ok z =>
        obtain ⟨zs, s2⟩ := z
        simp only [h2, Except.ok.injEq, Prod.mk.injEq] at h
        obtain ⟨rfl, rfl⟩ := h
        obtain ⟨t1, g1, r1, n1⟩ := hf x s y s1 ht (hpre x List.mem_cons_self) h1
        obtain ⟨t2, g2, r2, n2⟩ := ih s1 zs s2 t1 (fun x hx => hpre x (List.mem_cons_of_mem _ hx)) h2
        refine ⟨t2, g1.trans g2, .cons (hR _ _ _ _ g2 r1) r2, fun c b hl => ?_⟩
        rcases n2 c b hl with ⟨b', hb'⟩ | ⟨x', hx', hk⟩
        · rcases n1 c b' hb' with h | h
          · exact .inl h
          · exact .inr ⟨x, List.mem_cons_self, h⟩
        · exact .inr ⟨x', List.mem_cons_of_mem _ hx', hk⟩

theorem visitTerm_track {rec : Visit P} (hr : J.VisitT rec) :
    J.StepT (fun t => ∀ r, t = .rule r → Reach J.heap J.root r) J.TermLook
      (fun t c => ∃ r, t = .rule r ∧ (c = r ∨ J.Under c r)) (visitTerm rec) := by
  intro t s u s' ht hpre h
  cases t with
  | pred p =>
    simp only [visitTerm, Except.ok.injEq, Prod.mk.injEq] at h
    obtain ⟨rfl, rfl⟩ := h
    exact ⟨ht, .refl _, .pred p, fun c b h => .inl ⟨b, h⟩⟩
  | rule r =>
    simp only [visitTerm] at h
    cases h1 : rec r s with
    | error e => simp [h1, Except.map] at h
    | ok y =>
      obtain ⟨y, s1⟩ := y
      simp only [h1, Except.map, Except.ok.injEq, Prod.mk.injEq] at h
      obtain ⟨rfl, rfl⟩ := h
      obtain ⟨t1, g1, r1, n1⟩ := hr r s y s1 ht (hpre r rfl) h1
      refine ⟨t1, g1, .rule r1, fun c b hl => ?_⟩
      rcases n1 c b hl with h | h
      · exact .inl h
      · exact .inr ⟨r, rfl, h⟩

/-- What is being visited is not found below itself. -/
theorem Track.absent {s s1 : St P} (ht : J.Track s1) {a : Nat} {o : Obj P} (ho : J.heap[a]? = some o)
    (hf : o.tag ≠ .forward) (hn : ∀ c, ¬ J.Look s a c)
    (hacc : ∀ c ∈ o.children, Acc J.Kid c)
    (hnew : ∀ c b, J.Look s1 c b → (∃ b', J.Look s c b') ∨ ∃ x ∈ o.children, c = x ∨ J.Under c x) :
    ∀ c, ¬ J.Look s1 a c := by
  intro c hc
  rcases hnew a c hc with ⟨b', h⟩ | ⟨x, hx, h⟩
  · exact hn b' h
  · have hk : J.Kid x a := ⟨o, ho, hf, hx⟩
    rcases h with rfl | h
    · exact not_under (hacc _ hx) (.kid hk)
    · exact not_under (hacc _ hx) (Under.trans (.kid hk) h)

theorem acc_of_children {a : Nat} {o : Obj P} (ho : J.heap[a]? = some o)
    (hacc : o.tag ≠ .forward → ∀ c ∈ o.children, Acc J.Kid c) : Acc J.Kid a := by
  refine ⟨a, ?_⟩
  rintro c ⟨o', h1, h2, h3⟩
  rw [ho] at h1; cases h1
  exact hacc h2 c h3

variable (J) in
/-- What is to be shown of a visit that is not remembered. -/
def Visited (a : Nat) (s : St P) (b : Nat) (s' : St P) : Prop :=
  J.Track ⟨s'.heap, (a, b) :: s'.memo⟩ ∧ J.Grow s ⟨s'.heap, (a, b) :: s'.memo⟩ ∧
    ∀ c b', J.Look ⟨s'.heap, (a, b) :: s'.memo⟩ c b' → (∃ b'', J.Look s c b'') ∨ c = a ∨ J.Under c a

/-- Only the item itself and what is below its children is new. -/
theorem news (hJ : J.Ok) {s s1 : St P} {g : Heap P} {a b : Nat} {o : Obj P} (ho : J.heap[a]? = some o)
    (hf : o.tag ≠ .forward)
    (hnew : ∀ c b, J.Look s1 c b → (∃ b', J.Look s c b') ∨ ∃ x ∈ o.children, c = x ∨ J.Under c x) :
    ∀ c b', J.Look ⟨g, (a, b) :: s1.memo⟩ c b' → (∃ b'', J.Look s c b'') ∨ c = a ∨ J.Under c a := by
  intro c b' h
  rcases (look_cons hJ.pid).1 h with ⟨rfl, _⟩ | ⟨_, h⟩
  · exact .inr (.inl rfl)
  · rcases hnew c b' h with h | ⟨x, hx, h⟩
    · exact .inl h
    · have hk : J.Kid x a := ⟨o, ho, hf, hx⟩
      rcases h with rfl | h
      · exact .inr (.inr (.kid hk))
      · exact .inr (.inr (.step hk h))

theorem pointwise_mem {α β : Type} {R : α → β → Prop} {xs : List α} {ys : List β}
    (h : Pointwise R xs ys) : ∀ x ∈ xs, ∃ y ∈ ys, R x y := by
  induction h with
  | nil => intro x hx; cases hx
  | cons h _ ih =>
    intro x hx
    rcases List.mem_cons.1 hx with rfl | hx
    · exact ⟨_, List.mem_cons_self, h⟩
    · obtain ⟨y, hy, h⟩ := ih x hx
      exact ⟨y, List.mem_cons_of_mem _ hy, h⟩

section methods
variable (hJ : J.Ok) {rec : Visit P} (hr : J.VisitT rec) {a : Nat} {s s' : St P} {b : Nat}
  (ht : J.Track s) (hn : ∀ c, ¬ J.Look s a c) (ha : Reach J.heap J.root a)
include hJ ht hn ha

theorem leaf_track {o : Obj P} (ho : J.heap[a]? = some o) (hc : o.tag ≠ .forward → o.children = [])
    (hst : ∀ s, J.Stands s o a a) (htag : o.tag.isProd = true ∨ o.tag = .forward) :
    J.Visited a s a s := by
  obtain ⟨t1, g1⟩ := ht.leaf hJ hn ha
    (acc_of_children ho (fun h c hc' => by rw [hc h] at hc'; cases hc')) ho hst htag
  refine ⟨t1, g1, fun c b' h => ?_⟩
  rcases (look_cons hJ.pid).1 h with ⟨rfl, _⟩ | ⟨_, h⟩
  · exact .inr (.inl rfl)
  · exact .inl ⟨b', h⟩

include hr

theorem rule_track {ps : List Nat} (ho : J.heap[a]? = some (.rule ps))
    (h : rebuildAll rec ps (.bnf · none none none none) s = .ok (b, s')) : J.Visited a s b s' := by
  unfold rebuildAll at h
  cases h1 : mapSt rec ps s with
  | error e => simp [h1, Except.map] at h
  | ok y =>
    obtain ⟨qs, s1⟩ := y
    simp only [h1, Except.map, St.alloc, Except.ok.injEq, Prod.mk.injEq] at h
    obtain ⟨rfl, rfl⟩ := h
    obtain ⟨t1, g1, r1, n1⟩ := mapSt_track (R := J.Look) (fun _ _ _ _ hg h => hg.look _ _ h) hr ps s qs s1 ht
      (fun p hp => .step ha ho (by simpa [Obj.children] using hp)) h1
    have hacc : ∀ c ∈ (Obj.rule ps : Obj P).children, Acc J.Kid c := by
      intro c hc
      obtain ⟨y, _, hy⟩ := pointwise_mem r1 c hc
      exact (t1.memo c y hy).2.2.1
    have hn1 := t1.absent ho (by simp [Obj.tag]) hn hacc n1
    have hnew : (s1.heap ++ [Obj.bnf qs none none none none])[s1.heap.length]? =
        some (.bnf qs none none none none) := getElem?_new _
    have hmono : ∀ x y, J.Look s1 x y → J.Look ⟨s1.heap ++ [Obj.bnf qs none none none none],
        (a, s1.heap.length) :: s1.memo⟩ x y := fun x y h =>
      (look_cons hJ.pid).2 (.inr ⟨fun e => hn1 y (e ▸ h), h⟩)
    obtain ⟨t2, g2⟩ := t1.fresh hJ (e := [Obj.bnf qs none none none none]) (b := s1.heap.length) hn1 ha
      (acc_of_children ho (fun _ => hacc)) ho (Nat.le_refl _) (by simp)
      (.rule hnew (pointwise_mono (fun _ _ h => hmono _ _ h) r1) t1.len)
      (fun _ _ k => ⟨_, hnew, by
        have : (Obj.bnf qs none none none none : Obj P).label k = none := by cases k <;> rfl
        rw [this]
        exact .base ((look_cons hJ.pid).2 (.inl ⟨rfl, rfl⟩)) ho (by simp [Obj.tag])⟩)
    exact ⟨t2, g1.trans g2, news hJ ho (by simp [Obj.tag]) n1⟩

theorem prod_track {ts : List (Term P)} {m : Nat} (ho : J.heap[a]? = some (.prod ts m))
    (h : rebuildAll (visitTerm rec) ts (.prod · m) s = .ok (b, s')) : J.Visited a s b s' := by
  unfold rebuildAll at h
  cases h1 : mapSt (visitTerm rec) ts s with
  | error e => simp [h1, Except.map] at h
  | ok y =>
    obtain ⟨us, s1⟩ := y
    simp only [h1, Except.map, St.alloc, Except.ok.injEq, Prod.mk.injEq] at h
    obtain ⟨rfl, rfl⟩ := h
    obtain ⟨t1, g1, r1, n1⟩ := mapSt_track (R := J.TermLook) (fun _ _ _ _ hg h => h.mono hg.look)
      (visitTerm_track hr) ts s us s1 ht
      (fun t ht' r e => .step ha ho (by
        subst e; simpa [Obj.children, termRules_mem] using ht')) h1
    have n1' : ∀ c b, J.Look s1 c b → (∃ b', J.Look s c b') ∨
        ∃ x ∈ (Obj.prod ts m : Obj P).children, c = x ∨ J.Under c x := by
      intro c b hl
      rcases n1 c b hl with h | ⟨t, h1, r, rfl, h2⟩
      · exact .inl h
      · exact .inr ⟨r, termRules_mem.2 h1, h2⟩
    have hacc : ∀ c ∈ (Obj.prod ts m : Obj P).children, Acc J.Kid c := by
      intro c hc
      obtain ⟨y, _, hy⟩ := pointwise_mem r1 _ (termRules_mem.1 hc)
      cases hy with
      | rule hy => exact (t1.memo c _ hy).2.2.1
    have hn1 := t1.absent ho (by simp [Obj.tag]) hn hacc n1'
    have hnew : (s1.heap ++ [Obj.prod us m])[s1.heap.length]? = some (.prod us m) := getElem?_new _
    have hmono : ∀ x y, J.Look s1 x y → J.Look ⟨s1.heap ++ [Obj.prod us m],
        (a, s1.heap.length) :: s1.memo⟩ x y := fun x y h =>
      (look_cons hJ.pid).2 (.inr ⟨fun e => hn1 y (e ▸ h), h⟩)
    obtain ⟨t2, g2⟩ := t1.fresh hJ (e := [Obj.prod us m]) (b := s1.heap.length) hn1 ha
      (acc_of_children ho (fun _ => hacc)) ho (Nat.le_refl _) (by simp)
      (.prod hnew (pointwise_mono (fun _ _ h => h.mono hmono) r1) t1.len)
      (fun h _ k => by cases h)
    exact ⟨t2, g1.trans g2, news hJ ho (by simp [Obj.tag]) n1'⟩

omit hr in
theorem pipe_track {p : Pipe P} (ho : J.heap[a]? = some (.pipe p)) (h : pipeBnf p s = .ok (b, s')) :
    J.Visited a s b s' := by
  unfold pipeBnf at h
  split at h
  · cases h
  · rename_i kind keys
    split at h
    · cases h
    · simp only [allocKeys_eq, St.alloc, Except.ok.injEq, Prod.mk.injEq] at h
      obtain ⟨rfl, rfl⟩ := h
      have hacc : Acc J.Kid a := acc_of_children ho (fun _ c hc => by simp [Obj.children] at hc)
      have hnew : (s.heap ++ (keys.map (fun x => (.pipeProd x.1 x.2 : Obj P)) ++
          [.bnf (List.range' s.heap.length keys.length) none none none (some kind)]))[
            (s.heap ++ keys.map (fun x => (.pipeProd x.1 x.2 : Obj P))).length]? =
          some (.bnf (List.range' s.heap.length keys.length) none none none (some kind)) := by
        rw [← List.append_assoc]; exact getElem?_new _
      obtain ⟨t2, g2⟩ := ht.fresh hJ (e := keys.map (fun x => (.pipeProd x.1 x.2 : Obj P)) ++
          [.bnf (List.range' s.heap.length keys.length) none none none (some kind)])
        (b := (s.heap ++ keys.map (fun x => (.pipeProd x.1 x.2 : Obj P))).length) hn ha hacc ho
        (by simp) (by simp)
        (.pipe hnew (fun i hi => by
          show (s.heap ++ _)[s.heap.length + i]? = _
          rw [List.getElem?_append_right (by omega), Nat.add_sub_cancel_left,
            List.getElem?_append_left (by simpa using hi)]
          simp [hi]) (by have := ht.len; simp; omega))
        (fun _ _ k => ⟨_, hnew, by
          have : (Obj.bnf (List.range' s.heap.length keys.length) none none none (some kind) : Obj P).label k =
            none := by cases k <;> rfl
          rw [this]
          exact .base ((look_cons hJ.pid).2 (.inl ⟨rfl, rfl⟩)) ho (by simp [Obj.tag])⟩)
      unfold Visited
      rw [List.append_assoc]
      refine ⟨t2, g2, fun c b' h => ?_⟩
      rcases (look_cons hJ.pid).1 h with ⟨rfl, _⟩ | ⟨_, h⟩
      · exact .inr (.inl rfl)
      · exact .inl ⟨b', h⟩

omit hr in
/-- A wrapper with a compiled rule of its own. -/
theorem lifted_track {s0 : St P} {o : Obj P} {r y : Nat} {x : Attr} (ho : J.heap[a]? = some o)
    (hput : Puts o r x) (hacc : Acc J.Kid r) (hgo : J.Goes s r y) (hy : y < s.heap.length)
    (hg : J.Grow s0 s)
    (hnew : ∀ c b, J.Look s c b → (∃ b', J.Look s0 c b') ∨ ∃ x ∈ o.children, c = x ∨ J.Under c x) :
    hasAttr (s.lift y).2.heap (s.lift y).1 x = .ok false ∧
    J.Visited a s0 (s.lift y).1 { (s.lift y).2 with heap := setAttrAt (s.lift y).2.heap (s.lift y).1 x } := by
  have e1 : (s.lift y).1 = s.heap.length + 1 := by simp [St.lift, St.alloc]
  have e2 : (s.lift y).2 = { s with heap := s.heap ++
      [.prod [.rule y] 0, .bnf [s.heap.length] none none none none] } := by
    simp [St.lift, St.alloc]
  rw [e1, e2]
  have hb : (s.heap ++ [.prod [.rule y] 0, .bnf [s.heap.length] none none none none])[s.heap.length + 1]? =
      some (Obj.bnf [s.heap.length] none none none none : Obj P) := by
    rw [List.getElem?_append_right (by omega)]; simp
  have hh : hasAttr (s.heap ++ [.prod [.rule y] 0, .bnf [s.heap.length] none none none none])
      (s.heap.length + 1) x = .ok false := by
    unfold hasAttr
    rw [hb]
    cases x <;> rfl
  obtain ⟨n', i', t', hset, hl⟩ := label_set hput hb hh
  refine ⟨hh, ?_⟩
  have hset' : setAttrAt (s.heap ++ [.prod [.rule y] 0, .bnf [s.heap.length] none none none none])
      (s.heap.length + 1) x = s.heap ++ [.prod [.rule y] 0, .bnf [s.heap.length] n' i' t' none] := by
    rw [hset, List.set_append_right _ _ (by omega)]
    simp
  have ha1 : Acc J.Kid a := acc_of_children ho (fun _ c hc => by
    rw [hput.children, List.mem_singleton] at hc; subst hc; exact hacc)
  have hnf : o.tag ≠ .forward := by rw [hput.tag]; decide
  have hnp : (s.heap ++ [.prod [.rule y] 0, .bnf [s.heap.length] n' i' t' none])[s.heap.length]? =
      some (Obj.prod [.rule y] 0 : Obj P) := by
    rw [List.getElem?_append_right (by omega)]; simp
  have hnb : (s.heap ++ [.prod [.rule y] 0, .bnf [s.heap.length] n' i' t' none])[s.heap.length + 1]? =
      some (Obj.bnf [s.heap.length] n' i' t' none : Obj P) := by
    rw [List.getElem?_append_right (by omega)]; simp
  have hmono : ∀ u v, J.Look s u v →
      J.Look ⟨s.heap ++ [.prod [.rule y] 0, .bnf [s.heap.length] n' i' t' none],
        (a, s.heap.length + 1) :: s.memo⟩ u v := fun u v h =>
    (look_cons hJ.pid).2 (.inr ⟨fun e => hn v (e ▸ h), h⟩)
  have hgo' := hgo.mono hmono
  have hyb : y ≠ s.heap.length + 1 := by omega
  obtain ⟨t2, g2⟩ := ht.fresh hJ
    (e := [.prod [.rule y] 0, .bnf [s.heap.length] n' i' t' none]) (b := s.heap.length + 1) hn ha ha1 ho
    (by omega) (by simp)
    (.lifted hput hnb hnp hgo' hyb (by have := ht.len; omega))
    (fun _ _ k => ⟨_, hnb, by
      have h1 := (hl k).1
      have h2 : (Obj.bnf [s.heap.length] none none none none : Obj P).label k = none := by
        cases k <;> rfl
      rw [h1, h2, Option.or_none]
      exact .lifted ((look_cons hJ.pid).2 (.inl ⟨rfl, rfl⟩)) ho hput hgo' hyb⟩)
  unfold Visited
  simp only [hset']
  exact ⟨t2, hg.trans g2, news hJ ho hnf hnew⟩

end methods

theorem not_look {s : St P} {a : Nat} (h : s.lookup J.pid a = none) (c : Nat) : ¬ J.Look s a c := by
  intro h'
  unfold Look at h'
  rw [h] at h'; cases h'

section
variable (hJ : J.Ok) {rec : Visit P} (hr : J.VisitT rec) {a : Nat} {s s' : St P} {b : Nat}
  (ht : J.Track s) (hn : ∀ c, ¬ J.Look s a c) (ha : Reach J.heap J.root a)
include hJ hr ht hn ha

theorem wrapper_track {o : Obj P} {r : Nat} {x : Attr} (ho : J.heap[a]? = some o) (hput : Puts o r x)
    (h : visitWrapper J.pc rec r x s = .ok (b, s')) : J.Visited a s b s' := by
  have hra : Reach J.heap J.root r := .step ha ho (by rw [hput.children]; simp)
  obtain ⟨or_, hor, _⟩ := hJ.typed r hra
  have hrlt := (List.getElem?_eq_some_iff.1 hor).1
  have hnf : o.tag ≠ .forward := by rw [hput.tag]; decide
  have hmem : r ∈ o.children := by rw [hput.children]; simp
  unfold visitWrapper at h
  cases h1 : visitWrapped J.pc rec r s with
  | error e => simp [h1] at h
  | ok z =>
    obtain ⟨b1, s1⟩ := z
    simp only [h1] at h
    unfold visitWrapped at h1
    -- an extra rule was put in between already
    have lifted : ∀ {s2 : St P} {y : Nat}, J.Track s2 → (∀ c, ¬ J.Look s2 a c) → Acc J.Kid r →
        J.Goes s2 r y → y < s2.heap.length → J.Grow s s2 →
        (∀ c b, J.Look s2 c b → (∃ b', J.Look s c b') ∨ ∃ x ∈ o.children, c = x ∨ J.Under c x) →
        s2.lift y = (b1, s1) → J.Visited a s b s' := by
      intro s2 y t2 n2 k1 k2 k3 k4 k5 k6
      obtain ⟨q1, q2⟩ := lifted_track hJ t2 n2 ha ho hput k1 k2 k3 k4 k5
      rw [k6] at q1 q2
      simp only at q1 q2
      rw [q1] at h
      simp only [Bool.false_eq_true, if_false, Except.ok.injEq, Prod.mk.injEq] at h
      obtain ⟨rfl, rfl⟩ := h
      exact q2
    split at h1
    · rename_i c hc
      simp only [Except.ok.injEq] at h1
      have hfr : ∃ c, J.heap[r]? = some (.forward c) := by
        rcases ht.frame r _ hor with h | ⟨_, _, rfl, _⟩
        · rw [hc] at h; cases h; exact ⟨_, hor⟩
        · exact ⟨_, hor⟩
      obtain ⟨c', hc'⟩ := hfr
      exact lifted ht hn (acc_of_children hc' (fun h => absurd rfl h)) (.inr ⟨rfl, c', hc'⟩)
        (Nat.lt_of_lt_of_le hrlt ht.len) (.refl _) (fun c b h => .inl ⟨b, h⟩) h1
    · split at h1
      · cases h1
      · rename_i hpc0
        cases h2 : rec r s with
        | error e => simp [h2, Except.map] at h1
        | ok z =>
          obtain ⟨y, s2⟩ := z
          simp only [h2, Except.map, Except.ok.injEq] at h1
          obtain ⟨t2, g2, l2, n2⟩ := hr r s y s2 ht hra h2
          have n2' : ∀ c b, J.Look s2 c b → (∃ b', J.Look s c b') ∨
              ∃ x ∈ o.children, c = x ∨ J.Under c x := by
            intro c b hl
            rcases n2 c b hl with h | h
            · exact .inl h
            · exact .inr ⟨r, hmem, h⟩
          obtain ⟨_, hylt, haccr, _⟩ := t2.memo r y l2
          have hacc : ∀ c ∈ o.children, Acc J.Kid c := by
            intro c hc
            rw [hput.children, List.mem_singleton] at hc; subst hc; exact haccr
          have hn2 := t2.absent ho hnf hn hacc n2'
          split at h1
          · exact lifted t2 hn2 haccr (.inl l2) hylt g2 n2' h1
          · rename_i hpc1
            simp only [Prod.mk.injEq] at h1
            obtain ⟨rfl, rfl⟩ := h1
            have hpc : J.pc r = 1 := by omega
            cases h3 : hasAttr s2.heap y x with
            | error e => simp [h3] at h
            | ok has =>
              cases has with
              | true =>
                simp only [h3, if_true, Except.ok.injEq, Prod.mk.injEq] at h
                obtain ⟨rfl, rfl⟩ := h
                exact (lifted_track hJ t2 hn2 ha ho hput haccr (.inl l2) hylt g2 n2').2
              | false =>
                simp only [h3, Bool.false_eq_true, if_false, Except.ok.injEq, Prod.mk.injEq] at h
                obtain ⟨rfl, rfl⟩ := h
                obtain ⟨t3, g3⟩ := t2.taken hJ hn2 ha (acc_of_children ho (fun _ => hacc)) ho hput l2
                  hpc h3
                exact ⟨t3, g2.trans g3, news hJ ho hnf n2'⟩

theorem method_track {n : Nat} {o : Obj P} (ho : s.heap[a]? = some o)
    (h : bnfMethod J.pc n rec a o s = .ok (b, s')) : J.Visited a s b s' := by
  obtain ⟨o', ho', htag, _, _⟩ := hJ.typed a ha
  rcases ht.frame a o' ho' with hf | ⟨r, y, rfl, hf, _⟩
  · rw [ho] at hf; cases hf
    cases o with
    | rule ps => exact rule_track hJ hr ht hn ha ho' h
    | prod ts m => exact prod_track hJ hr ht hn ha ho' h
    | emptyProd =>
      simp only [bnfMethod, defaultMethod, Except.ok.injEq, Prod.mk.injEq] at h
      obtain ⟨rfl, rfl⟩ := h
      exact leaf_track hJ ht hn ha ho' (fun _ => rfl) (fun _ => .emptyProd) (.inl rfl)
    | pipeProd v ts =>
      simp only [bnfMethod, defaultMethod, Except.ok.injEq, Prod.mk.injEq] at h
      obtain ⟨rfl, rfl⟩ := h
      exact leaf_track hJ ht hn ha ho' (fun _ => rfl) (fun _ => .pipeProd) (.inl rfl)
    | forward c =>
      simp only [bnfMethod, defaultMethod, Except.ok.injEq, Prod.mk.injEq] at h
      obtain ⟨rfl, rfl⟩ := h
      exact leaf_track hJ ht hn ha ho' (fun h => absurd rfl h) (fun _ => .forward) (.inr rfl)
    | named r m => exact wrapper_track hJ hr ht hn ha ho' .named h
    | interp r m => exact wrapper_track hJ hr ht hn ha ho' .interp h
    | relation r m => exact wrapper_track hJ hr ht hn ha ho' .relation h
    | pipe p => exact pipe_track hJ ht hn ha ho' h
    | _ => cases htag
  · rw [ho] at hf; cases hf
    simp only [bnfMethod, defaultMethod, Except.ok.injEq, Prod.mk.injEq] at h
    obtain ⟨rfl, rfl⟩ := h
    exact leaf_track hJ ht hn ha ho' (fun h => absurd rfl h) (fun _ => .forward) (.inr rfl)

end

theorem visit_track (hJ : J.Ok) : ∀ n, J.VisitT (visit (bnfMethod J.pc) J.pid n) := by
  intro n
  induction n with
  | zero => intro a s b s' _ _ h; simp [visit] at h
  | succ n ih =>
    intro a s b s' ht ha h
    unfold visit at h
    cases hl : s.lookup J.pid a with
    | some c =>
      simp only [hl, Except.ok.injEq, Prod.mk.injEq] at h
      obtain ⟨rfl, rfl⟩ := h
      exact ⟨ht, .refl _, hl, fun c b h => .inl ⟨b, h⟩⟩
    | none =>
      simp only [hl] at h
      cases ho : s.heap[a]? with
      | none => simp [ho] at h
      | some o =>
        simp only [ho] at h
        cases hm : bnfMethod J.pc n (visit (bnfMethod J.pc) J.pid n) a o s with
        | error e => simp [hm] at h
        | ok r =>
          obtain ⟨b', s1⟩ := r
          simp only [hm, Except.ok.injEq, Prod.mk.injEq] at h
          obtain ⟨rfl, rfl⟩ := h
          obtain ⟨t1, g1, n1⟩ := method_track hJ ih ht (not_look hl) ha ho hm
          exact ⟨t1, g1, (look_cons hJ.pid).2 (.inl ⟨rfl, rfl⟩), n1⟩

/-! ### The walk over the forward rules -/

theorem Track.redefined {s : St P} (ht : J.Track s) {f r b : Nat}
    (hf : J.heap[f]? = some (.forward (some r))) (hrf : Reach J.heap J.root f) (hl : J.Look s r b) :
    J.Track ⟨s.heap.set f (.forward (some b)), s.memo⟩ := by
  have hflt := (List.getElem?_eq_some_iff.1 hf).1
  have hflt' := Nat.lt_of_lt_of_le hflt ht.len
  have hself : (s.heap.set f (.forward (some b)))[f]? = some (.forward (some b)) := by
    rw [List.getElem?_set_self hflt']
  have hother : ∀ y : Nat, y ≠ f → (s.heap.set f (.forward (some b)))[y]? = s.heap[y]? := by
    intro y hy
    rw [List.getElem?_set_ne (Ne.symm hy)]
  have hfwd : ∃ c, s.heap[f]? = some (.forward c) := by
    rcases ht.frame f _ hf with h | ⟨_, _, _, h, _⟩
    · exact ⟨_, h⟩
    · exact ⟨_, h⟩
  obtain ⟨c, hfc⟩ := hfwd
  have keep : ∀ (y : Nat) o, s.heap[y]? = some o → o.tag ≠ .forward →
      (s.heap.set f (.forward (some b)))[y]? = some o := by
    intro y o hy ho
    have : y ≠ f := fun e => by subst e; rw [hfc] at hy; cases hy; exact ho rfl
    rw [hother y this]; exact hy
  have hsame : ∀ u v, J.Look s u v → J.Look ⟨s.heap.set f (.forward (some b)), s.memo⟩ u v :=
    fun _ _ h => h
  refine ⟨by simpa using ht.len, ?_, ?_, ?_, ht.one⟩
  · intro y oy hy
    by_cases e : y = f
    · subst e
      rw [hf] at hy; cases hy
      exact .inr ⟨r, b, rfl, hself, hl, hrf⟩
    · rcases ht.frame y oy hy with h | ⟨r', z, h1, h2, h3, h4⟩
      · left
        show (s.heap.set f _)[y]? = _
        rw [hother y e]; exact h
      · right
        refine ⟨r', z, h1, ?_, h3, h4⟩
        show (s.heap.set f _)[y]? = _
        rw [hother y e]; exact h2
  · intro y z hyz
    obtain ⟨h1, h2, h3, oy, h4, h5⟩ := ht.memo y z hyz
    refine ⟨h1, by simpa using h2, h3, oy, h4, ?_⟩
    cases h5 with
    | prod k1 k2 k3 => exact .prod (keep _ _ k1 (by simp [Obj.tag])) (pointwise_mono (fun _ _ h => h.mono hsame) k2) k3
    | emptyProd => exact .emptyProd
    | pipeProd => exact .pipeProd
    | forward => exact .forward
    | rule k1 k2 k3 => exact .rule (keep _ _ k1 (by simp [Obj.tag])) k2 k3
    | lifted k1 k2 k3 k4 k5 k6 =>
      exact .lifted k1 (keep _ _ k2 (by simp [Obj.tag])) (keep _ _ k3 (by simp [Obj.tag])) k4 k5 k6
    | same k1 k2 k3 k4 k5 =>
      refine .same k1 k2 k3 k4 (fun k => ?_)
      obtain ⟨l, q1, q2⟩ := k5 k
      exact ⟨l, q1.mono hsame, q2⟩
    | pipe k1 k2 k3 =>
      exact .pipe (keep _ _ k1 (by simp [Obj.tag])) (fun i hi => keep _ _ (k2 i hi) (by simp [Obj.tag])) k3
  · intro y z oy hyz hoy h1 h2 hty k
    obtain ⟨o', k1, k2⟩ := ht.lab y z oy hyz hoy h1 h2 hty k
    refine ⟨o', ?_, k2.mono hsame⟩
    have hge : z ≠ f := by
      intro e
      subst e
      rw [hfc] at k1; cases k1
      obtain ⟨_, _, _, oy', q1, q2⟩ := ht.memo y z hyz
      rw [hoy] at q1; cases q1
      cases q2 with
      | prod => cases h1
      | emptyProd => cases h1
      | pipeProd => cases h1
      | forward => exact h2 rfl
      | rule q => rw [hfc] at q; cases q
      | lifted _ q => rw [hfc] at q; cases q
      | same _ _ _ q _ => omega
      | pipe q => rw [hfc] at q; cases q
    show (s.heap.set f _)[z]? = _
    rw [hother z hge]; exact k1

variable (J) in
/-- The pass, as far as it is known what it leaves alone. -/
abbrev pass : Pass P := ⟨J.heap, J.root, false, bnfIn, bnfOut, fun _ => True⟩

variable (J) in
structure Strolling (done queue seen : List Nat) (s : St P) : Prop where
  track : J.Track s
  inv : J.pass.Inv s
  nodup : (done ++ queue).Nodup
  seen_iff : ∀ x, x ∈ seen ↔ x ∈ done ++ queue
  item : ∀ x ∈ done ++ queue, J.pass.Item s.heap x
  kept : ∀ x : Nat, x < J.heap.length → x ∉ done → s.heap[x]? = J.heap[x]?

theorem bnf_pass_fits (hJ : J.Ok) : J.pass.MethodFits (bnfMethod J.pc) :=
  Pass.bnf_fits ⟨rfl, (by intro t ht; cases t <;> first | rfl | cases ht), rfl, rfl, rfl, rfl, rfl, rfl⟩ _

theorem Strolling.step (hJ : J.Ok) {done queue seen : List Nat} {a : Nat} {s : St P} (ht : J.Track s)
    (hi : J.pass.Inv s) (hnodup : (done ++ a :: queue).Nodup)
    (hseen : ∀ x, x ∈ seen ↔ x ∈ done ++ a :: queue)
    (hitem : ∀ x ∈ done ++ a :: queue, J.pass.Item s.heap x)
    (hkept : ∀ x : Nat, x < J.heap.length → x ∉ done ++ [a] → s.heap[x]? = J.heap[x]?) :
    ∃ new, enqueue J.pid (childrenAt s.heap a) queue (seen.map J.pid) =
        (queue ++ new, (new.reverse ++ seen).map J.pid) ∧
      J.Strolling (done ++ [a]) (queue ++ new) (new.reverse ++ seen) s := by
  obtain ⟨new, h1, h2, h3, h4⟩ := enqueue_spec hJ.pid (childrenAt s.heap a) queue seen
  have e : done ++ [a] ++ (queue ++ new) = (done ++ a :: queue) ++ new := by simp
  refine ⟨new, h1, ⟨ht, hi, ?_, ?_, ?_, hkept⟩⟩
  · rw [e, List.nodup_append]
    refine ⟨hnodup, h2, ?_⟩
    intro x hx y hy hxy
    subst hxy
    exact (h3 x hy).2 ((hseen x).2 hx)
  · intro x
    rw [e, List.mem_append, List.mem_append, List.mem_reverse, hseen]
    exact Or.comm
  · intro x hx
    rw [e, List.mem_append] at hx
    rcases hx with hx | hx
    · exact hitem x hx
    · have hc := (h3 x hx).1
      unfold childrenAt at hc
      cases ho : s.heap[a]? with
      | none => simp [ho] at hc
      | some o =>
        rw [ho] at hc
        exact hi.shut a o (hitem a (by simp)).1 ho x hc

theorem redefine_track (hJ : J.Ok) {limit : Nat} :
    ∀ (n : Nat) (done queue seen : List Nat) (s s' : St P), J.Strolling done queue seen s →
      redefine (bnfMethod J.pc) J.pid limit n queue (seen.map J.pid) s = .ok s' → J.Track s' := by
  intro n
  induction n with
  | zero => intro done queue seen s s' _ h; simp [redefine] at h
  | succ n ih =>
    intro done queue seen s s' hw h
    cases queue with
    | nil =>
      simp only [redefine, Except.ok.injEq] at h
      subst h
      exact hw.track
    | cons a queue =>
      have ha : J.pass.Item s.heap a := hw.item a (by simp)
      have hnd : a ∉ done := by
        intro hd
        exact (List.nodup_append.1 hw.nodup).2.2 a hd a List.mem_cons_self rfl
      unfold redefine at h
      split at h
      · rename_i r hr
        have halt : a < J.heap.length := by
          refine Nat.lt_of_not_le (fun hle => ?_)
          have := (hw.inv.fwd a _ hle hr).1
          cases this
        have hra : Reach J.heap J.root a := by
          rcases ha.1 with h | h
          · simp only at h; omega
          · exact h
        have hfa : J.heap[a]? = some (.forward (some r)) := by rw [← hw.kept a halt hnd]; exact hr
        have hrr : Reach J.heap J.root r := .step hra hfa (by simp [Obj.children])
        cases h1 : visit (bnfMethod J.pc) J.pid limit r s with
        | error e => simp [h1] at h
        | ok y =>
          obtain ⟨b, s1⟩ := y
          simp only [h1] at h
          cases h2 : defineForward a b s1.heap with
          | error e => simp [h2] at h
          | ok h' =>
            simp only [h2] at h
            have hb : (∀ c, s1.heap[b]? ≠ some (.forward c)) ∧
                h' = s1.heap.set a (.forward (some b)) := by
              unfold defineForward at h2
              split at h2
              · cases h2
              · rename_i hn
                cases h2
                exact ⟨fun c hc => hn c hc, rfl⟩
            obtain ⟨hb, rfl⟩ := hb
            obtain ⟨i1, e1, r1⟩ := Pass.visit_fits hJ.pid (bnf_pass_fits hJ) limit r s b s1 hw.inv
              (hw.inv.items ha.1 hr r (by simp [Obj.children])) h1
            obtain ⟨t1, g1, l1, _⟩ := visit_track hJ limit r s b s1 hw.track hrr h1
            have hr1 := e1.get hr (by simp [Obj.tag])
            obtain ⟨i2, _⟩ := i1.redefine rfl ha.1 hr1 r1 hb
            have t2 := t1.redefined hfa hra l1
            obtain ⟨new, h3, hw'⟩ := Strolling.step (s := { s1 with heap := s1.heap.set a (.forward (some b)) })
              hJ t2 i2 hw.nodup hw.seen_iff
              (fun x hx => ⟨(hw.item x hx).1, by
                have := Nat.lt_of_lt_of_le (hw.item x hx).2 e1.len
                simpa using this⟩)
              (by
                intro x hx hnx
                rw [List.mem_append, List.mem_singleton] at hnx
                have hxa : x ≠ a := fun e => hnx (.inr e)
                have hk := hw.kept x hx (fun h => hnx (.inl h))
                show (s1.heap.set a _)[x]? = _
                rw [List.getElem?_set_ne (Ne.symm hxa)]
                have hx' : J.heap[x]? = some J.heap[x] := List.getElem?_eq_getElem hx
                rw [hx'] at hk ⊢
                rcases g1.at_ x _ hk with q | ⟨q, _⟩
                · exact q
                · omega)
            rw [h3] at h
            exact ih _ _ _ _ _ hw' h
      · obtain ⟨new, h3, hw'⟩ := Strolling.step hJ hw.track hw.inv hw.nodup hw.seen_iff hw.item
          (fun x hx hnx => hw.kept x hx (fun h => hnx (List.mem_append_left _ h)))
        rw [h3] at h
        exact ih _ _ _ _ _ hw' h

/-- What is known after all. -/
theorem transform_track (hJ : J.Ok) {limit b : Nat} {h' : Heap P}
    (h : transform (bnfMethod J.pc) J.pid limit J.root J.heap = .ok (b, h')) :
    ∃ s : St P, s.heap = h' ∧ J.Track s ∧ J.Look s J.root b := by
  have hdom : J.pass.Dom J.root := .inr .root
  have ht0 : Typed bnfIn (fun _ => True) J.heap J.root := fun x hx => by
    obtain ⟨o, h1, h2, h3, h4⟩ := hJ.typed x hx
    refine ⟨o, h1, ?_, h3, h4⟩
    cases h : o.tag <;> rw [h] at h2 <;> first | rfl | cases h2
  have i0 : J.pass.Inv { heap := J.heap } := by
    refine ⟨Nat.le_refl _, fun a o h => .inl h, ?_, (by intro e he; cases he), ?_⟩
    · intro a o hd ho
      have hlt := (List.getElem?_eq_some_iff.1 ho).1
      have hr : Reach J.heap J.root a := by
        rcases hd with hd | hd
        · simp only at hlt hd; omega
        · exact hd
      obtain ⟨o', h1, h2, h3, h4⟩ := ht0 a hr
      simp only at ho
      rw [ho] at h1; cases h1
      refine ⟨h2, h3, fun c hc => ?_⟩
      have hrc : Reach J.heap J.root c := .step hr ho hc
      obtain ⟨oc, hoc, _⟩ := ht0 c hrc
      exact ⟨.inr hrc, (List.getElem?_eq_some_iff.1 hoc).1, h4 c hc⟩
    · intro T c hT hg
      have := (List.getElem?_eq_some_iff.1 hg).1
      simp only at this hT
      omega
  have nolook : ∀ a b, ¬ J.Look { heap := J.heap } a b := by
    intro a b h
    simp [Look, St.lookup] at h
  have t0 : J.Track { heap := J.heap } :=
    ⟨Nat.le_refl _, fun a o h => .inl h, fun a b h => absurd h (nolook a b),
      fun a b o h => absurd h (nolook a b), fun a a' b _ h => absurd h (nolook a b)⟩
  unfold transform at h
  cases h1 : redefine (bnfMethod J.pc) J.pid limit limit [J.root] [J.pid J.root] { heap := J.heap } with
  | error e => simp [h1] at h
  | ok s =>
    simp only [h1] at h
    cases h2 : visit (bnfMethod J.pc) J.pid limit J.root s with
    | error e => simp [h2, Except.map] at h
    | ok x =>
      obtain ⟨b', s2⟩ := x
      simp only [h2, Except.map, Except.ok.injEq, Prod.mk.injEq] at h
      obtain ⟨rfl, rfl⟩ := h
      have t1 := redefine_track hJ limit [] [J.root] [J.root] _ s
        ⟨t0, i0, by simp, by simp, (by
          intro x hx
          have : x = J.root := by simpa using hx
          subst this
          exact ⟨hdom, hJ.typed.lt⟩), fun _ _ _ => rfl⟩ h1
      obtain ⟨t2, _, l2, _⟩ := visit_track hJ limit J.root s b' s2 t1 .root h2
      exact ⟨s2, rfl, t2, l2⟩

end Job
end Yargy
