import Verif.Spec.Thin
import Verif.Proofs.CompileWords
/-!
What a rule may be replaced by when nothing but forward rules is left: forward rules are taken as letters, and
transformators add no such words. Used to show that compiled rules do not contain themselves without a token.
-/
namespace Yargy.Thin

variable {P : Type}

variable {N : Nat → Prop} {lt : Nat → Nat → Prop} {h h' : Heap P}

theorem Open.append {ts us : List (Term P)} {w v : List Nat} (h1 : Open N h ts w) (h2 : Open N h us v) :
    Open N h (ts ++ us) (w ++ v) := by
  induction h1 with
  | nil => exact h2
  | letter ha _ ih => exact .letter ha ih
  | skip ha hn _ ih => exact .skip ha hn ih
  | rule ha hf hs hu _ _ ih =>
    rw [List.append_assoc]
    exact .rule ha hf hs hu ih

theorem Open.split {ts us : List (Term P)} {w : List Nat} (h1 : Open N h (ts ++ us) w) :
    ∃ v v', Open N h ts v ∧ Open N h us v' ∧ w = v ++ v' := by
  induction ts generalizing w with
  | nil => exact ⟨[], w, .nil, h1, rfl⟩
  | cons t ts ih =>
    cases h1 with
    | letter ha ht =>
      obtain ⟨v, v', k1, k2, rfl⟩ := ih ht
      exact ⟨_, v', .letter ha k1, k2, rfl⟩
    | skip ha hn ht =>
      obtain ⟨v, v', k1, k2, rfl⟩ := ih ht
      exact ⟨_, v', .skip ha hn k1, k2, rfl⟩
    | rule ha hf hs hu ht =>
      obtain ⟨v, v', k1, k2, rfl⟩ := ih ht
      exact ⟨_, v', .rule ha hf hs hu k1, k2, by rw [List.append_assoc]⟩

theorem open_cons {t : Term P} {ts : List (Term P)} {w : List Nat} :
    Open N h (t :: ts) w ↔ ∃ v v', Open N h [t] v ∧ Open N h ts v' ∧ w = v ++ v' := by
  constructor
  · intro h1; exact Open.split (ts := [t]) h1
  · rintro ⟨v, v', h1, h2, rfl⟩; exact h1.append h2

theorem open_one {a : Nat} {o : Obj P} (ha : h[a]? = some o) (hf : ∀ c, o ≠ .forward c) {w : List Nat} :
    Open N h [.rule a] w ↔ ∃ us, Gives o us ∧ Open N h us w := by
  constructor
  · intro h1
    cases h1 with
    | letter hb => rw [ha] at hb; cases hb; exact absurd rfl (hf _)
    | skip hb => rw [ha] at hb; cases hb; exact absurd rfl (hf _)
    | rule hb _ hs hu ht =>
      rw [ha] at hb; cases hb
      cases ht
      rw [List.append_nil]
      exact ⟨_, hs, hu⟩
  · rintro ⟨us, hs, hu⟩
    have := Open.rule ha hf hs hu .nil
    rwa [List.append_nil] at this

theorem gives_children {o : Obj P} {us : List (Term P)} (hs : Gives o us) : ∀ a, Term.rule a ∈ us → a ∈ o.children := by
  have rep : ∀ {n r a : Nat}, Term.rule (P := P) a ∈ List.replicate n (.rule r) → a ∈ [r] := by
    intro n r a h
    have := (List.mem_replicate.1 h).2
    cases this
    exact List.mem_singleton.2 rfl
  intro a ha
  cases hs with
  | prod => exact termRules_mem.2 ha
  | rule h => simp only [List.mem_singleton, Term.rule.injEq] at ha; subst ha; exact h
  | or h => simp only [List.mem_singleton, Term.rule.injEq] at ha; subst ha; exact h
  | bnf h => simp only [List.mem_singleton, Term.rule.injEq] at ha; subst ha; exact h
  | repeatable => exact rep ha
  | repOptional => exact rep ha
  | minBounded => exact rep ha
  | maxBounded => exact rep ha
  | minMaxBounded => exact rep ha
  | _ => simpa [Obj.children] using ha

/-! ### Later heaps -/

/-- Nothing but the contents of forward rules and the attributes of compiled rules may change. -/
inductive Shape : Obj P → Obj P → Prop
  | refl (o) : Shape o o
  | forward (c d) : Shape (.forward c) (.forward d)
  | bnf (ps n i r k n' i' r' k') : Shape (.bnf ps n i r k) (.bnf ps n' i' r' k')

theorem Shape.trans {o o' o'' : Obj P} (h1 : Shape o o') (h2 : Shape o' o'') : Shape o o'' := by
  cases h1 with
  | refl => exact h2
  | forward => cases h2 <;> exact .forward _ _
  | bnf => cases h2 <;> exact .bnf _ _ _ _ _ _ _ _ _

theorem Shape.symm {o o' : Obj P} (h1 : Shape o o') : Shape o' o := by
  cases h1 with
  | refl => exact .refl _
  | forward => exact .forward _ _
  | bnf => exact .bnf _ _ _ _ _ _ _ _ _

theorem Shape.spells {o o' : Obj P} (h1 : Shape o o') (hf : ∀ c, o ≠ .forward c) {us : List (Term P)}
    (hs : Gives o us) : Gives o' us := by
  cases h1 with
  | refl => exact hs
  | forward => exact absurd rfl (hf _)
  | bnf => cases hs with | bnf hp => exact .bnf hp

theorem Shape.fixed {o o' : Obj P} (h1 : Shape o o') (hf : ∀ c, o ≠ .forward c) : ∀ c, o' ≠ .forward c := by
  cases h1 with
  | refl => exact hf
  | forward => exact absurd rfl (hf _)
  | bnf => intro c e; cases e

theorem Shape.is_forward {o : Obj P} {c : Option Nat} (h1 : Shape (.forward c) o) : ∃ d, o = .forward d := by
  cases h1 <;> exact ⟨_, rfl⟩

structure Ext (h h' : Heap P) : Prop where
  len : h.length ≤ h'.length
  at_ : ∀ (a : Nat) o, h[a]? = some o → ∃ o', h'[a]? = some o' ∧ Shape o o'

theorem Ext.refl (h : Heap P) : Ext h h := ⟨Nat.le_refl _, fun _ o ho => ⟨o, ho, .refl o⟩⟩

theorem Ext.trans {h h' h'' : Heap P} (h1 : Ext h h') (h2 : Ext h' h'') : Ext h h'' := by
  refine ⟨Nat.le_trans h1.len h2.len, fun a o ho => ?_⟩
  obtain ⟨o', k1, k2⟩ := h1.at_ a o ho
  obtain ⟨o'', k3, k4⟩ := h2.at_ a o' k1
  exact ⟨o'', k3, k2.trans k4⟩

theorem Ext.append (h e : Heap P) : Ext h (h ++ e) :=
  ⟨by simp, fun _ o ho => ⟨o, getElem?_append_some ho, .refl o⟩⟩

theorem Ext.back (he : Ext h h') {a : Nat} (hl : a < h.length) {o' : Obj P} (ho : h'[a]? = some o') :
    ∃ o, h[a]? = some o ∧ Shape o o' := by
  obtain ⟨o'', k1, k2⟩ := he.at_ a _ (List.getElem?_eq_getElem hl)
  rw [ho] at k1; cases k1
  exact ⟨_, List.getElem?_eq_getElem hl, k2⟩

def Within (n : Nat) (ts : List (Term P)) : Prop := ∀ r, Term.rule r ∈ ts → r < n

theorem Within.spells (hc : ClosedHeap h) {a : Nat} {o : Obj P} (ho : h[a]? = some o) {us : List (Term P)}
    (hs : Gives o us) : Within h.length us :=
  fun r hr => hc o (List.mem_of_getElem? ho) r (gives_children hs r hr)

theorem Open.ext (he : Ext h h') {ts : List (Term P)} {w : List Nat} (ho : Open N h ts w) : Open N h' ts w := by
  induction ho with
  | nil => exact .nil
  | letter ha _ ih =>
    obtain ⟨o', k1, k2⟩ := he.at_ _ _ ha
    obtain ⟨d, rfl⟩ := k2.is_forward
    exact .letter k1 ih
  | skip ha hn _ ih =>
    obtain ⟨o', k1, k2⟩ := he.at_ _ _ ha
    obtain ⟨d, rfl⟩ := k2.is_forward
    exact .skip k1 hn ih
  | rule ha hf hs _ _ ih1 ih2 =>
    obtain ⟨o', k1, k2⟩ := he.at_ _ _ ha
    exact .rule k1 (k2.fixed hf) (k2.spells hf hs) ih1 ih2

theorem Open.back (he : Ext h h') (hc : ClosedHeap h) {ts : List (Term P)} {w : List Nat} (ho : Open N h' ts w) :
    Within h.length ts → Open N h ts w := by
  induction ho with
  | nil => intro _; exact .nil
  | letter ha _ ih =>
    intro hw
    obtain ⟨o', k1, k2⟩ := he.back (hw _ List.mem_cons_self) ha
    obtain ⟨d, rfl⟩ := k2.symm.is_forward
    exact .letter k1 (ih (fun r hr => hw r (List.mem_cons_of_mem _ hr)))
  | skip ha hn _ ih =>
    intro hw
    obtain ⟨o', k1, k2⟩ := he.back (hw _ List.mem_cons_self) ha
    obtain ⟨d, rfl⟩ := k2.symm.is_forward
    exact .skip k1 hn (ih (fun r hr => hw r (List.mem_cons_of_mem _ hr)))
  | rule ha hf hs _ _ ih1 ih2 =>
    intro hw
    obtain ⟨o', k1, k2⟩ := he.back (hw _ List.mem_cons_self) ha
    have hf' := k2.symm.fixed hf
    have hs' := k2.symm.spells hf hs
    exact .rule k1 hf' hs' (ih1 (Within.spells hc k1 hs')) (ih2 (fun r hr => hw r (List.mem_cons_of_mem _ hr)))

theorem open_ext (he : Ext h h') (hc : ClosedHeap h) {ts : List (Term P)} (hw : Within h.length ts) (w : List Nat) :
    Open N h ts w ↔ Open N h' ts w :=
  ⟨fun h => h.ext he, fun h => h.back he hc hw⟩

theorem within_one {n a : Nat} (ha : a < n) : Within n [Term.rule (P := P) a] := by
  intro r hr
  simp only [List.mem_singleton, Term.rule.injEq] at hr
  omega

/-! ### What is kept -/

theorem repeated_child {o : Obj P} {r : Nat} (hr : repeated o = some r) : r ∈ o.children := by
  cases o <;> first
    | (cases hr; done)
    | (cases hr; exact List.mem_singleton.2 rfl)

variable (N h) in
/-- The words of `u` are words of `t`. -/
def Inc (t u : Term P) : Prop := ∀ w, Open N h [u] w → Open N h [t] w

variable (N h) in
/-- An image of a term. -/
structure Image (t u : Term P) : Prop where
  src : ∀ r, t = .rule r → r < h.length
  dst : ∀ r, u = .rule r → r < h.length
  inc : Inc N h t u

variable (N h) in
abbrev RuleImage (a b : Nat) : Prop := Image N h (.rule a) (.rule b)

theorem image_within {t : Term P} (ht : ∀ r, t = .rule r → r < h.length) : Within h.length [t] := by
  intro r hr
  simp only [List.mem_singleton] at hr
  exact ht r hr.symm

theorem Image.ext {t u : Term P} (hi : Image N h t u) (he : Ext h h') (hc : ClosedHeap h) : Image N h' t u where
  src r e := Nat.lt_of_lt_of_le (hi.src r e) he.len
  dst r e := Nat.lt_of_lt_of_le (hi.dst r e) he.len
  inc w ho := (hi.inc w (ho.back he hc (image_within hi.dst))).ext he

theorem Image.refl {t : Term P} (ht : ∀ r, t = .rule r → r < h.length) : Image N h t t := ⟨ht, ht, fun _ h => h⟩

theorem Image.trans {t u v : Term P} (h1 : Image N h t u) (h2 : Image N h u v) : Image N h t v :=
  ⟨h1.src, h2.dst, fun w ho => h1.inc w (h2.inc w ho)⟩

theorem images_open {ts us : List (Term P)} (hp : Pointwise (Image N h) ts us) {w : List Nat}
    (ho : Open N h us w) : Open N h ts w := by
  induction hp generalizing w with
  | nil => exact ho
  | cons hi _ ih =>
    obtain ⟨v, v', k1, k2, rfl⟩ := open_cons.1 ho
    exact (hi.inc _ k1).append (ih k2)

variable (N lt) in
/-- Objects that are not forward rules refer to what was made before; forward rules stand for later forward
rules only. -/
structure Tame (h : Heap P) : Prop where
  closed : ClosedHeap h
  young : ∀ (a : Nat) o, h[a]? = some o → (∀ c, o ≠ .forward c) → ∀ c ∈ o.children, c < a
  down : ∀ (a c : Nat), h[a]? = some (.forward (some c)) → ∀ b, Open N h [.rule c] [b] → lt b a
  null : ∀ (a c : Nat), h[a]? = some (.forward (some c)) → Open N h [.rule c] [] → N a
  firm : ∀ (a : Nat) o r, h[a]? = some o → repeated o = some r → ¬ Open N h [.rule r] []

variable (N lt) in
structure Good (s : St P) : Prop where
  tame : Tame N lt s.heap
  memo : ∀ e ∈ s.memo, RuleImage N s.heap e.1 e.2

theorem Tame.alloc (ht : Tame N lt h) {o : Obj P} (hf : ∀ c, o ≠ .forward c) (hc : ∀ c ∈ o.children, c < h.length)
    (hq : ∀ r, repeated o = some r → ¬ Open N h [.rule r] []) : Tame N lt (h ++ [o]) := by
  have he := Ext.append h [o]
  have hcl : ClosedHeap (h ++ [o]) := closed_snoc ht.closed (fun c h => Nat.lt_succ_of_lt (hc c h))
  have old : ∀ (a : Nat) x, (h ++ [o])[a]? = some x → h[a]? = some x ∨ (a = h.length ∧ x = o) := by
    intro a x hx
    by_cases hl : a < h.length
    · rw [List.getElem?_append_left hl] at hx; exact .inl hx
    · have := (List.getElem?_eq_some_iff.1 hx).1
      simp at this
      have e : a = h.length := by omega
      subst e
      simp at hx
      exact .inr ⟨rfl, hx.symm⟩
  refine ⟨hcl, fun a x hx hfx c hcx => ?_, fun a c hx b hb => ?_, fun a c hx hb => ?_, fun a x r hx hr hb => ?_⟩
  rotate_left 3
  · rcases old a x hx with k | ⟨rfl, rfl⟩
    · have hl : r < h.length := ht.closed _ (List.mem_of_getElem? k) r (repeated_child hr)
      exact ht.firm a x r k hr (hb.back he ht.closed (within_one hl))
    · exact hq r hr (hb.back he ht.closed (within_one (hc r (repeated_child hr))))
  · rcases old a x hx with k | ⟨rfl, rfl⟩
    · exact ht.young a x k hfx c hcx
    · exact hc c hcx
  · rcases old a _ hx with k | ⟨rfl, k⟩
    · have hl : c < h.length := ht.closed _ (List.mem_of_getElem? k) c (by simp [Obj.children])
      exact ht.down a c k b (hb.back he ht.closed (within_one hl))
    · exact absurd k.symm (hf _)
  · rcases old a _ hx with k | ⟨rfl, k⟩
    · have hl : c < h.length := ht.closed _ (List.mem_of_getElem? k) c (by simp [Obj.children])
      exact ht.null a c k (hb.back he ht.closed (within_one hl))
    · exact absurd k.symm (hf _)

theorem Good.alloc {s : St P} (hs : Good N lt s) {o : Obj P} (hf : ∀ c, o ≠ .forward c)
    (hc : ∀ c ∈ o.children, c < s.heap.length)
    (hq : ∀ r, repeated o = some r → ¬ Open N s.heap [.rule r] [] := by (intro r e; cases e)) :
    Good N lt (s.alloc o).2 :=
  ⟨hs.tame.alloc hf hc hq, fun e he => (hs.memo e he).ext (Ext.append _ _) hs.tame.closed⟩

variable (N lt) in
/-- What a step keeps. -/
def Step {α β : Type} (R : Heap P → α → β → Prop) (f : α → St P → Except Err (β × St P)) : Prop :=
  ∀ x s y s', Good N lt s → f x s = .ok (y, s') → Good N lt s' ∧ Ext s.heap s'.heap ∧ R s'.heap x y

variable (N lt) in
abbrev VisitThin (rec : Visit P) : Prop := Step N lt (RuleImage N) rec

variable (N lt) in
def MethodThin (m : Method P) : Prop :=
  ∀ k rec, VisitThin N lt rec → ∀ (a : Nat) o (s : St P) b s', Good N lt s → s.heap[a]? = some o →
    m k rec a o s = .ok (b, s') → Good N lt s' ∧ Ext s.heap s'.heap ∧ RuleImage N s'.heap a b

theorem visit_thin {m : Method P} {pid : Nat → Nat} (hp : ∀ a b, pid a = pid b → a = b) (hm : MethodThin N lt m) :
    ∀ k, VisitThin N lt (visit m pid k) := by
  intro k
  induction k with
  | zero => intro a s b s' _ h; simp [visit] at h
  | succ k ih =>
    intro a s b s' hg h
    unfold visit at h
    cases hl : s.lookup pid a with
    | some c =>
      simp only [hl, Except.ok.injEq, Prod.mk.injEq] at h
      obtain ⟨rfl, rfl⟩ := h
      unfold St.lookup at hl
      cases hf : s.memo.find? (fun e => decide (pid e.1 = pid a)) with
      | none => simp [hf] at hl
      | some e =>
        simp only [hf, Option.map_some, Option.some.injEq] at hl
        have h1 := List.find?_some hf
        have h2 := List.mem_of_find?_eq_some hf
        have : e.1 = a := hp _ _ (by simpa using h1)
        have := hg.memo e h2
        subst hl
        rename_i e1
        rw [e1] at this
        exact ⟨hg, Ext.refl _, this⟩
    | none =>
      simp only [hl] at h
      cases ho : s.heap[a]? with
      | none => simp [ho] at h
      | some o =>
        simp only [ho] at h
        cases hr : m k (visit m pid k) a o s with
        | error e => simp [hr] at h
        | ok r =>
          obtain ⟨b', s1⟩ := r
          simp only [hr, Except.ok.injEq, Prod.mk.injEq] at h
          obtain ⟨rfl, rfl⟩ := h
          obtain ⟨h1, h2, h3⟩ := hm k _ ih a o s b' s1 hg ho hr
          refine ⟨⟨h1.tame, fun e he => ?_⟩, h2, h3⟩
          simp only [List.mem_cons] at he
          rcases he with rfl | he
          · exact h3
          · exact h1.memo e he

theorem mapSt_thin {α β : Type} {R : Heap P → α → β → Prop}
    (hR : ∀ h h' x y, Ext h h' → ClosedHeap h → R h x y → R h' x y)
    {f : α → St P → Except Err (β × St P)} (hf : Step N lt R f) :
    Step N lt (fun h xs ys => Pointwise (R h) xs ys) (mapSt f) := by
  intro xs
  induction xs with
  | nil =>
    intro s ys s' hg h
    cases h
    exact ⟨hg, Ext.refl _, .nil⟩
  | cons x xs ih =>
    intro s ys s' hg h
    simp only [mapSt] at h
    split at h
    · cases h
    · rename_i h1
      split at h
      · cases h
      · rename_i h2
        cases h
        obtain ⟨k1, k2, k3⟩ := hf _ _ _ _ hg h1
        obtain ⟨k4, k5, k6⟩ := ih _ _ _ k1 h2
        exact ⟨k4, k2.trans k5, .cons (hR _ _ _ _ k5 k1.tame.closed k3) k6⟩

theorem image_mono (h h' : Heap P) (x y : Term P) (he : Ext h h') (hc : ClosedHeap h) (hi : Image N h x y) :
    Image N h' x y := hi.ext he hc

theorem ruleImage_mono (h h' : Heap P) (x y : Nat) (he : Ext h h') (hc : ClosedHeap h) (hi : RuleImage N h x y) :
    RuleImage N h' x y := hi.ext he hc

theorem visitTerm_thin {rec : Visit P} (hr : VisitThin N lt rec) : Step N lt (Image N) (visitTerm rec) := by
  intro t s u s' hg h
  cases t with
  | pred p =>
    cases h
    exact ⟨hg, Ext.refl _, Image.refl (fun r e => by cases e)⟩
  | rule r =>
    simp only [visitTerm] at h
    cases hx : rec r s with
    | error e => rw [hx] at h; cases h
    | ok x => rw [hx] at h; cases h; exact hr _ _ _ _ hg hx

/-- A new object whose parts have words of the old one. -/
theorem made {s s1 : St P} (hg1 : Good N lt s1) (he : Ext s.heap s1.heap) {a : Nat} {o o' : Obj P}
    (ho : s.heap[a]? = some o) (hf : ∀ c, o ≠ .forward c) (hf' : ∀ c, o' ≠ .forward c)
    (hc : ∀ c ∈ o'.children, c < s1.heap.length)
    (hw : ∀ h, Ext s1.heap h → ∀ us w, Gives o' us → Open N h us w → ∃ vs, Gives o vs ∧ Open N h vs w)
    {b : Nat} {s' : St P} (h : s1.alloc o' = (b, s'))
    (hq : ∀ r, repeated o' = some r → ¬ Open N s1.heap [.rule r] [] := by (intro r e; cases e)) :
    Good N lt s' ∧ Ext s.heap s'.heap ∧ RuleImage N s'.heap a b := by
  have hg' := hg1.alloc hf' hc hq
  rw [h] at hg'
  have hh : s'.heap = s1.heap ++ [o'] ∧ b = s1.heap.length := by
    cases h; exact ⟨rfl, rfl⟩
  have e1 : Ext s1.heap s'.heap := by rw [hh.1]; exact Ext.append _ _
  refine ⟨hg', he.trans e1, ?_, ?_, ?_⟩
  · intro r e
    cases e
    exact Nat.lt_of_lt_of_le (List.getElem?_eq_some_iff.1 ho).1 (he.trans e1).len
  · intro r e
    cases e
    rw [hh.1, hh.2]
    simp
  · intro w hop
    have hb : s'.heap[b]? = some o' := by rw [hh.1, hh.2]; simp
    obtain ⟨us, k1, k2⟩ := (open_one hb hf').1 hop
    obtain ⟨vs, k3, k4⟩ := hw _ e1 us w k1 k2
    obtain ⟨oa, k5, k6⟩ := (he.trans e1).at_ a o ho
    exact (open_one k5 (k6.fixed hf)).2 ⟨vs, k6.spells hf k3, k4⟩

theorem images_within {ts us : List (Term P)} (hp : Pointwise (Image N h) ts us) : ∀ c ∈ termRules us, c < h.length := by
  induction hp with
  | nil => intro c hc; simp [termRules] at hc
  | @cons t u ts us h1 _ ih =>
    intro c hc
    cases u with
    | pred => exact ih c (by simpa [termRules] using hc)
    | rule b =>
      simp only [termRules, List.mem_cons] at hc
      rcases hc with rfl | hc
      · exact h1.dst _ rfl
      · exact ih c hc

theorem pointwise_back {α β : Type} {R : α → β → Prop} {xs : List α} {ys : List β} (hp : Pointwise R xs ys) :
    ∀ y ∈ ys, ∃ x ∈ xs, R x y := by
  induction hp with
  | nil => intro x hx; cases hx
  | cons h _ ih =>
    intro x hx
    rcases List.mem_cons.1 hx with rfl | hx
    · exact ⟨_, List.mem_cons_self, h⟩
    · obtain ⟨y, h1, h2⟩ := ih x hx; exact ⟨y, List.mem_cons_of_mem _ h1, h2⟩

theorem rules_within {xs ys : List Nat} (hp : Pointwise (RuleImage N h) xs ys) : ∀ c ∈ ys, c < h.length := by
  intro c hc
  obtain ⟨x, _, k⟩ := pointwise_back hp c hc
  exact k.dst c rfl

/-- A production is made of the images of its terms. -/
theorem prod_thin {f : Term P → St P → Except Err (Term P × St P)} (hf : Step N lt (Image N) f) {a : Nat}
    {ts : List (Term P)} {m : Nat} {s : St P} (hg : Good N lt s) (ho : s.heap[a]? = some (.prod ts m)) {b : Nat}
    {s' : St P} (h : rebuildAll f ts (.prod · m) s = .ok (b, s')) :
    Good N lt s' ∧ Ext s.heap s'.heap ∧ RuleImage N s'.heap a b := by
  unfold rebuildAll at h
  cases hx : mapSt f ts s with
  | error e => rw [hx] at h; cases h
  | ok x =>
    obtain ⟨us, s1⟩ := x
    rw [hx] at h
    simp only [Except.map, Except.ok.injEq] at h
    obtain ⟨h1, h2, h3⟩ := mapSt_thin image_mono hf _ _ _ _ hg hx
    refine made (o' := .prod us m) h1 h2 ho (by intro c e; cases e) (by intro c e; cases e) (images_within h3) ?_ h
    intro g he us' w hs hop
    cases hs
    exact ⟨ts, .prod, images_open (pointwise_mono (fun x y hi => hi.ext he h1.tame.closed) h3) hop⟩

/-- A rule with alternatives is made of the images of its alternatives. -/
theorem alts_thin {f : Nat → St P → Except Err (Nat × St P)} (hf : Step N lt (RuleImage N) f) {a : Nat} {o : Obj P}
    {ps : List Nat} {mk : List Nat → Obj P} {s : St P} (hg : Good N lt s) (ho : s.heap[a]? = some o)
    (hof : ∀ c, o ≠ .forward c) (hmf : ∀ ys c, mk ys ≠ .forward c) (hmc : ∀ ys, (mk ys).children = ys)
    (hos : ∀ p ∈ ps, Gives o [.rule p]) (hms : ∀ ys us, Gives (mk ys) us → ∃ y ∈ ys, us = [.rule y]) {b : Nat}
    {s' : St P} (h : rebuildAll f ps mk s = .ok (b, s'))
    (hmr : ∀ ys r, repeated (mk ys) ≠ some r := by (intro _ r e; cases e)) :
    Good N lt s' ∧ Ext s.heap s'.heap ∧ RuleImage N s'.heap a b := by
  unfold rebuildAll at h
  cases hx : mapSt f ps s with
  | error e => rw [hx] at h; cases h
  | ok x =>
    obtain ⟨ys, s1⟩ := x
    rw [hx] at h
    simp only [Except.map, Except.ok.injEq] at h
    obtain ⟨h1, h2, h3⟩ := mapSt_thin ruleImage_mono hf _ _ _ _ hg hx
    refine made h1 h2 ho hof (hmf _) (by rw [hmc]; exact rules_within h3) ?_ h (fun r e => absurd e (hmr _ r))
    intro g he us w hs hop
    obtain ⟨y, y1, rfl⟩ := hms _ _ hs
    obtain ⟨p, p1, p2⟩ := pointwise_back h3 y y1
    exact ⟨_, hos p p1, (p2.ext he h1.tame.closed).inc w hop⟩

/-- Something around one rule. -/
theorem around_thin {rec : Visit P} (hr : VisitThin N lt rec) {a r : Nat} {mk : Nat → Obj P} {s : St P}
    (hg : Good N lt s) (ho : s.heap[a]? = some (mk r)) (hmf : ∀ y c, mk y ≠ .forward c)
    (hmc : ∀ y, (mk y).children = [y])
    (hms : ∀ y us, Gives (mk y) us → ∃ n, us = List.replicate n (.rule y) ∧
      ∀ r, Gives (mk r) (List.replicate n (.rule r))) {b : Nat} {s' : St P}
    (h : rebuild rec r mk s = .ok (b, s'))
    (hmr : ∀ y r', repeated (mk y) = some r' → r' = y ∧ repeated (mk r) = some r := by (intro _ r e; cases e)) :
    Good N lt s' ∧ Ext s.heap s'.heap ∧ RuleImage N s'.heap a b := by
  unfold rebuild at h
  cases hx : rec r s with
  | error e => rw [hx] at h; cases h
  | ok x =>
    obtain ⟨y, s1⟩ := x
    rw [hx] at h
    simp only [Except.map, Except.ok.injEq] at h
    obtain ⟨h1, h2, h3⟩ := hr _ _ _ _ hg hx
    refine made h1 h2 ho (hmf _) (hmf _) ?_ ?_ h ?_
    rotate_left 2
    · intro r' e hop
      obtain ⟨rfl, e2⟩ := hmr _ _ e
      have hrl : r < s.heap.length := hg.tame.closed _ (List.mem_of_getElem? ho) r (repeated_child e2)
      exact hg.tame.firm a _ r ho e2 ((h3.inc [] hop).back h2 hg.tame.closed (within_one hrl))
    · rw [hmc]
      intro c hc
      rw [List.mem_singleton] at hc
      subst hc
      exact h3.dst _ rfl
    · intro g he us w hs hop
      obtain ⟨n, rfl, k⟩ := hms _ _ hs
      refine ⟨_, k r, ?_⟩
      have hi := h3.ext he h1.tame.closed
      clear hs k
      induction n generalizing w with
      | zero => exact hop
      | succ n ih =>
        rw [List.replicate_succ] at hop ⊢
        obtain ⟨v, v', k1, k2, rfl⟩ := open_cons.1 hop
        exact (hi.inc _ k1).append (ih _ k2)

theorem self_thin {a : Nat} {o : Obj P} {s : St P} (hg : Good N lt s) (ho : s.heap[a]? = some o) :
    Good N lt s ∧ Ext s.heap s.heap ∧ RuleImage N s.heap a a :=
  ⟨hg, Ext.refl _, Image.refl (fun r e => by cases e; exact (List.getElem?_eq_some_iff.1 ho).1)⟩

theorem default_thin : MethodThin N lt (defaultMethod : Method P) := by
  intro k rec hr a o s b s' hg ho h
  have self : (.ok (a, s) : Except Err (Nat × St P)) = .ok (b, s') →
      Good N lt s' ∧ Ext s.heap s'.heap ∧ RuleImage N s'.heap a b := by
    intro h; cases h; exact self_thin hg ho
  cases o <;> simp only [defaultMethod] at h
  case prod ts m => exact prod_thin (visitTerm_thin hr) hg ho h
  case emptyProd => exact self h
  case pipeProd => exact self h
  case rule ps =>
    refine alts_thin hr hg ho (by intro c e; cases e) (by intro _ c e; cases e) (fun _ => rfl)
      (fun p hp => .rule hp) ?_ h
    intro ys us hs; cases hs with | rule hp => exact ⟨_, hp, rfl⟩
  case or ps =>
    refine alts_thin hr hg ho (by intro c e; cases e) (by intro _ c e; cases e) (fun _ => rfl)
      (fun p hp => .or hp) ?_ h
    intro ys us hs; cases hs with | or hp => exact ⟨_, hp, rfl⟩
  case optional => cases h
  case repeatable => cases h
  case repOptional => cases h
  case minBounded r min rev =>
    refine around_thin (mk := (.minBounded · min rev)) hr hg ho (by intro _ c e; cases e) (fun _ => rfl) ?_ h ?_
    · intro y us hs; cases hs with | minBounded hn => exact ⟨_, rfl, fun _ => .minBounded hn⟩
    · intro y r' e; cases e; exact ⟨rfl, rfl⟩
  case maxBounded r max rev =>
    refine around_thin (mk := (.maxBounded · max rev)) hr hg ho (by intro _ c e; cases e) (fun _ => rfl) ?_ h
    intro y us hs; cases hs with | maxBounded h1 => exact ⟨_, rfl, fun _ => .maxBounded h1⟩
  case minMaxBounded r min max rev =>
    refine around_thin (mk := (.minMaxBounded · min max rev)) hr hg ho (by intro _ c e; cases e) (fun _ => rfl) ?_ h
    intro y us hs; cases hs with | minMaxBounded h1 => exact ⟨_, rfl, fun _ => .minMaxBounded h1⟩
  case named r n =>
    refine around_thin (mk := (.named · n)) hr hg ho (by intro _ c e; cases e) (fun _ => rfl) ?_ h
    intro y us hs; cases hs; exact ⟨1, rfl, fun _ => .named⟩
  case interp r n =>
    refine around_thin (mk := (.interp · n)) hr hg ho (by intro _ c e; cases e) (fun _ => rfl) ?_ h
    intro y us hs; cases hs; exact ⟨1, rfl, fun _ => .interp⟩
  case relation r n =>
    refine around_thin (mk := (.relation · n)) hr hg ho (by intro _ c e; cases e) (fun _ => rfl) ?_ h
    intro y us hs; cases hs; exact ⟨1, rfl, fun _ => .relation⟩
  case forward => exact self h
  case empty => exact self h
  case pipe => exact self h
  case bnf ps n i r kd =>
    refine alts_thin hr hg ho (by intro c e; cases e) (by intro _ c e; cases e) (fun _ => rfl)
      (fun p hp => .bnf hp) ?_ h
    intro ys us hs; cases hs with | rule hp => exact ⟨_, hp, rfl⟩

/-! ### Alternatives and empty rules -/

theorem visitProd_thin {rec : Visit P} (hr : VisitThin N lt rec) : Step N lt (RuleImage N) (visitProd rec) := by
  intro r s b s' hg h
  unfold visitProd rebuild at h
  cases hx : rec r s with
  | error e => rw [hx] at h; cases h
  | ok x =>
    obtain ⟨y, s1⟩ := x
    rw [hx] at h
    simp only [Except.map, Except.ok.injEq] at h
    obtain ⟨h1, h2, h3⟩ := hr _ _ _ _ hg hx
    have hf : ∀ c, (Obj.prod [.rule y] 0 : Obj P) ≠ .forward c := by intro c e; cases e
    have h4 := h1.alloc (o := .prod [.rule y] 0) hf (by
      intro c hc
      have : c = y := by simpa [Obj.children, termRules] using hc
      subst this
      exact h3.dst _ rfl)
    rw [h] at h4
    have hh : s'.heap = s1.heap ++ [.prod [.rule y] 0] ∧ b = s1.heap.length := by
      cases h; exact ⟨rfl, rfl⟩
    have e1 : Ext s1.heap s'.heap := by rw [hh.1]; exact Ext.append _ _
    have hi := h3.ext e1 h1.tame.closed
    refine ⟨h4, h2.trans e1, hi.src, ?_, ?_⟩
    · intro r e; cases e; rw [hh.1, hh.2]; simp
    · intro w hop
      have hb : s'.heap[b]? = some (.prod [.rule y] 0) := by rw [hh.1, hh.2]; simp
      obtain ⟨us, k1, k2⟩ := (open_one hb hf).1 hop
      cases k1
      exact hi.inc w k2

theorem or_thin : MethodThin N lt (orMethod : Method P) := by
  intro k rec hr a o s b s' hg ho h
  unfold orMethod at h
  split at h
  · refine alts_thin (visitProd_thin hr) hg ho (by intro c e; cases e) (by intro _ c e; cases e) (fun _ => rfl)
      (fun p hp => .or hp) ?_ h
    intro ys us hs; cases hs with | rule hp => exact ⟨_, hp, rfl⟩
  · exact default_thin k rec hr a _ s b s' hg ho h

theorem empty_thin : MethodThin N lt (emptyMethod : Method P) := by
  intro k rec hr a o s b s' hg ho h
  unfold emptyMethod at h
  split at h
  · simp only [Except.ok.injEq] at h
    have h1 := hg.alloc (o := .emptyProd) (by intro c e; cases e) (by intro c hc; cases hc)
    refine made (s1 := (s.alloc .emptyProd).2) h1 (Ext.append _ _) ho (by intro c e; cases e)
      (o' := .rule [s.heap.length]) (by intro c e; cases e) ?_ ?_ h
    · intro c hc
      have : c = s.heap.length := by simpa [Obj.children] using hc
      subst this
      simp [St.alloc]
    · intro g he us w hs hop
      cases hs with
      | rule hp =>
        rw [List.mem_singleton] at hp
        subst hp
        obtain ⟨o', k1, k2⟩ := he.at_ s.heap.length .emptyProd (by simp [St.alloc])
        cases k2
        obtain ⟨vs, k3, k4⟩ := (open_one k1 (by intro c e; cases e)).1 hop
        cases k3
        exact ⟨[], .empty, k4⟩
  · exact default_thin k rec hr a _ s b s' hg ho h

/-! ### Rules with one term -/

theorem termsAt_open {p : Nat} {t : Term P} (hp : termsAt h p = [t]) {w : List Nat} (ho : Open N h [t] w) :
    Open N h [.rule p] w := by
  unfold termsAt at hp
  split at hp
  · rename_i ts m hx
    subst hp
    exact (open_one hx (by intro c e; cases e)).2 ⟨_, .prod, ho⟩
  · rename_i v ts hx
    rw [← hp] at ho
    cases ts with
    | nil => cases hp
    | cons t ts => cases ho
  · cases hp

theorem flattenTerm_thin {rec : Visit P} (hr : VisitThin N lt rec) (k : Nat) :
    Step N lt (Image N) (flattenTerm rec k) := by
  induction k with
  | zero => intro t s y s' _ h; simp [flattenTerm] at h
  | succ k ih =>
    intro t s y s' hg h
    cases t with
    | pred p => cases h; exact ⟨hg, Ext.refl _, Image.refl (fun r e => by cases e)⟩
    | rule r =>
      simp only [flattenTerm] at h
      split at h
      · rename_i p hrp
        split at h
        · rename_i t' ht
          obtain ⟨h1, h2, h3⟩ := ih _ _ _ _ hg h
          refine ⟨h1, h2, ?_, h3.dst, fun w hop => ?_⟩
          · intro r' e; cases e
            exact Nat.lt_of_lt_of_le (List.getElem?_eq_some_iff.1 hrp).1 h2.len
          · have hw : Within s.heap.length [t'] := by
              have hl : p < s.heap.length := hg.tame.closed _ (List.mem_of_getElem? hrp) p (by simp [Obj.children])
              intro x hx
              unfold termsAt at ht
              split at ht
              · rename_i ts m hpp
                subst ht
                exact hg.tame.closed _ (List.mem_of_getElem? hpp) x (by
                  simp only [List.mem_singleton] at hx
                  subst hx
                  simp [Obj.children, termRules])
              · rename_i v ts hpp
                rw [← ht] at hx
                simp at hx
              · cases ht
            have k1 := (h3.inc w hop).back h2 hg.tame.closed hw
            have k2 := termsAt_open ht k1
            exact ((open_one hrp (by intro c e; cases e)).2 ⟨_, .rule List.mem_cons_self, k2⟩).ext h2
        · exact visitTerm_thin hr _ _ _ _ hg h
      · exact visitTerm_thin hr _ _ _ _ hg h

theorem flatten_thin : MethodThin N lt (flattenMethod : Method P) := by
  intro k rec hr a o s b s' hg ho h
  unfold flattenMethod at h
  split at h
  · rename_i ts m
    split at h
    · rename_i r
      split at h
      · rename_i p hrp
        obtain ⟨h1, h2, h3⟩ := hr p s b s' hg h
        refine ⟨h1, h2, ?_, h3.dst, fun w hop => ?_⟩
        · intro r' e; cases e
          exact Nat.lt_of_lt_of_le (List.getElem?_eq_some_iff.1 ho).1 h2.len
        · have k1 := h3.inc w hop
          obtain ⟨o1, q1, q2⟩ := h2.at_ _ _ hrp
          obtain ⟨o2, q3, q4⟩ := h2.at_ _ _ ho
          cases q2
          cases q4
          exact (open_one q3 (by intro c e; cases e)).2
            ⟨_, .prod, (open_one q1 (by intro c e; cases e)).2 ⟨_, .rule List.mem_cons_self, k1⟩⟩
      · exact prod_thin (flattenTerm_thin hr k) hg ho h
    · exact prod_thin (flattenTerm_thin hr k) hg ho h
  · exact default_thin k rec hr a _ s b s' hg ho h

/-! ### Compiled rules -/

variable (N lt) in
/-- Something is made from a rule. -/
def Makes (s s' : St P) (a b : Nat) : Prop := Good N lt s' ∧ Ext s.heap s'.heap ∧ RuleImage N s'.heap a b

theorem Makes.trans {s s' s'' : St P} {a b c : Nat} (h1 : Makes N lt s s' a b) (h2 : Makes N lt s' s'' b c) :
    Makes N lt s s'' a c :=
  ⟨h2.1, h1.2.1.trans h2.2.1, (h1.2.2.ext h2.2.1 h1.1.tame.closed).trans h2.2.2⟩

theorem lift_makes {s : St P} (hg : Good N lt s) {b : Nat} (hb : b < s.heap.length) :
    Makes N lt s (s.lift b).2 b (s.lift b).1 := by
  have hf : ∀ c, (Obj.prod [.rule b] 0 : Obj P) ≠ .forward c := by intro c e; cases e
  have hf' : ∀ c, (Obj.bnf [s.heap.length] none none none none : Obj P) ≠ .forward c := by intro c e; cases e
  have h1 := hg.alloc (o := .prod [.rule b] 0) hf (by
    intro c hc
    have : c = b := by simpa [Obj.children, termRules] using hc
    omega)
  have h2 := h1.alloc (o := .bnf [s.heap.length] none none none none) hf' (by
    intro c hc
    have : c = s.heap.length := by simpa [Obj.children] using hc
    subst this
    simp [St.alloc])
  have e : Ext s.heap (s.lift b).2.heap := (Ext.append _ _).trans (Ext.append _ _)
  refine ⟨h2, e, ?_, ?_, ?_⟩
  · intro r q; cases q; exact Nat.lt_of_lt_of_le hb e.len
  · intro r q; cases q; simp [St.lift, St.alloc]
  · intro w hop
    have q1 : (s.lift b).2.heap[(s.lift b).1]? = some (.bnf [s.heap.length] none none none none) := by
      simp [St.lift, St.alloc]
    have q2 : (s.lift b).2.heap[s.heap.length]? = some (.prod [.rule b] 0) := by
      simp [St.lift, St.alloc]
    obtain ⟨us, k1, k2⟩ := (open_one q1 hf').1 hop
    cases k1 with
    | bnf hp =>
      rw [List.mem_singleton] at hp
      subst hp
      obtain ⟨us, k3, k4⟩ := (open_one q2 hf).1 k2
      cases k3
      exact k4

theorem Tame.shape (ht : Tame N lt h) (he : Ext h h') (hl : h'.length = h.length)
    (hfw : ∀ (a : Nat) c, h'[a]? = some (.forward c) → h[a]? = some (.forward c)) : Tame N lt h' := by
  have hcl : ClosedHeap h' := by
    intro o ho c hc
    obtain ⟨a, ha⟩ := List.mem_iff_getElem?.1 ho
    have hlt : a < h.length := hl ▸ (List.getElem?_eq_some_iff.1 ha).1
    obtain ⟨o', k1, k2⟩ := he.back hlt ha
    rw [hl]
    cases k2 with
    | refl => exact ht.closed _ (List.mem_of_getElem? k1) c hc
    | forward c' d => exact ht.closed _ (List.mem_of_getElem? (hfw a d ha)) c hc
    | bnf => exact ht.closed _ (List.mem_of_getElem? k1) c hc
  refine ⟨hcl, fun a o ho hf c hc => ?_, fun a c ho b hb => ?_, fun a c ho hb => ?_, fun a o r ho hr hb => ?_⟩
  rotate_left 3
  · have hlt : a < h.length := hl ▸ (List.getElem?_eq_some_iff.1 ho).1
    obtain ⟨o', k1, k2⟩ := he.back hlt ho
    have e : o' = o := by
      cases k2 with
      | refl => rfl
      | forward => cases hr
      | bnf => cases hr
    subst e
    have hrl : r < h.length := ht.closed _ (List.mem_of_getElem? k1) r (repeated_child hr)
    exact ht.firm a _ r k1 hr (hb.back he ht.closed (within_one hrl))
  · have hlt : a < h.length := hl ▸ (List.getElem?_eq_some_iff.1 ho).1
    obtain ⟨o', k1, k2⟩ := he.back hlt ho
    refine ht.young a o' k1 (k2.symm.fixed hf) c ?_
    cases k2 with
    | refl => exact hc
    | forward => exact absurd rfl (hf _)
    | bnf => exact hc
  · have k := hfw a _ ho
    have hlt : c < h.length := ht.closed _ (List.mem_of_getElem? k) c (by simp [Obj.children])
    exact ht.down a c k b (hb.back he ht.closed (within_one hlt))
  · have k := hfw a _ ho
    have hlt : c < h.length := ht.closed _ (List.mem_of_getElem? k) c (by simp [Obj.children])
    exact ht.null a c k (hb.back he ht.closed (within_one hlt))

theorem setAttrAt_ext (h : Heap P) (b : Nat) (x : Attr) : Ext h (setAttrAt h b x) ∧
    (setAttrAt h b x).length = h.length ∧
    ∀ (a : Nat) c, (setAttrAt h b x)[a]? = some (.forward c) → h[a]? = some (.forward c) := by
  unfold setAttrAt
  split
  · rename_i ps n i r kd ho
    have hlt := (List.getElem?_eq_some_iff.1 ho).1
    have go : ∀ n' i' r', Ext h (h.set b (.bnf ps n' i' r' kd)) ∧
        (h.set b (.bnf ps n' i' r' kd)).length = h.length ∧
        ∀ (a : Nat) c, (h.set b (.bnf ps n' i' r' kd))[a]? = some (.forward c) → h[a]? = some (.forward c) := by
      intro n' i' r'
      refine ⟨⟨by simp, fun a o ha => ?_⟩, by simp, fun a c ha => ?_⟩
      · by_cases e : b = a
        · subst e
          rw [ho] at ha; cases ha
          exact ⟨_, List.getElem?_set_self hlt, .bnf _ _ _ _ _ _ _ _ _⟩
        · exact ⟨o, by rw [List.getElem?_set_ne e]; exact ha, .refl o⟩
      · by_cases e : b = a
        · subst e
          rw [List.getElem?_set_self hlt] at ha; cases ha
        · rwa [List.getElem?_set_ne e] at ha
    cases x <;> exact go _ _ _
  · exact ⟨Ext.refl _, rfl, fun _ _ h => h⟩

theorem setAttr_makes {s : St P} (hg : Good N lt s) {b : Nat} (hb : b < s.heap.length) (x : Attr) :
    Makes N lt s { s with heap := setAttrAt s.heap b x } b b := by
  obtain ⟨h1, h2, h3⟩ := setAttrAt_ext s.heap b x
  refine ⟨⟨hg.tame.shape h1 h2 h3, fun e he => (hg.memo e he).ext h1 hg.tame.closed⟩, h1, ?_⟩
  exact Image.refl (fun r e => by cases e; show b < (setAttrAt s.heap b x).length; rw [h2]; exact hb)

theorem visitWrapped_thin {parents : Nat → Nat} {rec : Visit P} (hr : VisitThin N lt rec) {r : Nat} {s : St P}
    (hg : Good N lt s) {b : Nat} {s' : St P} (h : visitWrapped parents rec r s = .ok (b, s')) :
    Makes N lt s s' r b := by
  unfold visitWrapped at h
  split at h
  · rename_i c ho
    simp only [Except.ok.injEq] at h
    have := lift_makes hg (List.getElem?_eq_some_iff.1 ho).1
    rwa [h] at this
  · split at h
    · cases h
    · cases hx : rec r s with
      | error e => rw [hx] at h; cases h
      | ok x =>
        obtain ⟨y, s1⟩ := x
        rw [hx] at h
        simp only [Except.map, Except.ok.injEq] at h
        have h1 : Makes N lt s s1 r y := hr _ _ _ _ hg hx
        split at h
        · have := h1.trans (lift_makes h1.1 (h1.2.2.dst _ rfl))
          rwa [h] at this
        · cases h; exact h1

theorem visitWrapper_thin {parents : Nat → Nat} {rec : Visit P} (hr : VisitThin N lt rec) {a r : Nat} {x : Attr}
    {o : Obj P} {s : St P} (hg : Good N lt s) (ho : s.heap[a]? = some o) (hf : ∀ c, o ≠ .forward c)
    (hs : Gives o [.rule r]) {b : Nat} {s' : St P}
    (h : visitWrapper parents rec r x s = .ok (b, s')) : Makes N lt s s' a b := by
  unfold visitWrapper at h
  cases hx : visitWrapped parents rec r s with
  | error e => rw [hx] at h; cases h
  | ok y =>
    obtain ⟨b1, s1⟩ := y
    rw [hx] at h
    simp only at h
    have h1 := visitWrapped_thin hr hg hx
    have top : ∀ {s' : St P} {b : Nat}, Makes N lt s s' r b → Makes N lt s s' a b := by
      intro s' b k
      refine ⟨k.1, k.2.1, ?_, k.2.2.dst, fun w hop => ?_⟩
      · intro x e; cases e; exact Nat.lt_of_lt_of_le (List.getElem?_eq_some_iff.1 ho).1 k.2.1.len
      · obtain ⟨o', q1, q2⟩ := k.2.1.at_ _ _ ho
        exact (open_one q1 (q2.fixed hf)).2 ⟨_, q2.spells hf hs, k.2.2.inc w hop⟩
    cases hh : hasAttr s1.heap b1 x with
    | error e => rw [hh] at h; cases h
    | ok has =>
      rw [hh] at h
      simp only [Except.ok.injEq] at h
      cases has with
      | true =>
        simp only [if_true] at h
        have h2 := h1.trans (lift_makes h1.1 (h1.2.2.dst _ rfl))
        have h3 := h2.trans (setAttr_makes h2.1 (h2.2.2.dst _ rfl) x)
        cases h
        exact top h3
      | false =>
        simp only [Bool.false_eq_true, if_false] at h
        have h3 := h1.trans (setAttr_makes h1.1 (h1.2.2.dst _ rfl) x)
        cases h
        exact top h3

theorem allocKeys_thin : ∀ (keys : List (Str × List P)) (s : St P), Good N lt s →
    Good N lt (allocKeys keys s).2 ∧ Ext s.heap (allocKeys keys s).2.heap ∧
      ∀ p ∈ (allocKeys keys s).1, p < (allocKeys keys s).2.heap.length ∧
        ∃ k ∈ keys, (allocKeys keys s).2.heap[p]? = some (.pipeProd k.1 k.2) := by
  intro keys
  induction keys with
  | nil => intro s hg; exact ⟨hg, Ext.refl _, by intro p hp; cases hp⟩
  | cons key rest ih =>
    intro s hg
    obtain ⟨value, terms⟩ := key
    have h1 := hg.alloc (o := .pipeProd value terms) (by intro c e; cases e) (by intro c hc; cases hc)
    obtain ⟨h2, h3, h4⟩ := ih _ h1
    simp only [allocKeys]
    refine ⟨h2, (Ext.append _ _).trans h3, ?_⟩
    intro p hp
    rcases List.mem_cons.1 hp with rfl | hp
    · obtain ⟨o', q1, q2⟩ := h3.at_ s.heap.length (.pipeProd value terms) (by simp [St.alloc])
      cases q2
      exact ⟨(List.getElem?_eq_some_iff.1 q1).1, _, List.mem_cons_self, q1⟩
    · obtain ⟨q1, k, q2, q3⟩ := h4 p hp
      exact ⟨q1, k, List.mem_cons_of_mem _ q2, q3⟩

theorem bnf_thin (parents : Nat → Nat) : MethodThin N lt (bnfMethod parents : Method P) := by
  intro k rec hr a o s b s' hg ho h
  unfold bnfMethod at h
  have hbs : ∀ (ys : List Nat) (us : List (Term P)), Gives (.bnf ys none none none none) us →
      ∃ y ∈ ys, us = [.rule y] := by
    intro ys us hs; cases hs with | bnf hp => exact ⟨_, hp, rfl⟩
  split at h
  · exact alts_thin hr hg ho (by intro c e; cases e) (by intro _ c e; cases e) (fun _ => rfl)
      (fun p hp => .rule hp) hbs h
  · exact alts_thin hr hg ho (by intro c e; cases e) (by intro _ c e; cases e) (fun _ => rfl)
      (fun p hp => .bnf hp) hbs h
  · cases h
  · cases h
  · exact visitWrapper_thin hr hg ho (by intro c e; cases e) .named h
  · exact visitWrapper_thin hr hg ho (by intro c e; cases e) .interp h
  · exact visitWrapper_thin hr hg ho (by intro c e; cases e) .relation h
  · rename_i p
    unfold pipeBnf at h
    split at h
    · cases h
    · split at h
      · cases h
      · rename_i kind keys _
        obtain ⟨h1, h2, h3⟩ := allocKeys_thin (N := N) (lt := lt) keys s hg
        simp only [Except.ok.injEq] at h
        refine made (o' := .bnf (allocKeys keys s).1 none none none (some kind)) h1 h2 ho (by intro c e; cases e)
          (by intro c e; cases e) (fun c hc => (h3 c hc).1) ?_ h
        intro g he us w hs hop
        cases hs with
        | bnf hp =>
          obtain ⟨_, key, q2, q3⟩ := h3 _ hp
          obtain ⟨o', q4, q5⟩ := he.at_ _ _ q3
          cases q5
          obtain ⟨us, k1, k2⟩ := (open_one q4 (by intro c e; cases e)).1 hop
          cases k1
  · exact default_thin k rec hr a _ s b s' hg ho h

/-! ### Whole passes -/

theorem redefine_thin {m : Method P} {pid : Nat → Nat} (hp : ∀ a b, pid a = pid b → a = b)
    (hm : MethodThin N lt m) {limit : Nat} : ∀ n queue seen (s s' : St P), Good N lt s →
    redefine m pid limit n queue seen s = .ok s' → Good N lt s' ∧ Ext s.heap s'.heap := by
  intro n
  induction n with
  | zero => intro queue seen s s' _ h; simp [redefine] at h
  | succ n ih =>
    intro queue seen s s' hg h
    cases queue with
    | nil =>
      simp only [redefine, Except.ok.injEq] at h
      subst h
      exact ⟨hg, Ext.refl _⟩
    | cons a queue =>
      unfold redefine at h
      split at h
      · rename_i r ho
        cases h1 : visit m pid limit r s with
        | error e => simp [h1] at h
        | ok x =>
          obtain ⟨b, s1⟩ := x
          simp only [h1] at h
          cases h2 : defineForward a b s1.heap with
          | error e => simp [h2] at h
          | ok h' =>
            simp only [h2] at h
            obtain ⟨k1, k2, k3⟩ := visit_thin hp hm limit _ _ _ _ hg h1
            have hh' : h' = s1.heap.set a (.forward (some b)) := by
              unfold defineForward at h2
              split at h2
              · cases h2
              · cases h2; rfl
            subst hh'
            obtain ⟨o1, q1, q2⟩ := k2.at_ a _ ho
            obtain ⟨d, rfl⟩ := q2.is_forward
            have hlt := (List.getElem?_eq_some_iff.1 q1).1
            have at' : ∀ (x : Nat) o, (s1.heap.set a (.forward (some b)))[x]? = some o →
                (x = a ∧ o = .forward (some b)) ∨ (x ≠ a ∧ s1.heap[x]? = some o) := by
              intro x o hx
              by_cases e : x = a
              · subst e
                rw [List.getElem?_set_self hlt] at hx
                cases hx
                exact .inl ⟨rfl, rfl⟩
              · rw [List.getElem?_set_ne (Ne.symm e)] at hx
                exact .inr ⟨e, hx⟩
            have he : Ext s1.heap (s1.heap.set a (.forward (some b))) := by
              refine ⟨by simp, fun x o hx => ?_⟩
              by_cases e : a = x
              · subst e
                rw [q1] at hx; cases hx
                exact ⟨_, List.getElem?_set_self hlt, .forward _ _⟩
              · exact ⟨o, by rw [List.getElem?_set_ne e]; exact hx, .refl o⟩
            have hblt : b < s1.heap.length := k3.dst _ rfl
            have hrlt : r < s.heap.length := hg.tame.closed _ (List.mem_of_getElem? ho) r (by simp [Obj.children])
            -- the words of the new contents are words of the old contents
            have hinc : ∀ w, Open N (s1.heap.set a (.forward (some b))) [.rule b] w → Open N s.heap [.rule r] w := by
              intro w hop
              have := k3.inc w (hop.back he k1.tame.closed (within_one hblt))
              exact this.back k2 hg.tame.closed (within_one hrlt)
            have hcl : ClosedHeap (s1.heap.set a (.forward (some b))) := by
              intro o hm c hc
              obtain ⟨x, hx⟩ := List.mem_iff_getElem?.1 hm
              rw [List.length_set]
              rcases at' x o hx with ⟨_, rfl⟩ | ⟨_, e⟩
              · have : c = b := by simpa [Obj.children] using hc
                omega
              · exact k1.tame.closed _ (List.mem_of_getElem? e) c hc
            have ht : Tame N lt (s1.heap.set a (.forward (some b))) := by
              refine ⟨hcl, fun x o hx hf c hc => ?_, fun x c hx y hy => ?_, fun x c hx hy => ?_,
                fun x o r' hx hr hy => ?_⟩
              rotate_left 3
              · rcases at' x o hx with ⟨_, rfl⟩ | ⟨_, e⟩
                · cases hr
                · have hcl : r' < s1.heap.length := k1.tame.closed _ (List.mem_of_getElem? e) r' (repeated_child hr)
                  exact k1.tame.firm x o r' e hr (hy.back he k1.tame.closed (within_one hcl))
              · rcases at' x o hx with ⟨_, rfl⟩ | ⟨_, e⟩
                · exact absurd rfl (hf _)
                · exact k1.tame.young x o e hf c hc
              · rcases at' x _ hx with ⟨rfl, e⟩ | ⟨_, e⟩
                · cases e
                  exact hg.tame.down _ _ ho y (hinc _ hy)
                · have hcl : c < s1.heap.length := k1.tame.closed _ (List.mem_of_getElem? e) c (by simp [Obj.children])
                  exact k1.tame.down x c e y (hy.back he k1.tame.closed (within_one hcl))
              · rcases at' x _ hx with ⟨rfl, e⟩ | ⟨_, e⟩
                · cases e
                  exact hg.tame.null _ _ ho (hinc _ hy)
                · have hcl : c < s1.heap.length := k1.tame.closed _ (List.mem_of_getElem? e) c (by simp [Obj.children])
                  exact k1.tame.null x c e (hy.back he k1.tame.closed (within_one hcl))
            obtain ⟨g1, g2⟩ := ih _ _ { s1 with heap := s1.heap.set a (.forward (some b)) } _
              ⟨ht, fun e hm => (k1.memo e hm).ext he k1.tame.closed⟩ h
            exact ⟨g1, (k2.trans he).trans g2⟩
      · exact ih _ _ _ _ hg h

/-- What holds before a transformation holds afterwards, and the result has no new words. -/
theorem transform_thin {m : Method P} {pid : Nat → Nat} (hp : ∀ a b, pid a = pid b → a = b)
    (hm : MethodThin N lt m) {limit root b : Nat} {h h' : Heap P} (ht : Tame N lt h)
    (e : transform m pid limit root h = .ok (b, h')) : Tame N lt h' ∧ b < h'.length := by
  unfold transform at e
  cases h1 : redefine m pid limit limit [root] [pid root] { heap := h } with
  | error x => rw [h1] at e; cases e
  | ok s =>
    rw [h1] at e
    simp only at e
    cases h2 : visit m pid limit root s with
    | error x => rw [h2] at e; cases e
    | ok x =>
      obtain ⟨b', s'⟩ := x
      rw [h2] at e
      cases e
      obtain ⟨k1, _⟩ := redefine_thin hp hm _ _ _ _ _ ⟨ht, by intro e he; cases he⟩ h1
      obtain ⟨k2, _, k3⟩ := visit_thin hp hm limit _ _ _ _ k1 h2
      exact ⟨k2.tame, k3.dst _ rfl⟩

end Yargy.Thin
