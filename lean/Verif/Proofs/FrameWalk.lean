import Verif.Proofs.Frame
/-!
The walk of a transformator over the forward rules: in the end all forward rules below the result hold
results.
-/
namespace Yargy

variable {P : Type}

/-- Everything below a rule is of certain classes, with certain predicates, and productions are where
productions are expected. -/
def Typed (inT : Tag → Bool) (X : P → Prop) (h : Heap P) (root : Nat) : Prop :=
  ∀ x, Reach h root x → ∃ o, h[x]? = some o ∧ inT o.tag = true ∧ (∀ p ∈ o.preds, X p) ∧
    ∀ c ∈ o.children, isProdAt h c = o.tag.hasProds

/-- Rules have productions and rules where they should, everywhere. -/
def Sorted (h : Heap P) : Prop :=
  ∀ (a : Nat) o, h[a]? = some o → ∀ c ∈ o.children, c < h.length ∧ isProdAt h c = o.tag.hasProds

theorem Sorted.closed {h : Heap P} (hs : Sorted h) : ClosedHeap h := by
  intro o ho c hc
  obtain ⟨a, ha⟩ := List.mem_iff_getElem?.1 ho
  exact (hs a o ha c hc).1

theorem Sorted.reach {h : Heap P} (hs : Sorted h) {root : Nat} (hr : root < h.length) {x : Nat}
    (hx : Reach h root x) : x < h.length := by
  induction hx with
  | root => exact hr
  | step _ h2 h3 _ => exact (hs _ _ h2 _ h3).1

namespace Pass
variable {F : Pass P}

section
variable {g : Heap P} {a r b : Nat}

theorem via0_via (hold : ∀ x, F.Old x → ∃ c, g[x]? = some (.forward c)) {u x : Nat}
    (h : Via0 g u x) : F.Via g u x := by
  induction h with
  | refl => exact .refl _
  | step h1 h2 h3 _ ih =>
    refine .step (fun ho => ?_) h1 h3 ih
    obtain ⟨c, hc⟩ := hold _ ho
    rw [h1] at hc; cases hc
    exact h2 rfl

theorem Via.trans {u v x : Nat} (h1 : F.Via g u v) (h2 : F.Via g v x) : F.Via g u x := by
  induction h1 with
  | refl => exact h2
  | step k1 k2 k3 _ ih => exact .step k1 k2 k3 (ih h2)

/-- Setting the contents of a forward rule. -/
theorem set_get (ha : g[a]? = some (.forward (some r))) {x : Nat} {o : Obj P} (hx : g[x]? = some o) :
    (x = a ∧ o = .forward (some r) ∧ (g.set a (.forward (some b)))[x]? = some (.forward (some b))) ∨
    (x ≠ a ∧ (g.set a (.forward (some b)))[x]? = some o) := by
  by_cases e : x = a
  · subst e
    rw [ha] at hx; cases hx
    exact .inl ⟨rfl, rfl, by rw [List.getElem?_set_self (List.getElem?_eq_some_iff.1 ha).1]⟩
  · exact .inr ⟨e, by rw [List.getElem?_set_ne (Ne.symm e)]; exact hx⟩

theorem set_back (ha : g[a]? = some (.forward (some r))) {x : Nat} {o : Obj P}
    (hx : (g.set a (.forward (some b)))[x]? = some o) :
    (x = a ∧ o = .forward (some b)) ∨ (x ≠ a ∧ g[x]? = some o) := by
  by_cases e : x = a
  · subst e
    rw [List.getElem?_set_self (List.getElem?_eq_some_iff.1 ha).1] at hx
    cases hx
    exact .inl ⟨rfl, rfl⟩
  · rw [List.getElem?_set_ne (Ne.symm e)] at hx
    exact .inr ⟨e, hx⟩

theorem set_isProdAt (ha : g[a]? = some (.forward (some r))) (x : Nat) :
    isProdAt (g.set a (.forward (some b))) x = isProdAt g x := by
  unfold isProdAt
  by_cases e : x = a
  · subst e
    rw [List.getElem?_set_self (List.getElem?_eq_some_iff.1 ha).1, ha]; rfl
  · rw [List.getElem?_set_ne (Ne.symm e)]

theorem set_good (ha : g[a]? = some (.forward (some r))) {x : Nat} (h : F.Good g x) :
    F.Good (g.set a (.forward (some b))) x := by
  obtain ⟨o, h1, h2, h3, h4⟩ := h
  rcases set_get (b := b) ha h1 with ⟨rfl, rfl, e⟩ | ⟨_, e⟩
  · exact ⟨_, e, h2, (by intro p hp; cases hp), h4⟩
  · exact ⟨o, e, h2, h3, h4⟩

theorem set_via0 (ha : g[a]? = some (.forward (some r))) {u x : Nat} :
    Via0 (g.set a (.forward (some b))) u x ↔ Via0 g u x := by
  constructor
  · intro h
    induction h with
    | refl => exact .refl _
    | step h1 h2 h3 _ ih =>
      rcases set_back ha h1 with ⟨rfl, rfl⟩ | ⟨_, e⟩
      · exact absurd rfl h2
      · exact .step e h2 h3 ih
  · intro h
    induction h with
    | refl => exact .refl _
    | step h1 h2 h3 _ ih =>
      rcases set_get (b := b) ha h1 with ⟨rfl, rfl, _⟩ | ⟨_, e⟩
      · exact absurd rfl h2
      · exact .step e h2 h3 ih

theorem set_keep (ha : g[a]? = some (.forward (some r))) {u v : Nat} (h : F.Keep g u v) :
    F.Keep (g.set a (.forward (some b))) u v := by
  intro hb hp y c hy hv
  rw [set_via0 ha] at hv ⊢
  have hy' : ∃ c, g[y]? = some (.forward c) := by
    rcases set_back ha hy with ⟨rfl, _⟩ | ⟨_, e⟩
    · exact ⟨_, ha⟩
    · exact ⟨_, e⟩
  obtain ⟨c', hc'⟩ := hy'
  refine h hb ?_ y c' hc' hv
  intro x o hx ho
  rcases set_get (b := b) ha ho with ⟨rfl, rfl, e⟩ | ⟨_, e⟩
  · exact (hp x _ ((set_via0 ha).2 hx) e :)
  · exact hp x _ ((set_via0 ha).2 hx) e

/-- Less may be below than before: what is gone was part of the result. -/
theorem set_via (ha : g[a]? = some (.forward (some r))) (hr : F.Ok g r b) {u x : Nat}
    (h : F.Via (g.set a (.forward (some b))) u x) :
    F.Via g u x ∨ (¬ F.Old x ∧ F.Good g x) := by
  induction h with
  | refl => exact .inl (.refl _)
  | @step u o c x h1 h2 h3 h4 ih =>
    rcases set_back ha h2 with ⟨rfl, rfl⟩ | ⟨_, e⟩
    · have hc : c = b := by simpa [Obj.children] using h3
      subst hc
      rcases ih with ih | ih
      · rcases hr _ ih with ⟨_, k2⟩ | k
        · exact .inl (.step h1 ha (by simp [Obj.children]) k2)
        · exact .inr k
      · exact .inr ih
    · rcases ih with ih | ih
      · exact .inl (.step h1 e h3 ih)
      · exact .inr ih

variable (F) in
/-- The same as `Via` for old forward rules, from one forward rule to the next. -/
inductive Hops (g : Heap P) : Nat → Nat → Prop
  | last {u x} : Via0 g u x → F.Old x → Hops g u x
  | hop {u y c x} : Via0 g u y → ¬ F.Old y → g[y]? = some (.forward (some c)) → Hops g c x → Hops g u x

theorem hops_of_via {u x : Nat} (h : F.Via g u x) : F.Old x → F.Hops g u x := by
  induction h with
  | refl => intro hx; exact .last (.refl _) hx
  | @step u o c x h1 h2 h3 _ ih =>
    intro hx
    have ih := ih hx
    by_cases hf : o.tag = .forward
    · cases o <;> first | cases hf | skip
      rename_i d
      cases d with
      | none => simp [Obj.children] at h3
      | some d =>
        have : c = d := by simpa [Obj.children] using h3
        subst this
        exact .hop (.refl _) h1 h2 ih
    · cases ih with
      | last k1 k2 => exact .last (.step h2 hf h3 k1) k2
      | hop k1 k2 k3 k4 => exact .hop (.step h2 hf h3 k1) k2 k3 k4

theorem Hops.via (hold : ∀ x, F.Old x → ∃ c, g[x]? = some (.forward c)) {u x : Nat}
    (h : F.Hops g u x) : F.Via g u x := by
  induction h with
  | last h1 _ => exact via0_via hold h1
  | hop h1 h2 h3 _ ih =>
    exact (via0_via hold h1).trans (.step h2 h3 (by simp [Obj.children]) ih)

theorem set_hops (ha : g[a]? = some (.forward (some r))) (hold : ∀ x, F.Old x → ∃ c, g[x]? = some (.forward c))
    (hk : ¬ F.Old a → ∀ y c, g[y]? = some (.forward c) → Via0 g r y → Via0 g b y) {u x : Nat}
    (h : F.Hops g u x) : F.Hops (g.set a (.forward (some b))) u x := by
  induction h with
  | last h1 h2 => exact .last ((set_via0 ha).2 h1) h2
  | @hop u y c x h1 h2 h3 h4 ih =>
    rcases set_get (b := b) ha h3 with ⟨rfl, e0, e⟩ | ⟨_, e⟩
    · cases e0
      refine .hop ((set_via0 ha).2 h1) h2 e ?_
      have fwd : ∀ z, (F.Old z ∨ ∃ c, (g.set y (.forward (some b)))[z]? = some (.forward c)) →
          ∃ c, g[z]? = some (.forward c) := by
        rintro z (hz | ⟨c, hz⟩)
        · exact hold z hz
        · rcases set_back ha hz with ⟨rfl, _⟩ | ⟨_, e⟩
          · exact ⟨_, ha⟩
          · exact ⟨_, e⟩
      cases ih with
      | last k1 k2 =>
        obtain ⟨d, hd⟩ := fwd _ (.inl k2)
        exact .last ((set_via0 ha).2 (hk h2 _ d hd ((set_via0 ha).1 k1))) k2
      | hop k1 k2 k3 k4 =>
        obtain ⟨d, hd⟩ := fwd _ (.inr ⟨_, k3⟩)
        exact .hop ((set_via0 ha).2 (hk h2 _ d hd ((set_via0 ha).1 k1))) k2 k3 k4
    · exact .hop ((set_via0 ha).2 h1) h2 e ih

end

/-- Redefining a forward rule by the result for its contents keeps the invariant. -/
theorem Inv.redefine {s : St P} (hi : F.Inv s) (hfw : F.outT .forward = true) {a r b : Nat}
    (hd : F.Dom a) (ha : s.heap[a]? = some (.forward (some r))) (hr : F.Result s.heap r b)
    (hb : ∀ c, s.heap[b]? ≠ some (.forward c)) :
    F.Inv { s with heap := s.heap.set a (.forward (some b)) } ∧
      (∀ u x, F.Via (s.heap.set a (.forward (some b))) u x →
        F.Via s.heap u x ∨ (¬ F.Old x ∧ F.Good s.heap x)) := by
  have hvia : ∀ u x, F.Via (s.heap.set a (.forward (some b))) u x →
        F.Via s.heap u x ∨ (¬ F.Old x ∧ F.Good s.heap x) := fun u x h => set_via ha hr.ok h
  have hold : ∀ x, F.Old x → ∃ c, s.heap[x]? = some (.forward c) := fun x hx => hi.old_forward hx
  have hold' : ∀ x, F.Old x → ∃ c, (s.heap.set a (.forward (some b)))[x]? = some (.forward c) := by
    intro x hx
    obtain ⟨c, hc⟩ := hold x hx
    rcases set_get (b := b) ha hc with ⟨_, _, e⟩ | ⟨_, e⟩
    · exact ⟨_, e⟩
    · exact ⟨_, e⟩
  have hkeep : ¬ F.Old a → ∀ y c, s.heap[y]? = some (.forward c) → Via0 s.heap r y →
      Via0 s.heap b y := by
    intro hna y c hy hv
    have hlt : F.heap.length ≤ a := by
      refine Nat.le_of_not_lt (fun hlt => hna ?_)
      rcases hi.frame a _ (List.getElem?_eq_getElem hlt) with h1 | ⟨h1, _⟩
      · rw [ha] at h1
        simp only [Option.some.injEq] at h1
        exact ⟨some r, by rw [List.getElem?_eq_getElem hlt, ← h1]⟩
      · exact h1
    have hfo := hi.fwd a _ hlt ha
    refine hr.keep hfo.1 ?_ y c hy hv
    intro x o hx ho
    have : F.Via s.heap a x := .step hna ha (by simp [Obj.children]) (via0_via hold hx)
    rcases hfo.2.1 x this with h1 | ⟨o', h1, h2, _⟩
    · obtain ⟨d, hd⟩ := hold x h1
      rw [ho] at hd; cases hd
      exact hfw
    · rw [ho] at h1; cases h1
      exact h2
  refine ⟨⟨?_, ?_, ?_, ?_, ?_⟩, hvia⟩
  · simpa using hi.len
  · intro x o hx
    rcases hi.frame x o hx with h1 | ⟨h1, h2, y, h3⟩
    · rcases set_get (b := b) ha h1 with ⟨rfl, rfl, e⟩ | ⟨_, e⟩
      · exact .inr ⟨⟨_, hx⟩, hd, b, e⟩
      · exact .inl e
    · rcases set_get (b := b) ha h3 with ⟨rfl, _, e⟩ | ⟨_, e⟩
      · exact .inr ⟨h1, h2, b, e⟩
      · exact .inr ⟨h1, h2, y, e⟩
  · intro x o hx ho
    rcases set_back ha ho with ⟨rfl, rfl⟩ | ⟨_, e⟩
    · have hfit := hi.dom x _ hd ha
      refine ⟨hfit.tag, (by intro p hp; cases hp), ?_⟩
      intro c hc
      have : c = b := by simpa [Obj.children] using hc
      subst this
      refine ⟨hr.dom, by simpa using hr.lt, ?_⟩
      rw [set_isProdAt ha, hr.sort]
      exact (hfit.kids r (by simp [Obj.children])).2.2
    · have hfit := hi.dom x o hx e
      refine ⟨hfit.tag, hfit.preds, fun c hc => ?_⟩
      obtain ⟨k1, k2, k3⟩ := hfit.kids c hc
      exact ⟨k1, by simpa using k2, by rw [set_isProdAt ha]; exact k3⟩
  · intro e he
    obtain ⟨h1, h2, h3⟩ := hi.memo e he
    refine ⟨h1, by simpa using h2, by simpa using h3.lt, h3.dom, ?_, ?_, set_keep ha h3.keep⟩
    · show isProdAt (s.heap.set a _) _ = isProdAt (s.heap.set a _) _
      rw [set_isProdAt ha, set_isProdAt ha]; exact h3.sort
    · intro x hx
      rcases hvia _ _ hx with h4 | ⟨h4, h5⟩
      · rcases h3.ok x h4 with ⟨k1, k2⟩ | ⟨k1, k2⟩
        · exact .inl ⟨k1, (set_hops ha hold hkeep (hops_of_via k2 k1)).via hold'⟩
        · exact .inr ⟨k1, set_good ha k2⟩
      · exact .inr ⟨h4, set_good ha h5⟩
  · intro T c hT hc
    have nf : ∀ y : Nat, (∀ d, s.heap[y]? ≠ some (Obj.forward d)) →
        ∀ d, (s.heap.set a (.forward (some b)))[y]? ≠ some (Obj.forward d) := by
      intro y hy d hd'
      rcases set_back ha hd' with ⟨rfl, _⟩ | ⟨_, e⟩
      · exact hy _ ha
      · exact hy _ e
    have via : ∀ d, s.heap[T]? = some (.forward d) → ∀ x, F.Via (s.heap.set a (.forward (some b))) T x →
        F.Old x ∨ F.Good (s.heap.set a (.forward (some b))) x := by
      intro d hd' x hx
      rcases hvia _ _ hx with h4 | ⟨_, h4⟩
      · rcases (hi.fwd T d hT hd').2.1 x h4 with h5 | h5
        · exact .inl h5
        · exact .inr (set_good ha h5)
      · exact .inr (set_good ha h4)
    rcases set_back ha hc with ⟨rfl, e⟩ | ⟨_, e⟩
    · cases e
      refine ⟨(hi.fwd T _ hT ha).1, via _ ha, ?_⟩
      intro y hy
      cases hy
      exact nf _ hb
    · have := hi.fwd T c hT e
      exact ⟨this.1, via _ e, fun y hy => nf y (this.2.2 y hy)⟩

/-! ### The walk -/

variable (F) in
/-- A forward rule that has been dealt with. -/
def Ready (g : Heap P) (y : Nat) : Prop :=
  (∀ x, F.Via g y x → F.Old x ∨ F.Good g x) ∧ ∀ d, g[y]? ≠ some (.forward d)

variable (F) in
structure Walking (done queue seen : List Nat) (s : St P) : Prop where
  inv : F.Inv s
  nodup : (done ++ queue).Nodup
  seen_iff : ∀ x, x ∈ seen ↔ x ∈ done ++ queue
  item : ∀ x ∈ done ++ queue, F.Item s.heap x
  closed : ∀ d ∈ done, ∀ c ∈ childrenAt s.heap d, c ∈ done ++ queue
  ready : ∀ d ∈ done, F.Old d → ∀ y, s.heap[d]? = some (.forward (some y)) → F.Ready s.heap y

theorem Ext.ready {g g' : Heap P} (he : F.Ext g g') (hs : F.Shut g) {y : Nat} (hd : F.Dom y)
    (hl : y < g.length) (h : F.Ready g y) : F.Ready g' y := by
  refine ⟨fun x hx => ?_, fun d hd' => ?_⟩
  · rcases h.1 x (he.via_back hs hx hd hl) with h1 | h1
    · exact .inl h1
    · exact .inr (he.good h1)
  · obtain ⟨o, h1, h2⟩ := he.back hl hd'
    cases h2
    exact h.2 _ h1

theorem Ext.childrenAt {g g' : Heap P} (he : F.Ext g g') {a : Nat} (ha : a < g.length) :
    childrenAt g' a = childrenAt g a := by
  obtain ⟨o', h1, h2⟩ := he.like (List.getElem?_eq_getElem ha)
  unfold Yargy.childrenAt
  rw [h1, List.getElem?_eq_getElem ha]
  simp only [h2.children]

/-- One step of the walk after the item was dealt with. -/
theorem Walking.step {pid : Nat → Nat} (hp : ∀ a b, pid a = pid b → a = b) {done queue seen : List Nat}
    {a : Nat} {s : St P} (hi : F.Inv s) (hnodup : (done ++ a :: queue).Nodup)
    (hseen : ∀ x, x ∈ seen ↔ x ∈ done ++ a :: queue)
    (hitem : ∀ x ∈ done ++ a :: queue, F.Item s.heap x)
    (hclosed : ∀ d ∈ done, ∀ c ∈ childrenAt s.heap d, c ∈ done ++ a :: queue)
    (hready : ∀ d ∈ done ++ [a], F.Old d → ∀ y, s.heap[d]? = some (.forward (some y)) →
      F.Ready s.heap y) :
    ∃ new, enqueue pid (childrenAt s.heap a) queue (seen.map pid) =
        (queue ++ new, (new.reverse ++ seen).map pid) ∧
      F.Walking (done ++ [a]) (queue ++ new) (new.reverse ++ seen) s := by
  obtain ⟨new, h1, h2, h3, h4⟩ := enqueue_spec hp (childrenAt s.heap a) queue seen
  have e : done ++ [a] ++ (queue ++ new) = (done ++ a :: queue) ++ new := by simp
  refine ⟨new, h1, ⟨hi, ?_, ?_, ?_, ?_, hready⟩⟩
  · rw [e, List.nodup_append]
    refine ⟨hnodup, h2, ?_⟩
    intro x hx y hy hxy
    subst hxy
    exact (h3 x hy).2 ((hseen x).2 hx)
  · intro x
    rw [e, List.mem_append, List.mem_append, List.mem_reverse, hseen]
    exact Or.comm
  · intro x hx
    rw [e, List.mem_append] at hx
    rcases hx with hx | hx
    · exact hitem x hx
    · have hc := (h3 x hx).1
      unfold childrenAt at hc
      cases ho : s.heap[a]? with
      | none => simp [ho] at hc
      | some o =>
        rw [ho] at hc
        exact hi.shut a o (hitem a (by simp)).1 ho x hc
  · intro d hd c hcd
    rw [e, List.mem_append]
    rw [List.mem_append, List.mem_singleton] at hd
    rcases hd with hd | rfl
    · exact .inl (hclosed d hd c hcd)
    · rcases h4 c hcd with h | h
      · exact .inr h
      · exact .inl ((hseen c).1 h)

/-- A forward rule is dealt with. -/
theorem Walking.forward {m : Method P} {pid : Nat → Nat} (hp : ∀ a b, pid a = pid b → a = b)
    (hfw : F.outT .forward = true) (hm : F.MethodFits m) {limit : Nat} {done queue seen : List Nat}
    {a r b : Nat} {s s1 : St P} {h' : Heap P} (hw : F.Walking done (a :: queue) seen s)
    (hr : s.heap[a]? = some (.forward (some r))) (h1 : visit m pid limit r s = .ok (b, s1))
    (h2 : defineForward a b s1.heap = .ok h') :
    ∃ new, enqueue pid (childrenAt h' a) queue (seen.map pid) =
        (queue ++ new, (new.reverse ++ seen).map pid) ∧
      F.Walking (done ++ [a]) (queue ++ new) (new.reverse ++ seen) { s1 with heap := h' } := by
  have ha : F.Item s.heap a := hw.item a (by simp)
  have hnd : a ∉ done := by
    intro hd
    have := (List.nodup_append.1 hw.nodup).2.2 a hd a List.mem_cons_self
    exact this rfl
  have hb : (∀ c, s1.heap[b]? ≠ some (.forward c)) ∧
      h' = s1.heap.set a (.forward (some b)) := by
    unfold defineForward at h2
    split at h2
    · cases h2
    · rename_i hn
      cases h2
      exact ⟨fun c hc => hn c hc, rfl⟩
  obtain ⟨hb, rfl⟩ := hb
  obtain ⟨i1, e1, r1⟩ := visit_fits hp hm limit r s b s1 hw.inv
    (hw.inv.items ha.1 hr r (by simp [Obj.children])) h1
  have hr1 := e1.get hr (by simp [Obj.tag])
  obtain ⟨i2, hvia⟩ := i1.redefine hfw ha.1 hr1 r1 hb
  have keepReady : ∀ y, F.Ready s1.heap y →
      F.Ready (s1.heap.set a (.forward (some b))) y := by
    intro y hy
    refine ⟨fun x hx => ?_, fun d hd => ?_⟩
    · rcases hvia _ _ hx with h3 | ⟨_, h3⟩
      · rcases hy.1 x h3 with h4 | h4
        · exact .inl h4
        · exact .inr (set_good hr1 h4)
      · exact .inr (set_good hr1 h3)
    · rcases set_back hr1 hd with ⟨rfl, _⟩ | ⟨_, e⟩
      · exact hy.2 _ hr1
      · exact hy.2 _ e
  exact Walking.step (s := { s1 with heap := s1.heap.set a (.forward (some b)) })
    hp i2 hw.nodup hw.seen_iff
    (fun x hx => ⟨(hw.item x hx).1, by
      have := Nat.lt_of_lt_of_le (hw.item x hx).2 e1.len
      simpa using this⟩)
    (by
      intro d hd c hc
      have hda : d ≠ a := fun e => hnd (e ▸ hd)
      have : childrenAt (s1.heap.set a (.forward (some b))) d = childrenAt s.heap d := by
        rw [← e1.childrenAt (hw.item d (by simp [hd])).2]
        unfold childrenAt
        rw [List.getElem?_set_ne (Ne.symm hda)]
      rw [this] at hc
      exact hw.closed d hd c hc)
    (by
      intro d hd hold y hy
      rw [List.mem_append, List.mem_singleton] at hd
      rcases set_back hr1 hy with ⟨rfl, e⟩ | ⟨hda, e⟩
      · cases e
        refine keepReady _ ⟨fun x hx => ?_, hb⟩
        rcases r1.ok x hx with ⟨k, _⟩ | ⟨_, k⟩
        · exact .inl k
        · exact .inr k
      · have hd : d ∈ done := hd.resolve_right hda
        have hlt := (hw.item d (by simp [hd])).2
        obtain ⟨o, k1, k2⟩ := e1.back hlt e
        cases k2
        have := hw.ready d hd hold y k1
        have hyi := hw.inv.items (hw.item d (by simp [hd])).1 k1 y (by simp [Obj.children])
        exact keepReady y (e1.ready hw.inv.shut hyi.1 hyi.2 this))

/-- Anything else is only looked at. -/
theorem Walking.other {pid : Nat → Nat} (hp : ∀ a b, pid a = pid b → a = b) {done queue seen : List Nat}
    {a : Nat} {s : St P} (hw : F.Walking done (a :: queue) seen s)
    (hn : ∀ y, s.heap[a]? ≠ some (.forward (some y))) :
    ∃ new, enqueue pid (childrenAt s.heap a) queue (seen.map pid) =
        (queue ++ new, (new.reverse ++ seen).map pid) ∧
      F.Walking (done ++ [a]) (queue ++ new) (new.reverse ++ seen) s :=
  Walking.step hp hw.inv hw.nodup hw.seen_iff hw.item hw.closed (by
    intro d hd hold y hy
    rw [List.mem_append, List.mem_singleton] at hd
    rcases hd with hd | rfl
    · exact hw.ready d hd hold y hy
    · exact absurd hy (hn y))

theorem redefine_fits {m : Method P} {pid : Nat → Nat} (hp : ∀ a b, pid a = pid b → a = b)
    (hfw : F.outT .forward = true) (hm : F.MethodFits m) {limit : Nat} :
    ∀ (n : Nat) (done queue seen : List Nat) (s s' : St P), F.Walking done queue seen s →
      redefine m pid limit n queue (seen.map pid) s = .ok s' →
      ∃ done' seen', F.Walking done' [] seen' s' ∧ ∀ x ∈ done ++ queue, x ∈ done' := by
  intro n
  induction n with
  | zero => intro done queue seen s s' _ h; simp [redefine] at h
  | succ n ih =>
    intro done queue seen s s' hw h
    cases queue with
    | nil =>
      simp only [redefine, Except.ok.injEq] at h
      subst h
      exact ⟨done, seen, hw, fun x hx => by simpa using hx⟩
    | cons a queue =>
      have mem : ∀ {new : List Nat} {done' : List Nat}, (∀ x ∈ done ++ [a] ++ (queue ++ new), x ∈ done') →
          ∀ x ∈ done ++ a :: queue, x ∈ done' := by
        intro new done' h x hx
        refine h x ?_
        simp only [List.mem_append, List.mem_cons, List.not_mem_nil, or_false] at hx ⊢
        rcases hx with hx | hx | hx
        · exact .inl (.inl hx)
        · exact .inl (.inr hx)
        · exact .inr (.inl hx)
      unfold redefine at h
      split at h
      · rename_i r hr
        cases h1 : visit m pid limit r s with
        | error e => simp [h1] at h
        | ok y =>
          obtain ⟨b, s1⟩ := y
          simp only [h1] at h
          cases h2 : defineForward a b s1.heap with
          | error e => simp [h2] at h
          | ok h' =>
            simp only [h2] at h
            obtain ⟨new, h3, hw'⟩ := hw.forward hp hfw hm hr h1 h2
            rw [h3] at h
            obtain ⟨done', seen', q1, q2⟩ := ih _ _ _ _ _ hw' h
            exact ⟨done', seen', q1, mem q2⟩
      · rename_i hn
        obtain ⟨new, h3, hw'⟩ := hw.other hp hn
        rw [h3] at h
        obtain ⟨done', seen', q1, q2⟩ := ih _ _ _ _ _ hw' h
        exact ⟨done', seen', q1, mem q2⟩

variable (F) in
/-- What a pass leaves behind. -/
structure Made (h' : Heap P) (b : Nat) : Prop where
  len : F.heap.length ≤ h'.length
  frame : ∀ (a : Nat) o, F.heap[a]? = some o → h'[a]? = some o ∨
    (F.Old a ∧ Reach F.heap F.root a ∧ ∃ r, h'[a]? = some (.forward (some r)))
  typed : Typed F.outT F.X h' b
  sort : isProdAt h' b = isProdAt F.heap F.root
  fresh : ∀ x, Reach h' b x → F.heap.length ≤ x ∨ (∃ o, h'[x]? = some o ∧ o.tag.leaf = true) ∨
    (F.Old x ∧ Reach F.heap F.root x)
  whole : Sorted F.heap → Sorted h'
  new : ∀ (x : Nat) o, F.heap.length ≤ x → h'[x]? = some o → ∀ p ∈ o.preds, F.X p
  fwd : ∀ (x : Nat) y, Reach h' b x → h'[x]? = some (.forward (some y)) → ∀ d, h'[y]? ≠ some (.forward d)
  dom : ∀ x, Reach h' b x → F.Dom x

/-- At the start. -/
theorem Inv.start (ht : Typed F.inT F.X F.heap F.root) : F.Inv { heap := F.heap } := by
  refine ⟨Nat.le_refl _, fun a o h => .inl h, ?_, (by intro e he; cases he), ?_⟩
  · intro a o hd ho
    have hlt := (List.getElem?_eq_some_iff.1 ho).1
    have hr : Reach F.heap F.root a := by
      rcases hd with hd | hd
      · simp only at hlt; omega
      · exact hd
    obtain ⟨o', h1, h2, h3, h4⟩ := ht a hr
    simp only at ho
    rw [ho] at h1; cases h1
    refine ⟨h2, h3, fun c hc => ?_⟩
    have hrc : Reach F.heap F.root c := .step hr ho hc
    obtain ⟨oc, hoc, _⟩ := ht c hrc
    exact ⟨.inr hrc, (List.getElem?_eq_some_iff.1 hoc).1, h4 c hc⟩
  · intro T c hT hg
    have := (List.getElem?_eq_some_iff.1 hg).1
    simp only at this
    omega

theorem transform_fits {m : Method P} {pid : Nat → Nat} (hp : ∀ a b, pid a = pid b → a = b)
    (hfw : F.outT .forward = true) (hm : F.MethodFits m) (ht : Typed F.inT F.X F.heap F.root)
    {limit b : Nat} {h' : Heap P} (h : transform m pid limit F.root F.heap = .ok (b, h')) :
    F.Made h' b := by
  have hroot : F.root < F.heap.length := by
    obtain ⟨o, ho, _⟩ := ht F.root .root
    exact (List.getElem?_eq_some_iff.1 ho).1
  have hdom : F.Dom F.root := .inr .root
  have i0 := Inv.start ht
  unfold transform at h
  cases h1 : redefine m pid limit limit [F.root] [pid F.root] { heap := F.heap } with
  | error e => simp [h1] at h
  | ok s =>
    simp only [h1] at h
    cases h2 : visit m pid limit F.root s with
    | error e => simp [h2, Except.map] at h
    | ok x =>
      obtain ⟨b', s2⟩ := x
      simp only [h2, Except.map, Except.ok.injEq, Prod.mk.injEq] at h
      obtain ⟨rfl, rfl⟩ := h
      obtain ⟨done, seen, hw, hmem⟩ := redefine_fits hp hfw hm limit [] [F.root] [F.root]
        { heap := F.heap } s ⟨i0, by simp, by simp, by
          intro x hx
          simp only [List.nil_append, List.mem_singleton] at hx
          subst hx
          exact ⟨hdom, hroot⟩, (by intro d hd; cases hd), (by intro d hd; cases hd)⟩ h1
      have hrd : F.root ∈ done := hmem _ (by simp)
      obtain ⟨i2, e2, r2⟩ := visit_fits hp hm limit F.root s b' s2 hw.inv (hw.item _ (by simp [hrd])) h2
      -- what was walked is closed under children
      have closed : ∀ d ∈ done, ∀ o, s2.heap[d]? = some o → ∀ c ∈ o.children, c ∈ done := by
        intro d hd o ho c hc
        have hlt := (hw.item d (by simp [hd])).2
        obtain ⟨o', k1, k2⟩ := e2.back hlt ho
        have := hw.closed d hd c (by unfold childrenAt; rw [k1]; show c ∈ o'.children; rw [k2.children]; exact hc)
        simpa using this
      have viaDone : ∀ u x, F.Via s2.heap u x → u ∈ done → x ∈ done := by
        intro u x hv
        induction hv with
        | refl => exact fun h => h
        | step _ k2 k3 _ ih => exact fun hu => ih (closed _ hu _ k2 _ k3)
      -- everything below the result is part of it or a forward rule that was walked
      have below : ∀ x, Reach s2.heap b' x →
          (F.Old x → x ∈ done) ∧ (¬ F.Old x → F.Good s2.heap x) ∧ F.Dom x ∧
          ∀ z, F.Via s2.heap x z → (F.Old z ∧ z ∈ done) ∨ (¬ F.Old z ∧ F.Good s2.heap z) := by
        have start : ∀ u, F.Dom u →
            (∀ z, F.Via s2.heap u z → (F.Old z ∧ z ∈ done) ∨ (¬ F.Old z ∧ F.Good s2.heap z)) →
            (F.Old u → u ∈ done) ∧ (¬ F.Old u → F.Good s2.heap u) ∧ F.Dom u ∧
            ∀ z, F.Via s2.heap u z → (F.Old z ∧ z ∈ done) ∨ (¬ F.Old z ∧ F.Good s2.heap z) := by
          intro u hu hz
          refine ⟨fun ho => ?_, fun hn => ?_, hu, hz⟩
          · rcases hz u (.refl u) with k | k
            · exact k.2
            · exact absurd ho k.1
          · rcases hz u (.refl u) with k | k
            · exact absurd k.1 hn
            · exact k.2
        intro x hx
        induction hx with
        | root =>
          refine start b' r2.dom (fun z hz => ?_)
          rcases r2.ok z hz with ⟨k1, k2⟩ | k
          · exact .inl ⟨k1, viaDone _ _ k2 hrd⟩
          · exact .inr k
        | @step u o c _ hu hc ih =>
          obtain ⟨k1, k2, k3, k4⟩ := ih
          have hcd := (i2.shut u o k3 hu c hc).1
          by_cases hold : F.Old u
          · have hud := k1 hold
            refine start c hcd (fun z hz => ?_)
            obtain ⟨d, hd⟩ := i2.old_forward hold
            rw [hd] at hu; cases hu
            have : d = some c := by
              cases d with
              | none => simp [Obj.children] at hc
              | some y => simp only [Obj.children, Option.toList_some, List.mem_singleton] at hc; rw [hc]
            subst this
            have hs : s.heap[u]? = some (.forward (some c)) := by
              obtain ⟨o', q1, q2⟩ := e2.back (hw.item u (by simp [hud])).2 hd
              cases q2; exact q1
            have hci := hw.inv.items (hw.item u (by simp [hud])).1 hs c (by simp [Obj.children])
            have hready := e2.ready hw.inv.shut hci.1 hci.2 (hw.ready u hud hold c hs)
            have hcdone := closed u hud _ hd c (by simp [Obj.children])
            rcases hready.1 z hz with q | q
            · exact .inl ⟨q, viaDone _ _ hz hcdone⟩
            · by_cases hzo : F.Old z
              · exact .inl ⟨hzo, viaDone _ _ hz hcdone⟩
              · exact .inr ⟨hzo, q⟩
          · exact start c hcd (fun z hz => k4 z (.step hold hu hc hz))
      have reachOld : ∀ x, F.Dom x → F.Old x → Reach F.heap F.root x := by
        intro x hx ho
        rcases hx with hx | hx
        · exact absurd ho (Pass.not_old hx)
        · exact hx
      have isProd : ∀ c, c < F.heap.length → isProdAt s2.heap c = isProdAt F.heap c := by
        intro c hc
        unfold isProdAt
        rcases i2.frame c _ (List.getElem?_eq_getElem hc) with k | ⟨⟨d, hd⟩, _, y, k⟩
        · rw [k, List.getElem?_eq_getElem hc]
        · rw [k, hd]; rfl
      refine ⟨i2.len, ?_, ?_, ?_, ?_, ?_, fun x o hx hg => (i2.dom x o (.inl hx) hg).preds, ?_,
        fun x hx => (below x hx).2.2.1⟩
      · intro a o ha
        rcases i2.frame a o ha with k | ⟨k1, k2, k3⟩
        · exact .inl k
        · exact .inr ⟨k1, reachOld a k2 k1, k3⟩
      · intro x hx
        obtain ⟨k1, k2, k3, _⟩ := below x hx
        by_cases hold : F.Old x
        · obtain ⟨d, hd⟩ := i2.old_forward hold
          have hfit := i2.dom x _ k3 hd
          exact ⟨_, hd, hfw, hfit.preds, fun c hc => (hfit.kids c hc).2.2⟩
        · obtain ⟨o, q1, q2, q3, _⟩ := k2 hold
          exact ⟨o, q1, q2, q3, fun c hc => ((i2.dom x o k3 q1).kids c hc).2.2⟩
      · rw [r2.sort]
        have hl : F.root < s.heap.length := Nat.lt_of_lt_of_le hroot hw.inv.len
        rw [e2.isProdAt hl]
        unfold isProdAt
        rcases hw.inv.frame F.root _ (List.getElem?_eq_getElem hroot) with k | ⟨⟨d, hd⟩, _, y, k⟩
        · rw [k, List.getElem?_eq_getElem hroot]
        · rw [k, hd]; rfl
      · intro x hx
        obtain ⟨k1, k2, k3, _⟩ := below x hx
        by_cases hold : F.Old x
        · exact .inr (.inr ⟨hold, reachOld x k3 hold⟩)
        · obtain ⟨o, q1, _, _, q4⟩ := k2 hold
          rcases q4 with q4 | q4
          · exact .inl q4
          · exact .inr (.inl ⟨o, q1, q4⟩)
      · intro hs x o hx c hc
        by_cases hd : F.Dom x
        · exact ((i2.dom x o hd hx).kids c hc).2
        · have hlt : x < F.heap.length := Nat.lt_of_not_le (fun h => hd (.inl h))
          rcases i2.frame x _ (List.getElem?_eq_getElem hlt) with k | ⟨_, k, _⟩
          · rw [hx] at k
            simp only [Option.some.injEq] at k
            obtain ⟨q1, q2⟩ := hs x o (by rw [List.getElem?_eq_getElem hlt, ← k]) c hc
            exact ⟨Nat.lt_of_lt_of_le q1 i2.len, by rw [isProd c q1]; exact q2⟩
          · exact absurd k hd
      · intro x y hx hy
        obtain ⟨k1, k2, k3, _⟩ := below x hx
        by_cases hold : F.Old x
        · have hxd := k1 hold
          have hs : s.heap[x]? = some (.forward (some y)) := by
            obtain ⟨o', q1, q2⟩ := e2.back (hw.item x (by simp [hxd])).2 hy
            cases q2; exact q1
          have hyi := hw.inv.items (hw.item x (by simp [hxd])).1 hs y (by simp [Obj.children])
          exact (e2.ready hw.inv.shut hyi.1 hyi.2 (hw.ready x hxd hold y hs)).2
        · have hge : F.heap.length ≤ x := by
            refine Nat.le_of_not_lt (fun hlt => hold ?_)
            rcases i2.frame x _ (List.getElem?_eq_getElem hlt) with q | ⟨q, _⟩
            · rw [hy] at q
              simp only [Option.some.injEq] at q
              exact ⟨some y, by rw [List.getElem?_eq_getElem hlt, ← q]⟩
            · exact q
          exact (i2.fwd x _ hge hy).2.2 y rfl

end Pass
end Yargy
