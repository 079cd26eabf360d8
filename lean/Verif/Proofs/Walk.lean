import Verif.Spec.Rules
/-!
`bfs_rule` visits exactly what can be reached, each object once.
-/
namespace Yargy

variable {P : Type} {pid : Nat → Nat} {h : Heap P}

theorem enqueue_spec (hp : ∀ a b, pid a = pid b → a = b) : ∀ (cs queue seen : List Nat),
    ∃ new, enqueue pid cs queue (seen.map pid) = (queue ++ new, (new.reverse ++ seen).map pid) ∧
      new.Nodup ∧ (∀ c ∈ new, c ∈ cs ∧ c ∉ seen) ∧ ∀ c ∈ cs, c ∈ new ∨ c ∈ seen := by
  intro cs
  induction cs with
  | nil => intro queue seen; exact ⟨[], by simp [enqueue], by simp, by simp, by simp⟩
  | cons c cs ih =>
    intro queue seen
    have hm : pid c ∈ seen.map pid ↔ c ∈ seen := by
      rw [List.mem_map]
      exact ⟨fun ⟨x, h1, h2⟩ => hp _ _ h2 ▸ h1, fun h => ⟨c, h, rfl⟩⟩
    by_cases hc : c ∈ seen
    · obtain ⟨new, h1, h2, h3, h4⟩ := ih queue seen
      refine ⟨new, by rw [enqueue, if_pos (hm.2 hc), h1], h2, ?_, ?_⟩
      · intro x hx; exact ⟨List.mem_cons_of_mem _ (h3 x hx).1, (h3 x hx).2⟩
      · intro x hx
        rw [List.mem_cons] at hx
        rcases hx with rfl | hx
        · exact .inr hc
        · exact h4 x hx
    · obtain ⟨new, h1, h2, h3, h4⟩ := ih (queue ++ [c]) (c :: seen)
      refine ⟨c :: new, ?_, ?_, ?_, ?_⟩
      · rw [enqueue, if_neg (fun h => hc (hm.1 h))]
        rw [List.map_cons] at h1
        rw [h1]
        simp
      · rw [List.nodup_cons]
        exact ⟨fun hx => (h3 c hx).2 List.mem_cons_self, h2⟩
      · intro x hx
        rw [List.mem_cons] at hx
        rcases hx with rfl | hx
        · exact ⟨List.mem_cons_self, hc⟩
        · exact ⟨List.mem_cons_of_mem _ (h3 x hx).1,
            fun h => (h3 x hx).2 (List.mem_cons_of_mem _ h)⟩
      · intro x hx
        rw [List.mem_cons] at hx
        rcases hx with rfl | hx
        · exact .inl List.mem_cons_self
        · rcases h4 x hx with h | h
          · exact .inl (List.mem_cons_of_mem _ h)
          · rw [List.mem_cons] at h
            rcases h with rfl | h
            · exact .inl List.mem_cons_self
            · exact .inr h

/-- What is known between two steps of the walk. -/
structure WalkInv (h : Heap P) (done queue seen : List Nat) : Prop where
  nodup : (done ++ queue).Nodup
  seen_iff : ∀ x, x ∈ seen ↔ x ∈ done ++ queue
  closed : ∀ d ∈ done, ∀ c ∈ childrenAt h d, c ∈ done ++ queue
  lt : ∀ x ∈ done ++ queue, x < h.length

theorem childrenAt_lt (hc : ClosedHeap h) {a c : Nat} (h1 : c ∈ childrenAt h a) : c < h.length := by
  unfold childrenAt at h1
  cases ha : h[a]? with
  | none => simp [ha] at h1
  | some o => rw [ha] at h1; exact hc o (List.mem_of_getElem? ha) c h1

theorem WalkInv.step (hp : ∀ a b, pid a = pid b → a = b) (hc : ClosedHeap h) {done queue seen : List Nat}
    {a : Nat} (hi : WalkInv h done (a :: queue) seen) :
    ∃ new, enqueue pid (childrenAt h a) queue (seen.map pid) =
        (queue ++ new, (new.reverse ++ seen).map pid) ∧
      WalkInv h (done ++ [a]) (queue ++ new) (new.reverse ++ seen) ∧
      ∀ c ∈ new, c ∈ childrenAt h a := by
  obtain ⟨new, h1, h2, h3, h4⟩ := enqueue_spec hp (childrenAt h a) queue seen
  have e : done ++ [a] ++ (queue ++ new) = (done ++ a :: queue) ++ new := by simp
  refine ⟨new, h1, ⟨?_, ?_, ?_, ?_⟩, fun c hc => (h3 c hc).1⟩
  · rw [e, List.nodup_append]
    refine ⟨hi.nodup, h2, ?_⟩
    intro x hx y hy hxy
    subst hxy
    exact (h3 x hy).2 ((hi.seen_iff x).2 hx)
  · intro x
    rw [e, List.mem_append, List.mem_append, List.mem_reverse, hi.seen_iff]
    exact Or.comm
  · intro d hd c hcd
    rw [e, List.mem_append]
    rw [List.mem_append, List.mem_singleton] at hd
    rcases hd with hd | rfl
    · exact .inl (hi.closed d hd c hcd)
    · rcases h4 c hcd with h | h
      · exact .inr h
      · exact .inl ((hi.seen_iff c).1 h)
  · intro x hx
    rw [e, List.mem_append] at hx
    rcases hx with hx | hx
    · exact hi.lt x hx
    · exact childrenAt_lt hc (h3 x hx).1

theorem nodup_lt_length {n : Nat} : ∀ {l : List Nat}, l.Nodup → (∀ x ∈ l, x < n) → l.length ≤ n := by
  induction n with
  | zero =>
    intro l _ h
    cases l with
    | nil => simp
    | cons x l => exact absurd (h x List.mem_cons_self) (by omega)
  | succ n ih =>
    intro l hn h
    have h1 := ih (l := l.filter (· ≠ n)) (hn.filter _) (by
      intro x hx
      simp only [List.mem_filter, decide_eq_true_eq, ne_eq] at hx
      have := h x hx.1
      omega)
    have h2 : l.length ≤ (l.filter (· ≠ n)).length + 1 := by
      clear ih h h1
      induction l with
      | nil => simp
      | cons x l ih =>
        rw [List.nodup_cons] at hn
        by_cases hx : x = n
        · subst hx
          have : l.filter (· ≠ x) = l := by
            rw [List.filter_eq_self]
            intro y hy
            simp only [ne_eq, decide_eq_true_eq]
            intro e; subst e; exact hn.1 hy
          rw [List.filter_cons_of_neg (by simp), this]
          simp
        · rw [List.filter_cons_of_pos (by simpa using hx)]
          have := ih hn.2
          simp only [List.length_cons]
          omega
    omega

theorem walkFrom_spec (hp : ∀ a b, pid a = pid b → a = b) (hc : ClosedHeap h) :
    ∀ (n : Nat) (done queue seen : List Nat), WalkInv h done queue seen →
      h.length + 1 ≤ done.length + n →
      ∃ S, WalkInv h (done ++ walkFrom pid h n queue (seen.map pid)) [] S ∧
        (∀ x ∈ queue, x ∈ walkFrom pid h n queue (seen.map pid)) ∧
        ∀ Z : Nat → Prop, (∀ x ∈ queue, Z x) → (∀ x, Z x → ∀ c ∈ childrenAt h x, Z c) →
          ∀ x ∈ walkFrom pid h n queue (seen.map pid), Z x := by
  intro n
  induction n with
  | zero =>
    intro done queue seen hi hn
    have := nodup_lt_length (List.nodup_append.1 hi.nodup).1
      (fun x hx => hi.lt x (List.mem_append_left _ hx))
    omega
  | succ n ih =>
    intro done queue seen hi hn
    cases queue with
    | nil => exact ⟨seen, by simpa [walkFrom] using hi, by simp, by simp [walkFrom]⟩
    | cons a queue =>
      obtain ⟨new, h1, h2, h3⟩ := hi.step hp hc
      obtain ⟨S, h4, h5, h6⟩ := ih _ _ _ h2 (by simp; omega)
      have e : walkFrom pid h (n + 1) (a :: queue) (seen.map pid) =
          a :: walkFrom pid h n (queue ++ new) ((new.reverse ++ seen).map pid) := by
        rw [walkFrom, h1]
      refine ⟨S, ?_, ?_, ?_⟩
      · rw [e]; simpa using h4
      · intro x hx
        rw [e]
        rw [List.mem_cons] at hx ⊢
        rcases hx with rfl | hx
        · exact .inl rfl
        · exact .inr (h5 x (List.mem_append_left _ hx))
      · intro Z hz hzc x hx
        rw [e, List.mem_cons] at hx
        rcases hx with rfl | hx
        · exact hz x List.mem_cons_self
        · refine h6 Z ?_ hzc x hx
          intro y hy
          rw [List.mem_append] at hy
          rcases hy with hy | hy
          · exact hz y (List.mem_cons_of_mem _ hy)
          · exact hzc a (hz a List.mem_cons_self) y (h3 y hy)

/-- `walk` visits the root and the children of everything visited, nothing else, and nothing twice. -/
theorem walk_spec (hp : ∀ a b, pid a = pid b → a = b) (hc : ClosedHeap h) {root : Nat}
    (hr : root < h.length) :
    (walk pid h root).Nodup ∧ root ∈ walk pid h root ∧
      (∀ x ∈ walk pid h root, x < h.length ∧ ∀ c ∈ childrenAt h x, c ∈ walk pid h root) ∧
      ∀ Z : Nat → Prop, Z root → (∀ x, Z x → ∀ c ∈ childrenAt h x, Z c) →
        ∀ x ∈ walk pid h root, Z x := by
  have hi : WalkInv h [] [root] [root] := ⟨by simp, by simp, by simp, by simpa using hr⟩
  obtain ⟨S, h1, h2, h3⟩ := walkFrom_spec hp hc (h.length + 1) [] [root] [root] hi (by simp)
  have e : walkFrom pid h (h.length + 1) [root] (([root] : List Nat).map pid) = walk pid h root := rfl
  rw [e] at h1 h2 h3
  rw [List.nil_append] at h1
  refine ⟨by simpa using h1.nodup, h2 root (by simp), fun x hx => ⟨h1.lt x (by simpa using hx),
    fun c hcx => by simpa using h1.closed x hx c hcx⟩, fun Z hz hzc => h3 Z (by simpa using hz) hzc⟩

end Yargy
