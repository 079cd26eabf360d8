import Verif.Proofs.PickSettle
import Verif.Proofs.Normalize
/-!
The five passes of `Rule.normalized` one after another.
-/
namespace Yargy.Pick

variable {P : Type}

/-- A property of objects that does not look into forward rules or at the attributes of compiled
rules. -/
theorem shape_all {N : Heap P → Nat → Obj P → Obj P → Prop} {g h : Heap P} (hs : Shape N g h)
    (hN : ∀ g a o o', ¬ N g a o o') {Q : Obj P → Prop}
    (hl : ∀ o o', Like o o' → Q o → Q o') (hf : ∀ r, Q (.forward r)) (hq : ∀ o ∈ g, Q o) :
    ∀ o ∈ h, Q o := by
  intro o ho
  obtain ⟨a, ha⟩ := List.mem_iff_getElem?.1 ho
  have hlt : a < g.length := by
    rw [hs.length]; exact (List.getElem?_eq_some_iff.1 ha).1
  obtain ⟨o', h1, h2⟩ := hs.at_ a g[a] (List.getElem?_eq_getElem hlt)
  rw [ha] at h1
  cases h1
  rcases h2 with h2 | ⟨r, r', _, rfl, h4, _⟩ | h2
  · exact hl _ _ h2 (hq _ (List.getElem_mem hlt))
  · exact hf _
  · exact absurd h2 (hN _ _ _ _)

/-- What is needed of a heap before each of the later passes. -/
structure Tidy (fresh : Bool) (h : Heap P) : Prop where
  closed : ClosedHeap h
  inv : ∀ o ∈ h, o.bounds ∧ (fresh = true → o.entry = false)

/-- One heap and rule after another, with the same words. -/
structure Step (fresh : Bool) (h : Heap P) (a : Nat) (h' : Heap P) (b : Nat) : Prop where
  tidy : Tidy fresh h'
  lt : b < h'.length
  length : h.length ≤ h'.length
  words : ∀ w, Words h a w ↔ Words h' b w

theorem Step.trans {fresh fresh' : Bool} {h h' h'' : Heap P} {a b c} (h1 : Step fresh h a h' b)
    (h2 : Step fresh' h' b h'' c) : Step fresh' h a h'' c where
  tidy := h2.tidy
  lt := h2.lt
  length := Nat.le_trans h1.length h2.length
  words w := (h1.words w).trans (h2.words w)

theorem transform_step {fresh : Bool} {I : PassInv P} {m : Method P} {pid : Nat → Nat}
    (hp : ∀ a b, pid a = pid b → a = b) (hm : MethodOk I m)
    (hN : ∀ g a o o', ¬ I.N g a o o') 
    (hI : ∀ g o, I.Q g o → o.bounds ∧ (fresh = true → o.entry = false)) {limit root b : Nat} {h h' : Heap P}
    (ht : transform m pid limit root h = .ok (b, h')) (hc : ClosedHeap h) (hq : ∀ o ∈ h, I.Q h o)
    (hr : root < h.length) : Step fresh h root h' b := by
  obtain ⟨ext, h1, h2, h3, h4⟩ := transform_ok hp hm ht (.refl h) hc hq
  obtain ⟨w1, _⟩ := transform_words hp hm ht hN hc hq hr
  refine ⟨⟨h1.closed hN h2, shape_all h1 hN ?_ ?_ (fun o ho => hI _ _ (h3 o ho))⟩, ?_, ?_, w1⟩
  · intro o o' hl hq
    cases hl with
    | refl => exact hq
    | bnf hl => exact ⟨trivial, fun _ => rfl⟩
  · intro r; exact ⟨trivial, fun _ => rfl⟩
  · rw [← h1.length]; exact h4.lt'
  · rw [← h1.length]; simp

theorem replaced_step {pid : Nat → Nat} (hp : ∀ a b, pid a = pid b → a = b) {limit root b : Nat}
    {h h' : Heap P} (hn : replaced pid limit root h = .ok (b, h')) (ht : Tidy true h)
    (hr : root < h.length) : Step true h root h' b := by
  unfold replaced at hn
  have start : ∀ {m : Method P} {r r' g g'}, MethodOk (baseInv true) m → Tidy true g → r < g.length →
      transform m pid limit r g = .ok (r', g') → Step true g r g' r' := by
    intro m r r' g g' hm hs hr ht
    exact transform_step hp hm (fun _ _ _ _ h => h) (fun _ _ h => h) ht hs.closed hs.inv hr
  simp only [bind, Except.bind] at hn
  cases h2 : transform extendedMethod pid limit root h with
  | error e => rw [h2] at hn; cases hn
  | ok x2 =>
    obtain ⟨r2, g2⟩ := x2
    rw [h2] at hn
    have s2 := start extended_ok ht hr h2
    simp only at hn
    cases h3 : transform orMethod pid limit r2 g2 with
    | error e => rw [h3] at hn; cases hn
    | ok x3 =>
      obtain ⟨r3, g3⟩ := x3
      rw [h3] at hn
      have s3 := s2.trans (start or_ok s2.tidy s2.lt h3)
      simp only at hn
      cases h4 : transform emptyMethod pid limit r3 g3 with
      | error e => rw [h4] at hn; cases hn
      | ok x4 =>
        obtain ⟨r4, g4⟩ := x4
        rw [h4] at hn
        have s4 := s3.trans (start empty_ok s3.tidy s3.lt h4)
        exact s4.trans (start flatten_ok s4.tidy s4.lt hn)

theorem squash_step {pid : Nat → Nat} (hp : ∀ a b, pid a = pid b → a = b) {limit root b : Nat}
    {h h' : Heap P} (hn : transform squashMethod pid limit root h = .ok (b, h')) (hs : Sorted h)
    (hb : ∀ o ∈ h, o.bounds ∧ o.entry = false) (hsingle : Single (settle h)) (hr : root < h.length) :
    Step true (settle h) root h' b := by
  obtain ⟨h1, h2, h3, h4, h5⟩ := squash_words hp hn hs hr hb hsingle
  exact ⟨⟨h1, fun o ho => ⟨(h2 o ho).1, fun _ => (h2 o ho).2⟩⟩, h3, by rw [settle_length]; exact h4, h5⟩

theorem normalized_step {pid : Nat → Nat} (hp : ∀ a b, pid a = pid b → a = b) {limit root b : Nat}
    {h h' : Heap P} (hn : normalized pid limit root h = .ok (b, h')) (hs : Sorted h)
    (hb : ∀ o ∈ h, o.bounds ∧ o.entry = false) (hsingle : Single (settle h)) (hr : root < h.length) :
    Step true (settle h) root h' b := by
  unfold normalized at hn
  simp only [bind, Except.bind] at hn
  cases h1 : transform squashMethod pid limit root h with
  | error e => rw [h1] at hn; cases hn
  | ok x1 =>
    obtain ⟨r1, g1⟩ := x1
    rw [h1] at hn
    have s1 : Step true (settle h) root g1 r1 := squash_step hp h1 hs hb hsingle hr
    exact s1.trans (replaced_step hp hn s1.tidy s1.lt)

end Yargy.Pick
