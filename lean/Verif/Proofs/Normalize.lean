import Verif.Proofs.SquashPass
/-!
The five passes of `Rule.normalized` one after another.
-/
namespace Yargy

variable {P : Type} {k : Kind}

/-- What is needed of a heap before each of the later passes. -/
structure Tidy (k : Kind) (h : Heap P) : Prop where
  closed : ClosedHeap h
  inv : ∀ o ∈ h, o.bare k ∧ o.bounds

/-- One heap and rule after another, with the same words. -/
structure Step (k : Kind) (h : Heap P) (a : Nat) (h' : Heap P) (b : Nat) : Prop where
  tidy : Tidy k h'
  lt : b < h'.length
  length : h.length ≤ h'.length
  words : ∀ w, Words k h a w ↔ Words k h' b w
  others : ∀ x, x < h.length → ∀ w, Words k h x w ↔ Words k h' x w

theorem Step.trans {h h' h'' : Heap P} {a b c} (h1 : Step k h a h' b) (h2 : Step k h' b h'' c) :
    Step k h a h'' c where
  tidy := h2.tidy
  lt := h2.lt
  length := Nat.le_trans h1.length h2.length
  words w := (h1.words w).trans (h2.words w)
  others x hx w := (h1.others x hx w).trans (h2.others x (Nat.lt_of_lt_of_le hx h1.length) w)

theorem transform_step {I : PassInv P} {m : Method P} {pid : Nat → Nat}
    (hp : ∀ a b, pid a = pid b → a = b) (hm : MethodOk I k m)
    (hI : ∀ g o, I.Q g o → o.bare k ∧ o.bounds) {limit root b : Nat} {h h' : Heap P}
    (ht : transform m pid limit root h = .ok (b, h')) (hc : ClosedHeap h) (hq : ∀ o ∈ h, I.Q h o)
    (hr : root < h.length) : Step k h root h' b := by
  obtain ⟨ext, h1, h2, h3, h4⟩ := transform_ok hp hm ht hc hq
  obtain ⟨w1, w2⟩ := transform_words hp hm ht hc hq hr
  refine ⟨⟨h1.closed h2, h1.all ?_ ?_ (fun o ho => hI _ _ (h3 o ho))⟩, ?_, ?_, w1, w2⟩
  · intro o o' hl hq
    cases hl with
    | refl => exact hq
    | bnf hl =>
      refine ⟨fun _ _ _ _ _ e => ?_, trivial⟩
      rw [← hl]
      exact hq.1 _ _ _ _ _ rfl
  · intro r
    exact ⟨fun _ _ _ _ _ e => (by cases e), trivial⟩
  · rw [← h1.length]; exact h4.lt'
  · rw [← h1.length]; simp

theorem replaced_step {pid : Nat → Nat} (hp : ∀ a b, pid a = pid b → a = b) {limit root b : Nat}
    {h h' : Heap P} (hn : replaced pid limit root h = .ok (b, h')) (ht : Tidy k h)
    (hr : root < h.length) : Step k h root h' b := by
  unfold replaced at hn
  have start : ∀ {m : Method P} {r r' g g'}, MethodOk (baseInv k) k m → Tidy k g → r < g.length →
      transform m pid limit r g = .ok (r', g') → Step k g r g' r' := by
    intro m r r' g g' hm hs hr ht
    exact transform_step hp hm (fun _ _ h => h) ht hs.closed hs.inv hr
  simp only [bind, Except.bind] at hn
  cases h2 : transform extendedMethod pid limit root h with
  | error e => rw [h2] at hn; cases hn
  | ok x2 =>
    obtain ⟨r2, g2⟩ := x2
    rw [h2] at hn
    have s2 := start extended_ok ht hr h2
    simp only at hn
    cases h3 : transform orMethod pid limit r2 g2 with
    | error e => rw [h3] at hn; cases hn
    | ok x3 =>
      obtain ⟨r3, g3⟩ := x3
      rw [h3] at hn
      have s3 := s2.trans (start or_ok s2.tidy s2.lt h3)
      simp only at hn
      cases h4 : transform emptyMethod pid limit r3 g3 with
      | error e => rw [h4] at hn; cases hn
      | ok x4 =>
        obtain ⟨r4, g4⟩ := x4
        rw [h4] at hn
        have s4 := s3.trans (start empty_ok s3.tidy s3.lt h4)
        exact s4.trans (start flatten_ok s4.tidy s4.lt hn)

theorem squash_step {pid : Nat → Nat} (hp : ∀ a b, pid a = pid b → a = b) {limit root b : Nat}
    {h h' : Heap P} (hn : transform squashMethod pid limit root h = .ok (b, h')) (hc : ClosedHeap h)
    (hb : ∀ o ∈ h, o.bare k) (hcalm : Calm h) (hr : root < h.length) : Step k h root h' b :=
  transform_step hp squash_ok (fun _ _ h => h.1) hn hc
    (fun o ho => ⟨⟨hb o ho, hcalm.bounds o ho⟩, hcalm.calm o ho⟩) hr

theorem normalized_step {pid : Nat → Nat} (hp : ∀ a b, pid a = pid b → a = b) {limit root b : Nat}
    {h h' : Heap P} (hn : normalized pid limit root h = .ok (b, h')) (hc : ClosedHeap h)
    (hb : ∀ o ∈ h, o.bare k) (hcalm : Calm h) (hr : root < h.length) : Step k h root h' b := by
  unfold normalized at hn
  simp only [bind, Except.bind] at hn
  cases h1 : transform squashMethod pid limit root h with
  | error e => rw [h1] at hn; cases hn
  | ok x1 =>
    obtain ⟨r1, g1⟩ := x1
    rw [h1] at hn
    have s1 : Step k h root g1 r1 := squash_step hp h1 hc hb hcalm hr
    exact s1.trans (replaced_step hp hn s1.tidy s1.lt)

end Yargy
