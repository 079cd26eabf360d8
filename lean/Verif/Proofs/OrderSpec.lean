import Verif.Spec.Order
import Verif.Proofs.Yield
/-! The preference order is a strict order, total on derivations from the same place. -/
set_option linter.unusedVariables false
namespace Yargy.Spec

variable {P T : Type} {G : Grammar P T} {toks : List T}

theorem OfferedBefore.irrefl {l : List (Production P)} {a : Production P} : ¬ OfferedBefore l a a := by
  rintro ⟨n, h1, h2⟩
  exact Nat.lt_irrefl _ (h2 n h1)

theorem OfferedBefore.trans {l : List (Production P)} {a b c : Production P}
    (h : OfferedBefore l a b) (h' : OfferedBefore l b c) : OfferedBefore l a c := by
  obtain ⟨n, h1, h2⟩ := h
  obtain ⟨m, h3, h4⟩ := h'
  exact ⟨n, h1, fun x hx => Nat.lt_trans (h2 m h3) (h4 x hx)⟩

/-- first occurrence -/
theorem first_occurrence {α} {a : α} : ∀ {l : List α}, a ∈ l →
    ∃ n : Nat, l[n]? = some a ∧ ∀ m : Nat, m < n → l[m]? ≠ some a
  | x :: l, h => by
    classical
    by_cases hx : x = a
    · subst hx; exact ⟨0, rfl, fun m hm => by omega⟩
    · have h' : a ∈ l := by
        rcases List.mem_cons.1 h with h | h
        · exact absurd h.symm hx
        · exact h
      obtain ⟨n, h1, h2⟩ := first_occurrence h'
      refine ⟨n + 1, by simpa using h1, ?_⟩
      intro m hm
      cases m with
      | zero => simpa using hx
      | succ m => simpa using h2 m (by omega)

theorem OfferedBefore.total {l : List (Production P)} {a b : Production P} (ha : a ∈ l) (hb : b ∈ l)
    (hne : a ≠ b) : OfferedBefore l a b ∨ OfferedBefore l b a := by
  obtain ⟨n, h1, h2⟩ := first_occurrence ha
  obtain ⟨m, h3, h4⟩ := first_occurrence hb
  rcases Nat.lt_trichotomy n m with h | h | h
  · left
    refine ⟨n, h1, fun x hx => ?_⟩
    rcases Nat.lt_or_ge x m with h5 | h5
    · exact absurd hx (h4 x h5)
    · omega
  · subst h; rw [h1] at h3; exact absurd (Option.some.inj h3) hne
  · right
    refine ⟨m, h3, fun x hx => ?_⟩
    rcases Nat.lt_or_ge x n with h5 | h5
    · exact absurd hx (h2 x h5)
    · omega

theorem Earlier.irrefl {i : Nat} {d : DTree P T} (h : Earlier G toks i d d) : False := by
  have key : ∀ i d d', Earlier G toks i d d' → d = d' → False := by
    intro i d d' h
    refine Earlier.rec (motive_1 := fun i d d' _ => d = d' → False)
      (motive_2 := fun i cs cs' _ => cs = cs' → False) ?_ ?_ ?_ ?_ h
    · intro i r a b cs cs' h1 he
      cases he
      exact h1.irrefl
    · intro i r a cs cs' _ ih he
      cases he
      exact ih rfl
    · intro i c c' cs cs' _ ih he
      cases he
      exact ih rfl
    · intro i c cs cs' _ ih he
      cases he
      exact ih rfl
  exact key _ _ _ h rfl

theorem Earlier.trans {i : Nat} {a b c : DTree P T} (h : Earlier G toks i a b)
    (h' : Earlier G toks i b c) : Earlier G toks i a c := by
  have key : ∀ i a b, Earlier G toks i a b → ∀ c, Earlier G toks i b c → Earlier G toks i a c := by
    intro i a b h
    refine Earlier.rec (motive_1 := fun i a b _ => ∀ c, Earlier G toks i b c → Earlier G toks i a c)
      (motive_2 := fun i a b _ => ∀ c, EarlierAll G toks i b c → EarlierAll G toks i a c) ?_ ?_ ?_ ?_ h
    · intro i r a b cs cs' h1 c hc
      cases hc with
      | here h2 => exact .here (h1.trans h2)
      | inside h2 => exact .here h1
    · intro i r a cs cs' h1 ih c hc
      cases hc with
      | here h2 => exact .here h2
      | inside h2 => exact .inside (ih _ h2)
    · intro i c c' cs cs' h1 ih d hd
      cases hd with
      | head h2 => exact .head (ih _ h2)
      | tail h2 => exact .head h1
    · intro i c cs cs' h1 ih d hd
      cases hd with
      | head h2 => exact .head h2
      | tail h2 => exact .tail (ih _ h2)
  exact key _ _ _ h _ h'

/-- the productions used by a derivation are among those offered -/
theorem derives_offered (hL : PredictLossless G) {r i j : Nat} {prod : Production P}
    {cs : List (DTree P T)} (hp : prod ∈ G.productions r) (h : DerivesAll G toks prod.terms i j cs) :
    prod ∈ offered G toks i r := by
  unfold offered
  cases ht : toks[i]? with
  | none => exact hp
  | some t =>
    refine hL _ _ _ hp ?_
    intro p hh
    cases hx : prod.terms with
    | nil => rw [hx] at hh; simp at hh
    | cons x xs =>
      rw [hx] at hh h
      simp only [List.head?_cons, Option.some.injEq] at hh
      subst hh
      cases h with
      | cons h1 h2 =>
        cases h1 with
        | leaf h3 h4 => rw [ht] at h3; cases h3; exact h4

theorem Earlier.total (hL : PredictLossless G) {x : Term P} {i j j' : Nat} {d d' : DTree P T}
    (h : Derives G toks x i j d) (h' : Derives G toks x i j' d') (hne : d ≠ d') :
    Earlier G toks i d d' ∨ Earlier G toks i d' d := by
  have key : ∀ x i j d, Derives G toks x i j d → ∀ j' d', Derives G toks x i j' d' → d ≠ d' →
      Earlier G toks i d d' ∨ Earlier G toks i d' d := by
    intro x i j d h
    refine Derives.rec
      (motive_1 := fun x i j d _ => ∀ j' d', Derives G toks x i j' d' → d ≠ d' →
        Earlier G toks i d d' ∨ Earlier G toks i d' d)
      (motive_2 := fun xs i j ds _ => ∀ j' ds', DerivesAll G toks xs i j' ds' → ds ≠ ds' →
        EarlierAll G toks i ds ds' ∨ EarlierAll G toks i ds' ds) ?_ ?_ ?_ ?_ h
    · intro p i t ht _ j' d' h' hne
      cases h' with
      | leaf h1 _ => rw [ht] at h1; cases h1; exact absurd rfl hne
    · intro r i j prod cs hp hall ih j' d' h' hne
      cases h' with
      | @node _ _ _ prod' cs' hp' hall' =>
        classical
        by_cases he : prod = prod'
        · subst he
          have hcs : cs ≠ cs' := by rintro rfl; exact hne rfl
          rcases ih _ _ hall' hcs with h1 | h1
          · exact Or.inl (.inside h1)
          · exact Or.inr (.inside h1)
        · rcases OfferedBefore.total (derives_offered hL hp hall) (derives_offered hL hp' hall') he with h1 | h1
          · exact Or.inl (.here h1)
          · exact Or.inr (.here h1)
    · intro i j' ds' h' hne
      cases h'
      exact absurd rfl hne
    · intro x xs i j k t ts hx hxs ih1 ih2 j' ds' h' hne
      cases h' with
      | @cons _ _ _ m _ t' ts' hx' hxs' =>
        classical
        by_cases he : t = t'
        · subst he
          have h1 := derives_reads hx
          have h2 := derives_reads hx'
          have hj : m = j := by
            have := h1.len; have := h2.len; have := h1.le; have := h2.le; omega
          subst hj
          have hm : i + t.yield.length = m := by have := h1.len; have := h1.le; omega
          rcases ih2 _ _ hxs' (by rintro rfl; exact hne rfl) with h3 | h3
          · exact Or.inl (.tail (by rw [hm]; exact h3))
          · exact Or.inr (.tail (by rw [hm]; exact h3))
        · rcases ih1 _ _ hx' he with h3 | h3
          · exact Or.inl (.head h3)
          · exact Or.inr (.head h3)
  exact key _ _ _ _ h _ _ h' hne

theorem Preferred.irrefl {a : (Nat × Nat) × DTree P T} (h : Preferred G toks a a) : False := by
  cases h with
  | start h => exact Nat.lt_irrefl _ h
  | longer _ h => exact Nat.lt_irrefl _ h
  | same _ h => exact h.irrefl

theorem Preferred.trans {a b c : (Nat × Nat) × DTree P T} (h : Preferred G toks a b)
    (h' : Preferred G toks b c) : Preferred G toks a c := by
  cases h with
  | start h1 =>
    cases h' with
    | start h2 => exact .start (Nat.lt_trans h1 h2)
    | longer h2 _ => exact .start (by omega)
    | same h2 _ => exact .start (by rw [← h2]; exact h1)
  | longer h1 h2 =>
    cases h' with
    | start h3 => exact .start (by omega)
    | longer h3 h4 => exact .longer (by omega) (by omega)
    | same h3 _ => exact .longer (by rw [h1, h3]) (by rw [← h3]; exact h2)
  | same h1 h2 =>
    cases h' with
    | start h3 => exact .start (by rw [h1]; exact h3)
    | longer h3 h4 => exact .longer (by rw [h1]; exact h3) (by rw [h1]; exact h4)
    | same h3 h4 => exact .same (h1.trans h3) (h2.trans (by rw [h1]; exact h4))

theorem Preferred.total (hL : PredictLossless G) {x : Term P} {a b : (Nat × Nat) × DTree P T}
    (ha : Derives G toks x a.1.1 a.1.2 a.2) (hb : Derives G toks x b.1.1 b.1.2 b.2) (hne : a ≠ b) :
    Preferred G toks a b ∨ Preferred G toks b a := by
  rcases Nat.lt_trichotomy a.1.1 b.1.1 with h | h | h
  · exact Or.inl (.start h)
  · rcases Nat.lt_trichotomy a.1.2 b.1.2 with h' | h' | h'
    · exact Or.inr (.longer h.symm h')
    · have he : a.1 = b.1 := Prod.ext h h'
      have hd : a.2 ≠ b.2 := by intro h2; exact hne (Prod.ext he h2)
      rw [← h] at hb
      rcases Earlier.total hL ha hb hd with h1 | h1
      · exact Or.inl (.same he h1)
      · exact Or.inr (.same he.symm (by rw [← h]; exact h1))
    · exact Or.inl (.longer h h')
  · exact Or.inr (.start h)

end Yargy.Spec
