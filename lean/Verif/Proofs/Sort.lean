import Verif.Model.TreeOrder
/-! Sorting with a comparison that decides a strict total order. -/
namespace Yargy

variable {α : Type} {lt : α → α → Except Err Bool} {R : α → α → Prop}

/-- `lt` decides `R` -/
def Decides (lt : α → α → Except Err Bool) (R : α → α → Prop) (a b : α) : Prop :=
  ∃ v, lt a b = .ok v ∧ (v = true ↔ R a b)

theorem insertBy_spec (htr : ∀ a b c, R a b → R b c → R a c) (x : α) : ∀ (l : List α),
    l.Pairwise R → (∀ y ∈ l, Decides lt R x y ∧ (R x y ∨ R y x)) →
    ∃ l', insertBy lt x l = .ok l' ∧ l'.Perm (x :: l) ∧ l'.Pairwise R := by
  intro l
  induction l with
  | nil => intro _ _; exact ⟨[x], rfl, List.Perm.refl _, List.pairwise_singleton _ _⟩
  | cons y ys ih =>
    intro hp hc
    obtain ⟨⟨v, h1, h2⟩, h3⟩ := hc y List.mem_cons_self
    rw [List.pairwise_cons] at hp
    cases v with
    | true =>
      refine ⟨x :: y :: ys, by simp [insertBy, h1], List.Perm.refl _, ?_⟩
      have hxy := h2.1 rfl
      rw [List.pairwise_cons]
      refine ⟨?_, List.pairwise_cons.2 hp⟩
      intro z hz
      rcases List.mem_cons.1 hz with rfl | hz
      · exact hxy
      · exact htr _ _ _ hxy (hp.1 z hz)
    | false =>
      have hyx : R y x := by
        rcases h3 with h3 | h3
        · exact absurd (h2.2 h3) (by simp)
        · exact h3
      obtain ⟨l', g1, g2, g3⟩ := ih hp.2 (fun z hz => hc z (List.mem_cons_of_mem _ hz))
      refine ⟨y :: l', by simp [insertBy, h1, g1], ?_, ?_⟩
      · exact (g2.cons y).trans (List.Perm.swap x y ys)
      · rw [List.pairwise_cons]
        refine ⟨?_, g3⟩
        intro z hz
        rcases List.mem_cons.1 (g2.mem_iff.1 hz) with rfl | hz
        · exact hyx
        · exact hp.1 z hz

theorem sortBy_spec (htr : ∀ a b c, R a b → R b c → R a c) : ∀ (l acc : List α),
    acc.Pairwise R → (acc ++ l).Pairwise (fun a b => R a b ∨ R b a) →
    (∀ a ∈ acc ++ l, ∀ b ∈ acc ++ l, Decides lt R a b) →
    ∃ l', sortBy lt acc l = .ok l' ∧ l'.Perm (acc ++ l) ∧ l'.Pairwise R := by
  intro l
  induction l with
  | nil => intro acc h1 _ _; exact ⟨acc, rfl, by simp, h1⟩
  | cons x xs ih =>
    intro acc h1 h2 h3
    have hx : ∀ y ∈ acc, Decides lt R x y ∧ (R x y ∨ R y x) := by
      intro y hy
      refine ⟨h3 x (by simp) y (by simp [hy]), ?_⟩
      rw [List.pairwise_append] at h2
      exact (h2.2.2 y hy x List.mem_cons_self).symm
    obtain ⟨acc', g1, g2, g3⟩ := insertBy_spec htr x acc h1 hx
    have hperm : (acc' ++ xs).Perm (acc ++ x :: xs) := by
      refine (g2.append_right xs).trans ?_
      simpa using (List.perm_middle (l₁ := acc) (l₂ := xs) (a := x)).symm
    obtain ⟨l', k1, k2, k3⟩ := ih acc' g3
      (h2.perm hperm.symm (fun h => h.symm))
      (fun a ha b hb => h3 a (hperm.mem_iff.1 ha) b (hperm.mem_iff.1 hb))
    exact ⟨l', by simp [sortBy, g1, k1], k2.trans hperm, k3⟩

/-- an increasing arrangement is unique -/
theorem sorted_unique (hir : ∀ a, ¬ R a a) (htr : ∀ a b c, R a b → R b c → R a c)
    {l l' : List α} (hp : l.Perm l') (h : l.Pairwise R) (h' : l'.Pairwise R) : l = l' :=
  hp.eq_of_pairwise (fun a b _ _ h1 h2 => absurd (htr _ _ _ h1 h2) (hir a)) h h'

end Yargy
