import Verif.Spec.Derivation
/-! Derivations yield the tokens of their range. -/
namespace Yargy.Spec

variable {P T : Type}

/-- the trees `out` read as the (constrained) tokens `i, …, j-1` -/
structure Reads (G : Grammar P T) (toks : List T) (i j : Nat) (out : List T) : Prop where
  le : i ≤ j
  len : out.length = j - i
  get : ∀ m, m < j - i → ∃ p tok, toks[i + m]? = some tok ∧ G.accepts p tok = true ∧
    out[m]? = some (G.constrain p tok)

theorem Reads.append {G : Grammar P T} {toks : List T} {i j k : Nat} {a b : List T}
    (h1 : Reads G toks i j a) (h2 : Reads G toks j k b) : Reads G toks i k (a ++ b) := by
  refine ⟨Nat.le_trans h1.le h2.le, ?_, ?_⟩
  · have := h1.len; have := h2.len; have := h1.le; have := h2.le
    simp only [List.length_append]; omega
  · intro m hm
    have e1 := h1.len; have := h2.len; have := h1.le; have := h2.le
    by_cases hj : m < j - i
    · obtain ⟨p, tok, g1, g2, g3⟩ := h1.get m hj
      exact ⟨p, tok, g1, g2, by rw [List.getElem?_append_left (by omega)]; exact g3⟩
    · obtain ⟨p, tok, g1, g2, g3⟩ := h2.get (m - (j - i)) (by omega)
      refine ⟨p, tok, ?_, g2, ?_⟩
      · have : j + (m - (j - i)) = i + m := by omega
        rwa [this] at g1
      · rw [List.getElem?_append_right (by omega), e1]; exact g3

theorem derives_reads {G : Grammar P T} {toks : List T} {x : Term P} {i j : Nat} {t : DTree P T}
    (h : Derives G toks x i j t) : Reads G toks i j t.yield := by
  refine Derives.rec (motive_1 := fun x i j t _ => Reads G toks i j t.yield)
    (motive_2 := fun xs i j ts _ => Reads G toks i j (yieldAll ts)) ?_ ?_ ?_ ?_ h
  · intro p i t ht ha
    refine ⟨by omega, by simp [DTree.yield], ?_⟩
    intro m hm
    have : m = 0 := by omega
    subst this
    exact ⟨p, t, ht, ha, by simp [DTree.yield]⟩
  · intro r i j prod cs _ _ ih
    simpa [DTree.yield] using ih
  · intro i
    exact ⟨Nat.le_refl _, by simp [yieldAll], fun m hm => by omega⟩
  · intro x xs i j k t ts _ _ ih1 ih2
    simpa [yieldAll] using ih1.append ih2

theorem derives_le {G : Grammar P T} {toks : List T} {x : Term P} {i j : Nat} {t : DTree P T}
    (h : Derives G toks x i j t) : i ≤ j := (derives_reads h).le

theorem derives_stop {G : Grammar P T} {toks : List T} {x : Term P} {i j : Nat} {t : DTree P T}
    (h : Derives G toks x i j t) : j = i ∨ j ≤ toks.length := by
  have hr := derives_reads h
  by_cases hij : j = i
  · exact Or.inl hij
  · right
    have := hr.le
    obtain ⟨p, tok, g1, _⟩ := hr.get (j - i - 1) (by omega)
    have := (List.getElem?_eq_some_iff.1 g1).1
    omega

mutual
theorem DerivesSafe.derives {G : Grammar P T} {toks : List T} {x : Term P} {i j : Nat}
    {t : DTree P T} : DerivesSafe G toks x i j t → Derives G toks x i j t
  | .leaf h1 h2 => .leaf h1 h2
  | .node h1 h2 => .node h1 h2.derives
theorem DerivesAllSafe.derives {G : Grammar P T} {toks : List T} {b : Before P} {x : List (Term P)}
    {i j : Nat} {t : List (DTree P T)} : DerivesAllSafe G toks b x i j t → DerivesAll G toks x i j t
  | .nil => .nil
  | .consLeaf h1 h2 => .cons h1.derives h2.derives
  | .consNode h1 _ h2 => .cons h1.derives h2.derives
end

end Yargy.Spec
