import Verif.Spec.Compile
/-!
Specification: rules whose optional parts stand directly after a token. Said of the rule objects that the user made,
nothing of the compiled grammar or of the parser is used.
-/
namespace Yargy.Spec

variable {P : Type}

/-- The rule is made by `optional()`. -/
def IsOptional (h : Heap P) (r : Nat) : Prop := ∃ x v, h[r]? = some (.optional x v)

/-- What the rule matches ends with a token of its own, not of a part of it: a gazetteer, or a rule all of whose
alternatives end with a predicate. -/
def EndsInToken (h : Heap P) (r : Nat) : Prop :=
  (∃ p, h[r]? = some (.pipe p)) ∨
  ∃ ps, h[r]? = some (.rule ps) ∧ ∀ p ∈ ps, ∃ ts q m, h[p]? = some (.prod (ts ++ [.pred q]) m)

/-- Repeated without bounds, or bounds put on such a repetition. -/
inductive Unending (h : Heap P) : Nat → Prop
  | repeatable {a r v} : h[a]? = some (.repeatable r v) → Unending h a
  | min {a r n v} : h[a]? = some (.minBounded r n v) → Unending h r → Unending h a
  | max {a r n v} : h[a]? = some (.maxBounded r n v) → Unending h r → Unending h a
  | minMax {a r n m v} : h[a]? = some (.minMaxBounded r n m v) → Unending h r → Unending h a

/-- Optional parts stand in sequences only, directly after a predicate or after a rule that ends with one; what is
optional is not itself optional or repeated without bounds; and nothing else may be empty. -/
structure OptionalsAfterTokens (h : Heap P) (root : Nat) : Prop where
  whole : ¬ IsOptional h root
  kinds : ∀ (a : Nat) o, Reach h root a → h[a]? = some o →
    o ≠ .empty ∧ o ≠ .emptyProd ∧ (∀ r u v, o ≠ .repOptional r u v) ∧ ∀ v, o ≠ .pipeProd v []
  sequences : ∀ (a : Nat) ts m, Reach h root a → h[a]? = some (.prod ts m) → ts ≠ [] ∧
    ∀ (i r : Nat), ts[i]? = some (.rule r) → IsOptional h r → ∃ (j : Nat) (t : Term P), i = j + 1 ∧ ts[j]? = some t ∧
      ((∃ q, t = .pred q) ∨ ∃ s, t = .rule s ∧ EndsInToken h s)
  only : ∀ (a : Nat) o, Reach h root a → h[a]? = some o → (∀ ts m, o ≠ .prod ts m) →
    ∀ c ∈ o.children, ¬ IsOptional h c
  content : ∀ (a r : Nat) v, Reach h root a → h[a]? = some (.optional r v) → ¬ Unending h r

end Yargy.Spec
