import Verif.Spec.Phrase
import Verif.Spec.Compile
/-! How what a rule reports is composed of what its parts report. Relations between positions of tokens. -/
namespace Yargy.Spec

/-- `n` times in a row. -/
inductive Times (R : Nat → Nat → Prop) : Nat → Nat → Nat → Prop
  | zero {i} : Times R 0 i i
  | succ {n i k j} : R i k → Times R n k j → Times R (n + 1) i j

/-- One after another: a predicate says one token, a rule what it reports. -/
inductive InRow (S : Pred → Nat → Prop) (R : Nat → Nat → Nat → Prop) : List (Term Pred) → Nat → Nat → Prop
  | nil {i} : InRow S R [] i i
  | pred {p ts i j} : S p i → InRow S R ts (i + 1) j → InRow S R (.pred p :: ts) i j
  | rule {b ts i k j} : R b i k → InRow S R ts k j → InRow S R (.rule b :: ts) i j

/-- What each kind of rule makes of its parts: `R a` is what rule number `a` reports, `S p` which tokens are what
`p` says. -/
structure Composed (h : Heap Pred) (root : Nat) (S : Pred → Nat → Prop) (R : Nat → Nat → Nat → Prop) : Prop where
  /-- `rule(x, y, …)` -/
  row : ∀ a q ts m, Reach h root a → h[a]? = some (.rule [q]) → h[q]? = some (.prod ts m) →
    ∀ i j, R a i j ↔ InRow S R ts i j
  /-- `or_(x, y, …)` -/
  or_ : ∀ a rs, Reach h root a → h[a]? = some (.or rs) → ∀ i j, R a i j ↔ ∃ b ∈ rs, R b i j
  /-- `x.optional()` -/
  optional : ∀ a b v, Reach h root a → h[a]? = some (.optional b v) → ∀ i j, R a i j ↔ i = j ∨ R b i j
  /-- `x.repeatable()` -/
  repeatable : ∀ a b v, Reach h root a → h[a]? = some (.repeatable b v) →
    ∀ i j, R a i j ↔ ∃ n, 1 ≤ n ∧ Times (R b) n i j
  /-- `x.repeatable(min=…)` -/
  min : ∀ a b m v, Reach h root a → h[a]? = some (.minBounded b m v) →
    ∀ i j, R a i j ↔ ∃ n, m ≤ n ∧ Times (R b) n i j
  /-- `x.repeatable(max=…)` -/
  max : ∀ a b m v, Reach h root a → h[a]? = some (.maxBounded b m v) →
    ∀ i j, R a i j ↔ ∃ n, 1 ≤ n ∧ n ≤ m ∧ Times (R b) n i j
  /-- `x.repeatable(min=…, max=…)` -/
  minMax : ∀ a b l m v, Reach h root a → h[a]? = some (.minMaxBounded b l m v) →
    ∀ i j, R a i j ↔ ∃ n, l ≤ n ∧ n ≤ m ∧ Times (R b) n i j
  /-- `x.named(…)`, `x.interpretation(…)`, a forward rule defined as `x` -/
  same : ∀ a b, Reach h root a → (h[a]? = some (.forward (some b)) ∨ (∃ n, h[a]? = some (.named b n)) ∨
    ∃ x, h[a]? = some (.interp b x)) → ∀ i j, R a i j ↔ R b i j

end Yargy.Spec
