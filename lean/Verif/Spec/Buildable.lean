import Verif.Spec.History
import Verif.Spec.Predicate
/-!
What has to be right with a rule for `Parser(rule)` not to raise.
-/
namespace Yargy.Spec

/-- A rule that is neither a quantifier nor a forward rule. -/
def definite {P : Type} : Obj P → Bool
  | .optional _ _ | .repeatable _ _ | .repOptional _ _ _ | .minBounded _ _ _ | .maxBounded _ _ _
  | .minMaxBounded _ _ _ _ | .forward _ => false
  | o => !production o

/-- `.optional()` and repetitions with bounds, except for those of at most one: what they become begins with
a choice or with a sequence. -/
def settled {P : Type} : Obj P → Bool
  | .optional _ _ | .minBounded _ _ _ | .minMaxBounded _ _ _ _ => true
  | .maxBounded _ max _ => decide (2 ≤ max)
  | _ => false

/-- A rule that may define a forward rule: neither a repetition without bounds nor a forward rule, also not
inside of other quantifiers, where a forward rule does no harm. -/
inductive Defining {P : Type} (h : Heap P) : Nat → Prop
  | plain {a o} : h[a]? = some o → definite o = true → Defining h a
  | quantifier {a c o} : h[a]? = some o → settled o = true → o.children = [c] → Defining h c → Defining h a
  | around {a c d o} : h[a]? = some o → settled o = true → o.children = [c] → h[c]? = some (.forward d) →
    Defining h a

/-- `.optional()`, `.repeatable()` and their bounded variants: rules with a rule that is repeated. -/
def quantifier {P : Type} : Obj P → Bool
  | .optional _ _ | .repeatable _ _ | .minBounded _ _ _ | .maxBounded _ _ _ | .minMaxBounded _ _ _ _ => true
  | _ => false

/-- Nothing contains itself, except inside of forward rules. -/
inductive Grounded {P : Type} (h : Heap P) : Nat → Prop
  | forward {a c} : h[a]? = some (.forward c) → Grounded h a
  | node {a o} : h[a]? = some o → (∀ c ∈ o.children, Grounded h c) → Grounded h a

/-- A predicate of an activated key that the gazetteer of the kind is indexed by. -/
def indexes : PipeKind → Pred → Bool
  | .exact, .eq _ | .caseless, .caseless _ | .morph, .dict _ => true
  | _, _ => false

/-- What is asked of one object of the rule. -/
structure Sound (c : Context) (split : Str → List Str) (h : Heap Pred) (a : Nat) (o : Obj Pred) : Prop where
  grounded : Grounded h a
  /-- forward rules are defined, and not by repetitions without bounds or by forward rules -/
  defined : ∀ d, o = .forward d → ∃ r, d = some r ∧ Defining h r
  /-- `RepeatableOptionalRule`, which only the library makes itself, is not repeated once more -/
  quantified : quantifier o = true → ∀ d ∈ o.children, ∀ e b r, h[d]? ≠ some (.repOptional e b r)
  /-- grammemes, token types, morphology: what predicates refer to is there -/
  known : ∀ ts m, o = .prod ts m → ∀ p, .pred p ∈ ts → ∀ q, PredPart q p → Known c q
  /-- lines of gazetteers have words -/
  words : ∀ k ls, o = .pipe (.scheme k ls) → ∀ l ∈ ls, split l ≠ []
  morph : ∀ ls, o = .pipe (.scheme .morph ls) → ls ≠ [] → ∃ m, c.morph = some m
  /-- so have those of gazetteers that an earlier parser has split -/
  keys : ∀ k ks, o = .pipe (.keys k ks) → ∀ key ∈ ks, ∃ p ps, key.2 = p :: ps ∧ indexes k p = true

/-- Programs that only make rules and define forward rules. -/
def Fresh (L : Lang) (setOrder : List Str → List Str) : Heap Pred → Prop :=
  RunWith L setOrder (fun _ _ => False) []

end Yargy.Spec
