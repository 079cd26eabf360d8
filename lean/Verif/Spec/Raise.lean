import Verif.Model.Raise
import Verif.Spec.Derivation
import Verif.Spec.Predicate
import Verif.Spec.Compile
/-! Exceptions of predicates. -/
namespace Yargy.Spec

section
variable {P T : Type}

/-- Asking the predicate about the token raises: it raises itself, or it says yes and narrowing the token raises. -/
def Raises (M : Methods P T) (p : P) (t : T) (e : Err) : Prop :=
  M.call p t = .error e ∨ M.call p t = .ok true ∧ M.constrain p t = .error e

/-- The grammar asks the same predicates, and takes an exception for a no. -/
structure Tamed (M : Methods P T) (G : Grammar P T) : Prop where
  yes : ∀ p t, G.accepts p t = true ↔ M.call p t = .ok true
  token : ∀ p t t', M.constrain p t = .ok t' → G.constrain p t = t'

/-- The rule is of interest at the position: it is the rule of the parser, which `findall` looks for everywhere and
`match` only at the beginning, or it comes next in a rule of interest whose parts before it match what precedes. -/
inductive Expects (G : Grammar P T) (toks : List T) (all : Bool) : Nat → Nat → Prop
  | start {i} : i = 0 ∨ all = true → Expects G toks all i G.start
  | part {i k r r' prod xs ys ts} : Expects G toks all i r → prod ∈ G.productions r →
    prod.terms = xs ++ .rule r' :: ys → DerivesAll G toks xs i k ts → Expects G toks all k r'

/-- It is of interest whether the predicate accepts the token at the position. -/
def Wanted (G : Grammar P T) (toks : List T) (all : Bool) (k : Nat) (p : P) : Prop :=
  ∃ i r prod xs ys ts, Expects G toks all i r ∧ prod ∈ G.productions r ∧ prod.terms = xs ++ .pred p :: ys ∧
    DerivesAll G toks xs i k ts

/-- The rule may begin at the position: it is the rule of the parser, or a production that may begin there begins
with it. -/
inductive Begins (G : Grammar P T) (toks : List T) (all : Bool) (k : Nat) : Nat → Prop
  | start : k = 0 ∨ all = true → Begins G toks all k G.start
  | first {r prod r'} : Begins G toks all k r → prod ∈ G.productions r →
    (∀ t, toks[k]? = some t → prod ∈ G.predict r t) → prod.terms.head? = some (.rule r') → Begins G toks all k r'

end

/-- The predicates that the code of `yargy.predicates` can raise in, with the reason: the function of the user
raises, `int` does, or there is no first letter. -/
inductive Culprit (L : Lang) (t : Token) : Pred → Err → Prop
  | custom {f types e} : types = [] ∨ t.type ∈ types → L.fn f t.value = .error e → Culprit L t (.custom f types) e
  | customP {f types e} : types = [] ∨ t.type ∈ types → L.fn f t.value = .error e → Culprit L t (.customP f types) e
  | gte {n} : t.type = intType → L.parseInt t.value = none → Culprit L t (.gte n) .valueError
  | lte {n} : t.type = intType → L.parseInt t.value = none → Culprit L t (.lte n) .valueError
  | isCapitalized : t.value = [] → Culprit L t .isCapitalized .indexError

/-- The predicate is a term of a production, or a word of a gazetteer that an earlier parser has split. -/
inductive Bears : Obj Pred → Pred → Prop
  | prod {ts m p} : .pred p ∈ ts → Bears (.prod ts m) p
  | pipeProd {v ps p} : p ∈ ps → Bears (.pipeProd v ps) p
  | keys {k ks key p} : key ∈ ks → p ∈ key.2 → Bears (.pipe (.keys k ks)) p

/-- The predicate is written somewhere in the rule, possibly inside of another one. -/
def Written (h : Heap Pred) (root : Nat) (p : Pred) : Prop :=
  ∃ a o q, Reach h root a ∧ h[a]? = some o ∧ Bears o q ∧ PredPart p q

end Yargy.Spec
