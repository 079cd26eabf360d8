import Verif.Spec.Derivation
/-!
Specification: derivations whose empty parts stand where a first-come-first-served parser finds them.

The states of a column are dealt with in the order in which they came, so the states of a column come
in rounds: round 0 is what the column has at the beginning (the states that have just read a token, and
the initial states of the whole rule), round `n + 1` is what dealing with round `n` adds. The numbers
`n`, `n'` in `DerivesRounds` say no more than that; they are computed from the shape of the derivation
alone, nothing of the chart parser is used.
-/
namespace Yargy.Spec

variable {P T : Type}

/-- `w R` is a lower bound for the round in which a state may wait for rule `R`: 0 after a token and
at the beginning of the whole rule, at most 1 after a subtree, and one more than for `r` at the
beginning of a production of `r`. The constant 0 always is such a bound. -/
def Waits (G : Grammar P T) (w : Nat → Nat) : Prop :=
  ∀ r prod R, prod ∈ G.productions r →
    (prod.terms[0]? = some (.rule R) → w R ≤ w r + 1 ∧ (r = G.start → w R = 0)) ∧
    ∀ d, prod.terms[d + 1]? = some (.rule R) →
      w R ≤ 1 ∧ ∀ p, prod.terms[d]? = some (.pred p) → w R = 0

/-- Places where a rule `R` may derive nothing: those of `EmptyOK`, or, when the state that waits for
`R` is there by round `n`, whenever no empty `R` can be done before that round. -/
def EmptyFound (G : Grammar P T) (w : Nat → Nat) (R : Nat) (b : Before P) (n : Nat) : Prop :=
  EmptyOK G R b ∨ n = 0 ∨ (R ≠ G.start ∧ n ≤ w R + 1)

mutual
/-- `DerivesRounds G w toks x i j n n' t`: `t` derives `x` over the tokens `i, …, j-1`; if the states
that begin `x` are there by round `n` of column `i`, then the finished one is there by round `n'` of
column `j`; and all empty subtrees are at places allowed by `EmptyFound`. -/
inductive DerivesRounds (G : Grammar P T) (w : Nat → Nat) (toks : List T) :
    Term P → Nat → Nat → Nat → Nat → DTree P T → Prop
  | leaf {p i t n} : toks[i]? = some t → G.accepts p t = true →
      DerivesRounds G w toks (.pred p) i (i + 1) n 0 (.leaf p (G.constrain p t))
  | node {r i j n n' prod cs} : prod ∈ G.productions r →
      DerivesAllRounds G w toks (.nothing r prod) prod.terms i j n n' cs →
      DerivesRounds G w toks (.rule r) i j n n' (.node r prod cs)
inductive DerivesAllRounds (G : Grammar P T) (w : Nat → Nat) (toks : List T) :
    Before P → List (Term P) → Nat → Nat → Nat → Nat → List (DTree P T) → Prop
  | nil {b i n} : DerivesAllRounds G w toks b [] i i n n []
  | consLeaf {b p xs i j k n m n' t ts} : DerivesRounds G w toks (.pred p) i j n m t →
      DerivesAllRounds G w toks .token xs j k 0 n' ts →
      DerivesAllRounds G w toks b (.pred p :: xs) i k n n' (t :: ts)
  | consNode {b r xs i j k n m n' t ts} : DerivesRounds G w toks (.rule r) i j (n + 1) m t →
      (i < j ∨ EmptyFound G w r b n) → DerivesAllRounds G w toks .subtree xs j k (m + 1) n' ts →
      DerivesAllRounds G w toks b (.rule r :: xs) i k n n' (t :: ts)
end

/-! ### Grammars all of whose derivations are of this kind -/

/-- `a` is at most `b`, where `none` stands for no bound. -/
def Within (a b : Option Nat) : Prop := ∀ m, b = some m → ∃ n, a = some n ∧ n ≤ m

/-- Bounds for a grammar: rules that may be reached, rules that may derive nothing, the first round in
which a state may wait for a rule, the last round by which the initial states of a rule are there, and
the last round by which it is done. -/
structure Bounds where
  live : Nat → Prop
  null : Nat → Prop
  waits : Nat → Nat
  begins : Nat → Option Nat
  ends : Nat → Option Nat

/-- The round by which a state that is there by round `c` has passed the terms. -/
def Bounds.pass {P : Type} (B : Bounds) (c : Option Nat) : List (Term P) → Option Nat
  | [] => c
  | .pred _ :: xs => B.pass (some 0) xs
  | .rule r :: xs => B.pass ((B.ends r).map (· + 1)) xs

/-- The terms that may derive nothing stand where the parser finds that. -/
def Bounds.Places {P : Type} (B : Bounds) (start : Nat) (c : Option Nat) : List (Term P) → Prop
  | [] => True
  | .pred _ :: xs => B.Places start (some 0) xs
  | .rule r :: xs => B.live r ∧ Within (c.map (· + 1)) (B.begins r) ∧
      (B.null r → ∃ n, c = some n ∧ (n = 0 ∨ (r ≠ start ∧ n ≤ B.waits r + 1))) ∧
      B.Places start ((B.ends r).map (· + 1)) xs

/-- The bounds are right for the grammar, and all parts that may be empty are at places where the
parser finds that. -/
structure EmptiesFound (G : Grammar P T) (B : Bounds) : Prop where
  waits : Waits G B.waits
  start : B.live G.start ∧ Within (some 0) (B.begins G.start)
  null : ∀ r prod, B.live r → prod ∈ G.productions r →
    (∀ x ∈ prod.terms, ∃ r', x = .rule r' ∧ B.null r') → B.null r
  places : ∀ r prod, B.live r → prod ∈ G.productions r →
    B.Places G.start (B.begins r) prod.terms ∧ Within (B.pass (B.begins r) prod.terms) (B.ends r)

end Yargy.Spec
