import Verif.Model.Grammar
/-!
Specification: derivations of a compiled grammar over a token sequence. Uses only the data
types of the grammar, nothing of the chart parser.
-/
namespace Yargy.Spec

variable {P T : Type}

/-- A derivation tree: no object identities, no ranks. -/
inductive DTree (P T : Type) where
  | leaf (pred : P) (tok : T)
  | node (rule : Nat) (prod : Production P) (children : List (DTree P T))

mutual
/-- `Derives G toks term i j t`: `t` is a derivation of `term` over the tokens `i, …, j-1`. -/
inductive Derives (G : Grammar P T) (toks : List T) : Term P → Nat → Nat → DTree P T → Prop
  | leaf {p i t} : toks[i]? = some t → G.accepts p t = true →
      Derives G toks (.pred p) i (i + 1) (.leaf p (G.constrain p t))
  | node {r i j prod cs} : prod ∈ G.productions r → DerivesAll G toks prod.terms i j cs →
      Derives G toks (.rule r) i j (.node r prod cs)
/-- `DerivesAll G toks terms i j ts`: the trees `ts` derive the terms one after the other. -/
inductive DerivesAll (G : Grammar P T) (toks : List T) :
    List (Term P) → Nat → Nat → List (DTree P T) → Prop
  | nil {i} : DerivesAll G toks [] i i []
  | cons {x xs i j k t ts} : Derives G toks x i j t → DerivesAll G toks xs j k ts →
      DerivesAll G toks (x :: xs) i k (t :: ts)
end

/-- Rule `R` occurs in the grammar only as the first term of the production `prod` of `r`. -/
def UsedOnceFirst (G : Grammar P T) (R r : Nat) (prod : Production P) : Prop :=
  R ≠ G.start ∧ ∀ r' prod' d, prod' ∈ G.productions r' → prod'.terms[d]? = some (.rule R) →
    r' = r ∧ prod' = prod ∧ d = 0

/-- What stands before a term in its production: nothing (in production `prod` of rule `r`),
a token, or a subtree. -/
inductive Before (P : Type) where
  | nothing (r : Nat) (prod : Production P)
  | token
  | subtree

/-- Places where a term `R` may derive the empty sequence: right after a token, or first in a
production provided `R` is used nowhere else. -/
def EmptyOK (G : Grammar P T) (R : Nat) : Before P → Prop
  | .nothing r prod => UsedOnceFirst G R r prod
  | .token => True
  | .subtree => False

mutual
/-- Like `Derives`, with empty subtrees only at the places allowed by `EmptyOK`. In particular
every derivation without empty nodes is of this kind. -/
inductive DerivesSafe (G : Grammar P T) (toks : List T) : Term P → Nat → Nat → DTree P T → Prop
  | leaf {p i t} : toks[i]? = some t → G.accepts p t = true →
      DerivesSafe G toks (.pred p) i (i + 1) (.leaf p (G.constrain p t))
  | node {r i j prod cs} : prod ∈ G.productions r →
      DerivesAllSafe G toks (.nothing r prod) prod.terms i j cs →
      DerivesSafe G toks (.rule r) i j (.node r prod cs)
inductive DerivesAllSafe (G : Grammar P T) (toks : List T) :
    Before P → List (Term P) → Nat → Nat → List (DTree P T) → Prop
  | nil {b i} : DerivesAllSafe G toks b [] i i []
  | consLeaf {b p xs i j k t ts} : DerivesSafe G toks (.pred p) i j t →
      DerivesAllSafe G toks .token xs j k ts →
      DerivesAllSafe G toks b (.pred p :: xs) i k (t :: ts)
  | consNode {b r xs i j k t ts} : DerivesSafe G toks (.rule r) i j t →
      (i < j ∨ EmptyOK G r b) → DerivesAllSafe G toks .subtree xs j k ts →
      DerivesAllSafe G toks b (.rule r :: xs) i k (t :: ts)
end

mutual
/-- The tokens at the leaves, left to right. -/
def DTree.yield : DTree P T → List T
  | .leaf _ t => [t]
  | .node _ _ cs => yieldAll cs
def yieldAll : List (DTree P T) → List T
  | [] => []
  | c :: cs => c.yield ++ yieldAll cs
end

/-- `rule.predict` offers only productions of the rule. -/
def PredictSound (G : Grammar P T) : Prop :=
  ∀ r t prod, prod ∈ G.predict r t → prod ∈ G.productions r

/-- `rule.predict(token)` offers every production that could start with the token. -/
def PredictLossless (G : Grammar P T) : Prop :=
  ∀ r t prod, prod ∈ G.productions r →
    (∀ p, prod.terms.head? = some (.pred p) → G.accepts p t = true) → prod ∈ G.predict r t

/-- Different production objects have different identities. -/
def DistinctProductions (G : Grammar P T) : Prop :=
  ∀ r r' prod prod', prod ∈ G.productions r → prod' ∈ G.productions r' →
    prod.id = prod'.id → prod = prod'

end Yargy.Spec
