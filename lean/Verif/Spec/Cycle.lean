import Verif.Spec.Derivation
/-! Specification: rules that derive themselves over the same tokens. -/
namespace Yargy.Spec

variable {P T : Type}

/-- `Above G toks i j r r'`: some derivation of `r` over the tokens `i, …, j-1` has a child that
is a derivation of `r'` over the same tokens. -/
def Above (G : Grammar P T) (toks : List T) (i j r r' : Nat) : Prop :=
  ∃ prod ∈ G.productions r, ∃ pre post, prod.terms = pre ++ .rule r' :: post ∧
    (∃ ds, DerivesAll G toks pre i i ds) ∧ (∃ d, Derives G toks (.rule r') i j d) ∧
    ∃ ds, DerivesAll G toks post j j ds

/-- No rule derives itself over the same tokens. -/
def Acyclic (G : Grammar P T) (toks : List T) : Prop :=
  ∀ i j r, ¬ Relation.TransGen (Above G toks i j) r r

/-- A rule with the range of tokens it derives. -/
structure Goal where
  rule : Nat
  start : Nat
  stop : Nat

/-- `Below G toks a b`: some (safe) derivation of the goal `a` has a non-empty child that is a
derivation of the goal `b`. -/
def Below (G : Grammar P T) (toks : List T) (a b : Goal) : Prop :=
  ∃ prod ∈ G.productions a.rule, ∃ pre post ds ds', prod.terms = pre ++ .rule b.rule :: post ∧
    DerivesAllSafe G toks (.nothing a.rule prod) pre a.start b.start ds ∧ b.start < b.stop ∧
    DerivesAllSafe G toks .subtree post b.stop a.stop ds'

/-- `Needed G toks all r i`: looking for the start rule (at the first token, or at every token when
`all`) one has to look for rule `r` at token `i`. -/
inductive Needed (G : Grammar P T) (toks : List T) (all : Bool) : Nat → Nat → Prop
  | start {i} : i ≤ toks.length → (i = 0 ∨ all = true) → Needed G toks all G.start i
  | part {r i prod pre r' post j ds} : Needed G toks all r i → prod ∈ G.productions r →
      prod.terms = pre ++ .rule r' :: post →
      DerivesAllSafe G toks (.nothing r prod) pre i j ds → Needed G toks all r' j

end Yargy.Spec
