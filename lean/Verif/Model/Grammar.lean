import Verif.Model.Basic
/-!
Compiled grammars: the object graph `Parser.__init__` hands to the chart parser
(`yargy/rule/bnf.py`, `yargy/rule/constructors.py:Production`).

A grammar is generic in the type `P` of predicates and the type `T` of tokens.
-/
namespace Yargy

/-- A term of a production: a predicate, or a rule object. A rule object is named by its
identity: the number of the rule in the grammar. `is_rule` (`yargy/rule/bnf.py:81-82`) is the
test for the second constructor. -/
inductive Term (P : Type) where
  | pred (p : P)
  | rule (r : Nat)
  deriving DecidableEq

/-- `Production` (`yargy/rule/constructors.py:28-47`) and `PipelineProduction`
(`yargy/pipelines.py:86-91`, whose `value` is `key`). `id` is the identity of the object. -/
structure Production (P : Type) where
  id : Nat
  terms : List (Term P)
  main : Nat := 0
  key : Option Str := none
  deriving DecidableEq

/-- What the chart parser knows about a `BNFRule` (`yargy/rule/bnf.py:45-59`): its
productions and the method `predict` (overridden in `yargy/pipelines.py:31-34,46-50,64-75`). -/
structure ChartRule (P T : Type) where
  productions : List (Production P)
  predict : T → List (Production P)

/-- The grammar: rule objects by identity, the start rule, and the two methods of predicates
the chart uses (`Predicate.__call__`, `Predicate.constrain`). -/
structure Grammar (P T : Type) where
  rules : List (ChartRule P T)
  start : Nat
  accepts : P → T → Bool
  constrain : P → T → T

/-- `rule.productions`; a rule number out of range has none. -/
def Grammar.productions {P T} (G : Grammar P T) (r : Nat) : List (Production P) :=
  match G.rules[r]? with
  | some rule => rule.productions
  | none => []

/-- `rule.predict(token)`. -/
def Grammar.predict {P T} (G : Grammar P T) (r : Nat) (t : T) : List (Production P) :=
  match G.rules[r]? with
  | some rule => rule.predict t
  | none => []

end Yargy
