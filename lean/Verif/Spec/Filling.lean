import Verif.Spec.Slots
import Verif.Spec.Labels
import Verif.Spec.Compile
/-!
Rules of any kind (alternatives, optional parts, repetitions, recursion) that fill a fact: the parts that carry
attributes carry nothing inside.
-/
namespace Yargy.Spec

/-- Nothing that belongs to the rule at `y` carries an interpretation. -/
def Unread (h : Heap Pred) (y : Nat) : Prop :=
  ∀ (x : Nat) o, Reach h y x → h[x]? = some o → o.label .interp = none

/-- What belongs to the rule at `y` carries nothing, or an attribute of the fact class; inside the parts that carry
attributes nothing carries anything. -/
def Fills (F : Facts) (its : Nat → Interpretator) (cls : Nat) (h : Heap Pred) (y : Nat) : Prop :=
  ∀ (x : Nat) o, Reach h y x → h[x]? = some o → o.label .interp = none ∨
    ∃ r k, o = .interp r k ∧ IsSlot F cls (its k) ∧ Unread h r

/-- A sequence of parts, as a word with brackets around the parts that carry attributes. -/
def slotWord : List (Option Nat × List Pred) → List (Sym Pred)
  | [] => []
  | (none, qs) :: parts => qs.map .pred ++ slotWord parts
  | (some n, qs) :: parts => .opn (.interp n) :: (qs.map .pred ++ .cls (.interp n) :: slotWord parts)

/-- `parts` is one of the ways to read the rule, on which the interpretation number `n` was put. -/
def Layout (A : Activation Pred) (h : Heap Pred) (root n : Nat) (parts : List (Option Nat × List Pred)) : Prop :=
  Reads A .interp h [.rule root] (.opn (.interp n) :: (slotWord parts ++ [.cls (.interp n)]))

/-- The parts that are not empty. -/
def present (parts : List (Option Nat × List Pred)) : List (Option Nat × List Pred) :=
  parts.filter (fun a => !a.2.isEmpty)

/-- The fact of a match that has the tokens from `i` to `j`, and its `as_json`: the rule can be read so that it is filled
with these tokens. -/
def FilledFact (L : Lang) (A : Activation Pred) (h : Heap Pred) (root n : Nat) (F : Facts) (its : Nat → Interpretator)
    (cls : Nat) (toks : List Token) (i j : Nat) (fact : Except Err Val) (json : Except Err Json) : Prop :=
  ∃ parts, Layout A h root n parts ∧ Fits (fun p t => p.accepts L t) toks (slotWord parts) i j ∧
    j = i + (slotPreds parts).length ∧ SlotFact F its cls toks (present parts) i fact json

end Yargy.Spec
