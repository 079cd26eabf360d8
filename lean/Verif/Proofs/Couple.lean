import Verif.Model.Compile
import Lean.Elab.Tactic.Basic
import Lean.Meta.AppBuilder
/-!
`rule(rule(p).match(rel), rule(q).match(rel))` compiled.
-/
namespace Yargy.Couple

open Lean Elab Tactic Meta in
/-- Closes `a = b` with `Eq.refl a`, which only the kernel checks. -/
elab "kernel_rfl" : tactic => do
  let g ← getMainGoal
  let t := (← instantiateMVars (← g.getType)).consumeMData
  let some (_, a, _) := t.eq? | throwError "not an equation"
  g.assign (← mkEqRefl a)

variable {P : Type}

/-- The objects of `rule(rule(p).match(rel), rule(q).match(rel))`, oldest first. -/
def source (p q : P) (rel main : Nat) : Heap P :=
  [.prod [.pred p] 0, .rule [0], .relation 1 rel, .prod [.pred q] 0, .rule [3], .relation 4 rel,
    .prod [.rule 2, .rule 5] main, .rule [6]]

/-- All objects after the rule was compiled, for active predicates. -/
def compiled (p q : P) (rel main : Nat) : Heap P :=
  match compileRule (⟨.ok, fun _ _ => .ok []⟩ : Activation P) id 60 7 (source p q rel main) with
  | .ok x => x.2
  | .error _ => []

theorem walk_source (p q : P) (rel main : Nat) : walk id (source p q rel main) 7 = [7, 6, 2, 5, 1, 4, 0, 3] := by
  kernel_rfl

theorem activated {A : Activation P} {p q p' q' : P} (hp : A.activate p = .ok p') (hq : A.activate q = .ok q')
    (rel main : Nat) : activateRule A id 7 (source p q rel main) = .ok (source p' q' rel main) := by
  unfold activateRule
  rw [walk_source]
  simp [source, activateAt, activateObj, activateTerm, hp, hq, Except.map, bind, Except.bind, pure, Except.pure,
    List.mapM_cons, List.foldlM]

theorem compile {A : Activation P} {p q p' q' : P} (hp : A.activate p = .ok p') (hq : A.activate q = .ok q')
    (rel main : Nat) : compileRule A id 60 7 (source p q rel main) = .ok (53, compiled p' q' rel main) := by
  have e : compileRule A id 60 7 (source p q rel main) =
      compileRule (⟨.ok, fun _ _ => .ok []⟩ : Activation P) id 60 7 (source p' q' rel main) := by
    unfold compileRule
    rw [activated hp hq, activated (p' := p') (q' := q') rfl rfl]
  rw [e]
  kernel_rfl

theorem relations (p q : P) (rel main : Nat) : relationAt (compiled p q rel main) 53 = none ∧
    relationAt (compiled p q rel main) 49 = some rel ∧ relationAt (compiled p q rel main) 51 = some rel := by
  refine ⟨?_, ?_, ?_⟩ <;> kernel_rfl

/-- The rules of the chart. -/
def chartRules (L : Lang) (setOrder : List Str → List Str) (p q : Pred) (rel main : Nat) : List (ChartRule Pred Token) :=
  match (compiled p q rel main).mapM (chartRuleOf L setOrder (compiled p q rel main)) with
  | .ok x => x
  | .error _ => []

theorem grammar (L : Lang) (setOrder : List Str → List Str) (p q : Pred) (rel main : Nat) :
    toGrammar L setOrder 53 (compiled p q rel main) =
      .ok (predGrammar L (chartRules L setOrder p q rel main) 53) := by
  kernel_rfl

theorem productions (L : Lang) (setOrder : List Str → List Str) (p q : Pred) (rel main : Nat) :
    (predGrammar L (chartRules L setOrder p q rel main) 53).productions 53 = [⟨52, [.rule 49, .rule 51], main, none⟩] ∧
    (predGrammar L (chartRules L setOrder p q rel main) 53).productions 49 = [⟨48, [.pred p], 0, none⟩] ∧
    (predGrammar L (chartRules L setOrder p q rel main) 53).productions 51 = [⟨50, [.pred q], 0, none⟩] := by
  refine ⟨?_, ?_, ?_⟩ <;> kernel_rfl

/-- No production has the whole rule as a part. -/
theorem unused (L : Lang) (setOrder : List Str → List Str) (p q : Pred) (rel main : Nat) :
    ((chartRules L setOrder p q rel main).all fun rule => rule.productions.all fun prod =>
      prod.terms.all fun x => match x with | .rule r => r != 53 | .pred _ => true) = true := by
  kernel_rfl

attribute [irreducible] compiled chartRules

end Yargy.Couple
