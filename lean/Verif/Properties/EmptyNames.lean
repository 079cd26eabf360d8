import Verif.Properties.Labels
/-!
C20: empty names. `name` is tested for its truth (`yargy/rule/bnf.py:128`), so an empty name counts as no name.
-/
namespace Yargy

/-- `rule('a').named(name).named('A')`. -/
def renamedSource (name : Str) : Heap Pred :=
  [.prod [.pred (.eq "a".toList)] 0, .rule [0], .named 1 name, .named 2 "A".toList]

/-- The names in the grammar of a parser. -/
def namesAfter (h : Heap Pred) (root : Nat) : Option (List Str) :=
  match buildParser sampleLang sampleOrder sampleContext sampleSplit (fun _ => .gender) id 60 root h with
  | .error _ => none
  | .ok (_, h') => some (h'.filterMap (fun o => match o with
    | .bnf _ (some n) _ _ _ => some n
    | _ => none))

/-- Two names are kept both. -/
theorem names_both : namesAfter (renamedSource "B".toList) 3 = some ["B".toList, "A".toList] := by
  decide +kernel

/-- An empty name is lost when the rule is named again. -/
theorem empty_name_lost : namesAfter (renamedSource []) 3 = some ["A".toList] := by
  decide +kernel

end Yargy
