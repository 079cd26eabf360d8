import Verif.Spec.Pair
import Verif.Spec.Labels
/-! The forms that the words of a match keep. -/
namespace Yargy.Spec

instance (p : Pred) (f : Form) : Decidable (FormAllowed p f) := by
  unfold FormAllowed
  split <;> infer_instance

/-- A token where a predicate stands: of the forms of a word, those that are allowed there; nothing else changes. -/
def keptBy (p : Pred) (t : Token) : Token :=
  { t with forms := t.forms.map (fun fs => fs.filter (fun f => decide (FormAllowed p f))) }

mutual
/-- The leaves of a tree, in text order. -/
def leafPairs {P T : Type} : DTree P T → List (P × T)
  | .leaf p t => [(p, t)]
  | .node _ _ cs => leafPairsAll cs
def leafPairsAll {P T : Type} : List (DTree P T) → List (P × T)
  | [] => []
  | c :: cs => leafPairs c ++ leafPairsAll cs
end

/-- The predicates of a word. -/
def wordPreds {P : Type} : List (Sym P) → List P
  | [] => []
  | .pred p :: w => p :: wordPreds w
  | _ :: w => wordPreds w

/-- `ts` are the tokens from number `i` on, each with the forms that its predicate leaves. -/
inductive KeptFrom (L : Lang) (toks : List Token) : Nat → List Pred → List Token → Prop
  | nil {i} : KeptFrom L toks i [] []
  | cons {i p t ps ts} : toks[i]? = some t → p.accepts L t = true → KeptFrom L toks (i + 1) ps ts →
      KeptFrom L toks i (p :: ps) (keptBy p t :: ts)

end Yargy.Spec
