import Verif.Spec.Derivation
import Verif.Model.Earley
/-! Reading a parse tree of the model as a derivation tree: forget identities and ranks. -/
namespace Yargy

variable {P T : Type}

mutual
def PTree.erase : PTree P T → Spec.DTree P T
  | .leaf _ p t => .leaf p t
  | .node _ r prod _ cs => .node r prod (eraseAll cs)
def eraseAll : List (PTree P T) → List (Spec.DTree P T)
  | [] => []
  | c :: cs => c.erase :: eraseAll cs
end

/-- The derivation tree of a state. -/
def State.dtree (s : State P T) : Spec.DTree P T := s.node.erase

end Yargy
