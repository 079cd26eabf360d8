import Verif.Spec.Tokenizer
/-! What it means that a character separates words. -/
namespace Yargy.Spec

/-- The character is in no class of the pattern. -/
def Outside (c : Char) : Re → Prop
  | .cls p => p c = false
  | .seq a b => Outside c a ∧ Outside c b
  | .opt a => Outside c a
  | .rep a _ _ => Outside c a

/-- The rule finds the same before the character, and after it, as if there were nothing else. -/
def Separates (c : Char) (r : TokenRule) : Prop :=
  (∀ a b i, i ≤ a.length → r.ends (a ++ c :: b) i = r.ends a i) ∧
  ∀ a b i, r.ends (a ++ c :: b) (a.length + 1 + i) = r.ends b i

/-- The token, so many characters later. -/
def movedBy (n : Nat) (t : Token) : Token := { t with span := (n + t.span.1, n + t.span.2) }

end Yargy.Spec
