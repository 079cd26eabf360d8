import Verif.Spec.Text
import Verif.Spec.Predicate
/-! Rules that are sequences of predicates. -/
namespace Yargy.Spec

/-- From token number `i` on, the tokens are what the predicates say, one by one. -/
def SaidAt (L : Lang) (c : Context) (toks : List Token) : Nat → List Pred → Prop
  | _, [] => True
  | i, p :: ps => (∃ t, toks[i]? = some t ∧ Means L c t p) ∧ SaidAt L c toks (i + 1) ps

/-- What a predicate refers to exists for the tokenizer of a parser: token types are those of its rules, and
grammemes are known to its analyzer. -/
def KnownTo (r : Reader) : Pred → Prop
  | .normalized _ => r.analyzer ≠ none
  | .dictionary vs => vs = [] ∨ r.analyzer ≠ none
  | .gram g => ∃ a, r.analyzer = some a ∧ a.known g = true
  | .type v => ∃ rule ∈ r.tokenizer.rules, rule.type = v
  | .custom _ types => ∀ v ∈ types, ∃ rule ∈ r.tokenizer.rules, rule.type = v
  | _ => True

end Yargy.Spec
