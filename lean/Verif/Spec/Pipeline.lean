import Verif.Spec.Predicate
import Verif.Spec.Derivation
import Verif.Model.Pipeline
/-! What a gazetteer is documented to match. -/
namespace Yargy.Spec

/-- The token matches one word of a dictionary line. -/
def WordMatches (L : Lang) (normalized : Str → List Str) : PipeKind → Str → Token → Prop
  | .exact, w, t => t.value = w
  | .caseless, w, t => L.lower t.value = L.lower w
  | .morph, w, t => ∃ n ∈ normalized w, NormalForm L t n

/-- The tokens from position `i` on match the words one by one. -/
def WordsMatch (L : Lang) (normalized : Str → List Str) (kind : PipeKind) (toks : List Token) :
    Nat → List Str → Prop
  | _, [] => True
  | i, w :: ws => (∃ t, toks[i]? = some t ∧ WordMatches L normalized kind w t) ∧
      WordsMatch L normalized kind toks (i + 1) ws

/-- Python iterates over a set in some order, but over exactly its elements. -/
def SetOrder (setOrder : List Str → List Str) : Prop :=
  ∀ l, (setOrder l).Nodup ∧ ∀ x, x ∈ setOrder l ↔ x ∈ l

/-- Every rule is an ordinary compiled rule or a pipeline. -/
def LibraryRules (L : Lang) (setOrder : List Str → List Str) (rules : List (ChartRule Pred Token)) :
    Prop :=
  ∀ r ∈ rules, (∃ ps, r = ordinaryRule ps) ∨ ∃ kind ps, pipeRule L setOrder kind ps = .ok r

end Yargy.Spec
