import Verif.Spec.Interp
import Verif.Spec.Labels
import Verif.Spec.Locality
/-!
The fact of a piece of text, read off the rule as written: the words of the rule come with brackets for the
interpretations that were put on its parts (`Reads`); the words are replaced by the tokens they stand for,
and every closing bracket calls its interpretation with what it has received.
-/
namespace Yargy.Spec

variable {P : Type}

/-- Normalizers that take the dictionary line of a gazetteer instead of the words, where there is one. -/
def Normalizer.takesLine : Normalizer → Bool
  | .morph .normalized => true
  | .morphFn .normalized _ => true
  | _ => false

def takesLine : Interpretator → Bool
  | .norm n => Normalizer.takesLine n
  | .attrNorm _ _ n => Normalizer.takesLine n
  | _ => false

/-- Gazetteers, and the lines of gazetteers that were compiled for another parser. -/
def isGazetteer : Obj P → Bool
  | .pipe _ => true
  | .pipeProd _ _ => true
  | _ => false

/-- Put a symbol before a word; an opening bracket goes away together with the closing one after it. -/
def shedCons : Sym P → List (Sym P) → List (Sym P)
  | .opn x, .cls y :: w => if x = y then w else .opn x :: .cls y :: w
  | s, w => s :: w

/-- A word without the brackets of empty parts. -/
def shed : List (Sym P) → List (Sym P)
  | [] => []
  | s :: w => shedCons s (shed w)

/-- A word, read from left to right with the tokens it stands for. -/
def play (its : Nat → Interpretator) : List (Sym P) → List Token → List Event
  | [], _ => []
  | .pred _ :: w, t :: ts => .token t :: play its w ts
  | .pred _ :: w, [] => play its w []
  | .opn (.interp n) :: w, ts => .opens (its n) none :: play its w ts
  | .cls (.interp _) :: w, ts => .closes :: play its w ts
  | _ :: w, ts => play its w ts

/-- What the interpretations of a word make of tokens. -/
def evaluate (F : Facts) (its : Nat → Interpretator) (w : List (Sym P)) (ts : List Token) : Except Err Result :=
  match follow F (play its w ts) [] [] with
  | .ok ([], [.result r]) => .ok r
  | .ok _ => .error .typeError
  | .error e => .error e

/-- Two results that cannot be told apart: the values, the JSON and the spans are the same. -/
structure SameFact (F : Facts) (x y : Except Err Result) : Prop where
  fact : x.bind (Result.normalized F) = y.bind (Result.normalized F)
  json : x.bind (Result.asJson F) = y.bind (Result.asJson F)
  spans : x.bind (Result.spans F) = y.bind (Result.spans F)

end Yargy.Spec
