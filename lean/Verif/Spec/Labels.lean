import Verif.Model.Compile
import Verif.Model.Parser
import Verif.Spec.Compile
import Verif.Spec.Derivation
/-!
What a tree shows of the names, interpretations and relations of a rule: the predicates of its leaves, with
brackets around the parts below nodes whose rules carry something.
-/
namespace Yargy.Spec

variable {P T : Type}

/-- What the compiled rule at an address carries; names that look like those the parser gives itself do
not count. -/
def carried : Kind → Heap P → Nat → Option Attr
  | .name, h, r => (nameAt h r).bind realName
  | .interp, h, r => (interpretatorAt h r).map .interp
  | .relation, h, r => (relationAt h r).map .relation
  | .plain, _, _ => none

mutual
def reading (lab : Nat → Option Attr) : DTree P T → List (Sym P)
  | .leaf p _ => [.pred p]
  | .node r _ cs => wrap (lab r) (readingAll lab cs)
def readingAll (lab : Nat → Option Attr) : List (DTree P T) → List (Sym P)
  | [] => []
  | c :: cs => reading lab c ++ readingAll lab cs
end

/-- The word `w'` is `w` without some of its empty brackets. -/
inductive Sheds : List (Sym P) → List (Sym P) → Prop
  | refl (w) : Sheds w w
  | step {u x v w} : Sheds (u ++ v) w → Sheds (u ++ .opn x :: .cls x :: v) w

/-- No empty brackets. -/
def Tight (w : List (Sym P)) : Prop := ∀ u x y v, w ≠ u ++ .opn x :: .cls y :: v

/-- What is asked of the objects of a rule: bounds that the constructors check, no repetitions below
repetitions that squashing changes, and no rules that were compiled for another parser and carry
something. -/
structure Steady (k : Kind) (h : Heap P) (root : Nat) : Prop where
  bounds : ∀ (x : Nat) o, Reach h root x → h[x]? = some o → o.bounds
  calm : ∀ (x : Nat) o, Reach h root x → h[x]? = some o → o.calm h
  bare : ∀ (x : Nat) o, Reach h root x → h[x]? = some o → o.bare k

/-- `m` is among the matches that `extract` yields (also before it raises) or `findall` returns, or the one that `match`
returns; `σ` are the tokens as the call leaves them. -/
def Returned {H : Type} [DecidableEq H] (G : Grammar P Token) (A : Agreement) (hash : Key → H) (toks : List Token)
    (σ : Store) (m : Match P) : Prop :=
  (∃ all fuel ms e, extract G A hash toks all fuel = some (ms, σ, e) ∧ m ∈ ms) ∨
    (∃ fuel ms, findall G A hash toks fuel = some (.ok (ms, σ)) ∧ m ∈ ms) ∨
    ∃ fuel, matchText G A hash toks fuel = some (.ok (some m, σ))

end Yargy.Spec
