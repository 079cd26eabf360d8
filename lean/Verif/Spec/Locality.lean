import Verif.Spec.Renaming
import Verif.Model.Compile
import Verif.Model.Interp
/-!
Two parsers that nobody can tell apart.
-/
namespace Yargy.Spec

/-- The interpretators that the rules of a parser carry; `its` tells the interpretators that the objects
refer to. -/
def interpretators (its : Nat → Interpretator) (h : Heap Pred) (r : Nat) : Option Interpretator :=
  (interpretatorAt h r).map its

/-- The parsers `b`, with its rules in `h`, and `b'`, with its rules in `g`, do the same. -/
structure Interchangeable (f : Nat → Nat) (h : Heap Pred) (b : Built) (g : Heap Pred) (b' : Built) :
    Prop where
  /-- their rules correspond to each other, labels included -/
  alike : Alike f h b.grammar.start g b'.grammar.start
  /-- they give the same matches or fail with the same exception; how a set of states is ordered does not
  matter -/
  extract : ∀ {H H' : Type} [DecidableEq H] [DecidableEq H'] (hash : Key → H) (hash' : Key → H'),
    (∀ x y, hash x = hash y → x = y) → (∀ x y, hash' x = hash' y → x = y) → ∀ toks all fuel,
    Yargy.extract b'.grammar b'.agreement hash' toks all fuel =
      (Yargy.extract b.grammar b.agreement hash toks all fuel).map (renameExtract f)
  findall : ∀ {H H' : Type} [DecidableEq H] [DecidableEq H'] (hash : Key → H) (hash' : Key → H'),
    (∀ x y, hash x = hash y → x = y) → (∀ x y, hash' x = hash' y → x = y) → ∀ toks fuel,
    Yargy.findall b'.grammar b'.agreement hash' toks fuel =
      (Yargy.findall b.grammar b.agreement hash toks fuel).map (Except.map (renameAllMatches f))
  matchText : ∀ {H H' : Type} [DecidableEq H] [DecidableEq H'] (hash : Key → H) (hash' : Key → H'),
    (∀ x y, hash x = hash y → x = y) → (∀ x y, hash' x = hash' y → x = y) → ∀ toks fuel,
    Yargy.matchText b'.grammar b'.agreement hash' toks fuel =
      (Yargy.matchText b.grammar b.agreement hash toks fuel).map (Except.map (renameOne f))
  /-- the facts of the matches are the same -/
  facts : ∀ {H : Type} [DecidableEq H] (hash : Key → H) toks fuel ms σ,
    Yargy.findall b.grammar b.agreement hash toks fuel = some (.ok (ms, σ)) → ∀ m ∈ ms,
    ∀ (F : Facts) (its : Nat → Interpretator),
      matchFact F (interpretators its g) ((m.rename f).tree.root.load σ) =
        matchFact F (interpretators its h) (m.tree.root.load σ)

/-- Both parsers are made and do the same, or both are refused with the same exception. -/
inductive SameBuilds : Except Err (Built × Heap Pred) → Except Err (Built × Heap Pred) → Prop
  | error (e) : SameBuilds (.error e) (.error e)
  | ok {b h b' g} (f : Nat → Nat) : Interchangeable f h b g b' → SameBuilds (.ok (b, h)) (.ok (b', g))

end Yargy.Spec
