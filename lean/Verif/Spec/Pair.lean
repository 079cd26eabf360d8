import Verif.Spec.Predicate
import Verif.Model.Relation
import Verif.Spec.History
/-! Two words that agree. -/
namespace Yargy.Spec

/-- The rule at `root` is `rule(rule(p).match(rel), rule(q).match(rel))`; each of the calls made an object
of its own. -/
def PairRule (h : Heap Pred) (root : Nat) (p q : Pred) (rel : Nat) : Prop :=
  ∃ a b c d e f g main : Nat, a ≠ d ∧ h[a]? = some (.prod [.pred p] 0) ∧ h[b]? = some (.rule [a]) ∧ h[c]? = some (.relation b rel) ∧
    h[d]? = some (.prod [.pred q] 0) ∧ h[e]? = some (.rule [d]) ∧ h[f]? = some (.relation e rel) ∧
    h[g]? = some (.prod [.rule c, .rule f] main) ∧ h[root]? = some (.rule [g])

/-- The forms a word may have where the predicate stands: `gram(g)` and `is_single` leave the forms they are about,
other predicates leave all. -/
def FormAllowed : Pred → Form → Prop
  | .gram g, f | .gramP g, f => g ∈ f.grams
  | .isSingle, f => "sing".toList ∈ f.grams ∨ "Sgtm".toList ∈ f.grams
  | _, _ => True

/-- Token `i` is what `p` says, the next one is what `q` says, and they have forms, allowed there, between which the
relation holds. -/
def AgreeAt (L : Lang) (c : Context) (rel : Relation) (toks : List Token) (p q : Pred) (i : Nat) : Prop :=
  ∃ a b fs gs f g, toks[i]? = some a ∧ toks[i + 1]? = some b ∧ Means L c a p ∧ Means L c b q ∧
    a.forms = some fs ∧ b.forms = some gs ∧ f ∈ fs ∧ g ∈ gs ∧ FormAllowed p f ∧ FormAllowed q g ∧ rel.call f g = true

/-- `left` are the forms among `fs` that are `ok`, equal ones once. -/
structure FormsLeft (ok : Form → Prop) (fs left : List Form) : Prop where
  only : ∀ f ∈ left, f ∈ fs ∧ ok f
  every : ∀ f ∈ fs, ok f → ∃ g ∈ left, g.normalized = f.normalized ∧ g.grams = f.grams
  once : left.Pairwise (fun f g => ¬ (f.normalized = g.normalized ∧ f.grams = g.grams))

/-- The tokens of a match are tokens `i` and `i + 1`, each with those forms that are allowed and stand in the relation to
an allowed form of the other; those of the first are in the old order. -/
def PairTokens (rel : Relation) (toks : List Token) (p q : Pred) (i : Nat) (ts : List Token) : Prop :=
  ∃ a b fs gs fs' gs', toks[i]? = some a ∧ toks[i + 1]? = some b ∧ a.forms = some fs ∧ b.forms = some gs ∧
    ts = [{ a with forms := some fs' }, { b with forms := some gs' }] ∧
    FormsLeft (fun f => FormAllowed p f ∧ ∃ g ∈ gs, FormAllowed q g ∧ rel.call f g = true) fs fs' ∧ fs'.Sublist fs ∧
    FormsLeft (fun g => FormAllowed q g ∧ ∃ f ∈ fs, FormAllowed p f ∧ rel.call f g = true) gs gs'

end Yargy.Spec
