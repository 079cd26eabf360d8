import Verif.Spec.Match
import Verif.Spec.Erase
import Verif.Model.Parser
/-! Specification vocabulary for the results of `extract`, `findall` and `match`. -/
namespace Yargy
open Spec

variable {P : Type}

/-- The tree, checked on its own, passes. -/
def Passes (A : Agreement) (t : Tree P Token) : Prop :=
  ∃ m σ', prepareMatch A Store.init t = .ok (some m, σ')

/-- The tree has a word, and every part of it that carries a relation has a head word with forms
(empty parts set aside). -/
def Checkable (A : Agreement) (t : Tree P Token) : Prop :=
  ∃ r0, t.root.prune = some r0 ∧ HeadsOK A r0

/-- What a user may assume about a match; `σ` holds the tokens the leaves have when the tree is
looked at. -/
structure MatchOK (G : Grammar P Token) (toks : List Token) (σ : Store) (m : Match P) : Prop where
  /-- the range is a non-empty piece of the text -/
  nonempty : m.tree.range.1 < m.tree.range.2
  inside : m.tree.range.2 ≤ toks.length
  /-- the tree is a derivation of the start rule, without its empty nodes -/
  derives : ∃ d, Derives G toks (.rule G.start) m.tree.range.1 m.tree.range.2 d ∧
    Trims d (m.tree.root.load σ).erase
  /-- the tokens are those of the range, with some forms removed -/
  length : m.tokens.length = m.tree.range.2 - m.tree.range.1
  tokens : ∀ k, k < m.tree.range.2 - m.tree.range.1 → ∃ t t',
    toks[m.tree.range.1 + k]? = some t ∧ m.tokens[k]? = some t' ∧ Narrowed t t'
  /-- the span runs from the first to the last token -/
  span : ∃ a b, toks[m.tree.range.1]? = some a ∧ toks[m.tree.range.2 - 1]? = some b ∧
    m.span = (a.span.1, b.span.2)

/-- The store holds nothing but narrowed tokens for the leaves of the tree. -/
def NarrowsIn (σ : Store) (t : Tree P Token) : Prop :=
  ∀ l ∈ t.root.leaves, Narrowed l.2 ((σ l.1).getD l.2)

/-- The tree is accepted, some of its words having possibly been narrowed before. -/
def AcceptedAfter (A : Agreement) (t : Tree P Token) : Prop :=
  ∃ σ m σ', NarrowsIn σ t ∧ prepareMatch A σ t = .ok (some m, σ')

/-- The tree is rejected, some of its words having possibly been narrowed before. -/
def RejectedAfter (A : Agreement) (t : Tree P Token) : Prop :=
  ∃ σ σ', NarrowsIn σ t ∧ prepareMatch A σ t = .ok (none, σ')

/-- The reported trees, in chart order. -/
def Reported {H : Type} [DecidableEq H] (G : Grammar P Token) (hash : Key → H) (toks : List Token)
    (all : Bool) (fuel : Nat) (t : Tree P Token) : Prop :=
  ∃ ss, matchStates G hash toks all fuel = some ss ∧ t ∈ prepareTrees ss

/-- `cands` lists, leftmost first and then longest first, the ranges of the reported trees that
were accepted; a reported tree of another range was rejected. -/
structure CandidatesOf {H : Type} [DecidableEq H] (G : Grammar P Token) (A : Agreement)
    (hash : Key → H) (toks : List Token) (fuel : Nat) (cands : List Range) : Prop where
  order : cands.Pairwise (fun a b => a.1 < b.1 ∨ (a.1 = b.1 ∧ b.2 < a.2))
  accepted : ∀ ρ ∈ cands, ∃ t, Reported G hash toks true fuel t ∧ t.range = ρ ∧ AcceptedAfter A t
  rest : ∀ t, Reported G hash toks true fuel t → t.range ∈ cands ∨ RejectedAfter A t

/-- No reported tree has a related word that belongs to another reported tree. -/
def Independent {H : Type} [DecidableEq H] (G : Grammar P Token) (A : Agreement) (hash : Key → H)
    (toks : List Token) (all : Bool) (fuel : Nat) : Prop :=
  ∀ t t', Reported G hash toks all fuel t → Reported G hash toks all fuel t' → t ≠ t' →
    ∀ r0, t.root.prune = some r0 → ∀ rel l w, Related A r0 rel l w →
      l ∉ t'.root.leaves.map Prod.fst

end Yargy
