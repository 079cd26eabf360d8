import Verif.Model.Listing
import Verif.Spec.Rules
import Verif.Proofs.Items
import Verif.Proofs.Frame
import Verif.Proofs.Activation
/-!
What a printed grammar generates: lines are read as the productions of a grammar. A label that no line
defines is a word.
-/
namespace Yargy.Spec

/-- The labels of an alternative. -/
def altWords : Alt → List Str
  | .terms ts => ts.map Prod.snd
  | .empty => []

/-- A row of labels can be turned into a row of words with the lines of a grammar. -/
inductive Generates (ls : List Line) : List Str → List Str → Prop
  | nil : Generates ls [] []
  | word {x xs w} : (∀ l ∈ ls, l.label ≠ x) → Generates ls xs w → Generates ls (x :: xs) (x :: w)
  | line {l as a xs v w} : l ∈ ls → l.side = .alts as → a ∈ as → Generates ls (altWords a) v →
      Generates ls xs w → Generates ls (l.label :: xs) (v ++ w)

/-- The words of an alternative as they are written; of nothing an empty word. -/
def altWritten : Alt → List Str
  | .terms [] => [[]]
  | .terms ts => ts.map (fun t => if t.1 then '^' :: t.2 else t.2)
  | .empty => ["e".toList]

/-- Alternatives with a bar between them. -/
def between : List Alt → List Str
  | [] => [[]]
  | [a] => altWritten a
  | a :: as => altWritten a ++ "|".toList :: between as

/-- The words of a line as they are written. -/
def written (l : Line) : List Str :=
  l.label :: "->".toList :: match l.side with
    | .alts as => between as
    | .gazetteer .exact => ["pipeline".toList]
    | .gazetteer .caseless => ["caseless_pipeline".toList]
    | .gazetteer .morph => ["morph_pipeline".toList]

/-- A text cut at its spaces. -/
def cutSpaces : Str → List Str
  | [] => [[]]
  | c :: cs =>
    if c = ' ' then [] :: cutSpaces cs
    else match cutSpaces cs with
      | w :: ws => (c :: w) :: ws
      | [] => [[c]]

/-- A word of a rule with the predicates as they are printed. -/
def printed {P : Type} (N : Labels P) (w : List (Sym P)) : List Str :=
  w.filterMap (fun s => match s with | .pred p => some (N.pred p) | _ => none)

end Yargy.Spec

namespace Yargy
open Spec

/-- How a rule with a name is called: by its interpretator if it has one, and then by its relation. -/
def title {P : Type} (N : Labels P) (name : Option Str) (i r : Option Nat) : Str :=
  (match i with | some x => N.interp x | none => name.getD []) ++
    (match r with | some x => '^' :: N.relation x | none => [])

/-- How a rule is called in the printed grammar. -/
def ruleLabel (N : Labels Pred) (h : Heap Pred) (a : Nat) : Str :=
  match h[a]? with
  | some (.bnf _ n i r _) => title N n i r
  | _ => []

/-- How a term is called in the printed grammar. -/
def labelOf (N : Labels Pred) (h : Heap Pred) : Term Pred → Str
  | .pred p => N.pred p
  | .rule a => ruleLabel N h a

/-- What is shown of a production: its terms one after the other, of which the main one is marked unless it is
the first; a letter stands for the empty production and for nothing else. -/
structure AltFor (N : Labels Pred) (h : Heap Pred) (p : Nat) (x : Alt) : Prop where
  words : altWords x = (productionAt h p).terms.map (labelOf N h)
  empty : x = .empty ↔ h[p]? = some .emptyProd
  marked : ∀ ts, x = .terms ts → ∀ i : Nat, (∃ s, ts[i]? = some (true, s)) ↔
    0 < i ∧ i = (productionAt h p).main ∧ i < (productionAt h p).terms.length

/-- What the line of a compiled rule says: how it is called, and what is shown of its productions one after the
other, or that it is a gazetteer. -/
structure LineFor (N : Labels Pred) (h : Heap Pred) (a : Nat) (l : Line) : Prop where
  label : l.label = ruleLabel N h a
  side : ∀ ps n i r, h[a]? = some (.bnf ps n i r none) →
    ∃ as, l.side = .alts as ∧ Pointwise (AltFor N h) ps as
  gazetteer : ∀ ps n i r k, h[a]? = some (.bnf ps n i r (some k)) → l.side = .gazetteer k

/-- A term of a compiled grammar. -/
def Proper (h : Heap Pred) (start : Nat) : Term Pred → Prop
  | .pred p => ∃ (x : Nat) (o : Obj Pred), Reach h start x ∧ h[x]? = some o ∧ p ∈ o.preds
  | .rule r => Reach h start r ∧ isBnf h r = true

/-- Lines that can be read as a grammar: no label is printed for two things, and nothing is abbreviated. -/
structure Readable (N : Labels Pred) (h : Heap Pred) (start : Nat) (lines : List Line) : Prop where
  once : (lines.map Line.label).Nodup
  words : ∀ p, Proper h start (.pred p) → ∀ l ∈ lines, l.label ≠ N.pred p
  alts : ∀ l ∈ lines, ∃ as, l.side = .alts as

end Yargy
