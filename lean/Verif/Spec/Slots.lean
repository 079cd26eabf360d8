import Verif.Spec.Phrase
import Verif.Spec.Interp
import Verif.Spec.Tokenizer
import Verif.Spec.Exact
/-!
Rules that fill a fact: `rule(p1, …, pk.interpretation(Fact.a), …, rule(q1, …, qm).interpretation(Fact.b), …)
.interpretation(Fact)`.
-/
namespace Yargy.Spec

/-- The terms of a production are predicates, and sequences of predicates on which an interpretation was put; `parts`
lists them, the interpretations by their numbers. -/
inductive SlotTerms (h : Heap Pred) : List (Term Pred) → List (Option Nat × List Pred) → Prop
  | nil : SlotTerms h [] []
  | plain {p ts parts} : SlotTerms h ts parts → SlotTerms h (.pred p :: ts) ((none, [p]) :: parts)
  | slot {x y z n m : Nat} {qs ts parts} : h[x]? = some (.interp y n) → h[y]? = some (.rule [z]) →
      h[z]? = some (.prod (qs.map .pred) m) → qs ≠ [] → SlotTerms h ts parts →
      SlotTerms h (.rule x :: ts) ((some n, qs) :: parts)

/-- The rule at `root` is a sequence of such parts, on which the interpretation number `n` was put. -/
def SlotRule (h : Heap Pred) (root n : Nat) (parts : List (Option Nat × List Pred)) : Prop :=
  ∃ y z m ts, h[root]? = some (.interp y n) ∧ h[y]? = some (.rule [z]) ∧ h[z]? = some (.prod ts m) ∧
    SlotTerms h ts parts ∧ parts ≠ []

/-- The predicates of the parts, in order. -/
def slotPreds (parts : List (Option Nat × List Pred)) : List Pred := parts.flatMap Prod.snd

/-- `Fact.a`, `Fact.a.const(v)`, `Fact.a.custom(f)`, `Fact.a.custom(f).custom(g)`, `Fact.a.normalized()`,
`Fact.a.inflected(grams)`, `Fact.a.normalized().custom(f)`, `Fact.a.inflected(grams).custom(f)` for the fact class `cls` or
a base of it. -/
def IsSlot (F : Facts) (cls : Nat) : Interpretator → Prop
  | .attr c name | .attrNorm c name _ => F.sub cls c = true ∧ name ∈ names F cls
  | _ => False

/-- `normalized()`, `inflected(grams)`, if the interpretation asks for that. -/
def slotMorphing : Interpretator → Option Morphing
  | .attrNorm _ _ (.morph m) | .attrNorm _ _ (.morphFn m _) | .norm (.morph m) | .norm (.morphFn m _) => some m
  | _ => none

/-- What is made of a word. -/
def WordForm (F : Facts) : Morphing → Token → Str → Prop
  | .normalized => BaseForm F.lower
  | .inflected grams => BentForm F.lower F.inflect grams

/-- The text an interpretation works with, for words that stand in the place of the predicates `qs`: the words as they
are, or their normal (inflected) forms; these are of the first form that its predicate leaves to a word. There is none if
a word is left without forms. -/
inductive SlotText (F : Facts) (it : Interpretator) (qs : List Pred) (words : List Token) : Except Err Str → Prop
  | said {s} : slotMorphing it = none → Joined words s → SlotText F it qs words (.ok s)
  | formed {m us s} : slotMorphing it = some m → Reworded (WordForm F m) (List.zipWith keptBy qs words) us → Joined us s →
      SlotText F it qs words (.ok s)
  | lost {m t} : slotMorphing it = some m → t ∈ List.zipWith keptBy qs words → t.forms = some [] →
      SlotText F it qs words (.error .indexError)

/-- The attribute and the value such an interpretation gives to words with the text `s`, or what the user function
raises. -/
def slotGives : Interpretator → Str → Except Err (Str × Val)
  | .attr _ name, s | .attrNorm _ name (.morph _), s => .ok (name, .str s)
  | .attrNorm _ name (.const v), _ => .ok (name, v)
  | .attrNorm _ name (.fn f), s | .attrNorm _ name (.morphFn _ f), s => (f (.str s)).map (fun v => (name, v))
  | .attrNorm _ name (.fnfn f g), s => ((f (.str s)).bind g).map (fun v => (name, v))
  | _, _ => .error .typeError

/-- The attributes and values the parts give, in text order, when the words are those from token number `i` on; if one
of them raises, that is the outcome. -/
inductive Given (F : Facts) (its : Nat → Interpretator) (toks : List Token) :
    Nat → List (Option Nat × List Pred) → Except Err (List (Str × Val)) → Prop
  | nil {i} : Given F its toks i [] (.ok [])
  | plain {i qs parts x} : Given F its toks (i + qs.length) parts x → Given F its toks i ((none, qs) :: parts) x
  | slot {i n qs parts s kv x} : SlotText F (its n) qs ((toks.drop i).take qs.length) (.ok s) →
      slotGives (its n) s = .ok kv → Given F its toks (i + qs.length) parts x →
      Given F its toks i ((some n, qs) :: parts) (x.map (fun l => kv :: l))
  | raises {i n qs parts s e} : SlotText F (its n) qs ((toks.drop i).take qs.length) (.ok s) →
      slotGives (its n) s = .error e → Given F its toks i ((some n, qs) :: parts) (.error e)
  | lost {i n qs parts e} : SlotText F (its n) qs ((toks.drop i).take qs.length) (.error e) →
      Given F its toks i ((some n, qs) :: parts) (.error e)

/-- The values given to an attribute. -/
def givenTo (given : List (Str × Val)) (key : Str) : List Val :=
  (given.filter (fun x => decide (x.1 = key))).map Prod.snd

/-- The value of an attribute: all that was given to it if it is repeatable, otherwise what was given last, or its
default. -/
def fieldOf (given : List (Str × Val)) (a : Str × AttrKind) : Val :=
  match a.2 with
  | .repeatable => .list (givenTo given a.1)
  | .single d => (givenTo given a.1).getLast?.getD d

/-- The fact. -/
def factWith (F : Facts) (cls : Nat) (given : List (Str × Val)) : Val :=
  .fact cls ((F.attrs cls).map (fun a => (a.1, fieldOf given a)))

/-- `None` is left out of JSON. -/
def shownJson : Val → Option Json
  | .none => none
  | v => some (.val v)

/-- A field of its JSON: repeatable attributes are lists. -/
def jsonField (given : List (Str × Val)) (a : Str × AttrKind) : Option (Str × Json) :=
  match a.2 with
  | .repeatable => some (a.1, .list ((givenTo given a.1).map .val))
  | .single d => (shownJson ((givenTo given a.1).getLast?.getD d)).map (fun j => (a.1, j))

def jsonWith (F : Facts) (cls : Nat) (given : List (Str × Val)) : Json :=
  .obj ((F.attrs cls).filterMap (jsonField given))

/-- The fact of a match and its `as_json`, when the words are those from token number `i` on. -/
def SlotFact (F : Facts) (its : Nat → Interpretator) (cls : Nat) (toks : List Token)
    (parts : List (Option Nat × List Pred)) (i : Nat) (fact : Except Err Val) (json : Except Err Json) : Prop :=
  ∃ x, Given F its toks i parts x ∧ fact = x.map (factWith F cls) ∧ json = x.map (jsonWith F cls)

end Yargy.Spec
