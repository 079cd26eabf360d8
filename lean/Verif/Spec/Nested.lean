import Verif.Spec.Match
import Verif.Spec.Filling
/-!
Facts inside facts: `NAME = rule(…).interpretation(Name)`, `rule(NAME.interpretation(Person.name), …).interpretation(Person)`,
facts directly inside facts: `or_(FULL.interpretation(Name), SHORT.interpretation(Name)).interpretation(Name)`, and
interpretations on top of each other: `rule(…).interpretation(normalized()).interpretation(Name.first).interpretation(Person.name)`.
-/
namespace Yargy.Spec

/-- Attributes with and without `normalized()` …, and `normalized()` … alone. -/
def IsValue : Interpretator → Prop
  | .fact _ => False
  | _ => True

/-- Facts and attributes of other classes, and `normalized()` … without an attribute around: facts of the class pass over
them. -/
def IsStray (F : Facts) (cls : Nat) : Interpretator → Prop
  | .attr c _ | .attrNorm c _ _ => F.sub cls c = false
  | .norm _ => True
  | .fact c => F.sub c cls = false

/-- The interpretations inside a rule are written with `.interpretation(…)`, and attributes are those of their classes. -/
def Dressed (F : Facts) (its : Nat → Interpretator) (h : Heap Pred) (root : Nat) : Prop :=
  ∀ (x : Nat) o, Reach h root x → h[x]? = some o →
    o.label .interp = none ∨ ∃ r k, o = .interp r k ∧ OwnAttribute F (its k)

/-- What is given to an attribute: its value, that as JSON, and where it stands in the text. -/
abbrev GiftWorth := Val × Json × Except Err (List (Nat × Nat))

abbrev Gift := Str × GiftWorth

def giftsTo (given : List Gift) (key : Str) : List GiftWorth :=
  (given.filter (fun x => decide (x.1 = key))).map Prod.snd

/-- One step of filling a fact: something for an attribute, or a fact of the class directly inside, with what was given to it. -/
inductive Giving (α : Type) where
  | one (key : Str) (x : α)
  | all (given : List (Str × α))

/-- A fact directly inside replaces what there was in the attributes that it has got itself. -/
def addStep {α : Type} (before : List (Str × α)) : Giving α → List (Str × α)
  | .one key x => before ++ [(key, x)]
  | .all given => before.filter (fun y => !given.any (fun z => decide (z.1 = y.1))) ++ given

/-- What has been given in the end. -/
def gather {α : Type} (steps : List (Giving α)) : List (Str × α) := steps.foldl addStep []

/-- The values alone. -/
def giftValues (given : List Gift) : List (Str × Val) := given.map (fun x => (x.1, x.2.1))

/-- `None` is left out of JSON. -/
def shownAs (key : Str) : Json → Option (Str × Json)
  | .val .none => none
  | j => some (key, j)

/-- A field of the JSON of a fact: repeatable attributes are lists. -/
def giftField (given : List Gift) (a : Str × AttrKind) : Option (Str × Json) :=
  match a.2 with
  | .repeatable => some (a.1, .list ((giftsTo given a.1).map (fun x => x.2.1)))
  | .single d => shownAs a.1 (((giftsTo given a.1).map (fun x => x.2.1)).getLast?.getD (.val d))

def giftJson (F : Facts) (cls : Nat) (given : List Gift) : Json :=
  .obj ((F.attrs cls).filterMap (giftField given))

/-- The places of what an attribute has in the end: of everything for repeatable attributes, otherwise of the last. -/
def placesOf (given : List Gift) (a : Str × AttrKind) : List (Except Err (List (Nat × Nat))) :=
  let places := (giftsTo given a.1).map (fun x => x.2.2)
  match a.2 with
  | .repeatable => places
  | .single _ => places.getLast?.toList

/-- All of them, unless one cannot be told. -/
def together : List (Except Err (List (Nat × Nat))) → Except Err (List (Nat × Nat))
  | [] => .ok []
  | .error e :: _ => .error e
  | .ok l :: rest => (together rest).map (fun l' => l ++ l')

/-- The places of what a fact was filled with, attribute by attribute. -/
def giftPlaces (F : Facts) (cls : Nat) (given : List Gift) : Except Err (List (Nat × Nat)) :=
  together ((F.attrs cls).flatMap (placesOf given))

/-- Constants do not stand anywhere in the text. -/
def slotPlaces : Interpretator → Nat × Nat → Except Err (List (Nat × Nat))
  | .attrNorm _ _ (.const _), _ | .norm (.const _), _ => .error .attributeError
  | _, s => .ok [s]

/-- What an interpretation makes of words with the text `s`. -/
def valueGives : Interpretator → Str → Except Err Val
  | .norm n, s => (slotGives (.attrNorm 0 [] n) s).map Prod.snd
  | it, s => (slotGives it s).map Prod.snd

/-- What a normalizer makes of a fact or of another interpretation: a constant, what user functions make of the value.
`normalized()` and `inflected()` are for words only. -/
def normWorn : Normalizer → GiftWorth → Except Err GiftWorth
  | .const v, _ => .ok (v, .val v, .error .attributeError)
  | .fn f, x => (f x.1).map (fun v => (v, .val v, x.2.2))
  | .fnfn f g, x => ((f x.1).bind g).map (fun v => (v, .val v, x.2.2))
  | _, _ => .error .typeError

/-- What an interpretation makes of that: attributes leave it as it is. -/
def worn : Interpretator → GiftWorth → Except Err GiftWorth
  | .attr _ _, x => .ok x
  | .attrNorm _ _ n, x | .norm n, x => normWorn n x
  | .fact _, _ => .error .typeError

/-- What an interpretation makes of several things that are not all words. -/
def mixedWorth : Interpretator → Except Err GiftWorth
  | .attrNorm _ _ (.const v) | .norm (.const v) => .ok (v, .val v, .error .attributeError)
  | _ => .error .typeError

def slotName : Interpretator → Str
  | .attr _ name | .attrNorm _ name _ => name
  | _ => []

/-- What a fact is worth that was given so much. -/
def factWorth (F : Facts) (cls : Nat) (given : List Gift) : GiftWorth :=
  (factWith F cls (giftValues given), giftJson F cls given, giftPlaces F cls given)

/-- From the start of the first word to the end of the last. -/
def wordsSpan : List Token → Nat × Nat
  | [] => (0, 0)
  | t :: ts => (t.span.1, (ts.getLast?.getD t).span.2)

/-- The spans `l` in text order, if they can be told. -/
def InTextOrder : Except Err (List (Nat × Nat)) → Except Err (List (Nat × Nat)) → Prop
  | .ok l, .ok l' => l'.Perm l ∧ l'.Pairwise (fun a b => a.1 ≤ b.1)
  | .error e, .error e' => e' = e
  | _, _ => False

mutual
/-- What a word with brackets gives to a fact of the class `cls`, when it starts at token number `i` and `T` says which
text the interpretation number `n` makes of the words in the place of the predicates `qs` from some token on, and `S` where
so many words from some token on stand: what stands under attributes of the class, and the facts directly inside, in text
order. Brackets without words give nothing, and so does what the class passes over. If something inside raises, that is the
outcome. -/
inductive Told (F : Facts) (its : Nat → Interpretator) (T : Nat → List Pred → Nat → Except Err Str → Prop)
    (S : Nat → Nat → Nat × Nat) : Nat → List (Sym Pred) → Nat → Except Err (List (Giving GiftWorth)) → Prop
  | nil {cls i} : Told F its T S cls [] i (.ok [])
  | word {cls p w i x} : Told F its T S cls w (i + 1) x → Told F its T S cls (.pred p :: w) i x
  | slot {cls n u w i z x} : wordPreds u ≠ [] → IsSlot F cls (its n) → Meant F its T S n u i (.ok z) →
      Told F its T S cls w (i + (wordPreds u).length) x →
      Told F its T S cls (.opn (.interp n) :: (u ++ .cls (.interp n) :: w)) i
        (x.map (fun l => .one (slotName (its n)) z :: l))
  | merged {cls inner n u w i steps x} : wordPreds u ≠ [] → its n = .fact inner → F.sub inner cls = true →
      Told F its T S inner u i (.ok steps) → Told F its T S cls w (i + (wordPreds u).length) x →
      Told F its T S cls (.opn (.interp n) :: (u ++ .cls (.interp n) :: w)) i (x.map (fun l => .all (gather steps) :: l))
  | passed {cls n u w i z x} : wordPreds u ≠ [] → IsStray F cls (its n) → Meant F its T S n u i (.ok z) →
      Told F its T S cls w (i + (wordPreds u).length) x →
      Told F its T S cls (.opn (.interp n) :: (u ++ .cls (.interp n) :: w)) i x
  | raised {cls n u w i e} : wordPreds u ≠ [] → Meant F its T S n u i (.error e) →
      Told F its T S cls (.opn (.interp n) :: (u ++ .cls (.interp n) :: w)) i (.error e)
  | empty {cls n u w i x} : wordPreds u = [] → Told F its T S cls w i x →
      Told F its T S cls (.opn (.interp n) :: (u ++ .cls (.interp n) :: w)) i x
/-- What the interpretation number `n` makes of a word from token number `i` on: a fact; something of words; something of
one other interpretation; `TypeError` if there are several things, and not only words. -/
inductive Meant (F : Facts) (its : Nat → Interpretator) (T : Nat → List Pred → Nat → Except Err Str → Prop)
    (S : Nat → Nat → Nat × Nat) : Nat → List (Sym Pred) → Nat → Except Err GiftWorth → Prop
  | fact {n inner u i x} : its n = .fact inner → Told F its T S inner u i x →
      Meant F its T S n u i (x.map (fun steps => factWorth F inner (gather steps)))
  | words {n u i l s} : IsValue (its n) → Strewn F its T S u i (.ok l) → (∀ y ∈ l, y = none) →
      T n (wordPreds u) i (.ok s) →
      Meant F its T S n u i
        ((valueGives (its n) s).map (fun v => (v, .val v, slotPlaces (its n) (S i (wordPreds u).length))))
  | lost {n u i l e} : IsValue (its n) → Strewn F its T S u i (.ok l) → (∀ y ∈ l, y = none) →
      T n (wordPreds u) i (.error e) → Meant F its T S n u i (.error e)
  | over {n u i y} : IsValue (its n) → Strewn F its T S u i (.ok [some y]) → Meant F its T S n u i (worn (its n) y)
  | mixed {n u i l y} : IsValue (its n) → Strewn F its T S u i (.ok l) → some y ∈ l → 2 ≤ l.length →
      Meant F its T S n u i (mixedWorth (its n))
  | within {n u i e} : IsValue (its n) → Strewn F its T S u i (.error e) → Meant F its T S n u i (.error e)
/-- What stands in a word: plain words (`none`) and what interpretations have made. -/
inductive Strewn (F : Facts) (its : Nat → Interpretator) (T : Nat → List Pred → Nat → Except Err Str → Prop)
    (S : Nat → Nat → Nat × Nat) : List (Sym Pred) → Nat → Except Err (List (Option GiftWorth)) → Prop
  | nil {i} : Strewn F its T S [] i (.ok [])
  | word {p w i x} : Strewn F its T S w (i + 1) x → Strewn F its T S (.pred p :: w) i (x.map (fun l => none :: l))
  | part {n u w i z x} : wordPreds u ≠ [] → Meant F its T S n u i (.ok z) →
      Strewn F its T S w (i + (wordPreds u).length) x →
      Strewn F its T S (.opn (.interp n) :: (u ++ .cls (.interp n) :: w)) i (x.map (fun l => some z :: l))
  | raised {n u w i e} : wordPreds u ≠ [] → Meant F its T S n u i (.error e) →
      Strewn F its T S (.opn (.interp n) :: (u ++ .cls (.interp n) :: w)) i (.error e)
  | empty {n u w i x} : wordPreds u = [] → Strewn F its T S w i x →
      Strewn F its T S (.opn (.interp n) :: (u ++ .cls (.interp n) :: w)) i x
end

/-- The fact of a match that has the tokens from `i` to `j`, its `as_json` and its `spans`: the rule can be read so that the tokens are
what its predicates say, and the fact is what this reading tells. -/
def NestedFact (L : Lang) (A : Activation Pred) (h : Heap Pred) (root n : Nat) (F : Facts) (its : Nat → Interpretator)
    (cls : Nat) (toks : List Token) (i j : Nat) (fact : Except Err Val) (json : Except Err Json)
    (spans : Except Err (List (Nat × Nat))) : Prop :=
  ∃ w x, Reads A .interp h [.rule root] (.opn (.interp n) :: (w ++ [.cls (.interp n)])) ∧
    Fits (fun p t => p.accepts L t) toks w i j ∧ j = i + (wordPreds w).length ∧
    Told F its (fun n qs k => SlotText F (its n) qs ((toks.drop (i + k)).take qs.length))
      (fun k l => wordsSpan ((toks.drop (i + k)).take l)) cls w 0 x ∧
    fact = x.map (fun steps => factWith F cls (giftValues (gather steps))) ∧
    json = x.map (fun steps => giftJson F cls (gather steps)) ∧
    InTextOrder (x.bind (fun steps => giftPlaces F cls (gather steps))) spans

/-- The text an interpretation makes of `words`, of whose forms `left` has those that are left: the words as they are, or
the normal (inflected) forms of the first that is left. There is none if a word has been left without forms. -/
inductive WordsText (F : Facts) (it : Interpretator) (words left : List Token) : Except Err Str → Prop
  | said {s} : slotMorphing it = none → Joined words s → WordsText F it words left (.ok s)
  | formed {m us s} : slotMorphing it = some m → Reworded (WordForm F m) left us → Joined us s →
      WordsText F it words left (.ok s)
  | lost {m t} : slotMorphing it = some m → t ∈ left → t.forms = some [] → WordsText F it words left (.error .indexError)

/-- The same for rules with agreement: the forms of the tokens are some of those in the text. -/
def NarrowedFact (L : Lang) (A : Activation Pred) (h : Heap Pred) (root n : Nat) (F : Facts) (its : Nat → Interpretator)
    (cls : Nat) (toks : List Token) (i j : Nat) (fact : Except Err Val) (json : Except Err Json)
    (spans : Except Err (List (Nat × Nat))) : Prop :=
  ∃ w x, ∃ ts : List Token, Reads A .interp h [.rule root] (.opn (.interp n) :: (w ++ [.cls (.interp n)])) ∧
    Fits (fun p t => p.accepts L t) toks w i j ∧ ts.length = j - i ∧
    (∀ k, k < j - i → ∃ t t', toks[i + k]? = some t ∧ ts[k]? = some t' ∧ Narrowed t t') ∧
    Told F its (fun n qs k => WordsText F (its n) ((toks.drop (i + k)).take qs.length) ((ts.drop k).take qs.length))
      (fun k l => wordsSpan ((toks.drop (i + k)).take l)) cls w 0 x ∧
    fact = x.map (fun steps => factWith F cls (giftValues (gather steps))) ∧
    json = x.map (fun steps => giftJson F cls (gather steps)) ∧
    InTextOrder (x.bind (fun steps => giftPlaces F cls (gather steps))) spans

end Yargy.Spec
