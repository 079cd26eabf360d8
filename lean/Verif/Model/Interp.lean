import Verif.Model.Tree
/-!
Interpretation: facts, attributes, normalizers (`yargy/interpretation/*.py`) and the passes that
apply them to a tree (`yargy/tree/transformators.py:65-103`).

All objects made during an interpretation are used once, by the node above; so although
`InterpretatorFact` is mutable, a value-passing model shows everything that can be observed.
-/
namespace Yargy

/-- Python values that reach the user: strings, opaque objects (results of user functions,
constants), lists and fact objects (`Fact`, `yargy/interpretation/fact.py:12-41`: the class and the
attributes in the order of `__attributes__`). -/
inductive Val where
  | none
  | str (s : Str)
  | obj (n : Nat)
  | list (vs : List Val)
  | fact (cls : Nat) (attrs : List (Str × Val))

mutual
/-- `InterpretatorResult` (`yargy/interpretation/interpretator.py:34-121`): `Chain`, `FactResult`
(with the fields of its `InterpretatorFact`, `yargy/interpretation/fact.py:70-85`),
`AttributeResult` (with the class and the name of the attribute), `NormalizerResult`. The input of
a `NormalizerResult` is `none` when it is the bare `InterpretatorInput`
(`interpretator.py:192-193,206`). -/
inductive Result where
  | chain (tokens : List Token) (key : Option Str)
  | fact (cls : Nat) (attrs : List (Str × Slot)) (modified : List Str)
  | attr (value : Result) (cls : Nat) (name : Str)
  | norm (value : Val) (input : Option Result)
/-- A value of the dictionary `InterpretatorFact.attributes`: a default, one result, or a list. -/
inductive Slot where
  | default (v : Val)
  | one (r : Result)
  | many (rs : List Result)
end

/-- What an interpretator is given: tokens and results (`interpretator.py:26-31`). -/
inductive Item where
  | token (t : Token)
  | result (r : Result)

/-- `Attribute` with its default, `RepeatableAttribute` (`yargy/interpretation/attribute.py:57-79`). -/
inductive AttrKind where
  | single (default : Val)
  | repeatable

/-- The fact classes (`yargy/interpretation/fact.py:51-67`) by number: their attributes in order of
declaration, and `issubclass`. Also `str.lower` and the analyzer's inflection. -/
structure Facts where
  attrs : Nat → List (Str × AttrKind)
  sub : Nat → Nat → Bool
  lower : Str → Str
  inflect : Form → List Str → Option Str

/-- `normalized()`, `inflected(grams)` (`yargy/interpretation/normalizer.py:19-54`). -/
inductive Morphing where
  | normalized
  | inflected (grams : List Str)

/-- Normalizers (`yargy/interpretation/normalizer.py:10-135`). User functions may raise. -/
inductive Normalizer where
  | morph (m : Morphing)
  | const (v : Val)
  | fn (f : Val → Except Err Val)
  | fnfn (first second : Val → Except Err Val)
  | morphFn (m : Morphing) (f : Val → Except Err Val)

/-- Interpretators (`yargy/interpretation/interpretator.py:131-229`). -/
inductive Interpretator where
  | fact (cls : Nat)
  | attr (cls : Nat) (name : Str)
  | norm (n : Normalizer)
  | attrNorm (cls : Nat) (name : Str) (n : Normalizer)

section
variable (F : Facts)

/-! ### `InterpretatorFact` -/

/-- `key in self.repeatable` (`yargy/interpretation/fact.py:79-81`). -/
def Facts.repeatable (cls : Nat) (key : Str) : Bool :=
  (F.attrs cls).any (fun a => a.1 == key && match a.2 with | .repeatable => true | .single _ => false)

/-- The initial value of an attribute (`yargy/interpretation/fact.py:79-85`). -/
def AttrKind.initial : AttrKind → Slot
  | .repeatable => .many []
  | .single d => .default d

/-- `attributes[key]` -/
def getSlot (key : Str) : List (Str × Slot) → Option Slot
  | [] => none
  | (k, s) :: rest => if k = key then some s else getSlot key rest

/-- `attributes[key] = slot`: a new key goes to the end. -/
def putSlot (key : Str) (slot : Slot) : List (Str × Slot) → List (Str × Slot)
  | [] => [(key, slot)]
  | (k, s) :: rest => if k = key then (k, slot) :: rest else (k, s) :: putSlot key slot rest

/-- `InterpretatorFact.set` (`yargy/interpretation/fact.py:87-92`). -/
def setAttr (cls : Nat) (attrs : List (Str × Slot)) (key : Str) (value : Result) :
    Except Err (List (Str × Slot)) :=
  if F.repeatable cls key then
    match getSlot key attrs with
    | some (.many rs) => .ok (putSlot key (.many (rs ++ [value])) attrs)
    | some _ => .error .attributeError
    | none => .error .keyError
  else .ok (putSlot key (.one value) attrs)

/-- The loop of `InterpretatorFact.merge` (`yargy/interpretation/fact.py:94-98`) over the keys
`fact.modified`; `other` is `fact.attributes`. -/
def mergeAttrs (other : List (Str × Slot)) : List Str → List (Str × Slot) →
    Except Err (List (Str × Slot))
  | [], attrs => .ok attrs
  | key :: keys, attrs =>
    match getSlot key other with
    | some slot => mergeAttrs other keys (putSlot key slot attrs)
    | none => .error .keyError

/-- The body of the loop of `FactInterpretator.__call__` (`interpretator.py:140-147`). -/
def factItem (cls : Nat) (st : List (Str × Slot) × List Str) (item : Item) :
    Except Err (List (Str × Slot) × List Str) :=
  match item with
  | .result (.attr value acls name) =>
    if F.sub cls acls then
      (setAttr F cls st.1 name value).map (fun attrs => (attrs, st.2 ++ [name]))
    else .ok st
  | .result (.fact fcls other modified) =>
    if F.sub fcls cls then
      (mergeAttrs other modified st.1).map (fun attrs => (attrs, st.2 ++ modified))
    else .ok st
  | _ => .ok st

/-- `FactInterpretator.__call__` (`interpretator.py:138-148`). -/
def factCall (cls : Nat) (items : List Item) : Except Err Result :=
  (items.foldlM (factItem F cls) ((F.attrs cls).map (fun a => (a.1, a.2.initial)), [])).map
    (fun st => .fact cls st.1 st.2)

/-! ### The value of a result

In the functions `…Slot` the cases that raise do not occur (`good_normalized`): a repeatable
attribute holds a list, another one a default until it is modified and one result afterwards. -/

/-- `value` of the attribute `key` among those passed to the class
(`yargy/interpretation/fact.py:21-30`). -/
def lookupVal (key : Str) : List (Str × Val) → Option Val
  | [] => none
  | (k, v) :: rest => if k = key then some v else lookupVal key rest

/-- `Fact.__init__` (`yargy/interpretation/fact.py:16-30`). -/
def makeFact (cls : Nat) (kwargs : List (Str × Val)) : Except Err Val :=
  if kwargs.all (fun a => (F.attrs cls).any (fun b => b.1 == a.1)) then
    .ok (.fact cls ((F.attrs cls).map (fun a =>
      (a.1, match lookupVal a.1 kwargs with
        | some v => v
        | none => match a.2 with
          | .repeatable => .list []
          | .single d => d))))
  else .error .keyError

mutual
/-- `normalized` of the four classes (`interpretator.py:46-48,65-67,86-88,107-109`) and of
`InterpretatorFact` (`yargy/interpretation/fact.py:100-111`). -/
def Result.normalized : Result → Except Err Val
  | .chain tokens _ => .ok (.str (joinTokens tokens))
  | .fact cls attrs modified => normalizedAttrs cls modified attrs >>= makeFact F cls
  | .attr value _ _ => value.normalized
  | .norm value _ => .ok value
/-- The loop over `self.attributes.items()` (`fact.py:102-108`). -/
def normalizedAttrs (cls : Nat) (modified : List Str) :
    List (Str × Slot) → Except Err (List (Str × Val))
  | [] => .ok []
  | a :: rest => do
    let v ← normalizedAttr cls modified a
    let vs ← normalizedAttrs cls modified rest
    return (a.1, v) :: vs
def normalizedAttr (cls : Nat) (modified : List Str) : Str × Slot → Except Err Val
  | (key, slot) => normalizedSlot (F.repeatable cls key) (modified.contains key) slot
def normalizedSlot (rep mod : Bool) : Slot → Except Err Val
  | .default v => if rep then .error .typeError else if mod then .error .attributeError else .ok v
  | .one r => if rep then .error .typeError else if mod then r.normalized else .error .attributeError
  | .many rs => if rep then (normalizedAll rs).map .list else .error .attributeError
def normalizedAll : List Result → Except Err (List Val)
  | [] => .ok []
  | r :: rs => do
    let v ← r.normalized
    let vs ← normalizedAll rs
    return v :: vs
end

/-- What `as_json` returns: values as they are, lists, and dictionaries. -/
inductive Json where
  | val (v : Val)
  | list (js : List Json)
  | obj (fields : List (Str × Json))

/-- `value is not None` -/
def Json.isNone : Json → Bool
  | .val .none => true
  | _ => false

/-- The fields in the order of the class (`fact.py:126-127,133-134`). -/
def jsonFields (js : List (Str × Json)) : List Str → Except Err (List (Str × Json))
  | [] => .ok []
  | key :: keys =>
    match js.find? (fun a => a.1 == key) with
    | some a => (jsonFields js keys).map (fun l => a :: l)
    | none => .error .keyError

mutual
/-- `as_json` of the four classes (`interpretator.py:54-56,74-76,95-97,116-121`) and of
`InterpretatorFact` (`yargy/interpretation/fact.py:124-135`). The values of the attributes are
converted in the order of the dictionary and then listed in the order of the class: the only
difference from the code is which exception comes first. -/
def Result.asJson : Result → Except Err Json
  | .chain tokens _ => .ok (.val (.str (joinTokens tokens)))
  | .fact cls attrs modified => do
    let js ← jsonAttrs cls modified attrs
    let fields ← jsonFields js ((F.attrs cls).map Prod.fst)
    return .obj (fields.filter (fun f => !f.2.isNone))
  | .attr value _ _ => value.asJson
  | .norm value _ => .ok (.val value)
def jsonAttrs (cls : Nat) (modified : List Str) : List (Str × Slot) → Except Err (List (Str × Json))
  | [] => .ok []
  | a :: rest => do
    let v ← jsonAttr cls modified a
    let vs ← jsonAttrs cls modified rest
    return (a.1, v) :: vs
def jsonAttr (cls : Nat) (modified : List Str) : Str × Slot → Except Err Json
  | (key, slot) => jsonSlot (F.repeatable cls key) (modified.contains key) slot
def jsonSlot (rep mod : Bool) : Slot → Except Err Json
  | .default v => if rep then .error .typeError else if mod then .error .attributeError else .ok (.val v)
  | .one r => if rep then .error .typeError else if mod then r.asJson else .error .attributeError
  | .many rs => if rep then (jsonAll rs).map .list else .error .attributeError
def jsonAll : List Result → Except Err (List Json)
  | [] => .ok []
  | r :: rs => do
    let v ← r.asJson
    let vs ← jsonAll rs
    return v :: vs
end

mutual
/-- `spans` of the four classes (`interpretator.py:50-52,69-72,90-93,111-114`) and of
`InterpretatorFact` (`yargy/interpretation/fact.py:113-122`). An `InterpretatorInput` has no
attribute `spans`. -/
def Result.spans : Result → Except Err (List (Nat × Nat))
  | .chain tokens _ => (tokensSpan tokens).map (fun s => [s])
  | .fact cls attrs modified => spansAttrs cls modified attrs
  | .attr value _ _ => value.spans
  | .norm _ none => .error .attributeError
  | .norm _ (some r) => r.spans
def spansAttrs (cls : Nat) (modified : List Str) : List (Str × Slot) → Except Err (List (Nat × Nat))
  | [] => .ok []
  | a :: rest => do
    let v ← spansAttr cls modified a
    let vs ← spansAttrs cls modified rest
    return v ++ vs
def spansAttr (cls : Nat) (modified : List Str) : Str × Slot → Except Err (List (Nat × Nat))
  | (key, slot) => spansSlot (F.repeatable cls key) (modified.contains key) slot
def spansSlot (rep mod : Bool) : Slot → Except Err (List (Nat × Nat))
  | .default _ => if rep then .error .typeError else if mod then .error .attributeError else .ok []
  | .one r => if rep then .error .typeError else if mod then r.spans else .ok []
  | .many rs => if rep then spansAll rs else if mod then .error .attributeError else .ok []
def spansAll : List Result → Except Err (List (Nat × Nat))
  | [] => .ok []
  | r :: rs => do
    let v ← r.spans
    let vs ← spansAll rs
    return v ++ vs
end

/-- `sorted(spans, key=lambda _: _.start)`: stable. -/
def insertSpan (s : Nat × Nat) : List (Nat × Nat) → List (Nat × Nat)
  | [] => [s]
  | x :: rest => if s.1 ≤ x.1 then s :: x :: rest else x :: insertSpan s rest

def sortSpans : List (Nat × Nat) → List (Nat × Nat)
  | [] => []
  | s :: rest => insertSpan s (sortSpans rest)

/-- `Fact.spans` (`yargy/interpretation/fact.py:36-41`) of the fact made from a result. -/
def Result.factSpans (r : Result) : Except Err (List (Nat × Nat)) := (r.spans F).map sortSpans

/-! ### Interpretators -/

/-- `NormalizedNormalizer.__call__`, `InflectedNormalizer.__call__`
(`yargy/interpretation/normalizer.py:25-32,44-48`). An empty key counts as none. -/
def Morphing.call (m : Morphing) (input : Result) : Except Err Val :=
  match input with
  | .chain tokens key =>
    match m with
    | .normalized =>
      match key with
      | some (c :: cs) => .ok (.str (c :: cs))
      | _ => (joinNormalized F.lower tokens).map .str
    | .inflected grams => (joinInflected F.lower F.inflect grams tokens).map .str
  | _ => .error .typeError

/-- `normalizer(input)` (`yargy/interpretation/normalizer.py:25-32,44-48,67-68,89-91,107-109,126-128`). -/
def Normalizer.call (n : Normalizer) (input : Result) : Except Err Val :=
  match n with
  | .morph m => m.call F input
  | .const v => .ok v
  | .fn f => input.normalized F >>= f
  | .fnfn f g => input.normalized F >>= f >>= g
  | .morphFn m f => m.call F input >>= f

/-- The tokens, if all items are tokens (`interpretator.py:163,196`). -/
def allTokens : List Item → Option (List Token)
  | [] => some []
  | .token t :: rest => (allTokens rest).map (fun ts => t :: ts)
  | .result _ :: _ => none

/-- `NormalizerInterpretator.__call__` (`interpretator.py:191-206`). -/
def normCall (n : Normalizer) (key : Option Str) (items : List Item) : Except Err Result :=
  match n with
  | .const v => .ok (.norm v none)
  | n =>
    match allTokens items with
    | some tokens =>
      let input := Result.chain tokens key
      (n.call F input).map (fun v => .norm v (some input))
    | none =>
      match items with
      | [.result r] => (n.call F r).map (fun v => .norm v (some r))
      | _ => .error .typeError

/-- The value chosen by `AttributeInterpretator.__call__` (`interpretator.py:161-177`). -/
def attrValue (key : Option Str) (items : List Item) : Except Err Result :=
  match allTokens items with
  | some tokens => .ok (.chain tokens key)
  | none =>
    match items with
    | [.result (.attr value _ _)] => .ok value
    | [.result (.chain _ _)] => .error .typeError
    | [.result r] => .ok r
    | _ => .error .typeError

/-- `Interpretator.__call__` (`interpretator.py:138-148,161-178,191-206,220-222`). -/
def Interpretator.call (i : Interpretator) (key : Option Str) (items : List Item) :
    Except Err Result :=
  match i with
  | .fact cls => factCall F cls items
  | .attr cls name => (attrValue key items).map (fun v => .attr v cls name)
  | .norm n => normCall F n key items
  | .attrNorm cls name n => (normCall F n key items).map (fun v => .attr v cls name)

/-! ### Trees -/

variable {P : Type} (I : Nat → Option Interpretator)

mutual
/-- `KeepInterpretationNodesTransformator.flatten` and `visit_Node`
(`yargy/tree/transformators.py:71-87`) in one go: what an item below an interpreted node becomes –
a leaf or an interpreted node stays, anything else is replaced by what its children become.
`I` gives `rule.interpretator`. -/
def PTree.keep {T : Type} : PTree P T → List (PTree P T)
  | .leaf i p t => [.leaf i p t]
  | .node i r p k cs =>
    match I r with
    | some _ => [.node i r p k (keepAll cs)]
    | none => keepAll cs
def keepAll {T : Type} : List (PTree P T) → List (PTree P T)
  | [] => []
  | c :: cs => c.keep ++ keepAll cs
end

mutual
/-- `InterpretationTransformator.visit_Node`, `visit_Leaf` (`yargy/tree/transformators.py:96-103`).
Calling the `None` of a node without interpretator is a `TypeError`. -/
def PTree.interp : TTree P → Except Err Item
  | .leaf _ _ t => .ok (.token t)
  | .node _ r p _ cs => do
    let items ← interpAll cs
    match I r with
    | some i => (i.call F p.key items).map .result
    | none => .error .typeError
def interpAll : List (TTree P) → Except Err (List Item)
  | [] => .ok []
  | c :: cs => do
    let x ← c.interp
    let xs ← interpAll cs
    return x :: xs
end

/-- `Tree.interpret` (`yargy/tree/constructors.py:37-45`, `yargy/tree/transformators.py:66-69`):
the root must have an interpretator. -/
def interpretTree (root : TTree P) : Except Err Result :=
  match root with
  | .leaf _ _ _ => .error .valueError
  | .node i r p k cs =>
    match I r with
    | none => .error .valueError
    | some _ =>
      match PTree.keep I (.node i r p k cs) with
      | [t] =>
        (PTree.interp F I t).bind (fun x => match x with
          | .result res => .ok res
          | .token _ => .error .attributeError)
      | _ => .error .typeError

/-- `match.fact` (`yargy/parser.py:188-191`). -/
def matchFact (root : TTree P) : Except Err Val :=
  (interpretTree F I root).bind (Result.normalized F)

end

end Yargy
