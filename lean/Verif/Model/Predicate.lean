import Verif.Model.Token
import Verif.Model.Grammar
/-!
Predicates on tokens (`yargy/predicates/constructors.py`, `yargy/predicates/bank.py`).

The string methods of Python, `int`, the morphological analyzer and user functions are parameters.
-/
namespace Yargy

/-- Python's string functions used by predicates. -/
structure Lang where
  /-- `str.lower` -/
  lower : Str → Str
  /-- `str.islower` -/
  isLower : Str → Bool
  /-- `str.isupper` -/
  isUpper : Str → Bool
  /-- `str.istitle` -/
  isTitle : Str → Bool
  /-- `int`; `none` when it raises `ValueError` -/
  parseInt : Str → Option Int
  /-- user functions (`custom`), by identity; truth value of the result -/
  fn : Nat → Str → Except Err Bool

/-- `INT` (`yargy/tokenizer.py:20`). -/
def intType : Str := "INT".toList

/-- Predicates: the classes of `yargy/predicates/bank.py` and the compositions of
`yargy/predicates/constructors.py:56-112`. The constructors `normalized`, `dictionary`, `gram`,
`type`, `tag`, `custom` are schemes; `dict`, `gramP`, `typeP`, `tagP`, `customP` are what they
activate to. The container given to `in_` is a list of strings; `types` of `custom` is already a
list (`bank.py:480-481`). -/
inductive Pred where
  | true
  | isLower
  | isUpper
  | isTitle
  | isCapitalized
  | eq (value : Str)
  | lengthEq (value : Int)
  | gte (value : Int)
  | lte (value : Int)
  | caseless (value : Str)
  | in_ (value : List Str)
  | inCaseless (value : List Str)
  | normalized (value : Str)
  | dictionary (value : List Str)
  | dict (value : List Str)
  | gram (value : Str)
  | gramP (value : Str)
  | type (value : Str)
  | typeP (value : Str)
  | tag (value : Str)
  | tagP (value : Str)
  | isSingle
  | custom (function : Nat) (types : List Str)
  | customP (function : Nat) (types : List Str)
  | and_ (predicates : List Pred)
  | or_ (predicates : List Pred)
  | not_ (predicate : Pred)

/-- `caseless(value)` (`bank.py:242-243`). -/
def mkCaseless (L : Lang) (value : Str) : Pred := .caseless (L.lower value)

/-- `in_caseless(value)` (`bank.py:281-283`). -/
def mkInCaseless (L : Lang) (value : List Str) : Pred := .inCaseless (value.map L.lower)

/-- `is_single.is_single` (`bank.py:444-446`, `morph.py:38-46`). -/
def Form.isSingle (f : Form) : Bool :=
  f.grams.contains "sing".toList || f.grams.contains "Sgtm".toList

/-- `int_required` (`bank.py:41-49`). -/
def intRequired (L : Lang) (t : Token) (method : Int → Bool) : Except Err Bool :=
  if t.type = intType then
    match L.parseInt t.value with
    | some v => .ok (method v)
    | none => .error .valueError
  else .ok false

/-- `morph_required` (`bank.py:52-59`) with a method of the form `any(test(form) …)`. -/
def morphRequired (t : Token) (test : Form → Bool) : Except Err Bool :=
  match t.forms with
  | none => .ok false
  | some fs => .ok (fs.any test)

mutual
/-- `predicate(token)`: `__call__` of the classes in `bank.py` and of `AndPredicate`,
`OrPredicate`, `NotPredicate` (`constructors.py:68-69,102-103`). Calling a scheme raises
(`constructors.py:9-11`). -/
def Pred.call (L : Lang) (t : Token) : Pred → Except Err Bool
  | .true => .ok Bool.true
  | .isLower => .ok (L.isLower t.value)
  | .isUpper => .ok (L.isUpper t.value)
  | .isTitle => .ok (L.isTitle t.value)
  | .isCapitalized =>
    match t.value with
    | [] => .error .indexError
    | c :: _ => .ok (L.isUpper [c])
  | .eq v => .ok (decide (t.value = v))
  | .lengthEq n => .ok (decide ((t.value.length : Int) = n))
  | .gte n => intRequired L t (fun v => decide (v ≥ n))
  | .lte n => intRequired L t (fun v => decide (v ≤ n))
  | .caseless v => .ok (decide (L.lower t.value = v))
  | .in_ vs => .ok (vs.contains t.value)
  | .inCaseless vs => .ok (vs.contains (L.lower t.value))
  | .dict vs =>
    match t.forms with
    | some fs => .ok (fs.any (fun f => vs.contains f.normalized))
    | none => .ok (vs.contains (L.lower t.value))
  | .gramP g => morphRequired t (fun f => f.grams.contains g)
  | .typeP v => .ok (decide (t.type = v))
  | .tagP v =>
    match t.tag with
    | some tag => .ok (decide (tag = v))
    | none => .ok false
  | .isSingle => morphRequired t Form.isSingle
  | .customP f types =>
    if !types.isEmpty && !types.contains t.type then .ok false else L.fn f t.value
  | .and_ ps => callAnd L t ps
  | .or_ ps => callOr L t ps
  | .not_ p => (p.call L t).map (fun b => !b)
  | .normalized _ | .dictionary _ | .gram _ | .type _ | .tag _ | .custom _ _ =>
    .error .notImplemented
/-- `all(_(token) for _ in predicates)`: stops at the first false answer. -/
def callAnd (L : Lang) (t : Token) : List Pred → Except Err Bool
  | [] => .ok Bool.true
  | p :: ps =>
    match p.call L t with
    | .error e => .error e
    | .ok false => .ok false
    | .ok true => callAnd L t ps
/-- `any(_(token) for _ in predicates)`: stops at the first true answer. -/
def callOr (L : Lang) (t : Token) : List Pred → Except Err Bool
  | [] => .ok false
  | p :: ps =>
    match p.call L t with
    | .error e => .error e
    | .ok true => .ok Bool.true
    | .ok false => callOr L t ps
end

/-- `predicate.constrain(token)` (`constructors.py:38-39`, `bank.py:376-380,455-459`). -/
def Pred.constrain (p : Pred) (t : Token) : Except Err Token :=
  match p with
  | .gramP g =>
    match t.forms with
    | some fs => t.constrained (fs.filter (fun f => f.grams.contains g))
    | none => .error .attributeError
  | .isSingle =>
    match t.forms with
    | some fs => t.constrained (fs.filter Form.isSingle)
    | none => .error .attributeError
  | _ => .ok t

/-- The morphological analyzer as seen by schemes (`yargy/morph.py:118-133`). -/
structure Morph where
  /-- `raw.TagClass.grammeme_is_known` -/
  known : Str → Bool
  /-- `morph.normalized(word)`, the set of normal forms -/
  normalized : Str → List Str

/-- `Context` (`yargy/parser.py:232-235`) as seen by `activate`. A plain `Tokenizer` has no
attribute `morph`. -/
structure Context where
  types : List Str
  morph : Option Morph
  /-- `tagger.check_tag` (`yargy/tagger.py:7-8,27-31`) -/
  hasTag : Str → Bool

/-- `check_type` (`yargy/tokenizer.py:76-78`). -/
def Context.checkType (c : Context) (type : Str) : Except Err Unit :=
  if c.types.contains type then .ok () else .error .valueError

/-- `context.tokenizer.morph` -/
def Context.getMorph (c : Context) : Except Err Morph :=
  match c.morph with
  | some m => .ok m
  | none => .error .attributeError

mutual
/-- `predicate.activate(context)` (`constructors.py:35-36,71-75,105-106`, `bank.py:306-308,
323-327,363-365,399-401,418-420,484-488`). The answer of `check_tag` is not looked at. -/
def Pred.activate (c : Context) : Pred → Except Err Pred
  | .normalized v => do
    let m ← c.getMorph
    return .dict (m.normalized v)
  | .dictionary [] => return .dict []
  | .dictionary (v :: vs) => do
    let m ← c.getMorph
    return .dict ((v :: vs).flatMap m.normalized)
  | .gram v => do
    let m ← c.getMorph
    if m.known v then return .gramP v else throw .valueError
  | .type v => do
    c.checkType v
    return .typeP v
  | .tag v =>
    let _ := c.hasTag v
    .ok (.tagP v)
  | .custom f types => do
    types.forM c.checkType
    return .customP f types
  | .and_ ps => do
    let qs ← activateAll c ps
    return .and_ qs
  | .or_ ps => do
    let qs ← activateAll c ps
    return .or_ qs
  | .not_ p => do
    let q ← p.activate c
    return .not_ q
  | p => .ok p
/-- `[_.activate(context) for _ in predicates]` -/
def activateAll (c : Context) : List Pred → Except Err (List Pred)
  | [] => .ok []
  | p :: ps => do
    let q ← p.activate c
    let qs ← activateAll c ps
    return q :: qs
end

/-- The answer of a predicate inside the chart loop (`yargy/parser.py:326-328`). The chart model
has no exceptions: a predicate that raises counts as refusing the token. -/
def Pred.accepts (L : Lang) (p : Pred) (t : Token) : Bool :=
  match p.call L t with
  | .ok b => b
  | .error _ => false

/-- `predicate.constrain` inside the chart loop (`yargy/parser.py:329`), called on accepted tokens. -/
def Pred.narrow (p : Pred) (t : Token) : Token :=
  match p.constrain t with
  | .ok t' => t'
  | .error _ => t

/-- A compiled grammar whose terms are the predicates of `yargy.predicates`. -/
def predGrammar (L : Lang) (rules : List (ChartRule Pred Token)) (start : Nat) :
    Grammar Pred Token where
  rules := rules
  start := start
  accepts := Pred.accepts L
  constrain := Pred.narrow

end Yargy
