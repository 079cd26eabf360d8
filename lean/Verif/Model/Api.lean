import Verif.Model.Heap
import Verif.Model.Interp
import Verif.Model.Relation
/-!
The functions and methods with which a program makes rules: `yargy/api.py`, the methods of `Rule`
(`yargy/rule/constructors.py`), `Predicate` (`yargy/predicates/constructors.py`), attributes and
normalizers (`yargy/interpretation`), the functions of `yargy/pipelines.py`.

A call either returns a value and a new world or raises. What a failing call has made by then is not
referred to by anything, so a failing call leaves the world as it was.
-/
namespace Yargy

/-- What a program works on: rule objects, interpretators and relations, each with its number. -/
structure World where
  heap : Heap Pred := []
  its : List Interpretator := []
  rels : List Relation := []

/-- What a program holds and hands on. Rules, interpretators and relations are objects; the rest are
values. Objects of other classes are all `other`; they are taken to be true and to equal no string. -/
inductive Arg where
  | rule (a : Nat)
  | pred (p : Pred)
  /-- `Main` (`yargy/relations/constructors.py:6-14`) -/
  | main (term : Term Pred)
  | relation (r : Nat)
  | interpretator (i : Nat)
  /-- a subclass of `Fact` -/
  | fact (cls : Nat)
  /-- `Attribute` (`yargy/interpretation/attribute.py:57-75`) -/
  | attr (cls : Nat) (name : Str)
  /-- `RepeatableAttribute` (`yargy/interpretation/attribute.py:78-79`) -/
  | repeatableAttr (cls : Nat) (name : Str)
  /-- a `MorphAttribute` or `CustomAttribute` (`yargy/interpretation/attribute.py:82-191`): the attribute
  and `normalizer` -/
  | normAttr (cls : Nat) (name : Str) (n : Normalizer)
  | normalizer (n : Normalizer)
  | str (s : Str)
  | int (n : Int)
  | bool (b : Bool)
  | none
  | other

/-- `is_predicate` (`yargy/predicates/constructors.py:46-47`). -/
def Arg.isPred : Arg → Bool
  | .pred _ => true
  | _ => false

/-- `is_relation` (`yargy/relations/constructors.py:26-27`). -/
def Arg.isRelation : Arg → Bool
  | .relation _ => true
  | _ => false

/-- `is_rule` (`yargy/rule/constructors.py:142-143`). -/
def Arg.isRule : Arg → Bool
  | .rule _ => true
  | _ => false

/-- `bool(item)` as far as it matters to `repeatable`. -/
def Arg.truthy : Arg → Bool
  | .str s => !s.isEmpty
  | .int n => n != 0
  | .bool b => b
  | .none => false
  | _ => true

/-- The number an argument is when compared with `<` (`True` is 1); `none` where the comparison with a
number raises `TypeError`. -/
def Arg.number : Arg → Option Int
  | .int n => some n
  | .bool b => some (if b then 1 else 0)
  | _ => Option.none

/-- `eq(item)` (`yargy/api.py:40-44`, `yargy/predicates/bank.py:160-171`). What is no string equals no
token: `in_([])` has the same answers. -/
def eqOf : Arg → Pred
  | .str s => .eq s
  | _ => .in_ []

/-- `prepare_production_item` (`yargy/api.py:40-44`): the term, and whether it is marked by `main`. -/
def prepareItem : Arg → Term Pred × Bool
  | .rule a => (.rule a, false)
  | .pred p => (.pred p, false)
  | .main t => (t, true)
  | x => (.pred (eqOf x), false)

/-- `prepare_terms` (`yargy/rule/constructors.py:12-25`): the loop, from the position `index`. -/
def prepareTerms : Nat → Option Nat → List (Term Pred × Bool) → Except Err (List (Term Pred) × Nat)
  | _, main, [] => .ok ([], main.getD 0)
  | index, main, (t, marked) :: rest =>
    if marked then
      match main with
      | some _ => .error .valueError
      | none => (prepareTerms (index + 1) (some index) rest).map (fun x => (t :: x.1, x.2))
    else (prepareTerms (index + 1) main rest).map (fun x => (t :: x.1, x.2))

/-- A new rule object. -/
def World.make (w : World) (o : Obj Pred) : Nat × World :=
  (w.heap.length, { w with heap := w.heap ++ [o] })

/-- `rule(*items)` (`yargy/api.py:47-49`): a production and a rule around it. -/
def apiRule (items : List Arg) (w : World) : Except Err (Nat × World) :=
  match prepareTerms 0 none (items.map prepareItem) with
  | .error e => .error e
  | .ok (ts, m) =>
    let (p, w1) := w.make (.prod ts m)
    .ok (w1.make (.rule [p]))

/-- The predicates of a list of arguments. -/
def argPreds (items : List Arg) : List Pred :=
  items.filterMap (fun x => match x with | .pred p => some p | _ => Option.none)

/-- The rules of a list of arguments. -/
def argRules (items : List Arg) : List Nat :=
  items.filterMap (fun x => match x with | .rule a => some a | _ => Option.none)

/-- The relations of a list of arguments. -/
def argRelations (w : World) (items : List Arg) : List Relation :=
  items.filterMap (fun x => match x with | .relation r => w.rels[r]? | _ => Option.none)

/-- A new relation object. -/
def World.relate (w : World) (r : Relation) : Arg × World :=
  (.relation w.rels.length, { w with rels := w.rels ++ [r] })

/-- `and_(*items)` (`yargy/api.py:56-63`). -/
def apiAnd (items : List Arg) (w : World) : Except Err (Arg × World) :=
  if items.all Arg.isPred then .ok (.pred (.and_ (argPreds items)), w)
  else if items.all Arg.isRelation then .ok (w.relate (.and (argRelations w items)))
  else .error .typeError

/-- `or_(*items)` (`yargy/api.py:66-75`). -/
def apiOr (items : List Arg) (w : World) : Except Err (Arg × World) :=
  if items.all Arg.isPred then .ok (.pred (.or_ (argPreds items)), w)
  else if items.all Arg.isRelation then .ok (w.relate (.or (argRelations w items)))
  else if items.all Arg.isRule then
    let (a, w1) := w.make (.or (argRules items))
    .ok (.rule a, w1)
  else .error .typeError

/-- `not_(item)` (`yargy/api.py:78-83`). -/
def apiNot (item : Arg) (w : World) : Except Err (Arg × World) :=
  match item with
  | .pred p => .ok (.pred (.not_ p), w)
  | .relation r =>
    match w.rels[r]? with
    | some x => .ok (w.relate (.not x))
    | none => .error .typeError
  | _ => .error .typeError

/-- `main(item)` (`yargy/relations/constructors.py:9-14`). -/
def apiMain (item : Arg) (w : World) : Except Err (Arg × World) :=
  match item with
  | .rule a => .ok (.main (.rule a), w)
  | .pred p => .ok (.main (.pred p), w)
  | _ => .error .typeError

/-- The rule on which a method of `Rule` works: the item itself, or `rule(item)` for a predicate
(`yargy/predicates/constructors.py:13-36`). Nothing else has these methods. -/
def receiver (item : Arg) (w : World) : Except Err (Nat × World) :=
  match item with
  | .rule a => .ok (a, w)
  | .pred p => apiRule [.pred p] w
  | _ => .error .attributeError

/-- `assert_type(reverse, bool)` (`yargy/rule/constructors.py:187-193`). -/
def asBool : Arg → Except Err Bool
  | .bool b => .ok b
  | _ => .error .typeError

/-- `assert_greater_equals(value, least)` (`yargy/check.py:29-34`) of a bound, which is then a number
from 1. -/
def asBound (value : Arg) (least : Nat) : Except Err Nat :=
  match value.number with
  | none => .error .typeError
  | some n => if n < least then .error .valueError else .ok n.toNat

/-- A wrapper around a rule. -/
def World.wrapped (w : World) (o : Obj Pred) : Arg × World :=
  let (a, w1) := w.make o
  (.rule a, w1)

/-- `item.optional(…)` (`yargy/rule/constructors.py:71-72,187-197`,
`yargy/predicates/constructors.py:13-15`): the method of a predicate takes no argument. -/
def apiOptional (item : Arg) (reverse : Option Arg) (w : World) : Except Err (Arg × World) :=
  match item, reverse with
  | .pred _, some _ => .error .typeError
  | _, _ => do
    let (r, w1) ← receiver item w
    let v ← asBool (reverse.getD (.bool false))
    return w1.wrapped (.optional r v)

/-- `item.repeatable(min, max, reverse)` (`yargy/rule/constructors.py:74-82,187-243`,
`yargy/predicates/constructors.py:17-19`). -/
def apiRepeatable (item min max reverse : Arg) (w : World) : Except Err (Arg × World) := do
  let (r, w1) ← receiver item w
  let v ← asBool reverse
  if min.truthy && max.truthy then do
    let lo ← asBound min 1
    let _ ← asBound max 1
    let hi ← asBound max lo
    return w1.wrapped (.minMaxBounded r lo hi v)
  else if min.truthy then do
    let lo ← asBound min 1
    return w1.wrapped (.minBounded r lo v)
  else if max.truthy then do
    let hi ← asBound max 1
    return w1.wrapped (.maxBounded r hi v)
  else return w1.wrapped (.repeatable r v)

/-- `item.named(name)` (`yargy/rule/constructors.py:84-85,246-252`,
`yargy/predicates/constructors.py:21-23`). -/
def apiNamed (item name : Arg) (w : World) : Except Err (Arg × World) := do
  let (r, w1) ← receiver item w
  match name with
  | .str s => return w1.wrapped (.named r s)
  | _ => throw .typeError

/-- `item.match(relation)` (`yargy/rule/constructors.py:92-93,266-274`,
`yargy/predicates/constructors.py:31-33`). -/
def apiMatch (item relation : Arg) (w : World) : Except Err (Arg × World) := do
  let (r, w1) ← receiver item w
  match relation with
  | .relation x => return w1.wrapped (.relation r x)
  | _ => throw .typeError

/-- `prepare_token_interpretator`, `prepare_attribute_interpretator`
(`yargy/interpretation/interpretator.py:232-248`). -/
def tokenInterpretator : Arg → Except Err Interpretator
  | .attr cls name => .ok (.attr cls name)
  | .repeatableAttr cls name => .ok (.attr cls name)
  | .normAttr cls name n => .ok (.attrNorm cls name n)
  | .normalizer n => .ok (.norm n)
  | _ => .error .typeError

/-- A new interpretator object. -/
def World.interpret (w : World) (i : Interpretator) : Nat × World :=
  (w.its.length, { w with its := w.its ++ [i] })

/-- `prepare_rule_interpretator` (`yargy/interpretation/interpretator.py:251-261`). -/
def ruleInterpretator (item : Arg) (w : World) : Except Err (Nat × World) :=
  match item with
  | .interpretator i => .ok (i, w)
  | .fact cls => .ok (w.interpret (.fact cls))
  | x => (tokenInterpretator x).map w.interpret

/-- `item.interpretation(target)` (`yargy/rule/constructors.py:87-90,255-263`,
`yargy/predicates/constructors.py:25-29`): on a predicate neither facts nor interpretators are allowed. -/
def apiInterpretation (item target : Arg) (w : World) : Except Err (Arg × World) :=
  match item with
  | .rule a => do
    let (i, w1) ← ruleInterpretator target w
    return w1.wrapped (.interp a i)
  | .pred p => do
    let x ← tokenInterpretator target
    let (i, w1) := w.interpret x
    let (r, w2) ← apiRule [.pred p] w1
    return w2.wrapped (.interp r i)
  | _ => .error .attributeError

/-- The rule inside a wrapper (`yargy/rule/constructors.py:172-274`). -/
def wrappedRule : Obj Pred → Option Nat
  | .optional r _ | .repeatable r _ | .repOptional r _ _ | .minBounded r _ _ | .maxBounded r _ _
  | .minMaxBounded r _ _ _ | .named r _ | .interp r _ | .relation r _ => some r
  | _ => none

/-- The forward rule on which `define` works: the rule itself, or the one inside wrappers
(`yargy/rule/constructors.py:179-180,283`). Other rules have no such method. -/
def forwardOf (h : Heap Pred) : Nat → Nat → Except Err Nat
  | 0, _ => .error .recursionError
  | n + 1, a =>
    match h[a]? with
    | some (.forward _) => .ok a
    | some o =>
      match wrappedRule o with
      | some r => forwardOf h n r
      | none => .error .attributeError
    | none => .error .attributeError

/-- `item.define(*items)` (`yargy/rule/constructors.py:283-292`): the result is the forward rule, whatever
is around it. -/
def apiDefine (item : Arg) (items : List Arg) (w : World) : Except Err (Arg × World) :=
  match item with
  | .rule a => do
    let f ← forwardOf w.heap (w.heap.length + 1) a
    match items with
    | [] => throw .typeError
    | [.rule r] => do
      let h ← defineForward f r w.heap
      return (.rule f, { w with heap := h })
    | items => do
      let (r, w1) ← apiRule items w
      let h ← defineForward f r w1.heap
      return (.rule f, { w1 with heap := h })
  | _ => .error .attributeError

/-- The lines of a gazetteer, all of which must be strings (`yargy/pipelines.py:139-143`). -/
def asLines : List Arg → Except Err (List Str)
  | [] => .ok []
  | .str s :: rest => (asLines rest).map (fun l => s :: l)
  | _ :: _ => .error .typeError

/-- `pipeline(lines)`, `caseless_pipeline(lines)`, `morph_pipeline(lines)`
(`yargy/pipelines.py:175-187`). -/
def apiPipeline (kind : PipeKind) (lines : List Arg) (w : World) : Except Err (Arg × World) :=
  (asLines lines).map (fun l => w.wrapped (.pipe (.scheme kind l)))

/-- `normalizer.custom(function)` (`yargy/interpretation/normalizer.py:22-23,41-42,83-87`) and the same
of an attribute with a normalizer (`yargy/interpretation/attribute.py:93-94,107-108,138-143`); the others
have no such method. -/
def Normalizer.custom (n : Normalizer) (f : Val → Except Err Val) : Except Err Normalizer :=
  match n with
  | .morph m => .ok (.morphFn m f)
  | .fn g => .ok (.fnfn g f)
  | _ => .error .attributeError

/-- `item.inflected(grams)`, `item.normalized()` (`yargy/interpretation/attribute.py:65-69`): methods of
plain attributes. -/
def apiMorph (item : Arg) (m : Morphing) (w : World) : Except Err (Arg × World) :=
  match item with
  | .attr cls name => .ok (.normAttr cls name (.morph m), w)
  | _ => .error .attributeError

/-- `item.const(value)` (`yargy/interpretation/attribute.py:71-72`). -/
def apiConst (item : Arg) (v : Val) (w : World) : Except Err (Arg × World) :=
  match item with
  | .attr cls name => .ok (.normAttr cls name (.const v), w)
  | _ => .error .attributeError

/-- `item.custom(function)` (`yargy/interpretation/attribute.py:74-75,93-94,107-108,138-143`,
`yargy/interpretation/normalizer.py:22-23,41-42,83-87`). -/
def apiCustom (item : Arg) (f : Val → Except Err Val) (w : World) : Except Err (Arg × World) :=
  match item with
  | .attr cls name => .ok (.normAttr cls name (.fn f), w)
  | .normAttr cls name n => (n.custom f).map (fun n' => (.normAttr cls name n', w))
  | .normalizer n => (n.custom f).map (fun n' => (.normalizer n', w))
  | _ => .error .attributeError

/-- The calls. -/
inductive Call where
  /-- `gender_relation()`, … (`yargy/relations/bank.py`), or an object of another class of relations -/
  | agreement (r : Relation)
  /-- an object of one of the classes in `yargy/interpretation/interpretator.py:131-229` -/
  | interpretator (i : Interpretator)
  | rule (items : List Arg)
  | empty
  | forward
  | and_ (items : List Arg)
  | or_ (items : List Arg)
  | not_ (item : Arg)
  | main (item : Arg)
  | optional (item : Arg) (reverse : Option Arg)
  | repeatable (item min max reverse : Arg)
  | named (item name : Arg)
  | interpretation (item target : Arg)
  | match_ (item relation : Arg)
  | define (item : Arg) (items : List Arg)
  | pipeline (kind : PipeKind) (lines : List Arg)
  | morph (item : Arg) (m : Morphing)
  | const (item : Arg) (v : Val)
  | custom (item : Arg) (f : Val → Except Err Val)

/-- What a call does. -/
def Call.apply : Call → World → Except Err (Arg × World)
  | .agreement r, w => .ok (w.relate r)
  | .interpretator i, w => .ok (.interpretator w.its.length, (w.interpret i).2)
  | .rule items, w => (apiRule items w).map (fun x => (.rule x.1, x.2))
  | .empty, w => .ok (w.wrapped .empty)
  | .forward, w => .ok (w.wrapped (.forward none))
  | .and_ items, w => apiAnd items w
  | .or_ items, w => apiOr items w
  | .not_ item, w => apiNot item w
  | .main item, w => apiMain item w
  | .optional item reverse, w => apiOptional item reverse w
  | .repeatable item min max reverse, w => apiRepeatable item min max reverse w
  | .named item name, w => apiNamed item name w
  | .interpretation item target, w => apiInterpretation item target w
  | .match_ item relation, w => apiMatch item relation w
  | .define item items, w => apiDefine item items w
  | .pipeline kind lines, w => apiPipeline kind lines w
  | .morph item m, w => apiMorph item m w
  | .const item v, w => apiConst item v w
  | .custom item f, w => apiCustom item f w

end Yargy
