import Verif.Model.Pipeline
/-!
Rules as Python objects: `yargy/rule/constructors.py`, `yargy/rule/transformators.py`,
`yargy/rule/bnf.py`.

Rule objects refer to each other, are shared, form cycles through `forward()`, and are changed in
place; so they live in a heap. A heap is a list of objects, the address of an object is its position,
new objects are added at the end. Objects are never removed from the list; that Python frees
unreachable objects and gives their addresses to new ones is expressed by the parameter `pid`, the
value of `id(…)` for every object: dictionaries keyed by `id(…)` are looked up through it.

Predicates are values of a type `P`; interpretators and relations are numbers (they are only passed
around here).
-/
namespace Yargy

variable {P : Type}

/-- The pipeline inside a `PipelineRule`: a scheme with its lines (`yargy/pipelines.py:133-155`), or the
activated pipeline with its keys (`yargy/pipelines.py:94-130`). The predicates of a key are made on
activation here, in Python when the productions are made (`yargy/pipelines.py:106-112`). -/
inductive Pipe (P : Type) where
  | scheme (kind : PipeKind) (lines : List Str)
  | keys (kind : PipeKind) (keys : List (Str × List P))

/-- The objects of a rule graph. -/
inductive Obj (P : Type) where
  /-- `Production` (`yargy/rule/constructors.py:28-47`) -/
  | prod (terms : List (Term P)) (main : Nat)
  /-- `EmptyProduction` (`yargy/rule/constructors.py:50-55`) -/
  | emptyProd
  /-- `PipelineProduction` (`yargy/pipelines.py:86-91`) -/
  | pipeProd (value : Str) (terms : List P)
  /-- `Rule` itself (`yargy/rule/constructors.py:58-69`) -/
  | rule (productions : List Nat)
  /-- `OrRule` (`yargy/rule/constructors.py:158-169`) -/
  | or (rules : List Nat)
  /-- `OptionalRule` (`yargy/rule/constructors.py:196-197`) -/
  | optional (rule : Nat) (reverse : Bool)
  /-- `RepeatableRule` (`yargy/rule/constructors.py:200-201`) -/
  | repeatable (rule : Nat) (reverse : Bool)
  /-- `RepeatableOptionalRule` (`yargy/rule/constructors.py:204-212`) -/
  | repOptional (rule : Nat) (reverseRepeatable reverseOptional : Bool)
  /-- `MinBoundedRule` (`yargy/rule/constructors.py:219-225`) -/
  | minBounded (rule : Nat) (min : Nat) (reverse : Bool)
  /-- `MaxBoundedRule` (`yargy/rule/constructors.py:228-234`) -/
  | maxBounded (rule : Nat) (max : Nat) (reverse : Bool)
  /-- `MinMaxBoundedRule` (`yargy/rule/constructors.py:237-243`) -/
  | minMaxBounded (rule : Nat) (min max : Nat) (reverse : Bool)
  /-- `NamedRule` (`yargy/rule/constructors.py:246-252`) -/
  | named (rule : Nat) (name : Str)
  /-- `InterpretationRule` (`yargy/rule/constructors.py:255-263`) -/
  | interp (rule : Nat) (interpretator : Nat)
  /-- `RelationRule` (`yargy/rule/constructors.py:266-274`) -/
  | relation (rule : Nat) (relation : Nat)
  /-- `ForwardRule` (`yargy/rule/constructors.py:277-307`) -/
  | forward (rule : Option Nat)
  /-- `EmptyRule` (`yargy/rule/constructors.py:314-320`) -/
  | empty
  /-- `PipelineRule` (`yargy/rule/constructors.py:323-329`) -/
  | pipe (pipeline : Pipe P)
  /-- `BNFRule` (`yargy/rule/bnf.py:45-52`), and the pipeline rules below it
  (`yargy/pipelines.py:16-75`) when `kind` is given -/
  | bnf (productions : List Nat) (name : Option Str) (interpretator relation : Option Nat)
      (kind : Option PipeKind)

abbrev Heap (P : Type) := List (Obj P)

/-- The rules among the terms of a production. -/
def termRules : List (Term P) → List Nat
  | [] => []
  | .pred _ :: ts => termRules ts
  | .rule r :: ts => r :: termRules ts

/-- `item.children` (`yargy/rule/constructors.py:36-38,67-69,167-169,182-184,294-297,317,326`); the
predicates among them, which have no rules below, are left out. -/
def Obj.children : Obj P → List Nat
  | .prod ts _ => termRules ts
  | .emptyProd => []
  | .pipeProd _ _ => []
  | .rule ps => ps
  | .or rs => rs
  | .optional r _ => [r]
  | .repeatable r _ => [r]
  | .repOptional r _ _ => [r]
  | .minBounded r _ _ => [r]
  | .maxBounded r _ _ => [r]
  | .minMaxBounded r _ _ _ => [r]
  | .named r _ => [r]
  | .interp r _ => [r]
  | .relation r _ => [r]
  | .forward r => r.toList
  | .empty => []
  | .pipe _ => []
  | .bnf ps _ _ _ _ => ps

/-- The children of the object at an address. -/
def childrenAt (h : Heap P) (a : Nat) : List Nat :=
  match h[a]? with
  | some o => o.children
  | none => []

/-- The queue and the set `visited` of `bfs_rule` after the children of an item were looked at
(`yargy/rule/constructors.py:152-155`). -/
def enqueue (pid : Nat → Nat) : List Nat → List Nat → List Nat → List Nat × List Nat
  | [], queue, seen => (queue, seen)
  | c :: cs, queue, seen =>
    if pid c ∈ seen then enqueue pid cs queue seen
    else enqueue pid cs (queue ++ [c]) (pid c :: seen)

/-- `bfs_rule` (`yargy/rule/constructors.py:146-155`) on a heap that does not change, cut off after a
number of items. -/
def walkFrom (pid : Nat → Nat) (h : Heap P) : Nat → List Nat → List Nat → List Nat
  | 0, _, _ => []
  | _ + 1, [], _ => []
  | n + 1, a :: queue, seen =>
    let (queue', seen') := enqueue pid (childrenAt h a) queue seen
    a :: walkFrom pid h n queue' seen'

/-- `root.walk()` (`yargy/rule/constructors.py:135-139`). No item comes twice, so as many steps as
there are objects (and one for the root) are enough. -/
def walk (pid : Nat → Nat) (h : Heap P) (root : Nat) : List Nat :=
  walkFrom pid h (h.length + 1) [root] [pid root]

/-! ### Transformators -/

/-- What a `RuleTransformator` works on: the heap and its dictionary `visited`
(`yargy/rule/transformators.py:59-60`), the latest entry first. -/
structure St (P : Type) where
  heap : Heap P
  memo : List (Nat × Nat) := []

/-- A new object. -/
def St.alloc (s : St P) (o : Obj P) : Nat × St P :=
  (s.heap.length, { s with heap := s.heap ++ [o] })

/-- `self.visited.get(id(item))`. -/
def St.lookup (pid : Nat → Nat) (s : St P) (a : Nat) : Option Nat :=
  (s.memo.find? (fun e => decide (pid e.1 = pid a))).map Prod.snd

/-- A visit: the address of the result and the new state. -/
abbrev Visit (P : Type) := Nat → St P → Except Err (Nat × St P)

/-- The methods `visit_…` of a transformator: the number of nested calls still allowed, `self.visit`,
the item and its contents. -/
abbrev Method (P : Type) := Nat → Visit P → Nat → Obj P → St P → Except Err (Nat × St P)

/-- `RuleTransformator.visit` (`yargy/rule/transformators.py:68-75`). The recursion is cut off where
Python raises `RecursionError` (one level here stands for several Python frames). -/
def visit (m : Method P) (pid : Nat → Nat) : Nat → Visit P
  | 0, _, _ => .error .recursionError
  | n + 1, a, s =>
    match s.lookup pid a with
    | some b => .ok (b, s)
    | none =>
      match s.heap[a]? with
      | none => .error .attributeError
      | some o =>
        match m n (visit m pid n) a o s with
        | .error e => .error e
        | .ok (b, s') => .ok (b, { s' with memo := (a, b) :: s'.memo })

/-- `[f(_) for _ in items]`, from left to right. -/
def mapSt {α β : Type} (f : α → St P → Except Err (β × St P)) :
    List α → St P → Except Err (List β × St P)
  | [], s => .ok ([], s)
  | x :: xs, s =>
    match f x s with
    | .error e => .error e
    | .ok (y, s1) =>
      match mapSt f xs s1 with
      | .error e => .error e
      | .ok (ys, s2) => .ok (y :: ys, s2)

/-- `RuleTransformator.visit_term` (`yargy/rule/transformators.py:77-81`). -/
def visitTerm (rec : Visit P) : Term P → St P → Except Err (Term P × St P)
  | .pred p, s => .ok (.pred p, s)
  | .rule r, s => (rec r s).map (fun x => (.rule x.1, x.2))

/-- Visits one rule and makes a new object from the result. -/
def rebuild (rec : Visit P) (r : Nat) (mk : Nat → Obj P) (s : St P) : Except Err (Nat × St P) :=
  (rec r s).map (fun x => x.2.alloc (mk x.1))

/-- Visits several items and makes a new object from the results. -/
def rebuildAll {α β : Type} (f : α → St P → Except Err (β × St P)) (xs : List α)
    (mk : List β → Obj P) (s : St P) : Except Err (Nat × St P) :=
  (mapSt f xs s).map (fun x => x.2.alloc (mk x.1))

/-- The methods of `RuleTransformator` (`yargy/rule/transformators.py:83-142`). Those for
`OptionalRule`, `RepeatableRule` and `RepeatableOptionalRule` call `self.visit` with too many
arguments (`yargy/rule/transformators.py:101-112`); a `BNFRule` is treated by `visit_Rule`. -/
def defaultMethod : Method P := fun _ rec a o s =>
  match o with
  | .prod ts m => rebuildAll (visitTerm rec) ts (.prod · m) s
  | .emptyProd => .ok (a, s)
  | .pipeProd _ _ => .ok (a, s)
  | .rule ps => rebuildAll rec ps .rule s
  | .or rs => rebuildAll rec rs .or s
  | .optional _ _ => .error .typeError
  | .repeatable _ _ => .error .typeError
  | .repOptional _ _ _ => .error .typeError
  | .minBounded r min rev => rebuild rec r (.minBounded · min rev) s
  | .maxBounded r max rev => rebuild rec r (.maxBounded · max rev) s
  | .minMaxBounded r min max rev => rebuild rec r (.minMaxBounded · min max rev) s
  | .named r n => rebuild rec r (.named · n) s
  | .interp r i => rebuild rec r (.interp · i) s
  | .relation r x => rebuild rec r (.relation · x) s
  | .forward _ => .ok (a, s)
  | .empty => .ok (a, s)
  | .pipe _ => .ok (a, s)
  | .bnf ps _ _ _ _ => rebuildAll rec ps .rule s

/-- `forward.define(item)` (`yargy/rule/constructors.py:283-292`) for a rule `item`. -/
def defineForward (f b : Nat) (h : Heap P) : Except Err (Heap P) :=
  match h[b]? with
  | some (.forward _) => .error .valueError
  | _ => .ok (h.set f (.forward (some b)))

/-- The loop of `RuleTransformator.__call__` (`yargy/rule/transformators.py:62-65`): a breadth-first
walk during which the contents of every forward rule are replaced; the children of an item are read
after it was dealt with. `limit` bounds the recursion of `visit`; the first number bounds the length of
the walk, and running out of it is reported like running out of the other. -/
def redefine (m : Method P) (pid : Nat → Nat) (limit : Nat) :
    Nat → List Nat → List Nat → St P → Except Err (St P)
  | 0, _, _, _ => .error .recursionError
  | _ + 1, [], _, s => .ok s
  | n + 1, a :: queue, seen, s =>
    match s.heap[a]? with
    | some (.forward (some r)) =>
      match visit m pid limit r s with
      | .error e => .error e
      | .ok (b, s1) =>
        match defineForward a b s1.heap with
        | .error e => .error e
        | .ok h =>
          let (queue', seen') := enqueue pid (childrenAt h a) queue seen
          redefine m pid limit n queue' seen' { s1 with heap := h }
    | _ =>
      let (queue', seen') := enqueue pid (childrenAt s.heap a) queue seen
      redefine m pid limit n queue' seen' s

/-- `RuleTransformator.__call__` (`yargy/rule/transformators.py:62-66`) of a new transformator. -/
def transform (m : Method P) (pid : Nat → Nat) (limit : Nat) (root : Nat) (h : Heap P) :
    Except Err (Nat × Heap P) :=
  match redefine m pid limit limit [root] [pid root] { heap := h } with
  | .error e => .error e
  | .ok s => (visit m pid limit root s).map (fun x => (x.1, x.2.heap))

/-! ### Squashing -/

/-- `self.visit(New(…))` -/
def visitNew (rec : Visit P) (o : Obj P) (s : St P) : Except Err (Nat × St P) :=
  let (t, s1) := s.alloc o
  rec t s1

/-- The three methods for bounded rules of `SquashExtendedTransformator`
(`yargy/rule/transformators.py:217-272`): `mk` makes the same bounded rule around another one. The
attribute `reverse` is missing in a `RepeatableOptionalRule`. -/
def squashBounded (rec : Visit P) (child : Nat) (mk : Nat → Obj P) (s : St P) :
    Except Err (Nat × St P) :=
  match s.heap[child]? with
  | some (.repeatable g rev) => visitNew rec (.repeatable g rev) s
  | some (.repOptional _ _ _) => .error .attributeError
  | some (.optional g rev) =>
    let (t, s1) := s.alloc (mk g)
    visitNew rec (.optional t rev) s1
  | _ => rebuild rec child mk s

/-- `SquashExtendedTransformator` (`yargy/rule/transformators.py:161-272`). A
`RepeatableOptionalRule` is a `RepeatableRule` and an `OptionalRule` as well. -/
def squashMethod : Method P := fun n rec a o s =>
  match o with
  | .repeatable child rev =>
    match s.heap[child]? with
    | some (.optional g rev') => visitNew rec (.repOptional g rev rev') s
    | some (.repOptional _ _ _) => .error .attributeError
    | some (.repeatable g _) => visitNew rec (.repeatable g rev) s
    | some (.minBounded g _ _) => visitNew rec (.repeatable g rev) s
    | some (.maxBounded g _ _) => visitNew rec (.repeatable g rev) s
    | some (.minMaxBounded g _ _ _) => visitNew rec (.repeatable g rev) s
    | _ => rebuild rec child (.repeatable · rev) s
  | .optional child rev =>
    match s.heap[child]? with
    | some (.repeatable g rev') => visitNew rec (.repOptional g rev' rev) s
    | some (.repOptional _ _ _) => .error .attributeError
    | some (.optional g _) => visitNew rec (.optional g rev) s
    | _ => rebuild rec child (.optional · rev) s
  | .repOptional child rr ro =>
    match s.heap[child]? with
    | some (.repeatable g _) => visitNew rec (.repOptional g rr ro) s
    | some (.repOptional g _ _) => visitNew rec (.repOptional g rr ro) s
    | some (.optional g _) => visitNew rec (.repOptional g rr ro) s
    | some (.minBounded g _ _) => visitNew rec (.repOptional g rr ro) s
    | some (.maxBounded g _ _) => visitNew rec (.repOptional g rr ro) s
    | some (.minMaxBounded g _ _ _) => visitNew rec (.repOptional g rr ro) s
    | _ => rebuild rec child (.repOptional · rr ro) s
  | .minBounded child min rev => squashBounded rec child (.minBounded · min rev) s
  | .maxBounded child max rev => squashBounded rec child (.maxBounded · max rev) s
  | .minMaxBounded child min max rev => squashBounded rec child (.minMaxBounded · min max rev) s
  | _ => defaultMethod n rec a o s

/-! ### Replacing quantifiers -/

/-- `rule(*items)` for rules (`yargy/api.py:47-49`). -/
def St.rule (s : St P) (items : List Nat) : Nat × St P :=
  let (p, s1) := s.alloc (.prod (items.map .rule) 0)
  s1.alloc (.rule [p])

/-- `max_bound` (`yargy/rule/transformators.py:308-321`); counts are positive. -/
def maxBound (item : Nat) (rev : Bool) : Nat → St P → Nat × St P
  | 0, s => (item, s)
  | 1, s => (item, s)
  | n + 2, s =>
    let (inner, s1) := maxBound item rev (n + 1) s
    let (a, s2) := s1.rule [item, inner]
    s2.alloc (.or (if rev then [item, a] else [a, item]))

/-- `repeatable` (`yargy/rule/transformators.py:324-337`). The forward rule is made first and defined
last; here it is made with the address its definition will have. -/
def mkRepeatable (item : Nat) (rev : Bool) (s : St P) : Nat × St P :=
  let (temp, s1) := s.alloc (.forward (some (s.heap.length + 3)))
  let (a, s2) := s1.rule [item, temp]
  let (_, s3) := s2.alloc (.or (if rev then [item, a] else [a, item]))
  (temp, s3)

/-- `optional` (`yargy/rule/transformators.py:340-347`). -/
def mkOptional (item : Nat) (rev : Bool) (s : St P) : Nat × St P :=
  let (a, s1) := s.alloc .empty
  s1.alloc (.or (if rev then [item, a] else [a, item]))

/-- The alternatives of `repeatable_optional` (`yargy/rule/transformators.py:357-360`). -/
def repOptionalOrder (a b c : Nat) (rr ro : Bool) : List Nat :=
  let (b, c) := if rr then (c, b) else (b, c)
  if ro then [b, c, a] else [a, b, c]

/-- `repeatable_optional` (`yargy/rule/transformators.py:350-367`). -/
def mkRepOptional (item : Nat) (rr ro : Bool) (s : St P) : Nat × St P :=
  let (temp, s1) := s.alloc (.forward (some (s.heap.length + 4)))
  let (a, s2) := s1.alloc .empty
  let (b, s3) := s2.rule [item, temp]
  let (_, s4) := s3.alloc (.or (repOptionalOrder a b item rr ro))
  (temp, s4)

/-- `ReplaceExtendedTransformator` (`yargy/rule/transformators.py:374-410`). -/
def extendedMethod : Method P := fun n rec a o s =>
  match o with
  | .repeatable r rev => (rec r s).map (fun x => mkRepeatable x.1 rev x.2)
  | .optional r rev => (rec r s).map (fun x => mkOptional x.1 rev x.2)
  | .repOptional r rr ro => (rec r s).map (fun x => mkRepOptional x.1 rr ro x.2)
  | .minBounded r min rev => (rec r s).map (fun x =>
      let (t, s1) := mkRepeatable x.1 rev x.2
      s1.rule (List.replicate (min - 1) x.1 ++ [t]))
  | .maxBounded r max rev => (rec r s).map (fun x => maxBound x.1 rev max x.2)
  | .minMaxBounded r min max rev => (rec r s).map (fun x =>
      let (t, s1) := maxBound x.1 rev (max - min + 1) x.2
      s1.rule (List.replicate (min - 1) x.1 ++ [t]))
  | _ => defaultMethod n rec a o s

/-! ### Alternatives, empty rules, rules with one term -/

/-- `Production([self.visit(_)])` (`yargy/rule/transformators.py:300`). -/
def visitProd (rec : Visit P) (r : Nat) (s : St P) : Except Err (Nat × St P) :=
  rebuild rec r (fun b => .prod [.rule b] 0) s

/-- `ReplaceOrTransformator` (`yargy/rule/transformators.py:298-300`). -/
def orMethod : Method P := fun n rec a o s =>
  match o with
  | .or rs => rebuildAll (visitProd rec) rs .rule s
  | _ => defaultMethod n rec a o s

/-- `ReplaceEmptyTransformator` (`yargy/rule/transformators.py:303-305`). -/
def emptyMethod : Method P := fun n rec a o s =>
  match o with
  | .empty =>
    let (p, s1) := s.alloc .emptyProd
    .ok (s1.alloc (.rule [p]))
  | _ => defaultMethod n rec a o s

/-- `production.terms` (`yargy/rule/constructors.py:31-34,50-52`, `yargy/pipelines.py:89-91`). -/
def termsAt (h : Heap P) (p : Nat) : List (Term P) :=
  match h[p]? with
  | some (.prod ts _) => ts
  | some (.pipeProd _ ts) => ts.map .pred
  | _ => []

/-- `FlattenTransformator.visit_term` (`yargy/rule/transformators.py:276-284`). -/
def flattenTerm (rec : Visit P) : Nat → Term P → St P → Except Err (Term P × St P)
  | 0, _, _ => .error .recursionError
  | n + 1, t, s =>
    match t with
    | .pred p => .ok (.pred p, s)
    | .rule r =>
      match s.heap[r]? with
      | some (.rule [p]) =>
        match termsAt s.heap p with
        | [t'] => flattenTerm rec n t' s
        | _ => visitTerm rec (.rule r) s
      | _ => visitTerm rec (.rule r) s

/-- `FlattenTransformator` (`yargy/rule/transformators.py:275-295`). -/
def flattenMethod : Method P := fun n rec a o s =>
  match o with
  | .prod ts m =>
    match ts with
    | [.rule r] =>
      match s.heap[r]? with
      | some (.rule [p]) => rec p s
      | _ => rebuildAll (flattenTerm rec n) ts (.prod · m) s
    | _ => rebuildAll (flattenTerm rec n) ts (.prod · m) s
  | _ => defaultMethod n rec a o s

/-- The part of `Rule.normalized` after the first pass (`yargy/rule/constructors.py:105-116`). -/
def replaced (pid : Nat → Nat) (limit root : Nat) (h : Heap P) : Except Err (Nat × Heap P) := do
  let (r2, h2) ← transform extendedMethod pid limit root h
  let (r3, h3) ← transform orMethod pid limit r2 h2
  let (r4, h4) ← transform emptyMethod pid limit r3 h3
  transform flattenMethod pid limit r4 h4

/-- `Rule.normalized` (`yargy/rule/constructors.py:102-117`). -/
def normalized (pid : Nat → Nat) (limit root : Nat) (h : Heap P) : Except Err (Nat × Heap P) := do
  let (r1, h1) ← transform squashMethod pid limit root h
  replaced pid limit r1 h1

/-! ### Compiled rules -/

/-- `lift` (`yargy/rule/bnf.py:85-86`). -/
def St.lift (s : St P) (item : Nat) : Nat × St P :=
  let (p, s1) := s.alloc (.prod [.rule item] 0)
  s1.alloc (.bnf [p] none none none none)

/-- The attributes that wrappers set on a `BNFRule`. -/
inductive Attr where
  | name (n : Str)
  | interp (i : Nat)
  | relation (r : Nat)
  deriving DecidableEq

/-- Whether the attribute a wrapper is about to set is already there, as Python's truth of `item.name`,
`item.interpretator`, `item.relation` (`yargy/rule/bnf.py:128,136,144`); only compiled rules have
them. -/
def hasAttr (h : Heap P) (b : Nat) : Attr → Except Err Bool
  | x =>
    match h[b]? with
    | some (.bnf _ name i r _) =>
      match x with
      | .name _ => .ok (match name with | some (_ :: _) => true | _ => false)
      | .interp _ => .ok i.isSome
      | .relation _ => .ok r.isSome
    | _ => .error .attributeError

/-- `item.name = name` and so on (`yargy/rule/bnf.py:130,138,146`). -/
def setAttrAt (h : Heap P) (b : Nat) (x : Attr) : Heap P :=
  match h[b]? with
  | some (.bnf ps name i r kind) =>
    match x with
    | .name n => h.set b (.bnf ps (some n) i r kind)
    | .interp i' => h.set b (.bnf ps name (some i') r kind)
    | .relation r' => h.set b (.bnf ps name i (some r') kind)
  | _ => h

/-- `BNFTransformator.visit_WrapperRule` (`yargy/rule/bnf.py:115-123`); `parents` gives the counts by
`id(…)`. -/
def visitWrapped (parents : Nat → Nat) (rec : Visit P) (r : Nat) (s : St P) :
    Except Err (Nat × St P) :=
  match s.heap[r]? with
  | some (.forward _) => .ok (s.lift r)
  | _ =>
    if parents r = 0 then .error .keyError
    else (rec r s).map (fun x => if 1 < parents r then x.2.lift x.1 else x)

/-- `visit_NamedRule`, `visit_InterpretationRule`, `visit_RelationRule` of `BNFTransformator`
(`yargy/rule/bnf.py:125-147`). -/
def visitWrapper (parents : Nat → Nat) (rec : Visit P) (r : Nat) (x : Attr) (s : St P) :
    Except Err (Nat × St P) :=
  match visitWrapped parents rec r s with
  | .error e => .error e
  | .ok (b, s1) =>
    match hasAttr s1.heap b x with
    | .error e => .error e
    | .ok has =>
      let (b', s2) := if has then s1.lift b else (b, s1)
      .ok (b', { s2 with heap := setAttrAt s2.heap b' x })

/-- The productions of an activated pipeline (`yargy/pipelines.py:106-112`). -/
def allocKeys : List (Str × List P) → St P → List Nat × St P
  | [], s => ([], s)
  | (value, terms) :: rest, s =>
    let (p, s1) := s.alloc (.pipeProd value terms)
    let (ps, s2) := allocKeys rest s1
    (p :: ps, s2)

/-- `Pipeline.as_bnf` (`yargy/pipelines.py:114-116`); the first term of every key is looked at
(`yargy/pipelines.py:27,59`). A scheme has no keys (`yargy/pipelines.py:139-143`). -/
def pipeBnf (p : Pipe P) (s : St P) : Except Err (Nat × St P) :=
  match p with
  | .scheme _ _ => .error .attributeError
  | .keys kind keys =>
    if keys.any (fun k => k.2.isEmpty) then .error .indexError
    else
      let (ps, s1) := allocKeys keys s
      .ok (s1.alloc (.bnf ps none none none (some kind)))

/-- `BNFTransformator` (`yargy/rule/bnf.py:89-150`). Quantifiers, gone by now, would be treated by the
methods of `RuleTransformator`, which come first in the method resolution. -/
def bnfMethod (parents : Nat → Nat) : Method P := fun n rec a o s =>
  match o with
  | .rule ps => rebuildAll rec ps (.bnf · none none none none) s
  | .bnf ps _ _ _ _ => rebuildAll rec ps (.bnf · none none none none) s
  | .or _ => .error .typeError
  | .empty => .error .typeError
  | .named r n => visitWrapper parents rec r (.name n) s
  | .interp r i => visitWrapper parents rec r (.interp i) s
  | .relation r x => visitWrapper parents rec r (.relation x) s
  | .pipe p => pipeBnf p s
  | _ => defaultMethod n rec a o s

/-- The dictionary `parents` (`yargy/rule/bnf.py:94-99`): how often an object is a child of a walked
object. -/
def parentCount (pid : Nat → Nat) (h : Heap P) (root a : Nat) : Nat :=
  (((walk pid h root).flatMap (childrenAt h)).filter (fun c => decide (pid c = pid a))).length

/-- `BNFTransformator()(root)` (`yargy/rule/bnf.py:94-100`). -/
def toBnf (pid : Nat → Nat) (limit root : Nat) (h : Heap P) : Except Err (Nat × Heap P) :=
  transform (bnfMethod (parentCount pid h root)) pid limit root h

/-- `RemoveForwardTransformator.visit_term` (`yargy/rule/bnf.py:154-158,164-167`). -/
def removeTerm (h : Heap P) : Term P → Except Err (Term P)
  | .pred p => .ok (.pred p)
  | .rule r =>
    match h[r]? with
    | some (.forward none) => .error .typeError
    | some (.forward (some x)) => .ok (.rule x)
    | _ => .ok (.rule r)

/-- The loop of `RemoveForwardTransformator` (`yargy/rule/transformators.py:36-39`,
`yargy/rule/bnf.py:153-170`): productions are changed in place. -/
def removeForwards (pid : Nat → Nat) : Nat → List Nat → List Nat → Heap P → Except Err (Heap P)
  | 0, _, _, h => .ok h
  | _ + 1, [], _, h => .ok h
  | n + 1, a :: queue, seen, h =>
    match h[a]? with
    | some (.forward none) => .error .typeError
    | some (.prod ts m) =>
      match ts.mapM (removeTerm h) with
      | .error e => .error e
      | .ok ts' =>
        let h' := h.set a (.prod ts' m)
        let (queue', seen') := enqueue pid (childrenAt h' a) queue seen
        removeForwards pid n queue' seen' h'
    | _ =>
      let (queue', seen') := enqueue pid (childrenAt h a) queue seen
      removeForwards pid n queue' seen' h

/-- `RemoveForwardTransformator()(root)`: the rule to start from (`yargy/rule/bnf.py:164-167`) and the
heap. -/
def removeForward (pid : Nat → Nat) (root : Nat) (h : Heap P) : Except Err (Nat × Heap P) :=
  match removeForwards pid (h.length + 1) [root] [pid root] h with
  | .error e => .error e
  | .ok h' =>
    match h'[root]? with
    | some (.forward none) => .error .typeError
    | some (.forward (some x)) => .ok (x, h')
    | _ => .ok (root, h')

/-- The decimal digits of the names `R0`, `R1`, … (`yargy/rule/bnf.py:19`). -/
def genName (count : Nat) : Str := 'R' :: (toString count).toList

/-- `generate_names` (`yargy/rule/bnf.py:15-21`) over the walked rules. -/
def generateNames : List Nat → Nat → Heap P → Heap P
  | [], _, h => h
  | a :: as, count, h =>
    match h[a]? with
    | some (.bnf ps name i r kind) =>
      match name with
      | some (_ :: _) => generateNames as count h
      | _ => generateNames as (count + 1) (h.set a (.bnf ps (some (genName count)) i r kind))
    | _ => generateNames as count h

/-- `Rule.as_bnf` and `BNFRule.as_bnf` (`yargy/rule/constructors.py:124-133`,
`yargy/rule/bnf.py:54-56,24-32`): the start rule and the heap. The property is looked up on the
transformed rule; if it is not a `BNFRule` the list of rules does not start with it. -/
def asBnf (pid : Nat → Nat) (limit root : Nat) (h : Heap P) : Except Err (Nat × Heap P) := do
  let (r1, h1) ← toBnf pid limit root h
  let (r2, h2) ← removeForward pid r1 h1
  return (r2, generateNames (walk pid h2 r2) 0 h2)

/-! ### Activation -/

/-- What `Context` provides (`yargy/parser.py:232-237`): activation of predicates
(`yargy/predicates/constructors.py`), and the terms of a key (`yargy/pipelines.py:145-149,167-172`). -/
structure Activation (P : Type) where
  activate : P → Except Err P
  key : PipeKind → Str → Except Err (List P)

/-- `ActivateTransformator.visit_term` (`yargy/rule/transformators.py:150-154`). -/
def activateTerm (A : Activation P) : Term P → Except Err (Term P)
  | .pred p => (A.activate p).map .pred
  | .rule r => .ok (.rule r)

/-- `pipeline.activate(context)` (`yargy/pipelines.py:103-104,151-155`). -/
def activatePipe (A : Activation P) : Pipe P → Except Err (Pipe P)
  | .scheme kind lines =>
    (lines.mapM (fun l => (A.key kind l).map (fun ts => (l, ts)))).map (.keys kind)
  | .keys kind keys => .ok (.keys kind keys)

/-- One visit of `ActivateTransformator` (`yargy/rule/transformators.py:44-46,145-158`). -/
def activateObj (A : Activation P) : Obj P → Except Err (Obj P)
  | .prod ts m => (ts.mapM (activateTerm A)).map (.prod · m)
  | .pipe p => (activatePipe A p).map .pipe
  | o => .ok o

/-- Activates one object in place. -/
def activateAt (A : Activation P) (h : Heap P) (a : Nat) : Except Err (Heap P) :=
  match h[a]? with
  | none => .ok h
  | some o => (activateObj A o).map (fun o' => h.set a o')

/-- `ActivateTransformator(context)(root)` (`yargy/rule/transformators.py:36-39,145-158`): rules keep
their children, so the items of the walk are known beforehand; the root is visited once more. -/
def activateRule (A : Activation P) (pid : Nat → Nat) (root : Nat) (h : Heap P) :
    Except Err (Heap P) :=
  (walk pid h root ++ [root]).foldlM (activateAt A) h

/-- The part of `Parser.__init__` that compiles the rule (`yargy/parser.py:252-255`): the start rule
and the heap afterwards. -/
def compileRule (A : Activation P) (pid : Nat → Nat) (limit root : Nat) (h : Heap P) :
    Except Err (Nat × Heap P) := do
  let h1 ← activateRule A pid root h
  let (r2, h2) ← normalized pid limit root h1
  asBnf pid limit r2 h2

/-! ### Making rules -/

/-- `x and y` of `Rule.repeatable` (`yargy/rule/constructors.py:74-82`): a bound that is absent or
zero is no bound. -/
def givenBound : Option Int → Option Int
  | some 0 => none
  | x => x

/-- `Rule.repeatable(min, max, reverse)` (`yargy/rule/constructors.py:74-82`) with the checks of the
constructors (`yargy/rule/constructors.py:222-225,231-234,240-243`, `yargy/check.py:29-34`). -/
def mkRepeat (r : Nat) (min max : Option Int) (rev : Bool) : Except Err (Obj P) :=
  match givenBound min, givenBound max with
  | some a, some b =>
    if a < 1 then .error .valueError
    else if b < 1 then .error .valueError
    else if b < a then .error .valueError
    else .ok (.minMaxBounded r a.toNat b.toNat rev)
  | some a, none => if a < 1 then .error .valueError else .ok (.minBounded r a.toNat rev)
  | none, some b => if b < 1 then .error .valueError else .ok (.maxBounded r b.toNat rev)
  | none, none => .ok (.repeatable r rev)

end Yargy
