import Verif.Model.Heap
import Verif.Model.Tree
/-!
`Parser.__init__` (`yargy/parser.py:240-255`): from rule objects to the grammar of the chart parser.
-/
namespace Yargy

/-- `scheme.get_key(line, tokenizer)` (`yargy/pipelines.py:145-149,167-172`) with the predicates of
the key (`yargy/pipelines.py:97,111,124,129`); `split` is `tokenizer.split`. The attribute `morph` of
the tokenizer is only looked at when there is a word. -/
def pipeKey (L : Lang) (c : Context) (split : Str → List Str) : PipeKind → Str → Except Err (List Pred)
  | .morph, line => (split line).mapM (fun w => c.getMorph.map (fun m => .dict (m.normalized w)))
  | .exact, line => .ok ((split line).map .eq)
  | .caseless, line => .ok ((split line).map (mkCaseless L))

/-- `Context(tokenizer, tagger)` (`yargy/parser.py:232-237,252`) as rules see it. -/
def Context.activation (L : Lang) (c : Context) (split : Str → List Str) : Activation Pred where
  activate := Pred.activate c
  key := pipeKey L c split

/-- A production object as the chart parser sees it. Its identity is its address. -/
def productionAt (h : Heap Pred) (p : Nat) : Production Pred :=
  match h[p]? with
  | some (.prod ts m) => { id := p, terms := ts, main := m }
  | some (.pipeProd v ts) => { id := p, terms := ts.map .pred, key := some v }
  | _ => { id := p, terms := [] }

/-- A compiled rule as the chart parser sees it: `BNFRule` (`yargy/rule/bnf.py:45-59`) or one of the
pipeline rules (`yargy/pipelines.py:16-75`). Other objects are not asked for productions. -/
def chartRuleOf (L : Lang) (setOrder : List Str → List Str) (h : Heap Pred) :
    Obj Pred → Except Err (ChartRule Pred Token)
  | .bnf ps _ _ _ none => .ok (ordinaryRule (ps.map (productionAt h)))
  | .bnf ps _ _ _ (some kind) => pipeRule L setOrder kind (ps.map (productionAt h))
  | _ => .ok (ordinaryRule [])

/-- `is_rule` (`yargy/rule/bnf.py:81-82`). -/
def isBnf (h : Heap Pred) (a : Nat) : Bool :=
  match h[a]? with
  | some (.bnf _ _ _ _ _) => true
  | _ => false

def isProduction (h : Heap Pred) (a : Nat) : Bool :=
  match h[a]? with
  | some (.prod _ _) => true
  | some .emptyProd => true
  | some (.pipeProd _ _) => true
  | _ => false

/-- The rules among the terms are compiled rules. -/
def termsProper (h : Heap Pred) : List (Term Pred) → Bool
  | [] => true
  | .pred _ :: ts => termsProper h ts
  | .rule r :: ts => isBnf h r && termsProper h ts

/-- What the chart parser expects of an object. -/
def properAt (h : Heap Pred) (a : Nat) : Bool :=
  match h[a]? with
  | some (.bnf ps _ _ _ _) => ps.all (isProduction h)
  | some (.prod ts _) => termsProper h ts
  | _ => true

/-- What the chart parser expects of the whole grammar. -/
def proper (start : Nat) (h : Heap Pred) : Bool :=
  isBnf h start && (walk id h start).all (properAt h)

/-- The grammar the chart parser works with. Where it meets a rule that is not compiled, Python raises
`TypeError` or `AttributeError` while parsing; here the check is made beforehand. -/
def toGrammar (L : Lang) (setOrder : List Str → List Str) (start : Nat) (h : Heap Pred) :
    Except Err (Grammar Pred Token) :=
  if proper start h then (h.mapM (chartRuleOf L setOrder h)).map (predGrammar L · start)
  else .error .typeError

/-- `rule.relation` (`yargy/rule/bnf.py:52,142-148`). -/
def relationAt {P : Type} (h : Heap P) (a : Nat) : Option Nat :=
  match h[a]? with
  | some (.bnf _ _ _ r _) => r
  | _ => none

/-- `rule.name` (`yargy/rule/bnf.py:50,124-131`). -/
def nameAt {P : Type} (h : Heap P) (a : Nat) : Option Str :=
  match h[a]? with
  | some (.bnf _ n _ _ _) => n
  | _ => none

/-- `rule.interpretator` (`yargy/rule/bnf.py:51,134-140`). -/
def interpretatorAt {P : Type} (h : Heap P) (a : Nat) : Option Nat :=
  match h[a]? with
  | some (.bnf _ _ i _ _) => i
  | _ => none

/-- A parser: its grammar and the relations its rules carry. -/
structure Built where
  grammar : Grammar Pred Token
  agreement : Agreement

/-- `Parser.__init__` (`yargy/parser.py:240-255`): the parser, and the rule objects afterwards.
`relation` tells the relations that the objects refer to. -/
def buildParser (L : Lang) (setOrder : List Str → List Str) (c : Context) (split : Str → List Str)
    (relation : Nat → Relation) (pid : Nat → Nat) (limit root : Nat) (h : Heap Pred) :
    Except Err (Built × Heap Pred) := do
  let (start, h') ← compileRule (c.activation L split) pid limit root h
  let g ← toGrammar L setOrder start h'
  return (⟨g, ⟨relationAt h', relation⟩⟩, h')

end Yargy
