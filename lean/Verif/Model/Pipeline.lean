import Verif.Model.Predicate
/-!
Gazetteers: `yargy/pipelines.py`.
-/
namespace Yargy

/-- The three kinds of pipelines (`yargy/pipelines.py:94-130,133-172`). -/
inductive PipeKind where
  | exact
  | caseless
  | morph
  deriving DecidableEq, Repr

/-- One term of a key turned into a predicate: `get_key` (`yargy/pipelines.py:145-149,167-172`)
followed by `self.predicate(_)` (`yargy/pipelines.py:97,111,124,129`). `normalized` is
`tokenizer.morph.normalized`. -/
def pipeTerm (L : Lang) (normalized : Str → List Str) : PipeKind → Str → Pred
  | .exact, w => .eq w
  | .caseless, w => mkCaseless L w
  | .morph, w => .dict (normalized w)

/-- `Pipeline.productions` (`yargy/pipelines.py:106-112`) of the activated scheme
(`yargy/pipelines.py:151-155`); `split` is `tokenizer.split`. The production objects are numbered
from `base`. -/
def pipeProductions (L : Lang) (normalized : Str → List Str) (split : Str → List Str)
    (kind : PipeKind) : Nat → List Str → List (Production Pred)
  | _, [] => []
  | base, line :: lines =>
    { id := base, terms := (split line).map (fun w => .pred (pipeTerm L normalized kind w))
      main := 0, key := some line } :: pipeProductions L normalized split kind (base + 1) lines

/-- The dictionary `index` of a pipeline rule, as its items. -/
abbrev PipeIndex := List (Str × List (Production Pred))

/-- `index[value].append(production)` on a `defaultdict(list)` (`yargy/pipelines.py:28,61`). -/
def indexAppend : PipeIndex → Str → Production Pred → PipeIndex
  | [], v, p => [(v, [p])]
  | (v', ps) :: rest, v, p =>
    if v' = v then (v', ps ++ [p]) :: rest else (v', ps) :: indexAppend rest v p

/-- `index[value]`, nothing when the value is missing (`yargy/pipelines.py:32-34`). -/
def indexGet (index : PipeIndex) (v : Str) : List (Production Pred) :=
  match index.find? (fun e => decide (e.1 = v)) with
  | some e => e.2
  | none => []

/-- The values under which a production is filed: `term.value` of its first term
(`yargy/pipelines.py:27-28,59-61`). Only the predicates that `Pipeline.productions` makes for the
kind are considered. -/
def indexValues (kind : PipeKind) (p : Production Pred) : Except Err (List Str) :=
  match kind, p.terms with
  | _, [] => .error .indexError
  | .exact, .pred (.eq v) :: _ => .ok [v]
  | .caseless, .pred (.caseless v) :: _ => .ok [v]
  | .morph, .pred (.dict vs) :: _ => .ok vs
  | _, _ => .error .attributeError

/-- `build_index` (`yargy/pipelines.py:24-29,56-62`). -/
def buildIndex (kind : PipeKind) : PipeIndex → List (Production Pred) → Except Err PipeIndex
  | index, [] => .ok index
  | index, p :: ps =>
    match indexValues kind p with
    | .error e => .error e
    | .ok vs => buildIndex kind (vs.foldl (fun i v => indexAppend i v p) index) ps

/-- `predict` (`yargy/pipelines.py:31-34,46-50,64-75`). `setOrder` lists the elements of the Python
set built from a list, in the order in which Python iterates over it. -/
def pipePredict (L : Lang) (setOrder : List Str → List Str) (kind : PipeKind) (index : PipeIndex)
    (t : Token) : List (Production Pred) :=
  match kind with
  | .exact => indexGet index t.value
  | .caseless => indexGet index (L.lower t.value)
  | .morph =>
    match t.forms with
    | some fs => (setOrder (fs.map Form.normalized)).flatMap (indexGet index)
    | none => indexGet index (L.lower t.value)

/-- `Pipeline.as_bnf` (`yargy/pipelines.py:114-116,19-22`): the rule the chart parser sees. -/
def pipeRule (L : Lang) (setOrder : List Str → List Str) (kind : PipeKind)
    (ps : List (Production Pred)) : Except Err (ChartRule Pred Token) :=
  (buildIndex kind [] ps).map (fun index =>
    { productions := ps, predict := pipePredict L setOrder kind index })

/-- `pipeline(lines)`, `caseless_pipeline(lines)`, `morph_pipeline(lines)`
(`yargy/pipelines.py:175-187`), compiled. -/
def pipeline (L : Lang) (setOrder : List Str → List Str) (normalized : Str → List Str)
    (split : Str → List Str) (kind : PipeKind) (base : Nat) (lines : List Str) :
    Except Err (ChartRule Pred Token) :=
  pipeRule L setOrder kind (pipeProductions L normalized split kind base lines)

/-- `rule.predict` of an ordinary compiled rule (`yargy/rule/bnf.py:57-59`): all productions. -/
def ordinaryRule (ps : List (Production Pred)) : ChartRule Pred Token where
  productions := ps
  predict := fun _ => ps

end Yargy
