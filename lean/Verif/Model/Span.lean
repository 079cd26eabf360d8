/-!
Model of `yargy/span.py`: selection of a maximum-coverage set of non-overlapping ranges.
-/
namespace Yargy

/-- A range of token positions `(start, stop)`: the tuple `State.range`
(`yargy/parser.py:157-159`) that `resolve_spans` receives from `findall`. -/
abbrev Range := Nat × Nat

/-- `span_size` (`yargy/span.py:37-39`). Python integers are unbounded and signed. -/
def spanSize (s : Range) : Int := (s.2 : Int) - (s.1 : Int)

/-- One iteration of the outer loop of `get_nexts` (`yargy/span.py:27-34`): the index of the
first span whose start is `>= stop`; `none` is the bare `yield` of the `else` branch. -/
def getNext (spans : List Range) (stop : Nat) : Option Nat :=
  spans.findIdx? (fun s => decide (stop ≤ s.1))

/-- `get_nexts` (`yargy/span.py:27-34`). -/
def getNexts (spans : List Range) : List (Option Nat) :=
  spans.map (fun s => getNext spans s.2)

/-- `a |= b` on Python sets of indexes (`yargy/span.py:73`), a set being a list without
repetitions. -/
def setUnion (a b : List Nat) : List Nat := a ++ b.filter (fun x => !a.contains x)

/-- Insertion into a sorted list, used for `sorted(indexes)`. -/
def insertNat (x : Nat) : List Nat → List Nat
  | [] => [x]
  | y :: ys => if x ≤ y then x :: y :: ys else y :: insertNat x ys

/-- `sorted(indexes)` (`yargy/span.py:81`). -/
def sortNat (l : List Nat) : List Nat := l.foldr insertNat []

/-- The arrays `covers` and `pointers` of `resolve_spans` (`yargy/span.py:58-59`). -/
structure ResolveState where
  covers : List Int
  pointers : List (List Nat)

/-- The loop body of `resolve_spans` (`yargy/span.py:62-78`). Indexing uses `getD`: all
indexes come from `range(size)` or from `get_nexts`, hence are in range. The test
`if next:` is false for `None` and for `0`. -/
def resolveStep (spans : List Range) (nexts : List (Option Nat)) (st : ResolveState)
    (index : Nat) : ResolveState :=
  let span := spans.getD index (0, 0)
  if index = spans.length - 1 then
    { covers := st.covers.set index (spanSize span)
      pointers := st.pointers.set index [index] }
  else
    let previous := st.covers.getD (index + 1) 0
    let cover := spanSize span
    let indexes := [index]
    let (cover, indexes) :=
      match nexts.getD index none with
      | none => (cover, indexes)
      | some next =>
        if next = 0 then (cover, indexes)
        else (cover + st.covers.getD next 0, setUnion indexes (st.pointers.getD next []))
    let (cover, indexes) :=
      if cover < previous then (previous, st.pointers.getD (index + 1) [])
      else (cover, indexes)
    { covers := st.covers.set index cover
      pointers := st.pointers.set index indexes }

/-- The loop of `resolve_spans` over `reversed(range(size))` (`yargy/span.py:57-78`). -/
def resolveLoop (spans : List Range) : ResolveState :=
  (List.range spans.length).reverse.foldl (resolveStep spans (getNexts spans))
    { covers := List.replicate spans.length 0
      pointers := List.replicate spans.length [] }

/-- The indexes chosen by `resolve_spans` (`yargy/span.py:54-81`), in the order in which they
are visited by the final loop. -/
def resolveIndexes (spans : List Range) : List Nat :=
  if spans.isEmpty then []
  else sortNat ((resolveLoop spans).pointers.getD 0 [])

/-- `resolve_spans` (`yargy/span.py:42-82`). -/
def resolveSpans (spans : List Range) : List Range :=
  (resolveIndexes spans).map (fun i => spans.getD i (0, 0))

end Yargy
