import Verif.Model.Grammar
/-!
The chart parser of `yargy/parser.py` as a small-step machine.

Python iterates over lists that grow while being iterated (`for state in column`,
`for state in completed.parents`); the machine therefore keeps explicit positions in those
lists and performs one iteration per step. Object identity of tree nodes is an allocation
number drawn from a counter; freed numbers are never reused (the parser keeps every node whose
identity it has recorded alive, so reuse could not be observed).
-/
namespace Yargy

variable {P T H : Type}

/-- `Leaf` and `Node` objects (`yargy/tree/constructors.py:81-154`) with their identities. -/
inductive PTree (P T : Type) where
  | leaf (id : Nat) (pred : P) (tok : T)
  | node (id : Nat) (rule : Nat) (prod : Production P) (rank : Nat) (children : List (PTree P T))

/-- `id(item)` of a tree item. -/
def PTree.oid : PTree P T → Nat
  | .leaf i _ _ => i
  | .node i _ _ _ _ => i

/-- `State` (`yargy/parser.py:127-136`). The fields `nid`, `rank` and `children` are those of
`state.node`, whose rule and production are the state's own. -/
structure State (P T : Type) where
  rule : Nat
  prod : Production P
  dot : Nat
  start : Nat
  stop : Nat
  nid : Nat
  rank : Nat
  children : List (PTree P T)

/-- `state.node` -/
def State.node (s : State P T) : PTree P T := .node s.nid s.rule s.prod s.rank s.children

/-- The tuple hashed by `State.__hash__` (`yargy/parser.py:138-143`). -/
structure Key where
  rule : Nat
  prod : Nat
  dot : Nat
  start : Nat
  stop : Nat
  children : List Nat
  deriving DecidableEq

def State.key (s : State P T) : Key :=
  ⟨s.rule, s.prod.id, s.dot, s.start, s.stop, s.children.map PTree.oid⟩

/-- `State.completed` (`yargy/parser.py:145-147`). -/
def State.completed (s : State P T) : Bool := decide (s.prod.terms.length ≤ s.dot)

/-- `State.next_term` (`yargy/parser.py:149-151`); `none` stands for the `IndexError` of a
completed state, which no caller provokes. -/
def State.next (s : State P T) : Option (Term P) := s.prod.terms[s.dot]?

/-- `State.range` (`yargy/parser.py:157-159`). -/
def State.range (s : State P T) : Nat × Nat := (s.start, s.stop)

/-- `Column` (`yargy/parser.py:72-78`): `states`, `hashes`, and `states_index`, kept as one
list of (rule identity, state) pairs in insertion order. -/
structure Column (P T H : Type) where
  states : List (State P T)
  hashes : List H
  index : List (Nat × State P T)

def Column.empty : Column P T H := ⟨[], [], []⟩

/-- `states_index[id(rule)]` -/
def Column.parents (c : Column P T H) (r : Nat) : List (State P T) :=
  (c.index.filter (fun e => e.1 == r)).map (fun e => e.2)

/-- `Column.update_index` (`yargy/parser.py:95-99`). -/
def Column.updateIndex (c : Column P T H) (s : State P T) : Column P T H :=
  match s.next with
  | some (.rule r) => { c with index := c.index ++ [(r, s)] }
  | _ => c

/-- `Column.append` (`yargy/parser.py:88-93`). `hash` is Python's hash of the key tuple: only
hash values are compared, so two states with colliding hashes are identified. -/
def Column.append [DecidableEq H] (hash : Key → H) (c : Column P T H) (s : State P T) :
    Column P T H :=
  if hash s.key ∈ c.hashes then c
  else Column.updateIndex
    { c with hashes := hash s.key :: c.hashes, states := c.states ++ [s] } s

/-- Where the loops of `Parser.chart` (`yargy/parser.py:257-273`) stand:
`enter` – at the top of the loop over columns; `at i` – about to look at the `i`-th state of
the column; `complete i s j` – inside `Parser.complete` for the state `s` at position `i`,
about to look at its `j`-th parent; `done` – finished. -/
inductive Phase (P T : Type) where
  | enter
  | at (i : Nat)
  | complete (i : Nat) (s : State P T) (j : Nat)
  | done

/-- Machine configuration: the columns, the allocation counter, the current column and the
phase. -/
structure Config (P T H : Type) where
  cols : List (Column P T H)
  ctr : Nat
  k : Nat
  phase : Phase P T

section
variable [DecidableEq H] (G : Grammar P T) (hash : Key → H) (toks : List T) (all : Bool)

/-- `columns[k].append(state)` -/
def appendAt (cols : List (Column P T H)) (k : Nat) (s : State P T) : List (Column P T H) :=
  cols.modify k (fun c => c.append hash s)

/-- Loop body of `Parser.predict` (`yargy/parser.py:311-324`). -/
def predictOne (k r : Nat) (acc : List (Column P T H) × Nat) (e : Production P × Nat) :
    List (Column P T H) × Nat :=
  let s : State P T :=
    { rule := r, prod := e.1, dot := 0, start := k, stop := k, nid := acc.2, rank := e.2,
      children := [] }
  (appendAt hash acc.1 k s, acc.2 + 1)

/-- The productions `Parser.predict` considers (`yargy/parser.py:306-310`): the rule's own
`predict` of the next token, or all of them in the last column. -/
def predicted (k r : Nat) : List (Production P) :=
  match toks[k]? with
  | some t => G.predict r t
  | none => G.productions r

/-- `Parser.predict` (`yargy/parser.py:305-324`). -/
def predict (k r : Nat) (cols : List (Column P T H)) (ctr : Nat) :
    List (Column P T H) × Nat :=
  (predicted G toks k r).zipIdx.foldl (predictOne hash k r) (cols, ctr)

/-- `Parser.scan` (`yargy/parser.py:326-337`), called for the column after `k`, whose token
is `t`. -/
def scan (k : Nat) (p : P) (t : T) (s : State P T) (cols : List (Column P T H)) (ctr : Nat) :
    List (Column P T H) × Nat :=
  if G.accepts p t then
    let leaf : PTree P T := .leaf ctr p (G.constrain p t)
    let s' : State P T :=
      { s with dot := s.dot + 1, stop := k + 1, nid := ctr + 1, children := s.children ++ [leaf] }
    (appendAt hash cols (k + 1) s', ctr + 2)
  else (cols, ctr)

/-- Loop body of `Parser.complete` (`yargy/parser.py:339-348`): advance the parent `p` over
the completed state `s`. -/
def completeOne (k : Nat) (s p : State P T) (cols : List (Column P T H)) (ctr : Nat) :
    List (Column P T H) × Nat :=
  let p' : State P T :=
    { p with dot := p.dot + 1, stop := k, nid := ctr, children := p.children ++ [s.node] }
  (appendAt hash cols k p', ctr + 1)

/-- `state.parents` (`yargy/parser.py:153-155`). -/
def parentsOf (cols : List (Column P T H)) (s : State P T) : List (State P T) :=
  match cols[s.start]? with
  | some c => c.parents s.rule
  | none => []

/-- One iteration of the loops of `Parser.chart` (`yargy/parser.py:257-273`). -/
def step (c : Config P T H) : Config P T H :=
  match c.phase with
  | .done => c
  | .enter =>
    if c.k == 0 || all then
      let (cols, ctr) := predict G hash toks c.k G.start c.cols c.ctr
      { c with cols := cols, ctr := ctr, phase := .at 0 }
    else { c with phase := .at 0 }
  | .at i =>
    match (c.cols[c.k]?).bind (fun col => col.states[i]?) with
    | none =>
      if c.k + 1 < c.cols.length then { c with k := c.k + 1, phase := .enter }
      else { c with phase := .done }
    | some s =>
      if s.completed then { c with phase := .complete i s 0 }
      else
        match s.next with
        | some (.rule r) =>
          let (cols, ctr) := predict G hash toks c.k r c.cols c.ctr
          { c with cols := cols, ctr := ctr, phase := .at (i + 1) }
        | some (.pred p) =>
          match toks[c.k]? with
          | some t =>
            let (cols, ctr) := scan G hash c.k p t s c.cols c.ctr
            { c with cols := cols, ctr := ctr, phase := .at (i + 1) }
          | none => { c with phase := .at (i + 1) }
        | none => { c with phase := .at (i + 1) }
  | .complete i s j =>
    match (parentsOf c.cols s)[j]? with
    | none => { c with phase := .at (i + 1) }
    | some p =>
      let (cols, ctr) := completeOne hash c.k s p c.cols c.ctr
      { c with cols := cols, ctr := ctr, phase := .complete i s (j + 1) }

/-- `Chart.__init__` (`yargy/parser.py:25-31`). -/
def initConfig : Config P T H :=
  { cols := List.replicate (toks.length + 1) Column.empty, ctr := 0, k := 0, phase := .enter }

/-- The configuration after `n` iterations. -/
def runN : Nat → Config P T H
  | 0 => initConfig toks
  | n + 1 => step G hash toks all (runN n)

/-- `Parser.chart` (`yargy/parser.py:257-273`), cut off after `fuel` iterations: `none` while
the loops are still running. -/
def chart (fuel : Nat) : Option (List (Column P T H)) :=
  match (runN G hash toks all fuel).phase with
  | .done => some (runN G hash toks all fuel).cols
  | _ => none

end

/-- `Column.matches` (`yargy/parser.py:83-86`). -/
def Column.matches (c : Column P T H) (r : Nat) : List (State P T) :=
  c.states.filter (fun s => s.completed && s.rule == r)

/-- `Parser.matches` after the chart is built (`yargy/parser.py:275-281`): all columns, or the
last one only. -/
def chartMatches (start : Nat) (all : Bool) (cols : List (Column P T H)) : List (State P T) :=
  if all then cols.flatMap (fun c => c.matches start)
  else match cols.getLast? with
    | some c => c.matches start
    | none => []

end Yargy
