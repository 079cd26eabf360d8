import Verif.Model.Text
/-!
The chart parser with predicates that may raise. `Model/Earley.lean` asks predicates for a yes or no; here an exception
of a predicate ends the loops, as it does in Python.
-/
namespace Yargy

section
variable {P T H : Type}

/-- The two methods of predicates that the chart uses, `__call__` and `constrain`
(`yargy/predicates/constructors.py:9-11,38-39`), as they are: both may raise. -/
structure Methods (P T : Type) where
  call : P → T → Except Err Bool
  constrain : P → T → Except Err T

variable [DecidableEq H] (M : Methods P T) (G : Grammar P T) (hash : Key → H) (toks : List T) (all : Bool)

/-- `Parser.scan` (`yargy/parser.py:326-337`). -/
def scanE (k : Nat) (p : P) (t : T) (s : State P T) (cols : List (Column P T H)) (ctr : Nat) :
    Except Err (List (Column P T H) × Nat) :=
  match M.call p t with
  | .error e => .error e
  | .ok false => .ok (cols, ctr)
  | .ok true =>
    match M.constrain p t with
    | .error e => .error e
    | .ok t' =>
      let leaf : PTree P T := .leaf ctr p t'
      let s' : State P T :=
        { s with dot := s.dot + 1, stop := k + 1, nid := ctr + 1, children := s.children ++ [leaf] }
      .ok (appendAt hash cols (k + 1) s', ctr + 2)

/-- One iteration of the loops of `Parser.chart` (`yargy/parser.py:257-273`). -/
def stepE (c : Config P T H) : Except Err (Config P T H) :=
  match c.phase with
  | .done => .ok c
  | .enter =>
    if c.k == 0 || all then
      let (cols, ctr) := predict G hash toks c.k G.start c.cols c.ctr
      .ok { c with cols := cols, ctr := ctr, phase := .at 0 }
    else .ok { c with phase := .at 0 }
  | .at i =>
    match (c.cols[c.k]?).bind (fun col => col.states[i]?) with
    | none =>
      if c.k + 1 < c.cols.length then .ok { c with k := c.k + 1, phase := .enter }
      else .ok { c with phase := .done }
    | some s =>
      if s.completed then .ok { c with phase := .complete i s 0 }
      else
        match s.next with
        | some (.rule r) =>
          let (cols, ctr) := predict G hash toks c.k r c.cols c.ctr
          .ok { c with cols := cols, ctr := ctr, phase := .at (i + 1) }
        | some (.pred p) =>
          match toks[c.k]? with
          | some t =>
            match scanE M hash c.k p t s c.cols c.ctr with
            | .error e => .error e
            | .ok (cols, ctr) => .ok { c with cols := cols, ctr := ctr, phase := .at (i + 1) }
          | none => .ok { c with phase := .at (i + 1) }
        | none => .ok { c with phase := .at (i + 1) }
  | .complete i s j =>
    match (parentsOf c.cols s)[j]? with
    | none => .ok { c with phase := .at (i + 1) }
    | some p =>
      let (cols, ctr) := completeOne hash c.k s p c.cols c.ctr
      .ok { c with cols := cols, ctr := ctr, phase := .complete i s (j + 1) }

/-- The configuration after `n` iterations, or the exception. -/
def runE : Nat → Except Err (Config P T H)
  | 0 => .ok (initConfig toks)
  | n + 1 =>
    match runE n with
    | .error e => .error e
    | .ok c => stepE M G hash toks all c

/-- `Parser.chart` (`yargy/parser.py:257-273`), cut off after `fuel` iterations: `none` while the loops are still
running. -/
def chartE (fuel : Nat) : Option (Except Err (List (Column P T H))) :=
  match runE M G hash toks all fuel with
  | .error e => some (.error e)
  | .ok c =>
    match c.phase with
    | .done => some (.ok c.cols)
    | _ => none

end

section
variable {P H : Type} [DecidableEq H] (M : Methods P Token) (G : Grammar P Token) (A : Agreement) (hash : Key → H)
  (toks : List Token)

/-- `Parser.matches` (`yargy/parser.py:275-281`). -/
def matchStatesE (all : Bool) (fuel : Nat) : Option (Except Err (List (State P Token))) :=
  (chartE M G hash toks all fuel).map (fun r => r.map (chartMatches G.start all))

/-- `Parser.extract` (`yargy/parser.py:283-286`), consumed to its end. The chart is made by the call, before the first
match is asked for. -/
def extractE (all : Bool) (fuel : Nat) : Option (List (Match P) × Store × Option Err) :=
  (matchStatesE M G hash toks all fuel).map (fun r =>
    match r with
    | .error e => ([], Store.init, some e)
    | .ok ss => prepareMatches A Store.init (prepareTrees ss))

/-- `Parser.findall` (`yargy/parser.py:288-292`). -/
def findallE (fuel : Nat) : Option (Except Err (List (Match P) × Store)) :=
  (matchStatesE M G hash toks true fuel).map (fun r => do
    let ss ← r
    let trees ← sortBy treeLt [] (prepareTrees ss)
    resolvedMatches A Store.init trees)

/-- `Parser.match` (`yargy/parser.py:298-303`). -/
def matchTextE (fuel : Nat) : Option (Except Err (Option (Match P) × Store)) :=
  (matchStatesE M G hash toks false fuel).map (fun r => do
    let ss ← r
    let trees ← sortBy treeLt [] (prepareTrees ss)
    firstMatch A Store.init trees)

end

/-- The methods of the predicates of `yargy.predicates`. -/
def predMethods (L : Lang) : Methods Pred Token := ⟨fun p t => p.call L t, fun p t => p.constrain t⟩

section
variable {H : Type} [DecidableEq H] (L : Lang) (hash : Key → H) (p : TextParser)

/-- `parser.extract(text, all)` (`yargy/parser.py:283-286`), consumed to its end. -/
def TextParser.extractE (text : Str) (all : Bool) (fuel : Nat) : Option (List (Match Pred) × Store × Option Err) :=
  match p.reader.tokens text with
  | .error e => some ([], Store.init, some e)
  | .ok toks => Yargy.extractE (predMethods L) p.built.grammar p.built.agreement hash toks all fuel

/-- `parser.findall(text)` (`yargy/parser.py:288-292`). -/
def TextParser.findallE (text : Str) (fuel : Nat) : Option (Except Err (List (Match Pred) × Store)) :=
  match p.reader.tokens text with
  | .error e => some (.error e)
  | .ok toks => Yargy.findallE (predMethods L) p.built.grammar p.built.agreement hash toks fuel

/-- `parser.match(text)` (`yargy/parser.py:298-303`). -/
def TextParser.matchE (text : Str) (fuel : Nat) : Option (Except Err (Option (Match Pred) × Store)) :=
  match p.reader.tokens text with
  | .error e => some (.error e)
  | .ok toks => Yargy.matchTextE (predMethods L) p.built.grammar p.built.agreement hash toks fuel

end

end Yargy
