import Verif.Model.Compile
/-!
What is left of the rule objects when `Parser(rule)` raises. Compiling changes objects in place: it
activates them, redefines forward rules and, in the last step, changes the terms of compiled productions.
Nothing is undone when an exception stops it. Objects made by the visit that failed are left out (nothing
refers to them), except where `define` itself raises.
-/
namespace Yargy

variable {P : Type}

/-- The items of the walk activated before one of them raises (`yargy/rule/transformators.py:34-39,
145-158`); the one that raises stays as it is, the list of its terms is made before it is stored
(`yargy/rule/transformators.py:44-46`). -/
def activateLeft (A : Activation P) : List Nat → Heap P → Heap P
  | [], h => h
  | a :: as, h =>
    match activateAt A h a with
    | .error _ => h
    | .ok h' => activateLeft A as h'

/-- The forward rules redefined before a visit or `define` raises
(`yargy/rule/transformators.py:62-65`). -/
def redefineLeft (m : Method P) (pid : Nat → Nat) (limit : Nat) :
    Nat → List Nat → List Nat → St P → Heap P
  | 0, _, _, s => s.heap
  | _ + 1, [], _, s => s.heap
  | n + 1, a :: queue, seen, s =>
    match s.heap[a]? with
    | some (.forward (some r)) =>
      match visit m pid limit r s with
      | .error _ => s.heap
      | .ok (b, s1) =>
        match defineForward a b s1.heap with
        | .error _ => s1.heap
        | .ok h =>
          let (queue', seen') := enqueue pid (childrenAt h a) queue seen
          redefineLeft m pid limit n queue' seen' { s1 with heap := h }
    | _ =>
      let (queue', seen') := enqueue pid (childrenAt s.heap a) queue seen
      redefineLeft m pid limit n queue' seen' s

/-- A pass that raises (`yargy/rule/transformators.py:62-66`): the last visit redefines nothing. -/
def transformLeft (m : Method P) (pid : Nat → Nat) (limit : Nat) (root : Nat) (h : Heap P) : Heap P :=
  redefineLeft m pid limit limit [root] [pid root] { heap := h }

/-- `Rule.normalized` (`yargy/rule/constructors.py:102-117`) when it raises. -/
def normalizedLeft (pid : Nat → Nat) (limit root : Nat) (h : Heap P) : Heap P :=
  match transform squashMethod pid limit root h with
  | .error _ => transformLeft squashMethod pid limit root h
  | .ok (r1, h1) =>
    match transform extendedMethod pid limit r1 h1 with
    | .error _ => transformLeft extendedMethod pid limit r1 h1
    | .ok (r2, h2) =>
      match transform orMethod pid limit r2 h2 with
      | .error _ => transformLeft orMethod pid limit r2 h2
      | .ok (r3, h3) =>
        match transform emptyMethod pid limit r3 h3 with
        | .error _ => transformLeft emptyMethod pid limit r3 h3
        | .ok (r4, h4) => transformLeft flattenMethod pid limit r4 h4

/-- The productions changed before `RemoveForwardTransformator` raises
(`yargy/rule/transformators.py:36-39`, `yargy/rule/bnf.py:153-170`). -/
def removeForwardsLeft (pid : Nat → Nat) : Nat → List Nat → List Nat → Heap P → Heap P
  | 0, _, _, h => h
  | _ + 1, [], _, h => h
  | n + 1, a :: queue, seen, h =>
    match h[a]? with
    | some (.forward none) => h
    | some (.prod ts m) =>
      match ts.mapM (removeTerm h) with
      | .error _ => h
      | .ok ts' =>
        let h' := h.set a (.prod ts' m)
        let (queue', seen') := enqueue pid (childrenAt h' a) queue seen
        removeForwardsLeft pid n queue' seen' h'
    | _ =>
      let (queue', seen') := enqueue pid (childrenAt h a) queue seen
      removeForwardsLeft pid n queue' seen' h

/-- `Rule.as_bnf` (`yargy/rule/constructors.py:124-133`) when it raises; giving names cannot raise. -/
def asBnfLeft (pid : Nat → Nat) (limit root : Nat) (h : Heap P) : Heap P :=
  match toBnf pid limit root h with
  | .error _ => transformLeft (bnfMethod (parentCount pid h root)) pid limit root h
  | .ok (r1, h1) => removeForwardsLeft pid (h1.length + 1) [r1] [pid r1] h1

/-- `Parser.__init__` (`yargy/parser.py:252-255`) when it raises. -/
def compileLeft (A : Activation P) (pid : Nat → Nat) (limit root : Nat) (h : Heap P) : Heap P :=
  match activateRule A pid root h with
  | .error _ => activateLeft A (walk pid h root ++ [root]) h
  | .ok h1 =>
    match normalized pid limit root h1 with
    | .error _ => normalizedLeft pid limit root h1
    | .ok (r2, h2) => asBnfLeft pid limit r2 h2

end Yargy
