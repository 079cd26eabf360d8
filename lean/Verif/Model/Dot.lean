import Verif.Model.Basic
/-!
Graph output: `yargy/dot.py`.
-/
namespace Yargy

/-- `value.replace(a, b)` for a one-character string `a`. -/
def replaceChar (a : Char) (b : Str) (s : Str) : Str :=
  s.flatMap (fun c => if c = a then b else [c])

/-- `style.quote` (`yargy/dot.py:36-45`); the argument is `str(value)`. -/
def quote (value : Str) : Str :=
  '"' :: replaceChar '\r' ['\\', 'r'] (replaceChar '\n' ['\\', 'n'] (replaceChar '"' ['\\', '"'] value))
    ++ ['"']

/-- A style: its attributes in order (`yargy/dot.py:30-34`). -/
abbrev Style := List (Str × Str)

/-- One attribute: `{key}={value}` (`yargy/dot.py:49-52`). -/
def attrText (a : Str × Str) : Str := a.1 ++ '=' :: quote a.2

/-- `style.__str__` (`yargy/dot.py:47-54`). -/
def Style.text : Style → Str
  | [] => []
  | [a] => attrText a
  | a :: b :: rest => attrText a ++ ", ".toList ++ Style.text (b :: rest)

/-- `Graph.ids`: the numbers given so far, by `id(item)` (`yargy/dot.py:105`). -/
abbrev Ids := List (Nat × Nat)

/-- `Graph.id` (`yargy/dot.py:115-119`). -/
def graphId (ids : Ids) (item : Nat) : Nat × Ids :=
  match ids.find? (fun e => decide (e.1 = item)) with
  | some e => (e.2, ids)
  | none => (ids.length, ids ++ [(item, ids.length)])

/-- A graph (`yargy/dot.py:102-113`): items are named by their identity. -/
structure Graph where
  nodes : List (Nat × Option Style) := []
  edges : List (Nat × Nat × Option Style) := []

/-- A line of the output: a node or an edge, with numbers in place of items. -/
inductive DotLine where
  | node (index : Nat) (style : Option Style)
  | edge (source target : Nat) (style : Option Style)

/-- The node lines of `Graph.source` (`yargy/dot.py:127-136`). -/
def nodeLines : Ids → List (Nat × Option Style) → List DotLine × Ids
  | ids, [] => ([], ids)
  | ids, (item, s) :: rest =>
    let (n, ids') := graphId ids item
    let (ls, ids'') := nodeLines ids' rest
    (.node n s :: ls, ids'')

/-- The edge lines of `Graph.source` (`yargy/dot.py:137-147`). -/
def edgeLines : Ids → List (Nat × Nat × Option Style) → List DotLine × Ids
  | ids, [] => ([], ids)
  | ids, (a, b, s) :: rest =>
    let (n, ids1) := graphId ids a
    let (m, ids2) := graphId ids1 b
    let (ls, ids3) := edgeLines ids2 rest
    (.edge n m s :: ls, ids3)

/-- The lines of `Graph.source` between the header and the closing brace, and `Graph.ids` afterwards
(`yargy/dot.py:121-148`). -/
def Graph.lines (g : Graph) (ids : Ids) : List DotLine × Ids :=
  let (ns, ids1) := nodeLines ids g.nodes
  let (es, ids2) := edgeLines ids1 g.edges
  (ns ++ es, ids2)

/-- The text of a line (`yargy/dot.py:128-147`); a style without attributes is an object all the same,
so its brackets are printed. -/
def DotLine.text : DotLine → Str
  | .node n none => (toString n).toList
  | .node n (some s) => (toString n).toList ++ " [".toList ++ s.text ++ "];".toList
  | .edge n m none => (toString n).toList ++ " -> ".toList ++ (toString m).toList ++ ";".toList
  | .edge n m (some s) => (toString n).toList ++ " -> ".toList ++ (toString m).toList ++ " [".toList ++
      s.text ++ "];".toList

end Yargy
