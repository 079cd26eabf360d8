import Verif.Model.Dot
import Verif.Model.Listing
/-!
Drawings of rules and of trees: `Rule.as_dot`, `Tree.as_dot` (`yargy/dot.py:158-170`,
`yargy/rule/transformators.py:413-539`, `yargy/tree/transformators.py:129-169`).
-/
namespace Yargy

variable {P : Type}

/-! ### Walking -/

/-- The queue and the set `visited` of `bfs_rule` after the children of an item were looked at
(`yargy/rule/constructors.py:152-155`), for items of any kind. -/
def enqueueItems {α : Type} (ident : α → Nat) : List α → List α → List Nat → List α × List Nat
  | [], queue, seen => (queue, seen)
  | c :: cs, queue, seen =>
    if ident c ∈ seen then enqueueItems ident cs queue seen
    else enqueueItems ident cs (queue ++ [c]) (ident c :: seen)

/-- `bfs_rule` (`yargy/rule/constructors.py:146-155`), cut off after a number of items. -/
def bfsItems {α : Type} (ident : α → Nat) (children : α → List α) : Nat → List α → List Nat → List α
  | 0, _, _ => []
  | _ + 1, [], _ => []
  | n + 1, x :: queue, seen =>
    let (queue', seen') := enqueueItems ident (children x) queue seen
    x :: bfsItems ident children n queue' seen'

/-- `dfs_tree` (`yargy/tree/constructors.py:73-78`), cut off after a number of items; the end of the list
`queue` comes first. -/
def dfsItems {α : Type} (children : α → List α) : Nat → List α → List α
  | 0, _ => []
  | _ + 1, [] => []
  | n + 1, x :: queue => x :: dfsItems children n (children x ++ queue)

/-! ### Rules -/

/-- What a drawing of a rule shows: rules and productions, by their addresses, and predicates, by the
number of the predicate object. -/
inductive DotItem (P : Type) where
  | obj (a : Nat)
  | pred (q : Nat) (p : P)

/-- The terms of a production as items, from a position on; `which` tells the predicate object at every
position. -/
def termItems (which : Nat → Nat) : Nat → List (Term P) → List (DotItem P)
  | _, [] => []
  | k, .pred p :: ts => .pred (which k) p :: termItems which (k + 1) ts
  | k, .rule r :: ts => .obj r :: termItems which (k + 1) ts

/-- `item.children` (`yargy/rule/constructors.py:36-38,67-69,167-169,182-184,294-297,317,326`), predicates
included. -/
def Obj.items (which : Nat → Nat) : Obj P → List (DotItem P)
  | .prod ts _ => termItems which 0 ts
  | .pipeProd _ ps => termItems which 0 (ps.map .pred)
  | .emptyProd => []
  | .rule ps => ps.map .obj
  | .or rs => rs.map .obj
  | .optional r _ => [.obj r]
  | .repeatable r _ => [.obj r]
  | .repOptional r _ _ => [.obj r]
  | .minBounded r _ _ => [.obj r]
  | .maxBounded r _ _ => [.obj r]
  | .minMaxBounded r _ _ _ => [.obj r]
  | .named r _ => [.obj r]
  | .interp r _ => [.obj r]
  | .relation r _ => [.obj r]
  | .forward none => []
  | .forward (some r) => [.obj r]
  | .empty => []
  | .pipe _ => []
  | .bnf ps _ _ _ _ => ps.map .obj

/-- The children of an item; predicates have none (`yargy/predicates/constructors.py:7`). -/
def dotChildren (which : Nat → Nat → Nat) (h : Heap P) : DotItem P → List (DotItem P)
  | .obj a =>
    match h[a]? with
    | some o => o.items (which a)
    | none => []
  | .pred _ _ => []

/-- The number of terms of an object. -/
def Obj.termCount : Obj P → Nat
  | .prod ts _ => ts.length
  | .pipeProd _ ps => ps.length
  | _ => 0

/-- Enough steps to walk through a rule: there are not more items than objects and terms. -/
def dotFuel (h : Heap P) : Nat := h.length + (h.map Obj.termCount).sum + 2

/-- `root.walk()` (`yargy/rule/constructors.py:135-139`), predicates included. -/
def dotWalk (ident : DotItem P → Nat) (which : Nat → Nat → Nat) (h : Heap P) (root : Nat) : List (DotItem P) :=
  bfsItems ident (dotChildren which h) (dotFuel h) [.obj root] [ident (.obj root)]

/-- A label as an attribute. -/
def labelled (s : Str) : Str × Str := ("label".toList, s)

/-- A colour as an attribute. -/
def filled (s : String) : Str × Str := ("fillcolor".toList, s.toList)

/-- Colours (`yargy/dot.py:8-15`). -/
def dotBlue : String := "#aec7e8"
def dotOrange : String := "#ffbb78"
def dotGreen : String := "#dbdb8d"
def dotRed : String := "#ff9896"
def dotPurple : String := "#f7b6d2"
def dotDarkgray : String := "#888888"

/-- The labels of pipelines: the class name (`yargy/pipelines.py:118-120`), or the label of the scheme
(`yargy/pipelines.py:137,160,165`). -/
def pipeLabel : Pipe P → Str
  | .scheme .exact _ => "[pipeline]".toList
  | .scheme .caseless _ => "[caseless_pipeline]".toList
  | .scheme .morph _ => "[morph_pipeline]".toList
  | .keys .exact _ => "Pipeline".toList
  | .keys .caseless _ => "CaselessPipeline".toList
  | .keys .morph _ => "MorphPipeline".toList

/-- The styles of the methods `visit_…` of `DotRuleTransformator`
(`yargy/rule/transformators.py:420-539`). -/
def objStyle (N : Labels P) : Obj P → Style
  | .prod _ _ => [labelled "Production".toList, filled dotBlue]
  | .emptyProd => [labelled "EmptyProduction".toList]
  | .pipeProd _ _ => [labelled "PipelineProduction".toList, filled dotBlue]
  | .rule _ => [labelled "Rule".toList, filled dotBlue]
  | .or _ => [labelled "Or".toList, filled dotBlue]
  | .optional _ _ => [labelled "Optional".toList, filled dotOrange]
  | .repeatable _ _ => [labelled "Repeatable".toList, filled dotOrange]
  | .repOptional _ _ _ => [labelled "RepeatableOptional".toList, filled dotOrange]
  | .minBounded _ min _ => [labelled ("MinBounded >=".toList ++ (toString min).toList), filled dotOrange]
  | .maxBounded _ max _ => [labelled ("MaxBounded <=".toList ++ (toString max).toList), filled dotOrange]
  | .minMaxBounded _ min max _ =>
    [labelled ("MinMaxBounded [".toList ++ (toString min).toList ++ ", ".toList ++ (toString max).toList ++ [']']),
      filled dotOrange]
  | .named _ name => [labelled name, filled dotRed]
  | .interp _ i => [labelled (N.interp i), filled dotGreen]
  | .relation _ r => [labelled (N.relation r), filled dotPurple]
  | .forward _ => [labelled "Forward".toList, filled dotPurple]
  | .empty => [labelled "Empty".toList]
  | .pipe p => [labelled (pipeLabel p), filled dotPurple]
  | .bnf _ n i r _ => [labelled (formatted (bnfLabel N n i r)), filled dotGreen]

/-- `Graph.add_node` (`yargy/dot.py:107-109`). -/
def Graph.addNode (g : Graph) (item : Nat) (s : Option Style) : Graph := { g with nodes := g.nodes ++ [(item, s)] }

/-- `Graph.add_edge` (`yargy/dot.py:111-113`). -/
def Graph.addEdge (g : Graph) (source target : Nat) (s : Option Style) : Graph :=
  { g with edges := g.edges ++ [(source, target, s)] }

/-- `DotTransformator.style` (`yargy/dot.py:162-165`), for the item with the identity and the children
given. -/
def Graph.style {α : Type} (ident : α → Nat) (g : Graph) (item : α) (children : List α) (s : Style) : Graph :=
  children.foldl (fun g c => g.addEdge (ident item) (ident c) none) (g.addNode (ident item) (some s))

/-- The loop of `visit_Production` (`yargy/rule/transformators.py:425-434`), from a position on. -/
def productionEdges {α : Type} (ident : α → Nat) (main : Nat) (item : α) : Nat → List α → Graph → Graph
  | _, [], g => g
  | index, c :: cs, g =>
    productionEdges ident main item (index + 1) cs
      (g.addEdge (ident item) (ident c)
        (if main > 0 ∧ main = index then some [("color".toList, dotDarkgray.toList)] else none))

/-- `DotRuleTransformator.visit` (`yargy/rule/transformators.py:413-539`). -/
def visitDot (N : Labels P) (ident : DotItem P → Nat) (which : Nat → Nat → Nat) (h : Heap P) (g : Graph)
    (item : DotItem P) : Graph :=
  match item with
  | .pred q p => g.style ident (.pred q p) [] [labelled (N.pred p)]
  | .obj a =>
    match h[a]? with
    | some (.prod ts main) =>
      productionEdges ident main (.obj a) 0 (Obj.items (which a) (.prod ts main))
        (g.addNode (ident (.obj a)) (some (objStyle N (.prod ts main))))
    | some o => g.style ident (.obj a) (o.items (which a)) (objStyle N o)
    | none => g

/-- `rule.as_dot` (`yargy/rule/constructors.py:119-122`, `yargy/dot.py:167-170`). -/
def ruleDot (N : Labels P) (ident : DotItem P → Nat) (which : Nat → Nat → Nat) (h : Heap P) (root : Nat) : Graph :=
  (dotWalk ident which h root).foldl (visitDot N ident which h) {}

/-! ### Trees -/

/-- An item of a tree: the way to it from the root, the last step first, and what is there. The nodes of a
tree that was found are all new objects (`yargy/tree/transformators.py:54-62`), and its leaves are
different objects, so the way to an item serves as its identity. -/
structure TreeItem (P : Type) where
  path : List Nat
  tree : TTree P

/-- Children with their numbers, from a number on. -/
def numberedItems (path : List Nat) : Nat → List (TTree P) → List (TreeItem P)
  | _, [] => []
  | k, c :: cs => ⟨k :: path, c⟩ :: numberedItems path (k + 1) cs

/-- `item.children` (`yargy/tree/constructors.py:87,139`). -/
def TreeItem.children (x : TreeItem P) : List (TreeItem P) :=
  match x.tree with
  | .leaf _ _ _ => []
  | .node _ _ _ _ cs => numberedItems x.path 0 cs

mutual
/-- The number of items of a tree. -/
def PTree.count {T : Type} : PTree P T → Nat
  | .leaf _ _ _ => 1
  | .node _ _ _ _ cs => countAll cs + 1
def countAll {T : Type} : List (PTree P T) → Nat
  | [] => 0
  | c :: cs => c.count + countAll cs
end

/-- `tree.walk()` (`yargy/tree/constructors.py:13-17`). -/
def treeItems (t : TTree P) : List (TreeItem P) := dfsItems TreeItem.children (t.count + 1) [⟨[], t⟩]

/-- What a drawing of a tree needs to know of a rule: `rule.label`, whether it has an interpretator, its
relation object, and the label of that. -/
structure TreeLabels where
  label : Nat → Option Str
  interpreted : Nat → Bool
  relationOf : Nat → Option Nat
  relation : Nat → Str

/-- `DotTreeTransformator.visit` (`yargy/tree/transformators.py:153-169`): the graph, and the nodes under
every relation object (`RelationsGraph.add`, `yargy/relations/graph.py:22-25`). -/
def visitTreeDot (N : TreeLabels) (ident : List Nat → Nat) (s : Graph × List (Nat × List Nat)) (x : TreeItem P) :
    Graph × List (Nat × List Nat) :=
  let kids := x.children.map TreeItem.path
  match x.tree with
  | .leaf _ _ t => (s.1.style ident x.path kids [labelled t.value], s.2)
  | .node _ r _ _ _ =>
    (s.1.style ident x.path kids
        [labelled (formatted (N.label r)), filled (if N.interpreted r then dotGreen else dotBlue)],
      match N.relationOf r with
      | some rel => addItem rel (ident x.path) s.2
      | none => s.2)

/-- `tree.as_dot` (`yargy/tree/constructors.py:48-51`, `yargy/tree/transformators.py:137-151`). -/
def treeDot (N : TreeLabels) (ident : List Nat → Nat) (t : TTree P) : Graph :=
  let s := (treeItems t).foldl (visitTreeDot N ident) ({}, [])
  s.2.foldl (fun g e => (pairs e.2).foldl (fun g p => g.addEdge p.1 p.2 (some [labelled (N.relation e.1),
    ("dir".toList, "none".toList), ("style".toList, "dashed".toList)])) g) s.1

end Yargy
