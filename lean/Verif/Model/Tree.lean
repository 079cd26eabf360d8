import Verif.Model.TreeOrder
import Verif.Model.Relation
/-!
Trees after the chart: removal of empty nodes, heads, agreement
(`yargy/tree/constructors.py`, `yargy/tree/transformators.py`).

The agreement pass overwrites `leaf.token` in place. Leaf objects are shared between trees, so the
current tokens live in a store; the token recorded in the tree itself is the one the leaf was
created with.
-/
namespace Yargy

variable {P : Type}

abbrev TTree (P : Type) := PTree P Token

/-- Tokens that have been written to leaf objects, by leaf identity. -/
abbrev Store := Nat → Option Token

def Store.init : Store := fun _ => none

mutual
/-- A tree as Python sees it now: every leaf with its current token. -/
def PTree.load (σ : Store) : TTree P → TTree P
  | .leaf i p t => .leaf i p ((σ i).getD t)
  | .node i r p k cs => .node i r p k (loadAll σ cs)
def loadAll (σ : Store) : List (TTree P) → List (TTree P)
  | [] => []
  | c :: cs => c.load σ :: loadAll σ cs
end

mutual
/-- `PropogateEmptyTransformator` (`yargy/tree/transformators.py:47-62`); `none` is Python's
`None`, the result for a node without remaining children. The new nodes keep the number of the node
they are copied from: nothing looks at the identity of nodes from here on. -/
def PTree.prune {T : Type} : PTree P T → Option (PTree P T)
  | .leaf i p t => some (.leaf i p t)
  | .node i r p k cs =>
    match pruneAll cs with
    | [] => none
    | c :: cs' => some (.node i r p k (c :: cs'))
/-- `visit_children` (`yargy/tree/transformators.py:48-52`). -/
def pruneAll {T : Type} : List (PTree P T) → List (PTree P T)
  | [] => []
  | c :: cs =>
    match c.prune with
    | some c' => c' :: pruneAll cs
    | none => pruneAll cs
end

mutual
/-- `dfs_tree` (`yargy/tree/constructors.py:73-78`): all items, a node before its children, the
children from left to right. -/
def PTree.walk {T : Type} : PTree P T → List (PTree P T)
  | .leaf i p t => [.leaf i p t]
  | .node i r p k cs => .node i r p k cs :: walkAll cs
def walkAll {T : Type} : List (PTree P T) → List (PTree P T)
  | [] => []
  | c :: cs => c.walk ++ walkAll cs
end

/-- The leaf identity and token of a leaf. -/
def PTree.leaf? {T : Type} : PTree P T → Option (Nat × T)
  | .leaf i _ t => some (i, t)
  | .node _ _ _ _ _ => none

/-- `tree.walk(types=Leaf)` (`yargy/tree/constructors.py:13-17`). -/
def PTree.leaves {T : Type} (t : PTree P T) : List (Nat × T) := t.walk.filterMap PTree.leaf?

mutual
/-- `Node.main`, `Leaf.main` (`yargy/tree/constructors.py:99-100,149-150`), as leaf identity and
token. -/
def PTree.main {T : Type} : PTree P T → Except Err (Nat × T)
  | .leaf i _ t => .ok (i, t)
  | .node _ _ p _ cs => mainAt cs p.main
/-- `self.children[n].main` -/
def mainAt {T : Type} : List (PTree P T) → Nat → Except Err (Nat × T)
  | [], _ => .error .indexError
  | c :: _, 0 => c.main
  | _ :: cs, n + 1 => mainAt cs n
end

/-- What rules carry besides productions: `rule.relation`, an object with an identity. -/
structure Agreement where
  relationOf : Nat → Option Nat
  relation : Nat → Relation

/-- `RelationsTransformator.visit_Node` (`yargy/tree/transformators.py:116-118`); leaves have no
relation (`yargy/tree/constructors.py:142`). -/
def visitRelation (A : Agreement) (g : RelGraph) (item : TTree P) : Except Err RelGraph :=
  match item with
  | .leaf _ _ _ => .ok g
  | .node _ r _ _ _ =>
    match A.relationOf r with
    | none => .ok g
    | some rel => item.main.bind (fun m => g.add rel m.1 m.2)

/-- `tree.relations`: `RelationsTransformator.__call__` (`yargy/tree/transformators.py:111-114`). -/
def treeRelations (A : Agreement) (t : TTree P) : Except Err RelGraph :=
  t.walk.foldlM (visitRelation A) RelGraph.empty

/-- `ApplyRelationsTransformator.visit_Leaf` (`yargy/tree/transformators.py:125-126`). -/
def visitApply (g : RelGraph) (σ : Store) (l : Nat × Token) : Except Err Store :=
  (g.constrain l.1 l.2).map (fun t => update σ l.1 (some t))

/-- `tree.constrain(relations)` (`yargy/tree/constructors.py:32-35`,
`yargy/tree/transformators.py:20-27,121-126`). -/
def treeConstrain (g : RelGraph) (t : TTree P) (σ : Store) : Except Err Store :=
  t.leaves.foldlM (visitApply g) σ

end Yargy
