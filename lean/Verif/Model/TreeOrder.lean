import Verif.Model.Earley
/-! Comparison of trees and sorting (`yargy/tree/constructors.py`, `yargy/parser.py`). -/
namespace Yargy

variable {P T : Type}

/-- `Tree` (`yargy/tree/constructors.py:5-10`): the root node and the token range. -/
structure Tree (P T : Type) where
  root : PTree P T
  range : Nat × Nat

mutual
/-- `Node.__lt__` (`yargy/tree/constructors.py:114-134`). Comparing a leaf fails on `self.rule`,
an attribute leaves do not have; comparing with a leaf fails on `other.rule`. -/
def nodeLt : PTree P T → PTree P T → Except Err Bool
  | .node i r _ rank cs, .node i' r' _ rank' cs' =>
    if r ≠ r' then .error .typeError
    else if i = i' then .ok false
    else if rank = rank' then childrenLt cs cs'
    else .ok (decide (rank < rank'))
  | _, _ => .error .attributeError
/-- The loop over `zip(self.children, other.children)`
(`yargy/tree/constructors.py:122-133`). -/
def childrenLt : List (PTree P T) → List (PTree P T) → Except Err Bool
  | a :: as, b :: bs =>
    match a with
    | .leaf _ _ _ => childrenLt as bs
    | .node ia ra pa ranka csa =>
      if ia = b.oid then childrenLt as bs
      else match b with
        | .leaf _ _ _ => .error .attributeError
        | .node ib rb pb rankb csb =>
          if ranka < rankb then .ok true
          else if ranka > rankb then .ok false
          else nodeLt (.node ia ra pa ranka csa) (.node ib rb pb rankb csb)
  | _, _ => .ok false
end

/-- `Tree.__lt__` (`yargy/tree/constructors.py:52-62`). -/
def treeLt (a b : Tree P T) : Except Err Bool :=
  if a.range = b.range then nodeLt a.root b.root
  else if a.range.1 = b.range.1 then .ok (decide (a.range.2 > b.range.2))
  else .ok (decide (a.range.1 < b.range.1))

/-- Put `x` behind the elements that are not greater. -/
def insertBy {α} (lt : α → α → Except Err Bool) (x : α) : List α → Except Err (List α)
  | [] => .ok [x]
  | y :: ys =>
    match lt x y with
    | .error e => .error e
    | .ok true => .ok (x :: y :: ys)
    | .ok false =>
      match insertBy lt x ys with
      | .error e => .error e
      | .ok zs => .ok (y :: zs)

/-- The built-in `sorted` (`yargy/parser.py:291,301`): a stable sort that only uses `<`, here by
insertion. `sorted_trees_unique` shows that the algorithm does not matter. -/
def sortBy {α} (lt : α → α → Except Err Bool) : List α → List α → Except Err (List α)
  | acc, [] => .ok acc
  | acc, x :: xs =>
    match insertBy lt x acc with
    | .error e => .error e
    | .ok acc' => sortBy lt acc' xs

/-- `prepare_trees` (`yargy/parser.py:194-199`). -/
def prepareTrees (states : List (State P T)) : List (Tree P T) :=
  states.map (fun s => ⟨s.node, s.range⟩)

end Yargy
