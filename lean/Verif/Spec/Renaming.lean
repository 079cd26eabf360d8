import Verif.Model.Parser
import Verif.Spec.Compile
/-!
The same results with other numbers for rules and productions. The numbers stand for the identity of
Python objects, which nobody sees.
-/
namespace Yargy

variable {P T H : Type}

def Term.rename (f : Nat → Nat) : Term P → Term P
  | .pred p => .pred p
  | .rule r => .rule (f r)

def Production.rename (f : Nat → Nat) (p : Production P) : Production P :=
  { p with id := f p.id, terms := p.terms.map (Term.rename f) }

mutual
/-- A tree with other numbers for its rules and productions. -/
def PTree.rename (f : Nat → Nat) : PTree P T → PTree P T
  | .leaf i p t => .leaf i p t
  | .node i r p k cs => .node i (f r) (p.rename f) k (renameAll f cs)
def renameAll (f : Nat → Nat) : List (PTree P T) → List (PTree P T)
  | [] => []
  | c :: cs => c.rename f :: renameAll f cs
end

def Tree.rename (f : Nat → Nat) (t : Tree P T) : Tree P T := ⟨t.root.rename f, t.range⟩

/-- A match with other numbers for the rules and productions in its tree. -/
def Match.rename (f : Nat → Nat) (m : Match P) : Match P := { m with tree := m.tree.rename f }

/-- The result of `match`, with other numbers. -/
def renameOne (f : Nat → Nat) (x : Option (Match P) × Store) : Option (Match P) × Store :=
  (x.1.map (Match.rename f), x.2)

/-- The result of `extract`, with other numbers. -/
def renameExtract (f : Nat → Nat) (x : List (Match P) × Store × Option Err) :
    List (Match P) × Store × Option Err := (x.1.map (Match.rename f), x.2)

/-- The result of `findall`, with other numbers. -/
def renameAllMatches (f : Nat → Nat) (x : List (Match P) × Store) : List (Match P) × Store :=
  (x.1.map (Match.rename f), x.2)

/-- An object with other addresses in it. -/
def Obj.rename (f : Nat → Nat) : Obj P → Obj P
  | .prod ts m => .prod (ts.map (Term.rename f)) m
  | .emptyProd => .emptyProd
  | .pipeProd v ts => .pipeProd v ts
  | .rule ps => .rule (ps.map f)
  | .or rs => .or (rs.map f)
  | .optional r v => .optional (f r) v
  | .repeatable r v => .repeatable (f r) v
  | .repOptional r v u => .repOptional (f r) v u
  | .minBounded r min v => .minBounded (f r) min v
  | .maxBounded r max v => .maxBounded (f r) max v
  | .minMaxBounded r min max v => .minMaxBounded (f r) min max v
  | .named r n => .named (f r) n
  | .interp r i => .interp (f r) i
  | .relation r x => .relation (f r) x
  | .forward r => .forward (r.map f)
  | .empty => .empty
  | .pipe p => .pipe p
  | .bnf ps n i r k => .bnf (ps.map f) n i r k

/-- The rule at `b` in `g` is made like the rule at `a` in `h`: the objects they consist of correspond to
each other. Nothing is said about the other objects. -/
structure Alike (f : Nat → Nat) (h : Heap P) (a : Nat) (g : Heap P) (b : Nat) : Prop where
  root : f a = b
  inj : ∀ x y, Reach h a x → Reach h a y → f x = f y → x = y
  same : ∀ (x : Nat) o, Reach h a x → h[x]? = some o → g[f x]? = some (o.rename f)

end Yargy
