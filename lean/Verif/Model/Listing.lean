import Verif.Model.Compile
/-!
The printed form of a compiled grammar: `yargy/rule/bnf.py`, `Production.__str__`.
-/
namespace Yargy

variable {P : Type}

/-- The texts of predicates, interpretators and relations: their `label`
(`yargy/predicates/constructors.py:41-43`, `yargy/interpretation/interpretator.py`,
`yargy/relations/constructors.py:21-23`). They are taken as given. -/
structure Labels (P : Type) where
  pred : P → Str
  interp : Nat → Str
  relation : Nat → Str

/-- What `'{name}'.format(name=name)` makes of a name or `None`. -/
def formatted : Option Str → Str
  | none => "None".toList
  | some s => s

/-- `BNFRule.label` (`yargy/rule/bnf.py:61-71`). -/
def bnfLabel (N : Labels P) (name : Option Str) (i r : Option Nat) : Option Str :=
  let name := match i with
    | some x => some (N.interp x)
    | none => name
  match r with
  | some x => some (formatted name ++ '^' :: N.relation x)
  | none => name

/-- `term.label` of a term of a compiled production. A rule without name and interpretator has the label
`None`; rules that are not compiled have none (`yargy/rule/constructors.py:58-59`). -/
def termLabel (N : Labels P) (h : Heap P) : Term P → Except Err (Option Str)
  | .pred p => .ok (some (N.pred p))
  | .rule a =>
    match h[a]? with
    | some (.bnf _ n i r _) => .ok (bnfLabel N n i r)
    | _ => .error .attributeError

/-- An alternative on the right side of a line: the labels of its terms and whether they are marked, or
the letter for the empty one. -/
inductive Alt where
  | terms (ts : List (Bool × Str))
  | empty

/-- The right side of a line: alternatives, or the kind of a gazetteer. -/
inductive Side where
  | alts (as : List Alt)
  | gazetteer (kind : PipeKind)

/-- A line before it is written out. -/
structure Line where
  label : Str
  side : Side

/-- The labels of `Production.__str__` (`yargy/rule/constructors.py:40-47`), from the position given on:
`'^' + None` and `' '.join([None])` raise `TypeError`. -/
def altTerms (N : Labels P) (h : Heap P) (main : Nat) : Nat → List (Term P) → Except Err (List (Bool × Str))
  | _, [] => .ok []
  | index, t :: ts =>
    match termLabel N h t with
    | .error e => .error e
    | .ok none => .error .typeError
    | .ok (some l) => (altTerms N h main (index + 1) ts).map ((decide (0 < main ∧ main = index), l) :: ·)

/-- `str(production)` before it is written out (`yargy/rule/constructors.py:40-47,54-55`); the productions
of gazetteers have no main term (`yargy/pipelines.py:86-91`). -/
def altOf (N : Labels P) (h : Heap P) (p : Nat) : Except Err Alt :=
  match h[p]? with
  | some (.prod ts m) => (altTerms N h m 0 ts).map .terms
  | some (.pipeProd _ ts) => (altTerms N h 0 0 (ts.map .pred)).map .terms
  | some .emptyProd => .ok .empty
  | _ => .error .attributeError

/-- `str(rule)` before it is written out (`yargy/rule/bnf.py:73-78`, `yargy/pipelines.py:36-40`). -/
def grammarLine (N : Labels P) (h : Heap P) (a : Nat) : Except Err Line :=
  match h[a]? with
  | some (.bnf ps n i r none) => (ps.mapM (altOf N h)).map (fun as => ⟨formatted (bnfLabel N n i r), .alts as⟩)
  | some (.bnf _ n i r (some kind)) => .ok ⟨formatted (bnfLabel N n i r), .gazetteer kind⟩
  | _ => .error .attributeError

/-- `isinstance(item, BNFRule)` (`yargy/rule/bnf.py:56`). -/
def isBnfRule (h : Heap P) (a : Nat) : Bool :=
  match h[a]? with
  | some (.bnf _ _ _ _ _) => true
  | _ => false

/-- `BNFRule.as_bnf` (`yargy/rule/bnf.py:54-56,24-28`): the rules, and the heap with all rules named. -/
def bnfRules (pid : Nat → Nat) (start : Nat) (h : Heap P) : List Nat × Heap P :=
  ((walk pid h start).filter (isBnfRule h), generateNames (walk pid h start) 0 h)

/-- `BNF.source` (`yargy/rule/bnf.py:34-37`) before it is written out. -/
def listing (N : Labels P) (pid : Nat → Nat) (start : Nat) (h : Heap P) : Except Err (List Line × Heap P) :=
  let (rules, h1) := bnfRules pid start h
  (rules.mapM (grammarLine N h1)).map (fun ls => (ls, h1))

/-- `separator.join(parts)`. -/
def joined (separator : Str) : List Str → Str
  | [] => []
  | [a] => a
  | a :: b :: rest => a ++ separator ++ joined separator (b :: rest)

/-- The text of an alternative. -/
def Alt.text : Alt → Str
  | .terms ts => joined [' '] (ts.map (fun t => if t.1 then '^' :: t.2 else t.2))
  | .empty => ['e']

/-- `abbr` (`yargy/pipelines.py:17,44,54`). -/
def abbr : PipeKind → Str
  | .exact => "pipeline".toList
  | .caseless => "caseless_pipeline".toList
  | .morph => "morph_pipeline".toList

/-- The text of a line. -/
def Line.text (l : Line) : Str :=
  l.label ++ " -> ".toList ++
    match l.side with
    | .alts as => joined " | ".toList (as.map Alt.text)
    | .gazetteer k => abbr k

end Yargy
