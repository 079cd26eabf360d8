import Verif.Model.Tree
import Verif.Model.Span
/-!
From chart states to matches: `extract`, `findall`, `find`, `match` of `yargy/parser.py`.
-/
namespace Yargy

variable {P H : Type}

/-- `Match` (`yargy/parser.py:176-182`): the tree (whose leaves may be overwritten later) and what
was read from it when the match was made. -/
structure Match (P : Type) where
  tree : Tree P Token
  tokens : List Token
  span : Nat × Nat

/-- `prepare_match` (`yargy/parser.py:202-207`). A tree without tokens becomes `Tree(None, …)`;
walking it hands `None` to `Visitor.visit` (`yargy/visitor.py:5-13`), which raises `ValueError`. -/
def prepareMatch (A : Agreement) (σ : Store) (tree : Tree P Token) :
    Except Err (Option (Match P) × Store) :=
  match (tree.root.load σ).prune with
  | none => .error .valueError
  | some root => do
    let graph ← treeRelations A root
    let v := graph.validate A.relation
    if v.2 then do
      let σ' ← treeConstrain v.1 root σ
      let tokens := (root.load σ').leaves.map Prod.snd
      let span ← tokensSpan tokens
      return (some ⟨⟨root, tree.range⟩, tokens, span⟩, σ')
    else return (none, σ)

/-- `prepare_matches` (`yargy/parser.py:210-214`) consumed to its end: the matches yielded, the
final store, and the exception that ended the loop, if any. -/
def prepareMatches (A : Agreement) : Store → List (Tree P Token) →
    List (Match P) × Store × Option Err
  | σ, [] => ([], σ, none)
  | σ, t :: ts =>
    match prepareMatch A σ t with
    | .error e => ([], σ, some e)
    | .ok (none, σ') => prepareMatches A σ' ts
    | .ok (some m, σ') =>
      let rest := prepareMatches A σ' ts
      (m :: rest.1, rest.2)

/-- The first loop of `prepare_resolved_matches` (`yargy/parser.py:218-226`): `span_matches` in
insertion order; its keys are `spans`. -/
def collectMatches (A : Agreement) : Store → List ((Nat × Nat) × Match P) → List (Tree P Token) →
    Except Err (List ((Nat × Nat) × Match P) × Store)
  | σ, acc, [] => .ok (acc, σ)
  | σ, acc, t :: ts =>
    if acc.any (fun e => e.1 == t.range) then collectMatches A σ acc ts
    else
      match prepareMatch A σ t with
      | .error e => .error e
      | .ok (none, σ') => collectMatches A σ' acc ts
      | .ok (some m, σ') => collectMatches A σ' (acc ++ [(t.range, m)]) ts

/-- `prepare_resolved_matches` (`yargy/parser.py:217-229`). -/
def resolvedMatches (A : Agreement) (σ : Store) (trees : List (Tree P Token)) :
    Except Err (List (Match P) × Store) := do
  let r ← collectMatches A σ [] trees
  let spans := r.1.map Prod.fst
  return ((resolveSpans spans).filterMap (fun s => (r.1.find? (fun e => e.1 == s)).map Prod.snd), r.2)

section
variable [DecidableEq H] (G : Grammar P Token) (A : Agreement) (hash : Key → H) (toks : List Token)

/-- `Parser.matches` (`yargy/parser.py:275-281`) on the tokens of the text; `none` while the chart
loop is still running. -/
def matchStates (all : Bool) (fuel : Nat) : Option (List (State P Token)) :=
  (chart G hash toks all fuel).map (chartMatches G.start all)

/-- `Parser.extract` (`yargy/parser.py:283-286`), consumed to its end. -/
def extract (all : Bool) (fuel : Nat) : Option (List (Match P) × Store × Option Err) :=
  (matchStates G hash toks all fuel).map (fun ss => prepareMatches A Store.init (prepareTrees ss))

/-- `Parser.findall` (`yargy/parser.py:288-292`). -/
def findall (fuel : Nat) : Option (Except Err (List (Match P) × Store)) :=
  (matchStates G hash toks true fuel).map (fun ss => do
    let trees ← sortBy treeLt [] (prepareTrees ss)
    resolvedMatches A Store.init trees)

/-- `Parser.find` (`yargy/parser.py:294-296`). -/
def find (fuel : Nat) : Option (Except Err (Option (Match P))) :=
  (findall G A hash toks fuel).map (fun r => r.map (fun x => x.1.head?))

/-- The loop of `Parser.match` (`yargy/parser.py:302-303`): the first match, and the store. -/
def firstMatch (A : Agreement) : Store → List (Tree P Token) → Except Err (Option (Match P) × Store)
  | σ, [] => .ok (none, σ)
  | σ, t :: ts =>
    match prepareMatch A σ t with
    | .error e => .error e
    | .ok (none, σ') => firstMatch A σ' ts
    | .ok (some m, σ') => .ok (some m, σ')

/-- `Parser.match` (`yargy/parser.py:298-303`). -/
def matchText (fuel : Nat) : Option (Except Err (Option (Match P) × Store)) :=
  (matchStates G hash toks false fuel).map (fun ss => do
    let trees ← sortBy treeLt [] (prepareTrees ss)
    firstMatch A Store.init trees)

end

end Yargy
