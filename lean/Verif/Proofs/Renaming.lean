import Verif.Spec.Renaming
import Verif.Proofs.Rehash
import Verif.Proofs.Congruence
/-!
Grammars that differ in the numbers of their rules and productions give results that differ in them.
-/
namespace Yargy
open Spec

variable {P T H : Type} {f : Nat → Nat}

theorem renameAll_eq (cs : List (PTree P T)) : renameAll f cs = cs.map (PTree.rename f) := by
  induction cs with
  | nil => rfl
  | cons c cs ih => simp only [renameAll, List.map_cons, ih]

def State.rename (f : Nat → Nat) (s : State P T) : State P T :=
  { s with rule := f s.rule, prod := s.prod.rename f, children := s.children.map (PTree.rename f) }

def Key.rename (f : Nat → Nat) (k : Key) : Key := { k with rule := f k.rule, prod := f k.prod }

theorem Key.rename_inj (hf : ∀ a b, f a = f b → a = b) (k k' : Key) (h : k.rename f = k'.rename f) : k = k' := by
  cases k; cases k'
  simp only [Key.rename, Key.mk.injEq] at h
  obtain ⟨h1, h2, h3⟩ := h
  rw [Key.mk.injEq]
  exact ⟨hf _ _ h1, hf _ _ h2, h3⟩

theorem PTree.oid_rename (t : PTree P T) : (t.rename f).oid = t.oid := by
  cases t <;> simp only [PTree.rename, PTree.oid]

theorem State.key_rename (s : State P T) : (s.rename f).key = s.key.rename f := by
  simp only [State.key, State.rename, Key.rename, Production.rename, List.map_map]
  congr 1
  exact List.map_congr_left fun t _ => t.oid_rename

theorem State.next_rename (s : State P T) : (s.rename f).next = s.next.map (Term.rename f) := by
  simp only [State.next, State.rename, Production.rename, List.getElem?_map]

theorem State.completed_rename (s : State P T) : (s.rename f).completed = s.completed := by
  simp only [State.completed, State.rename, Production.rename, List.length_map]

theorem State.node_rename (s : State P T) : (s.rename f).node = s.node.rename f := by
  simp only [State.node, State.rename, PTree.rename, renameAll_eq]

def Column.rename (f : Nat → Nat) (c : Column P T Key) : Column P T Key :=
  { states := c.states.map (State.rename f), hashes := c.hashes.map (Key.rename f),
    index := c.index.map (fun e => (f e.1, e.2.rename f)) }

def Phase.rename (f : Nat → Nat) : Phase P T → Phase P T
  | .enter => .enter
  | .at i => .at i
  | .complete i s j => .complete i (s.rename f) j
  | .done => .done

def Config.rename (f : Nat → Nat) (c : Config P T Key) : Config P T Key :=
  { cols := c.cols.map (Column.rename f), ctr := c.ctr, k := c.k, phase := c.phase.rename f }

/-- The second grammar is the first with other numbers. -/
structure Renamed (f : Nat → Nat) (G G' : Grammar P T) : Prop where
  start : G'.start = f G.start
  accepts : G'.accepts = G.accepts
  constrain : G'.constrain = G.constrain
  productions : ∀ r, G'.productions (f r) = (G.productions r).map (Production.rename f)
  predict : ∀ r t, G'.predict (f r) t = (G.predict r t).map (Production.rename f)

section
variable (hf : ∀ a b, f a = f b → a = b)
include hf

theorem append_rename (c : Column P T Key) (s : State P T) :
    (c.rename f).append id (s.rename f) = (c.append id s).rename f := by
  unfold Column.append
  have hm : id (s.rename f).key ∈ (c.rename f).hashes ↔ id s.key ∈ c.hashes := by
    rw [id, id, State.key_rename]
    simp only [Column.rename, List.mem_map]
    exact ⟨fun ⟨k, h1, h2⟩ => Key.rename_inj hf _ _ h2 ▸ h1, fun h => ⟨_, h, rfl⟩⟩
  by_cases h : id s.key ∈ c.hashes
  · rw [if_pos h, if_pos (hm.2 h)]
  · rw [if_neg h, if_neg (fun x => h (hm.1 x))]
    unfold Column.updateIndex
    rw [State.next_rename]
    rcases s.next with _ | t
    · simp [Column.rename, State.key_rename]
    · cases t <;> simp [Column.rename, State.key_rename, Term.rename]

theorem appendAt_rename (cols : List (Column P T Key)) (k : Nat) (s : State P T) :
    appendAt id (cols.map (Column.rename f)) k (s.rename f) = (appendAt id cols k s).map (Column.rename f) := by
  unfold appendAt
  induction cols generalizing k with
  | nil => simp
  | cons c cols ih =>
    cases k with
    | zero => simp [append_rename hf]
    | succ k => simp [ih]

theorem predict_rename {G G' : Grammar P T} (hG : Renamed f G G') (toks : List T) (k r : Nat)
    (cols : List (Column P T Key)) (ctr : Nat) :
    predict G' id toks k (f r) (cols.map (Column.rename f)) ctr =
      ((predict G id toks k r cols ctr).1.map (Column.rename f), (predict G id toks k r cols ctr).2) := by
  have e : predicted G' toks k (f r) = (predicted G toks k r).map (Production.rename f) := by
    unfold predicted
    cases toks[k]? with
    | none => exact hG.productions r
    | some t => exact hG.predict r t
  unfold predict
  rw [e, List.zipIdx_map]
  generalize (predicted G toks k r).zipIdx = l
  induction l generalizing cols ctr with
  | nil => rfl
  | cons e l ih =>
    rw [List.map_cons, List.foldl_cons, List.foldl_cons]
    unfold predictOne
    dsimp only
    have e' : (⟨f r, (Prod.map (Production.rename f) id e).1, 0, k, k, ctr,
        (Prod.map (Production.rename f) id e).2, []⟩ : State P T) =
        State.rename f ⟨r, e.1, 0, k, k, ctr, e.2, []⟩ := rfl
    rw [e', appendAt_rename hf]
    exact ih _ _

theorem scan_rename {G G' : Grammar P T} (hG : Renamed f G G') (k : Nat) (p : P) (t : T) (s : State P T)
    (cols : List (Column P T Key)) (ctr : Nat) :
    scan G' id k p t (s.rename f) (cols.map (Column.rename f)) ctr =
      ((scan G id k p t s cols ctr).1.map (Column.rename f), (scan G id k p t s cols ctr).2) := by
  unfold scan
  rw [hG.accepts, hG.constrain]
  split
  · dsimp only
    rw [← appendAt_rename hf]
    congr 2
    simp [State.rename, PTree.rename]
  · rfl

theorem parentsOf_rename (cols : List (Column P T Key)) (s : State P T) :
    parentsOf (cols.map (Column.rename f)) (s.rename f) = (parentsOf cols s).map (State.rename f) := by
  unfold parentsOf
  rw [show (s.rename f).start = s.start from rfl, List.getElem?_map]
  cases cols[s.start]? with
  | none => rfl
  | some c =>
    have e : ((fun e : Nat × State P T => e.1 == (s.rename f).rule) ∘
        fun e : Nat × State P T => (f e.1, e.2.rename f)) = fun e => e.1 == s.rule := by
      funext e
      have : f e.1 = f s.rule ↔ e.1 = s.rule := ⟨hf _ _, fun h => by rw [h]⟩
      rw [Bool.eq_iff_iff]
      simp only [Function.comp, State.rename, beq_iff_eq, this]
    simp only [Option.map_some, Column.parents, Column.rename, List.filter_map, List.map_map, e]
    rfl

theorem step_rename {G G' : Grammar P T} (hG : Renamed f G G') (toks : List T) (all : Bool)
    (c : Config P T Key) : step G' id toks all (c.rename f) = (step G id toks all c).rename f := by
  obtain ⟨cols, ctr, k, phase⟩ := c
  cases phase with
  | done => rfl
  | enter =>
    unfold step Config.rename
    dsimp only [Phase.rename]
    split
    · rw [hG.start, predict_rename hf hG]
    · rfl
  | «at» i =>
    unfold step Config.rename
    dsimp only [Phase.rename]
    have e : ((cols.map (Column.rename f))[k]?).bind (fun col => col.states[i]?) =
        ((cols[k]?).bind (fun col => col.states[i]?)).map (State.rename f) := by
      rw [List.getElem?_map]
      cases cols[k]? with
      | none => rfl
      | some col => simp [Column.rename]
    rw [e, List.length_map]
    cases (cols[k]?).bind (fun col => col.states[i]?) with
    | none =>
      dsimp only [Option.map_none]
      split <;> rfl
    | some s =>
      dsimp only [Option.map_some]
      rw [State.completed_rename, State.next_rename]
      split
      · rfl
      · rcases s.next with _ | t
        · rfl
        · cases t with
          | rule r =>
            dsimp only [Option.map_some, Term.rename]
            rw [predict_rename hf hG]
          | pred p =>
            dsimp only [Option.map_some, Term.rename]
            cases toks[k]? with
            | none => rfl
            | some t =>
              dsimp only
              rw [scan_rename hf hG]
  | complete i s j =>
    unfold step Config.rename
    dsimp only [Phase.rename]
    rw [parentsOf_rename hf, List.getElem?_map]
    cases (parentsOf cols s)[j]? with
    | none => rfl
    | some p =>
      dsimp only [Option.map_some]
      unfold completeOne
      dsimp only
      have e : ({ p.rename f with
            dot := (p.rename f).dot + 1, stop := k, nid := ctr,
            children := (p.rename f).children ++ [(s.rename f).node] } : State P T) =
          State.rename f { p with
            dot := p.dot + 1, stop := k, nid := ctr, children := p.children ++ [s.node] } := by
        simp [State.rename, State.node, PTree.rename, renameAll_eq]
      rw [e, appendAt_rename hf]

theorem runN_rename {G G' : Grammar P T} (hG : Renamed f G G') (toks : List T) (all : Bool) (n : Nat) :
    runN G' id toks all n = (runN G id toks all n).rename f := by
  induction n with
  | zero => simp [runN, initConfig, Config.rename, Column.rename, Column.empty, Phase.rename]
  | succ n ih =>
    rw [runN, ih, step_rename hf hG]
    rfl

theorem chart_rename {G G' : Grammar P T} (hG : Renamed f G G') (toks : List T) (all : Bool) (fuel : Nat) :
    chart G' id toks all fuel = (chart G id toks all fuel).map (List.map (Column.rename f)) := by
  unfold chart
  rw [runN_rename hf hG]
  unfold Config.rename
  dsimp only
  cases (runN G id toks all fuel).phase <;> rfl

theorem matches_rename (c : Column P T Key) (r : Nat) :
    (c.rename f).matches (f r) = (c.matches r).map (State.rename f) := by
  simp only [Column.matches, Column.rename, List.filter_map]
  congr 2
  funext s
  have : f s.rule = f r ↔ s.rule = r := ⟨hf _ _, fun h => by rw [h]⟩
  rw [Bool.eq_iff_iff]
  simp only [Function.comp, Bool.and_eq_true, State.completed_rename, beq_iff_eq]
  rw [show (s.rename f).rule = f s.rule from rfl, this]

theorem chartMatches_rename (start : Nat) (all : Bool) (cols : List (Column P T Key)) :
    chartMatches (f start) all (cols.map (Column.rename f)) =
      (chartMatches start all cols).map (State.rename f) := by
  unfold chartMatches
  split
  · rw [List.flatMap_map, List.map_flatMap]
    simp only [matches_rename hf]
  · rw [List.getLast?_map]
    cases cols.getLast? with
    | none => rfl
    | some c => exact matches_rename hf c start

theorem matchStates_rename {G G' : Grammar P Token} (hG : Renamed f G G') (toks : List Token) (all : Bool)
    (fuel : Nat) :
    matchStates G' id toks all fuel = (matchStates G id toks all fuel).map (List.map (State.rename f)) := by
  unfold matchStates
  rw [chart_rename hf hG, hG.start]
  cases chart G id toks all fuel with
  | none => rfl
  | some cols => exact congrArg some (chartMatches_rename hf _ _ _)

mutual
theorem nodeLt_rename : ∀ (a b : PTree P T), nodeLt (a.rename f) (b.rename f) = nodeLt a b
  | .leaf _ _ _, b => by cases b <;> simp only [PTree.rename, nodeLt]
  | .node _ _ _ _ _, .leaf _ _ _ => by simp only [PTree.rename, nodeLt]
  | .node i r p k cs, .node i' r' p' k' cs' => by
    have : f r ≠ f r' ↔ r ≠ r' := ⟨fun h e => h (by rw [e]), fun h e => h (hf _ _ e)⟩
    simp only [PTree.rename, nodeLt, this, childrenLt_rename cs cs']
theorem childrenLt_rename : ∀ (as bs : List (PTree P T)),
    childrenLt (renameAll f as) (renameAll f bs) = childrenLt as bs
  | [], bs => by cases bs <;> simp only [renameAll, childrenLt]
  | _ :: _, [] => by simp only [renameAll, childrenLt]
  | .leaf _ _ _ :: as, b :: bs => by
    simp only [renameAll, PTree.rename, childrenLt, childrenLt_rename as bs]
  | .node i r p k cs :: as, b :: bs => by
    simp only [renameAll, PTree.rename, childrenLt, PTree.oid_rename, childrenLt_rename as bs]
    cases b with
    | leaf _ _ _ => rfl
    | node i' r' p' k' cs' =>
      have := nodeLt_rename (.node i r p k cs) (.node i' r' p' k' cs')
      simp only [PTree.rename] at this ⊢
      simp only [this]
end

end

theorem treeLt_rename (hf : ∀ a b, f a = f b → a = b) (a b : Tree P T) :
    treeLt (a.rename f) (b.rename f) = treeLt a b := by
  unfold treeLt Tree.rename
  dsimp only
  rw [nodeLt_rename hf]

theorem insertBy_map {α β : Type} {lt : α → α → Except Err Bool} {lt' : β → β → Except Err Bool} {g : α → β}
    (h : ∀ a b, lt' (g a) (g b) = lt a b) (x : α) (l : List α) :
    insertBy lt' (g x) (l.map g) = (insertBy lt x l).map (List.map g) := by
  induction l with
  | nil => rfl
  | cons y l ih =>
    simp only [List.map_cons, insertBy, h, ih]
    cases lt x y with
    | error e => rfl
    | ok b =>
      cases b with
      | true => rfl
      | false => cases insertBy lt x l <;> rfl

theorem sortBy_map {α β : Type} {lt : α → α → Except Err Bool} {lt' : β → β → Except Err Bool} {g : α → β}
    (h : ∀ a b, lt' (g a) (g b) = lt a b) (l : List α) : ∀ (acc : List α),
    sortBy lt' (acc.map g) (l.map g) = (sortBy lt acc l).map (List.map g) := by
  induction l with
  | nil => intro acc; rfl
  | cons x l ih =>
    intro acc
    simp only [List.map_cons, sortBy, insertBy_map h]
    cases insertBy lt x acc with
    | error e => rfl
    | ok acc' => exact ih acc'

mutual
theorem load_rename (σ : Store) : ∀ (t : TTree P), (t.rename f).load σ = (t.load σ).rename f
  | .leaf _ _ _ => by simp only [PTree.rename, PTree.load]
  | .node _ _ _ _ cs => by simp only [PTree.rename, PTree.load, loadAll_rename σ cs]
theorem loadAll_rename (σ : Store) : ∀ (cs : List (TTree P)),
    loadAll σ (renameAll f cs) = renameAll f (loadAll σ cs)
  | [] => by simp only [renameAll, loadAll]
  | c :: cs => by simp only [renameAll, loadAll, load_rename σ c, loadAll_rename σ cs]
end

mutual
theorem prune_rename : ∀ (t : PTree P T), (t.rename f).prune = t.prune.map (PTree.rename f)
  | .leaf _ _ _ => by simp only [PTree.rename, PTree.prune, Option.map_some]
  | .node _ _ _ _ cs => by
    simp only [PTree.rename, PTree.prune, pruneAll_rename cs]
    cases h : pruneAll cs with
    | nil => simp only [renameAll, Option.map_none]
    | cons c cs' => simp only [renameAll, Option.map_some, PTree.rename]
theorem pruneAll_rename : ∀ (cs : List (PTree P T)), pruneAll (renameAll f cs) = renameAll f (pruneAll cs)
  | [] => by simp only [renameAll, pruneAll]
  | c :: cs => by
    simp only [renameAll, pruneAll, prune_rename c, pruneAll_rename cs]
    cases c.prune <;> simp only [Option.map_none, Option.map_some, renameAll]
end

mutual
theorem walk_rename : ∀ (t : PTree P T), (t.rename f).walk = t.walk.map (PTree.rename f)
  | .leaf _ _ _ => by simp only [PTree.rename, PTree.walk, List.map_cons, List.map_nil]
  | .node _ _ _ _ cs => by simp only [PTree.rename, PTree.walk, List.map_cons, walkAll_rename cs]
theorem walkAll_rename : ∀ (cs : List (PTree P T)), walkAll (renameAll f cs) = (walkAll cs).map (PTree.rename f)
  | [] => by simp only [renameAll, walkAll, List.map_nil]
  | c :: cs => by simp only [renameAll, walkAll, walk_rename c, walkAll_rename cs, List.map_append]
end

theorem leaves_rename (t : PTree P T) : (t.rename f).leaves = t.leaves := by
  unfold PTree.leaves
  rw [walk_rename, List.filterMap_map]
  congr 1
  funext t
  cases t <;> simp only [Function.comp, PTree.rename, PTree.leaf?]

mutual
theorem main_rename : ∀ (t : PTree P T), (t.rename f).main = t.main
  | .leaf _ _ _ => by simp only [PTree.rename, PTree.main]
  | .node _ _ p _ cs => by
    simp only [PTree.rename, PTree.main]
    exact mainAt_rename cs p.main
theorem mainAt_rename : ∀ (cs : List (PTree P T)) (n : Nat), mainAt (renameAll f cs) n = mainAt cs n
  | [], n => by simp only [renameAll, mainAt]
  | c :: cs, 0 => by simp only [renameAll, mainAt, main_rename c]
  | c :: cs, n + 1 => by simp only [renameAll, mainAt, mainAt_rename cs n]
end

/-- The relations of the renamed rules. -/
structure RenamedAgreement (f : Nat → Nat) (A A' : Agreement) : Prop where
  relationOf : ∀ r, A'.relationOf (f r) = A.relationOf r
  relation : A'.relation = A.relation

variable {A A' : Agreement}

theorem treeRelations_rename (hA : RenamedAgreement f A A') (t : TTree P) :
    treeRelations A' (t.rename f) = treeRelations A t := by
  unfold treeRelations
  rw [walk_rename, List.foldlM_map]
  congr 1
  funext g x
  cases x with
  | leaf i p w => simp only [PTree.rename, visitRelation]
  | node i r p k cs =>
    have := main_rename (f := f) (.node i r p k cs)
    simp only [PTree.rename] at this
    simp only [PTree.rename, visitRelation, hA.relationOf, this]

theorem treeConstrain_rename (g : RelGraph) (t : TTree P) (σ : Store) :
    treeConstrain g (t.rename f) σ = treeConstrain g t σ := by
  unfold treeConstrain
  rw [leaves_rename]

theorem prepareMatch_rename (hA : RenamedAgreement f A A') (σ : Store) (t : Tree P Token) :
    prepareMatch A' σ (t.rename f) = (prepareMatch A σ t).map (renameOne f) := by
  unfold prepareMatch Tree.rename
  dsimp only
  rw [load_rename, prune_rename]
  cases (t.root.load σ).prune with
  | none => rfl
  | some root =>
    simp only [Option.map_some, treeRelations_rename hA, hA.relation, treeConstrain_rename, load_rename, leaves_rename]
    cases treeRelations A root with
    | error e => rfl
    | ok graph =>
      simp only [bind, Except.bind]
      split
      · cases treeConstrain (graph.validate A.relation).1 root σ with
        | error e => rfl
        | ok σ' =>
          simp only
          cases tokensSpan ((root.load σ').leaves.map Prod.snd) with
          | error e => rfl
          | ok span => rfl
      · rfl

theorem prepareMatches_rename (hA : RenamedAgreement f A A') : ∀ (ts : List (Tree P Token)) (σ : Store),
    prepareMatches A' σ (ts.map (Tree.rename f)) = renameExtract f (prepareMatches A σ ts) := by
  intro ts
  induction ts with
  | nil => intro σ; rfl
  | cons t ts ih =>
    intro σ
    simp only [List.map_cons, prepareMatches, prepareMatch_rename hA]
    cases prepareMatch A σ t with
    | error e => rfl
    | ok x =>
      obtain ⟨m, σ'⟩ := x
      cases m with
      | none => exact ih σ'
      | some m =>
        simp only [Except.map, renameOne, Option.map_some, ih]
        rfl

def renameFound (f : Nat → Nat) (x : List ((Nat × Nat) × Match P) × Store) :
    List ((Nat × Nat) × Match P) × Store := (x.1.map (fun e => (e.1, e.2.rename f)), x.2)

theorem collectMatches_rename (hA : RenamedAgreement f A A') : ∀ (ts : List (Tree P Token)) (σ : Store)
    (acc : List ((Nat × Nat) × Match P)),
    collectMatches A' σ (acc.map (fun e => (e.1, e.2.rename f))) (ts.map (Tree.rename f)) =
      (collectMatches A σ acc ts).map (renameFound f) := by
  intro ts
  induction ts with
  | nil => intro σ acc; rfl
  | cons t ts ih =>
    intro σ acc
    simp only [List.map_cons, collectMatches, prepareMatch_rename hA, List.any_map]
    rw [show ((fun e : (Nat × Nat) × Match P => e.1 == (t.rename f).range) ∘
      fun e : (Nat × Nat) × Match P => (e.1, e.2.rename f)) = fun e => e.1 == t.range from rfl]
    split
    · exact ih σ acc
    · cases prepareMatch A σ t with
      | error e => rfl
      | ok x =>
        obtain ⟨m, σ'⟩ := x
        cases m with
        | none => exact ih σ' acc
        | some m =>
          have := ih σ' (acc ++ [(t.range, m)])
          rw [List.map_append] at this
          exact this

theorem resolvedMatches_rename (hA : RenamedAgreement f A A') (σ : Store) (ts : List (Tree P Token)) :
    resolvedMatches A' σ (ts.map (Tree.rename f)) = (resolvedMatches A σ ts).map (renameAllMatches f) := by
  unfold resolvedMatches
  have := collectMatches_rename hA ts σ []
  rw [List.map_nil] at this
  rw [this]
  cases collectMatches A σ [] ts with
  | error e => rfl
  | ok x =>
    obtain ⟨acc, σ'⟩ := x
    simp only [Except.map, renameFound, bind, Except.bind, pure, Except.pure, renameAllMatches, List.map_map]
    congr 2
    rw [show (Prod.fst ∘ fun e : (Nat × Nat) × Match P => (e.1, e.2.rename f)) = Prod.fst from rfl,
      List.map_filterMap]
    congr 1
    funext s
    rw [List.find?_map]
    rw [show ((fun e : (Nat × Nat) × Match P => e.1 == s) ∘
      fun e : (Nat × Nat) × Match P => (e.1, e.2.rename f)) = fun e => e.1 == s from rfl]
    cases acc.find? (fun e => e.1 == s) <;> rfl

theorem firstMatch_rename (hA : RenamedAgreement f A A') : ∀ (ts : List (Tree P Token)) (σ : Store),
    firstMatch A' σ (ts.map (Tree.rename f)) = (firstMatch A σ ts).map (renameOne f) := by
  intro ts
  induction ts with
  | nil => intro σ; rfl
  | cons t ts ih =>
    intro σ
    simp only [List.map_cons, firstMatch, prepareMatch_rename hA]
    cases prepareMatch A σ t with
    | error e => rfl
    | ok x =>
      obtain ⟨m, σ'⟩ := x
      cases m with
      | none => exact ih σ'
      | some m => rfl

theorem prepareTrees_rename (ss : List (State P T)) :
    prepareTrees (ss.map (State.rename f)) = (prepareTrees ss).map (Tree.rename f) := by
  simp only [prepareTrees, List.map_map]
  congr 1
  funext s
  simp only [Function.comp, State.node_rename, Tree.rename]
  rfl


/-! ### Grammars that agree on the rules that can be reached -/

/-- The second grammar is the first with other numbers, as far as a closed set of rules goes. -/
structure RenamedOn (S : Nat → Prop) (f : Nat → Nat) (G G' : Grammar P T) : Prop where
  start : G'.start = f G.start
  root : S G.start
  accepts : G'.accepts = G.accepts
  constrain : G'.constrain = G.constrain
  productions : ∀ r, S r → G'.productions (f r) = (G.productions r).map (Production.rename f)
  predict : ∀ r t, S r → G'.predict (f r) t = (G.predict r t).map (Production.rename f)
  closed : ∀ r, S r → ∀ p ∈ G.productions r, ∀ x, .rule x ∈ p.terms → S x
  closed' : ∀ r t, S r → ∀ p ∈ G.predict r t, ∀ x, .rule x ∈ p.terms → S x

open Classical in
/-- Only the rules of a set have productions. -/
noncomputable def Grammar.cut (S : Nat → Prop) (G : Grammar P T) : Grammar P T :=
  { G with rules := G.rules.zipIdx.map (fun e => if S e.2 then e.1 else ⟨[], fun _ => []⟩) }

theorem cut_get {S : Nat → Prop} (G : Grammar P T) (r : Nat) :
    (S r → (G.cut S).rules[r]? = G.rules[r]?) ∧
      (¬ S r → (G.cut S).rules[r]? = none ∨ (G.cut S).rules[r]? = some ⟨[], fun _ => []⟩) := by
  simp only [Grammar.cut, List.getElem?_map, List.getElem?_zipIdx]
  cases G.rules[r]? with
  | none => simp
  | some x => simp only [Option.map_some, Nat.zero_add]; exact ⟨fun h => by rw [if_pos h], fun h => by rw [if_neg h]; exact .inr rfl⟩

theorem cut_productions {S : Nat → Prop} (G : Grammar P T) (r : Nat) :
    (S r → (G.cut S).productions r = G.productions r) ∧ (¬ S r → (G.cut S).productions r = []) := by
  unfold Grammar.productions
  refine ⟨fun h => by rw [(cut_get G r).1 h], fun h => ?_⟩
  rcases (cut_get G r).2 h with e | e <;> rw [e]

theorem cut_predict {S : Nat → Prop} (G : Grammar P T) (r : Nat) (t : T) :
    (S r → (G.cut S).predict r t = G.predict r t) ∧ (¬ S r → (G.cut S).predict r t = []) := by
  unfold Grammar.predict
  refine ⟨fun h => by rw [(cut_get G r).1 h], fun h => ?_⟩
  rcases (cut_get G r).2 h with e | e <;> rw [e]

/-- The numbers of the renamed rules. -/
def Renames (S : Nat → Prop) (f : Nat → Nat) (r : Nat) : Prop := ∃ x, S x ∧ f x = r

theorem rename_terms {p q : Production P} (e : q = p.rename f) {x : Nat} (h : .rule x ∈ q.terms) :
    ∃ y, .rule y ∈ p.terms ∧ f y = x := by
  subst e
  simp only [Production.rename] at h
  obtain ⟨t, ht, e⟩ := List.mem_map.1 h
  cases t with
  | pred p => cases e
  | rule y => cases e; exact ⟨y, ht, rfl⟩

variable {S : Nat → Prop} {G G' : Grammar P T}

theorem RenamedOn.same (h : RenamedOn S f G G') : SameOn S G (G.cut S) where
  start := rfl
  root := h.root
  accepts := rfl
  constrain := rfl
  productions r hr := (cut_productions G r).1 hr
  predict r t hr := (cut_predict G r t).1 hr
  closed := h.closed
  closed' := h.closed'

theorem RenamedOn.same' (h : RenamedOn S f G G') : SameOn (Renames S f) G' (G'.cut (Renames S f)) where
  start := rfl
  root := ⟨_, h.root, h.start.symm⟩
  accepts := rfl
  constrain := rfl
  productions r hr := (cut_productions G' r).1 hr
  predict r t hr := (cut_predict G' r t).1 hr
  closed := by
    rintro r ⟨r, hr, rfl⟩ p hp x hx
    rw [h.productions r hr] at hp
    obtain ⟨q, hq, e⟩ := List.mem_map.1 hp
    obtain ⟨y, hy, rfl⟩ := rename_terms e.symm hx
    exact ⟨y, h.closed r hr q hq y hy, rfl⟩
  closed' := by
    rintro r t ⟨r, hr, rfl⟩ p hp x hx
    rw [h.predict r t hr] at hp
    obtain ⟨q, hq, e⟩ := List.mem_map.1 hp
    obtain ⟨y, hy, rfl⟩ := rename_terms e.symm hx
    exact ⟨y, h.closed' r t hr q hq y hy, rfl⟩

theorem RenamedOn.renamed (hf : ∀ a b, f a = f b → a = b) (h : RenamedOn S f G G') :
    Renamed f (G.cut S) (G'.cut (Renames S f)) where
  start := h.start
  accepts := h.accepts
  constrain := h.constrain
  productions r := by
    by_cases hr : S r
    · rw [(cut_productions G' (f r)).1 ⟨r, hr, rfl⟩, (cut_productions G r).1 hr, h.productions r hr]
    · rw [(cut_productions G r).2 hr, (cut_productions G' (f r)).2]
      · rfl
      · rintro ⟨x, hx, e⟩
        exact hr (hf _ _ e ▸ hx)
  predict r t := by
    by_cases hr : S r
    · rw [(cut_predict G' (f r) t).1 ⟨r, hr, rfl⟩, (cut_predict G r t).1 hr, h.predict r t hr]
    · rw [(cut_predict G r t).2 hr, (cut_predict G' (f r) t).2]
      · rfl
      · rintro ⟨x, hx, e⟩
        exact hr (hf _ _ e ▸ hx)

/-- The relations of the renamed rules of a set. -/
structure RenamedAgreementOn (S : Nat → Prop) (f : Nat → Nat) (A A' : Agreement) : Prop where
  relationOf : ∀ r, S r → A'.relationOf (f r) = A.relationOf r
  relation : A'.relation = A.relation

open Classical in
noncomputable def Agreement.cut (S : Nat → Prop) (A : Agreement) : Agreement :=
  { A with relationOf := fun r => if S r then A.relationOf r else none }

theorem Agreement.cut_same : SameAgreement S A (A.cut S) :=
  ⟨fun r hr => by simp only [Agreement.cut, if_pos hr], rfl⟩

theorem RenamedAgreementOn.renamed (hf : ∀ a b, f a = f b → a = b) (h : RenamedAgreementOn S f A A') :
    RenamedAgreement f (A.cut S) (A'.cut (Renames S f)) where
  relation := h.relation
  relationOf r := by
    by_cases hr : S r
    · simp only [Agreement.cut, if_pos hr, if_pos (show Renames S f (f r) from ⟨r, hr, rfl⟩)]
      exact h.relationOf r hr
    · have : ¬ Renames S f (f r) := by
        rintro ⟨x, hx, e⟩
        exact hr (hf _ _ e ▸ hx)
      simp only [Agreement.cut, if_neg hr, if_neg this]

section
variable {H H' : Type} [DecidableEq H] [DecidableEq H'] {hash : Key → H} {hash' : Key → H'}
  {G G' : Grammar P Token} {toks : List Token}

theorem matchStates_rehash (hh : ∀ a b, hash a = hash b → a = b) (all : Bool) (fuel : Nat) :
    matchStates G hash toks all fuel = matchStates G id toks all fuel := by
  unfold matchStates
  rw [chart_rehash hh]
  cases chart G id toks all fuel with
  | none => rfl
  | some cols => exact congrArg some (chartMatches_rehash _ _ _)

theorem matchStates_renamed (hf : ∀ a b, f a = f b → a = b) (hh : ∀ a b, hash a = hash b → a = b)
    (hh' : ∀ a b, hash' a = hash' b → a = b) (hG : RenamedOn S f G G') (all : Bool) (fuel : Nat) :
    matchStates G' hash' toks all fuel =
      (matchStates G hash toks all fuel).map (List.map (State.rename f)) := by
  rw [← matchStates_sameOn hG.same', ← matchStates_sameOn hG.same, matchStates_rehash hh,
    matchStates_rehash hh', matchStates_rename hf (hG.renamed hf)]

/-- `Parser.extract` gives the same, with other numbers. -/
theorem extract_renamed (hf : ∀ a b, f a = f b → a = b) (hh : ∀ a b, hash a = hash b → a = b)
    (hh' : ∀ a b, hash' a = hash' b → a = b) (hG : RenamedOn S f G G') (hA : RenamedAgreementOn S f A A')
    (all : Bool) (fuel : Nat) :
    extract G' A' hash' toks all fuel = (extract G A hash toks all fuel).map (renameExtract f) := by
  rw [← extract_sameOn hG.same' Agreement.cut_same, ← extract_sameOn hG.same Agreement.cut_same]
  unfold extract
  rw [matchStates_rehash hh, matchStates_rehash hh', matchStates_rename hf (hG.renamed hf)]
  cases matchStates (G.cut S) id toks all fuel with
  | none => rfl
  | some ss =>
    simp only [Option.map_some, prepareTrees_rename]
    rw [prepareMatches_rename (hA.renamed hf)]

theorem sorted_rename (hf : ∀ a b, f a = f b → a = b) (ts : List (Tree P T)) :
    sortBy treeLt [] (ts.map (Tree.rename f)) = (sortBy treeLt [] ts).map (List.map (Tree.rename f)) := by
  have := sortBy_map (treeLt_rename (P := P) (T := T) hf) ts []
  exact this

/-- `Parser.findall` gives the same, with other numbers. -/
theorem findall_renamed (hf : ∀ a b, f a = f b → a = b) (hh : ∀ a b, hash a = hash b → a = b)
    (hh' : ∀ a b, hash' a = hash' b → a = b) (hG : RenamedOn S f G G') (hA : RenamedAgreementOn S f A A')
    (fuel : Nat) :
    findall G' A' hash' toks fuel =
      (findall G A hash toks fuel).map (Except.map (renameAllMatches f)) := by
  rw [← findall_sameOn hG.same' Agreement.cut_same, ← findall_sameOn hG.same Agreement.cut_same]
  unfold findall
  rw [matchStates_rehash hh, matchStates_rehash hh', matchStates_rename hf (hG.renamed hf)]
  cases matchStates (G.cut S) id toks true fuel with
  | none => rfl
  | some ss =>
    simp only [Option.map_some, prepareTrees_rename, sorted_rename hf]
    congr 1
    cases sortBy treeLt [] (prepareTrees ss) with
    | error e => rfl
    | ok ts => exact resolvedMatches_rename (hA.renamed hf) Store.init ts

/-- `Parser.match` gives the same, with other numbers. -/
theorem matchText_renamed (hf : ∀ a b, f a = f b → a = b) (hh : ∀ a b, hash a = hash b → a = b)
    (hh' : ∀ a b, hash' a = hash' b → a = b) (hG : RenamedOn S f G G') (hA : RenamedAgreementOn S f A A')
    (fuel : Nat) :
    matchText G' A' hash' toks fuel = (matchText G A hash toks fuel).map (Except.map (renameOne f)) := by
  rw [← matchText_sameOn hG.same' Agreement.cut_same, ← matchText_sameOn hG.same Agreement.cut_same]
  unfold matchText
  rw [matchStates_rehash hh, matchStates_rehash hh', matchStates_rename hf (hG.renamed hf)]
  cases matchStates (G.cut S) id toks false fuel with
  | none => rfl
  | some ss =>
    simp only [Option.map_some, prepareTrees_rename, sorted_rename hf]
    congr 1
    cases sortBy treeLt [] (prepareTrees ss) with
    | error e => rfl
    | ok ts => exact firstMatch_rename (hA.renamed hf) ts Store.init

end

end Yargy
