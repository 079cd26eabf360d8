import Verif.Model.Parser
import Verif.Proofs.EarleySound
import Verif.Proofs.TreeBasics
/-!
Two grammars that agree on the rules that can be reached from the start rule give the same results.
-/
namespace Yargy
open Spec

variable {P T H : Type}

/-- All nodes of a tree belong to rules of the set. -/
def Within (S : Nat → Prop) (t : PTree P T) : Prop :=
  ∀ i r p k cs, Sub (.node i r p k cs) t → S r

theorem Within.leaf {S : Nat → Prop} {i : Nat} {p : P} {t : T} : Within S (.leaf i p t) := by
  intro _ _ _ _ _ h; cases h

theorem Within.node {S : Nat → Prop} {i r k : Nat} {p : Production P} {cs : List (PTree P T)} (hr : S r)
    (hcs : ∀ c ∈ cs, Within S c) : Within S (.node i r p k cs) := by
  intro i' r' p' k' cs' h
  cases h with
  | refl => exact hr
  | child h1 h2 => exact hcs _ h1 _ _ _ _ _ h2

theorem Within.parts {S : Nat → Prop} {i r k : Nat} {p : Production P} {cs : List (PTree P T)}
    (h : Within S (.node i r p k cs)) : S r ∧ ∀ c ∈ cs, Within S c :=
  ⟨h _ _ _ _ _ .refl, fun _ hc _ _ _ _ _ hs => h _ _ _ _ _ (.child hc hs)⟩

/-- Two grammars with the same rules in a set that contains the start rule and is closed. -/
structure SameOn (S : Nat → Prop) (G G' : Grammar P T) : Prop where
  start : G'.start = G.start
  root : S G.start
  accepts : G'.accepts = G.accepts
  constrain : G'.constrain = G.constrain
  productions : ∀ r, S r → G'.productions r = G.productions r
  predict : ∀ r t, S r → G'.predict r t = G.predict r t
  closed : ∀ r, S r → ∀ p ∈ G.productions r, ∀ x, .rule x ∈ p.terms → S x
  closed' : ∀ r t, S r → ∀ p ∈ G.predict r t, ∀ x, .rule x ∈ p.terms → S x

structure FineState (S : Nat → Prop) (s : State P T) : Prop where
  rule : S s.rule
  terms : ∀ x, .rule x ∈ s.prod.terms → S x
  children : ∀ c ∈ s.children, Within S c

structure FineCols (S : Nat → Prop) (cols : List (Column P T H)) : Prop where
  states : ∀ k s, InCol cols k s → FineState S s
  index : ∀ (k : Nat) (col : Column P T H), cols[k]? = some col → ∀ e ∈ col.index, FineState S e.2

structure FineConfig (S : Nat → Prop) (c : Config P T H) : Prop where
  cols : FineCols S c.cols
  phase : ∀ i s j, c.phase = .complete i s j → FineState S s

section
variable [DecidableEq H] {S : Nat → Prop} {G G' : Grammar P T} {hash : Key → H} {toks : List T} {all : Bool}

theorem FineCols.append {cols : List (Column P T H)} (h : FineCols S cols) {k : Nat} {s : State P T}
    (hs : FineState S s) : FineCols S (appendAt hash cols k s) := by
  refine ⟨?_, ?_⟩
  · intro k' s' h'
    rcases inCol_appendAt h' with h1 | ⟨rfl, rfl⟩
    · exact h.states _ _ h1
    · exact hs
  · intro k' col hcol e he
    rw [appendAt_get?] at hcol
    split at hcol
    · obtain ⟨c0, h3, rfl⟩ := Option.map_eq_some_iff.1 hcol
      rcases append_index_mem he with h4 | ⟨h4, _⟩
      · exact h.index _ _ h3 e h4
      · rw [h4]; exact hs
    · exact h.index _ _ hcol e he

theorem predicted_fine (hG : SameOn S G G') {k r : Nat} (hr : S r) :
    predicted G' toks k r = predicted G toks k r ∧
      ∀ p ∈ predicted G toks k r, ∀ x, .rule x ∈ p.terms → S x := by
  unfold predicted
  cases toks[k]? with
  | none => exact ⟨hG.productions r hr, hG.closed r hr⟩
  | some t => exact ⟨hG.predict r t hr, hG.closed' r t hr⟩

theorem FineCols.predict (hG : SameOn S G G') {cols : List (Column P T H)} (h : FineCols S cols)
    {k r ctr : Nat} (hr : S r) : FineCols S (Yargy.predict G hash toks k r cols ctr).1 :=
  predict_induct (M := fun cols _ => FineCols S cols) G hash toks k r cols ctr h
    (fun _ _ prod _ hp hc => hc.append
      ⟨hr, (predicted_fine (G' := G') (toks := toks) hG hr).2 prod (List.mem_of_getElem? hp),
        fun _ h => nomatch h⟩)

theorem next_mem {s : State P T} {x : Term P} (h : s.next = some x) : x ∈ s.prod.terms :=
  List.mem_of_getElem? h

theorem FineState.node {s : State P T} (h : FineState S s) : Within S s.node :=
  .node h.rule h.children

theorem fine_trans (hG : SameOn S G G') (c c' : Config P T H) (ht : Trans G hash toks all c c')
    (h : FineConfig S c) : FineConfig S c' := by
  cases ht with
  | enterPredict => exact ⟨h.cols.predict hG hG.root, by simp⟩
  | enterSkip => exact ⟨h.cols, by simp⟩
  | nextColumn => exact ⟨h.cols, by simp⟩
  | finish => exact ⟨h.cols, by simp⟩
  | startComplete hc hs =>
    refine ⟨h.cols, ?_⟩
    intro i' s' j' he
    simp only [Phase.complete.injEq] at he
    obtain ⟨_, rfl, _⟩ := he
    exact h.cols.states _ _ (inCol_of_get hc hs)
  | predictRule hc hs hn =>
    exact ⟨h.cols.predict hG ((h.cols.states _ _ (inCol_of_get hc hs)).terms _ (next_mem hn)), by simp⟩
  | scanAccept hc hs hn =>
    have hf := h.cols.states _ _ (inCol_of_get hc hs)
    refine ⟨h.cols.append ⟨hf.rule, hf.terms, ?_⟩, by simp⟩
    intro c hc
    rcases List.mem_append.1 hc with hc | hc
    · exact hf.children c hc
    · rw [List.mem_singleton] at hc; subst hc; exact .leaf
  | scanReject => exact ⟨h.cols, by simp⟩
  | @completeNext cols ctr k i s j p hp =>
    have hs := h.phase i s j rfl
    have hf : FineState S p := by
      have hp := List.mem_of_getElem? hp
      unfold parentsOf at hp
      split at hp
      · rename_i c hc
        unfold Column.parents at hp
        obtain ⟨e, he, rfl⟩ := List.mem_map.1 hp
        exact h.cols.index _ _ hc e (List.mem_filter.1 he).1
      · simp at hp
    refine ⟨h.cols.append ⟨hf.rule, hf.terms, ?_⟩, ?_⟩
    · intro c hc
      rcases List.mem_append.1 hc with hc | hc
      · exact hf.children c hc
      · rw [List.mem_singleton] at hc; subst hc; exact hs.node
    · intro i' s' j' he
      simp only [Phase.complete.injEq] at he
      obtain ⟨_, rfl, _⟩ := he
      exact hs
  | completeEnd => exact ⟨h.cols, by simp⟩
  | done => exact ⟨h.cols, by simp⟩

theorem step_same (hG : SameOn S G G') {c : Config P T H} (h : FineConfig S c) :
    step G' hash toks all c = step G hash toks all c := by
  have hpred : ∀ r k cols ctr, S r →
      Yargy.predict G' hash toks k r cols ctr = Yargy.predict G hash toks k r cols ctr := by
    intro r k cols ctr hr
    unfold Yargy.predict
    rw [(predicted_fine hG hr).1]
  obtain ⟨cols, ctr, k, ph⟩ := c
  unfold step
  cases ph with
  | done => rfl
  | enter => simp only [hG.start, hpred _ _ _ _ hG.root]
  | complete i s j => rfl
  | «at» i =>
    dsimp only
    cases hs : (cols[k]?).bind (fun col => col.states[i]?) with
    | none => rfl
    | some s =>
      dsimp only
      rw [Option.bind_eq_some_iff] at hs
      obtain ⟨col, hc, hs⟩ := hs
      cases hn : s.next with
      | none => rfl
      | some x =>
        cases x with
        | rule r =>
          simp only [hpred _ _ _ _ ((h.cols.states _ _ (inCol_of_get hc hs)).terms _ (next_mem hn))]
        | pred p => simp only [scan, hG.accepts, hG.constrain]

theorem runN_sameOn (hG : SameOn S G G') (n : Nat) :
    runN G' hash toks all n = runN G hash toks all n ∧ FineConfig S (runN G hash toks all n) := by
  induction n with
  | zero =>
    refine ⟨rfl, ⟨?_, ?_⟩, by simp [runN, initConfig]⟩
    · rintro k s ⟨c, hc, hs⟩
      have := List.mem_of_getElem? hc
      simp only [runN, initConfig, List.mem_replicate] at this
      rw [this.2] at hs; simp [Column.empty] at hs
    · intro k c hc e he
      have := List.mem_of_getElem? hc
      simp only [runN, initConfig, List.mem_replicate] at this
      rw [this.2] at he; simp [Column.empty] at he
  | succ n ih =>
    refine ⟨?_, fine_trans hG _ _ (step_trans G hash toks all _) ih.2⟩
    show step G' hash toks all (runN G' hash toks all n) = step G hash toks all (runN G hash toks all n)
    rw [ih.1, step_same hG ih.2]

theorem chart_sameOn (hG : SameOn S G G') (fuel : Nat) :
    chart G' hash toks all fuel = chart G hash toks all fuel := by
  unfold chart
  rw [(runN_sameOn hG fuel).1]

end

section
variable [DecidableEq H] {S : Nat → Prop} {G G' : Grammar P Token} {A A' : Agreement} {hash : Key → H}
  {toks : List Token}

theorem matchStates_sameOn (hG : SameOn S G G') (all : Bool) (fuel : Nat) :
    matchStates G' hash toks all fuel = matchStates G hash toks all fuel := by
  unfold matchStates
  rw [chart_sameOn hG, hG.start]

theorem matchStates_within (hG : SameOn S G G') {all : Bool} {fuel : Nat} {ss : List (State P Token)}
    (h : matchStates G hash toks all fuel = some ss) : ∀ s ∈ ss, Within S s.node := by
  unfold matchStates at h
  obtain ⟨cols, hc, rfl⟩ := Option.map_eq_some_iff.1 h
  have hf := (runN_sameOn (hash := hash) (toks := toks) (all := all) hG fuel).2
  have hcols : FineCols S cols := by
    unfold chart at hc
    split at hc
    · cases hc; exact hf.cols
    · cases hc
  have mem : ∀ col ∈ cols, ∀ s ∈ col.matches G.start, Within S s.node := by
    intro col hcol s hs
    obtain ⟨k, hk⟩ := List.mem_iff_getElem?.1 hcol
    exact (hcols.states k s ⟨col, hk, (List.mem_filter.1 hs).1⟩).node
  intro s hs
  unfold chartMatches at hs
  split at hs
  · obtain ⟨col, h1, h2⟩ := List.mem_flatMap.1 hs
    exact mem col h1 s h2
  · split at hs
    · rename_i c hl
      exact mem c (List.mem_of_getLast? hl) s hs
    · cases hs

/-- Relations that rules of the set carry are the same. -/
structure SameAgreement (S : Nat → Prop) (A A' : Agreement) : Prop where
  relationOf : ∀ r, S r → A'.relationOf r = A.relationOf r
  relation : A'.relation = A.relation

theorem treeRelations_same (hA : SameAgreement S A A') {t : TTree P} (h : Within S t) :
    treeRelations A' t = treeRelations A t := by
  unfold treeRelations
  have key : ∀ (l : List (TTree P)), (∀ x ∈ l, Sub x t) → ∀ g,
      l.foldlM (visitRelation A') g = l.foldlM (visitRelation A) g := by
    intro l
    induction l with
    | nil => intro _ g; rfl
    | cons x l ih =>
      intro hl g
      rw [List.foldlM_cons, List.foldlM_cons]
      have e : visitRelation A' g x = visitRelation A g x := by
        cases x with
        | leaf i p w => rfl
        | node i r p k cs =>
          simp only [visitRelation]
          rw [hA.relationOf r (h _ _ _ _ _ (hl _ List.mem_cons_self))]
      rw [e]
      congr 1
      funext g'
      exact ih (fun y hy => hl y (List.mem_cons_of_mem _ hy)) g'
  exact key _ (fun x hx => mem_walk_iff.1 hx) _

omit [DecidableEq H] in
theorem Within.load {t : TTree P} (h : Within S t) (σ : Store) : Within S (t.load σ) := by
  intro i r p k cs hs
  obtain ⟨x0, h1, h2⟩ := sub_load.1 hs
  cases x0 with
  | leaf i p w => simp [PTree.load] at h2
  | node i' r' p' k' cs' =>
    simp only [PTree.load, PTree.node.injEq] at h2
    rw [h2.2.1]
    exact h _ _ _ _ _ h1

omit [DecidableEq H] in
theorem Within.prune {t : PTree P T} : Within S t → ∀ t', t.prune = some t' → Within S t' := by
  induction t using ptree_induct with
  | hl l p w => intro _ t' h; simp only [PTree.prune, Option.some.injEq] at h; subst h; exact .leaf
  | hn n r prod k cs ih =>
    intro hw t' h
    obtain ⟨h1, h2⟩ := hw.parts
    simp only [PTree.prune] at h
    split at h
    · cases h
    · rename_i c cs' hcs
      cases h
      refine .node h1 (fun x hx => ?_)
      rw [← hcs, pruneAll_eq] at hx
      obtain ⟨y, hy, e⟩ := List.mem_filterMap.1 hx
      exact ih y hy (h2 y hy) x e

theorem prepareMatch_same (hA : SameAgreement S A A') {t : Tree P Token} (h : Within S t.root) (σ : Store) :
    prepareMatch A' σ t = prepareMatch A σ t := by
  unfold prepareMatch
  cases e : (t.root.load σ).prune with
  | none => rfl
  | some root =>
    simp only
    rw [treeRelations_same hA ((h.load σ).prune _ e), hA.relation]

theorem prepareMatches_same (hA : SameAgreement S A A') : ∀ (ts : List (Tree P Token)) (σ : Store),
    (∀ t ∈ ts, Within S t.root) → prepareMatches A' σ ts = prepareMatches A σ ts := by
  intro ts
  induction ts with
  | nil => intro σ _; rfl
  | cons t ts ih =>
    intro σ h
    have ih' := fun σ => ih σ (fun x hx => h x (List.mem_cons_of_mem _ hx))
    unfold prepareMatches
    rw [prepareMatch_same hA (h t List.mem_cons_self)]
    simp only [ih']

theorem collectMatches_same (hA : SameAgreement S A A') : ∀ (ts : List (Tree P Token)) (σ : Store)
    (acc : List ((Nat × Nat) × Match P)), (∀ t ∈ ts, Within S t.root) →
    collectMatches A' σ acc ts = collectMatches A σ acc ts := by
  intro ts
  induction ts with
  | nil => intro σ acc _; rfl
  | cons t ts ih =>
    intro σ acc h
    have ih' := fun σ acc => ih σ acc (fun x hx => h x (List.mem_cons_of_mem _ hx))
    unfold collectMatches
    rw [prepareMatch_same hA (h t List.mem_cons_self)]
    simp only [ih']

theorem firstMatch_same (hA : SameAgreement S A A') : ∀ (ts : List (Tree P Token)) (σ : Store),
    (∀ t ∈ ts, Within S t.root) → firstMatch A' σ ts = firstMatch A σ ts := by
  intro ts
  induction ts with
  | nil => intro σ _; rfl
  | cons t ts ih =>
    intro σ h
    have ih' := fun σ => ih σ (fun x hx => h x (List.mem_cons_of_mem _ hx))
    unfold firstMatch
    rw [prepareMatch_same hA (h t List.mem_cons_self)]
    simp only [ih']

omit [DecidableEq H] in
theorem insertBy_mem {α : Type} {lt : α → α → Except Err Bool} {x : α} : ∀ {l l' : List α},
    insertBy lt x l = .ok l' → ∀ y ∈ l', y = x ∨ y ∈ l := by
  intro l
  induction l with
  | nil =>
    intro l' h y hy
    simp only [insertBy, Except.ok.injEq] at h
    subst h
    simpa using hy
  | cons a l ih =>
    intro l' h y hy
    simp only [insertBy] at h
    split at h
    · cases h
    · cases h
      simp only [List.mem_cons] at hy ⊢
      exact hy
    · cases e : insertBy lt x l with
      | error _ => rw [e] at h; cases h
      | ok l1 =>
        rw [e] at h; cases h
        simp only [List.mem_cons] at hy ⊢
        rcases hy with hy | hy
        · exact .inr (.inl hy)
        · rcases ih e y hy with h | h
          · exact .inl h
          · exact .inr (.inr h)

omit [DecidableEq H] in
theorem sortBy_mem {α : Type} {lt : α → α → Except Err Bool} : ∀ {l acc l' : List α},
    sortBy lt acc l = .ok l' → ∀ y ∈ l', y ∈ acc ∨ y ∈ l := by
  intro l
  induction l with
  | nil => intro acc l' h y hy; simp only [sortBy, Except.ok.injEq] at h; subst h; exact .inl hy
  | cons x l ih =>
    intro acc l' h y hy
    simp only [sortBy] at h
    split at h
    · cases h
    · rename_i acc' e
      rcases ih h y hy with k | k
      · rcases insertBy_mem e y k with k | k
        · exact .inr (by simp [k])
        · exact .inl k
      · exact .inr (List.mem_cons_of_mem _ k)

/-- `Parser.extract` gives the same. -/
theorem extract_sameOn (hG : SameOn S G G') (hA : SameAgreement S A A') (all : Bool) (fuel : Nat) :
    extract G' A' hash toks all fuel = extract G A hash toks all fuel := by
  unfold extract
  rw [matchStates_sameOn hG]
  cases h : matchStates G hash toks all fuel with
  | none => rfl
  | some ss =>
    simp only [Option.map_some]
    rw [prepareMatches_same hA]
    intro t ht
    obtain ⟨s, hs, rfl⟩ := List.mem_map.1 ht
    exact matchStates_within hG h s hs

theorem sorted_within (hG : SameOn S G G') {all : Bool} {fuel : Nat} {ss : List (State P Token)}
    (h : matchStates G hash toks all fuel = some ss) {ts : List (Tree P Token)}
    (e : sortBy treeLt [] (prepareTrees ss) = .ok ts) : ∀ t ∈ ts, Within S t.root := by
  intro t ht
  rcases sortBy_mem e t ht with k | k
  · cases k
  · obtain ⟨s, hs, rfl⟩ := List.mem_map.1 k
    exact matchStates_within hG h s hs

omit [DecidableEq H] in
theorem bind_same {α β : Type} {x : Except Err α} {f g : α → Except Err β} (h : ∀ y, x = .ok y → f y = g y) :
    (x >>= f) = (x >>= g) := by
  cases x with
  | error _ => rfl
  | ok y => exact h y rfl

omit [DecidableEq H] in
theorem option_map_same {α β : Type} {x : Option α} {f g : α → β} (h : ∀ y, x = some y → f y = g y) :
    x.map f = x.map g := by
  cases x with
  | none => rfl
  | some y => exact congrArg some (h y rfl)

theorem resolvedMatches_same (hA : SameAgreement S A A') {ts : List (Tree P Token)} (σ : Store)
    (h : ∀ t ∈ ts, Within S t.root) : resolvedMatches A' σ ts = resolvedMatches A σ ts := by
  unfold resolvedMatches
  rw [collectMatches_same hA _ _ _ h]

/-- `Parser.findall` gives the same. -/
theorem findall_sameOn (hG : SameOn S G G') (hA : SameAgreement S A A') (fuel : Nat) :
    findall G' A' hash toks fuel = findall G A hash toks fuel := by
  unfold findall
  rw [matchStates_sameOn hG]
  refine option_map_same fun ss h => ?_
  exact bind_same fun ts e => resolvedMatches_same hA _ (sorted_within hG h e)

/-- `Parser.match` gives the same. -/
theorem matchText_sameOn (hG : SameOn S G G') (hA : SameAgreement S A A') (fuel : Nat) :
    matchText G' A' hash toks fuel = matchText G A hash toks fuel := by
  unfold matchText
  rw [matchStates_sameOn hG]
  refine option_map_same fun ss h => ?_
  exact bind_same fun ts e => firstMatch_same hA _ _ (sorted_within hG h e)

end
end Yargy
