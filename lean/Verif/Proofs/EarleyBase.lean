import Verif.Spec.Erase
import Verif.Proofs.Util
/-! The transition relation of the chart machine and generic preservation lemmas. -/
namespace Yargy
open Spec

variable {P T H : Type}

theorem eraseAll_eq_map (cs : List (PTree P T)) : eraseAll cs = cs.map PTree.erase := by
  induction cs with
  | nil => simp [eraseAll]
  | cons c cs ih => simp [eraseAll, ih]

theorem State.dtree_eq (s : State P T) :
    s.dtree = .node s.rule s.prod (s.children.map PTree.erase) := by
  simp [State.dtree, State.node, PTree.erase, eraseAll_eq_map]

/-- `s` is a state of column `k` -/
def InCol (cols : List (Column P T H)) (k : Nat) (s : State P T) : Prop :=
  ∃ c, cols[k]? = some c ∧ s ∈ c.states

/-- the state produced by `Parser.predict` -/
def predictState (k r : Nat) (prod : Production P) (rank nid : Nat) : State P T :=
  { rule := r, prod := prod, dot := 0, start := k, stop := k, nid := nid, rank := rank,
    children := [] }

/-- the state produced by `Parser.scan` -/
def scanState (G : Grammar P T) (k : Nat) (p : P) (t : T) (s : State P T) (ctr : Nat) : State P T :=
  { s with dot := s.dot + 1, stop := k + 1, nid := ctr + 1,
           children := s.children ++ [.leaf ctr p (G.constrain p t)] }

/-- the state produced by `Parser.complete` -/
def completeState (k : Nat) (s p : State P T) (ctr : Nat) : State P T :=
  { p with dot := p.dot + 1, stop := k, nid := ctr, children := p.children ++ [s.node] }

section
variable [DecidableEq H] (G : Grammar P T) (hash : Key → H) (toks : List T) (all : Bool)

theorem predictOne_eq (k r : Nat) (acc : List (Column P T H) × Nat) (e : Production P × Nat) :
    predictOne hash k r acc e
      = (appendAt hash acc.1 k (predictState k r e.1 e.2 acc.2), acc.2 + 1) := rfl

theorem scan_eq (k : Nat) (p : P) (t : T) (s : State P T) (cols : List (Column P T H)) (ctr : Nat) :
    scan G hash k p t s cols ctr =
      if G.accepts p t then (appendAt hash cols (k + 1) (scanState G k p t s ctr), ctr + 2)
      else (cols, ctr) := rfl

theorem completeOne_eq (k : Nat) (s p : State P T) (cols : List (Column P T H)) (ctr : Nat) :
    completeOne hash k s p cols ctr =
      (appendAt hash cols k (completeState k s p ctr), ctr + 1) := rfl

/-- One iteration, as a relation with one constructor per branch. -/
inductive Trans : Config P T H → Config P T H → Prop
  | enterPredict {cols ctr k} : (k = 0 ∨ all = true) →
      Trans ⟨cols, ctr, k, .enter⟩
        ⟨(predict G hash toks k G.start cols ctr).1, (predict G hash toks k G.start cols ctr).2, k, .at 0⟩
  | enterSkip {cols ctr k} : ¬ (k = 0 ∨ all = true) →
      Trans ⟨cols, ctr, k, .enter⟩ ⟨cols, ctr, k, .at 0⟩
  | nextColumn {cols ctr k i} : (cols[k]?).bind (fun col => col.states[i]?) = none →
      k + 1 < cols.length → Trans ⟨cols, ctr, k, .at i⟩ ⟨cols, ctr, k + 1, .enter⟩
  | finish {cols ctr k i} : (cols[k]?).bind (fun col => col.states[i]?) = none →
      ¬ k + 1 < cols.length → Trans ⟨cols, ctr, k, .at i⟩ ⟨cols, ctr, k, .done⟩
  | startComplete {cols ctr k i col s} : cols[k]? = some col → col.states[i]? = some s →
      s.completed = true → Trans ⟨cols, ctr, k, .at i⟩ ⟨cols, ctr, k, .complete i s 0⟩
  | predictRule {cols ctr k i col s r} : cols[k]? = some col → col.states[i]? = some s →
      s.next = some (.rule r) →
      Trans ⟨cols, ctr, k, .at i⟩
        ⟨(predict G hash toks k r cols ctr).1, (predict G hash toks k r cols ctr).2, k, .at (i + 1)⟩
  | scanAccept {cols ctr k i col s p t} : cols[k]? = some col → col.states[i]? = some s →
      s.next = some (.pred p) → toks[k]? = some t → G.accepts p t = true →
      Trans ⟨cols, ctr, k, .at i⟩
        ⟨appendAt hash cols (k + 1) (scanState G k p t s ctr), ctr + 2, k, .at (i + 1)⟩
  | scanReject {cols ctr k i col s p} : cols[k]? = some col → col.states[i]? = some s →
      s.next = some (.pred p) → (∀ t, toks[k]? = some t → G.accepts p t = false) →
      Trans ⟨cols, ctr, k, .at i⟩ ⟨cols, ctr, k, .at (i + 1)⟩
  | completeNext {cols ctr k i s j p} : (parentsOf cols s)[j]? = some p →
      Trans ⟨cols, ctr, k, .complete i s j⟩
        ⟨appendAt hash cols k (completeState k s p ctr), ctr + 1, k, .complete i s (j + 1)⟩
  | completeEnd {cols ctr k i s j} : (parentsOf cols s)[j]? = none →
      Trans ⟨cols, ctr, k, .complete i s j⟩ ⟨cols, ctr, k, .at (i + 1)⟩
  | done {cols ctr k} : Trans ⟨cols, ctr, k, .done⟩ ⟨cols, ctr, k, .done⟩

theorem State.next_of_not_completed {s : State P T} (h : s.completed = false) :
    ∃ x, s.next = some x := by
  unfold State.completed at h
  have h' : s.dot < s.prod.terms.length := by
    have := of_decide_eq_false h; omega
  exact ⟨s.prod.terms[s.dot], by simp [State.next, h']⟩

theorem State.not_completed_of_next {s : State P T} {x : Term P} (h : s.next = some x) :
    s.completed = false := by
  unfold State.next at h
  rw [List.getElem?_eq_some_iff] at h
  obtain ⟨h1, _⟩ := h
  simp [State.completed]; omega

theorem step_trans (c : Config P T H) : Trans G hash toks all c (step G hash toks all c) := by
  obtain ⟨cols, ctr, k, ph⟩ := c
  unfold step
  cases ph with
  | done => exact .done
  | enter =>
    dsimp only
    by_cases h : k = 0 ∨ all = true
    · have h' : (k == 0 || all) = true := by simpa using h
      simp only [h', if_true]
      exact .enterPredict h
    · have h' : (k == 0 || all) = false := by simpa using h
      simp only [h', Bool.false_eq_true, if_false]
      exact .enterSkip h
  | «at» i =>
    dsimp only
    cases hs : (cols[k]?).bind (fun col => col.states[i]?) with
    | none =>
      dsimp only
      by_cases h : k + 1 < cols.length
      · simp only [h, if_true]; exact .nextColumn hs h
      · simp only [h, if_false]; exact .finish hs h
    | some s =>
      dsimp only
      rw [Option.bind_eq_some_iff] at hs
      obtain ⟨col, hc, hs⟩ := hs
      cases hcomp : s.completed with
      | true => simp only [if_true]; exact .startComplete hc hs hcomp
      | false =>
        simp only [Bool.false_eq_true, if_false]
        obtain ⟨x, hx⟩ := State.next_of_not_completed hcomp
        rw [hx]
        cases x with
        | rule r => exact .predictRule hc hs hx
        | pred p =>
          dsimp only
          cases ht : toks[k]? with
          | none => exact .scanReject hc hs hx (by simp [ht])
          | some t =>
            dsimp only
            rw [scan_eq]
            cases ha : G.accepts p t with
            | true => exact .scanAccept hc hs hx ht ha
            | false =>
              exact .scanReject hc hs hx (by intro t' ht'; rw [ht] at ht'; cases ht'; exact ha)
  | complete i s j =>
    dsimp only
    cases hp : (parentsOf cols s)[j]? with
    | none => exact .completeEnd hp
    | some p => exact .completeNext hp

/-- invariants hold at every configuration the machine reaches -/
theorem runN_induct {M : Config P T H → Prop} (h0 : M (initConfig toks))
    (hstep : ∀ c c', Trans G hash toks all c c' → M c → M c') (n : Nat) :
    M (runN G hash toks all n) := by
  induction n with
  | zero => exact h0
  | succ n ih => exact hstep _ _ (step_trans G hash toks all _) ih

/-- a property of (columns, counter) preserved by each predicted production is preserved by
`predict` -/
theorem predict_induct {M : List (Column P T H) → Nat → Prop} (k r : Nat)
    (cols : List (Column P T H)) (ctr : Nat) (h0 : M cols ctr)
    (hstep : ∀ cols ctr prod rank, (predicted G toks k r)[rank]? = some prod → M cols ctr →
      M (appendAt hash cols k (predictState k r prod rank ctr)) (ctr + 1)) :
    M (predict G hash toks k r cols ctr).1 (predict G hash toks k r cols ctr).2 := by
  unfold predict
  have key : ∀ (l : List (Production P × Nat)), (∀ e ∈ l, (predicted G toks k r)[e.2]? = some e.1) →
      ∀ acc : List (Column P T H) × Nat, M acc.1 acc.2 →
        M (l.foldl (predictOne hash k r) acc).1 (l.foldl (predictOne hash k r) acc).2 := by
    intro l
    induction l with
    | nil => intro _ acc h; exact h
    | cons e l ih =>
      intro hl acc h
      rw [List.foldl_cons]
      apply ih (fun e' he' => hl e' (List.mem_cons_of_mem _ he'))
      rw [predictOne_eq]
      exact hstep _ _ _ _ (hl e List.mem_cons_self) h
  refine key _ ?_ _ h0
  intro e he
  have := List.mem_zipIdx_iff_getElem?.1 he
  exact this

theorem appendAt_get? (cols : List (Column P T H)) (k k' : Nat) (s : State P T) :
    (appendAt hash cols k s)[k']? = if k = k' then (cols[k']?).map (fun c => c.append hash s)
      else cols[k']? := by
  unfold appendAt
  rw [List.getElem?_modify]
  split <;> simp_all

theorem appendAt_length (cols : List (Column P T H)) (k : Nat) (s : State P T) :
    (appendAt hash cols k s).length = cols.length := by
  simp [appendAt]

theorem append_states (c : Column P T H) (s : State P T) :
    (c.append hash s).states = if hash s.key ∈ c.hashes then c.states else c.states ++ [s] := by
  unfold Column.append
  split
  · rfl
  · unfold Column.updateIndex; split <;> rfl

theorem append_hashes (c : Column P T H) (s : State P T) :
    (c.append hash s).hashes = if hash s.key ∈ c.hashes then c.hashes else hash s.key :: c.hashes := by
  unfold Column.append
  split
  · rfl
  · unfold Column.updateIndex; split <;> rfl

theorem append_prefix (c : Column P T H) (s : State P T) : c.states <+: (c.append hash s).states := by
  rw [append_states]; split
  · exact List.prefix_rfl
  · exact List.prefix_append _ _

variable {hash}

theorem inCol_appendAt {cols : List (Column P T H)} {k k' : Nat} {s s' : State P T}
    (h : InCol (appendAt hash cols k s) k' s') : InCol cols k' s' ∨ (k' = k ∧ s' = s) := by
  obtain ⟨c, h1, h2⟩ := h
  rw [appendAt_get?] at h1
  split at h1
  · rename_i hk
    subst hk
    obtain ⟨c0, h3, rfl⟩ := Option.map_eq_some_iff.1 h1
    rw [append_states] at h2
    split at h2
    · exact Or.inl ⟨c0, h3, h2⟩
    · rcases List.mem_append.1 h2 with h4 | h4
      · exact Or.inl ⟨c0, h3, h4⟩
      · exact Or.inr ⟨rfl, by simpa using h4⟩
  · exact Or.inl ⟨c, h1, h2⟩

theorem inCol_mono {cols : List (Column P T H)} {k k' : Nat} {s s' : State P T}
    (h : InCol cols k' s') : InCol (appendAt hash cols k s) k' s' := by
  obtain ⟨c, h1, h2⟩ := h
  by_cases hk : k = k'
  · subst hk
    refine ⟨c.append hash s, ?_, (append_prefix hash c s).subset h2⟩
    rw [appendAt_get?]; simp [h1]
  · refine ⟨c, ?_, h2⟩
    rw [appendAt_get?]; simp [hk, h1]

end
end Yargy
