import Verif.Model.Parser
/-!
The chart does not depend on the hash function, as long as different keys have different hashes: the
machine with a hash function is the machine on the keys themselves, with the keys hashed.
-/
namespace Yargy

variable {P T H : Type}

def Column.rehash (h : Key → H) (c : Column P T Key) : Column P T H :=
  { states := c.states, hashes := c.hashes.map h, index := c.index }

def Config.rehash (h : Key → H) (c : Config P T Key) : Config P T H :=
  { cols := c.cols.map (Column.rehash h), ctr := c.ctr, k := c.k, phase := c.phase }

variable [DecidableEq H] {h : Key → H} (hh : ∀ a b, h a = h b → a = b)
include hh

theorem append_rehash (c : Column P T Key) (s : State P T) :
    (c.rehash h).append h s = (c.append id s).rehash h := by
  unfold Column.append
  by_cases hm : s.key ∈ c.hashes
  · rw [if_pos (show id s.key ∈ c.hashes from hm), if_pos]
    exact List.mem_map.2 ⟨_, hm, rfl⟩
  · rw [if_neg (show ¬ id s.key ∈ c.hashes from hm), if_neg]
    · unfold Column.updateIndex
      cases s.next with
      | none => rfl
      | some t => cases t <;> rfl
    · intro hc
      obtain ⟨k, hk, e⟩ := List.mem_map.1 hc
      exact hm (hh _ _ e ▸ hk)

theorem appendAt_rehash (cols : List (Column P T Key)) (k : Nat) (s : State P T) :
    appendAt h (cols.map (Column.rehash h)) k s = (appendAt id cols k s).map (Column.rehash h) := by
  unfold appendAt
  induction cols generalizing k with
  | nil => simp
  | cons c cols ih =>
    cases k with
    | zero => simp [append_rehash hh]
    | succ k => simp [ih]

theorem predict_rehash (G : Grammar P T) (toks : List T) (k r : Nat) (cols : List (Column P T Key))
    (ctr : Nat) :
    predict G h toks k r (cols.map (Column.rehash h)) ctr =
      ((predict G id toks k r cols ctr).1.map (Column.rehash h), (predict G id toks k r cols ctr).2) := by
  unfold predict
  generalize (predicted G toks k r).zipIdx = l
  induction l generalizing cols ctr with
  | nil => rfl
  | cons e l ih =>
    rw [List.foldl_cons, List.foldl_cons]
    unfold predictOne
    dsimp only
    rw [appendAt_rehash hh]
    exact ih _ _

theorem scan_rehash (G : Grammar P T) (k : Nat) (p : P) (t : T) (s : State P T)
    (cols : List (Column P T Key)) (ctr : Nat) :
    scan G h k p t s (cols.map (Column.rehash h)) ctr =
      ((scan G id k p t s cols ctr).1.map (Column.rehash h), (scan G id k p t s cols ctr).2) := by
  unfold scan
  split
  · dsimp only
    rw [appendAt_rehash hh]
  · rfl

omit [DecidableEq H] hh in
theorem parentsOf_rehash (cols : List (Column P T Key)) (s : State P T) :
    parentsOf (cols.map (Column.rehash h)) s = parentsOf cols s := by
  unfold parentsOf
  rw [List.getElem?_map]
  cases cols[s.start]? with
  | none => rfl
  | some c => rfl

theorem step_rehash (G : Grammar P T) (toks : List T) (all : Bool) (c : Config P T Key) :
    step G h toks all (c.rehash h) = (step G id toks all c).rehash h := by
  obtain ⟨cols, ctr, k, phase⟩ := c
  cases phase with
  | done => rfl
  | enter =>
    unfold step Config.rehash
    dsimp only
    split
    · rw [predict_rehash hh]
    · rfl
  | «at» i =>
    unfold step Config.rehash
    dsimp only
    have e : ((cols.map (Column.rehash h))[k]?).bind (fun col => col.states[i]?) =
        (cols[k]?).bind (fun col => col.states[i]?) := by
      rw [List.getElem?_map]
      cases cols[k]? <;> rfl
    rw [e, List.length_map]
    cases (cols[k]?).bind (fun col => col.states[i]?) with
    | none =>
      dsimp only
      split <;> rfl
    | some s =>
      dsimp only
      split
      · rfl
      · split
        · rw [predict_rehash hh]
        · split
          · rw [scan_rehash hh]
          · rfl
        · rfl
  | complete i s j =>
    unfold step Config.rehash
    dsimp only
    rw [parentsOf_rehash]
    cases (parentsOf cols s)[j]? with
    | none => rfl
    | some p =>
      dsimp only
      unfold completeOne
      dsimp only
      rw [appendAt_rehash hh]

theorem runN_rehash (G : Grammar P T) (toks : List T) (all : Bool) (n : Nat) :
    runN G h toks all n = (runN G id toks all n).rehash h := by
  induction n with
  | zero => simp [runN, initConfig, Config.rehash, Column.rehash, Column.empty]
  | succ n ih =>
    rw [runN, ih, step_rehash hh]
    rfl

omit [DecidableEq H] hh in
theorem chartMatches_rehash (start : Nat) (all : Bool) (cols : List (Column P T Key)) :
    chartMatches start all (cols.map (Column.rehash h)) = chartMatches start all cols := by
  unfold chartMatches
  split
  · rw [List.flatMap_map]
    rfl
  · rw [List.getLast?_map]
    cases cols.getLast? <;> rfl

theorem chart_rehash (G : Grammar P T) (toks : List T) (all : Bool) (fuel : Nat) :
    chart G h toks all fuel = (chart G id toks all fuel).map (List.map (Column.rehash h)) := by
  unfold chart
  rw [runN_rehash hh]
  unfold Config.rehash
  dsimp only
  cases (runN G id toks all fuel).phase <;> rfl

end Yargy
