import Verif.Properties.Compile
import Verif.Proofs.Frame
/-!
C22: compiling and memory addresses.
-/
namespace Yargy
open Spec

variable {P : Type} {pid : Nat → Nat}

theorem lookup_pid (hp : ∀ a b, pid a = pid b → a = b) (s : St P) (a : Nat) :
    s.lookup pid a = s.lookup id a := by
  unfold St.lookup
  have : (fun e : Nat × Nat => decide (pid e.1 = pid a)) = fun e => decide (id e.1 = id a) := by
    funext e
    have : pid e.1 = pid a ↔ e.1 = a := ⟨hp _ _, fun h => by rw [h]⟩
    simp only [this, id]
  rw [this]

theorem visit_pid (hp : ∀ a b, pid a = pid b → a = b) (m : Method P) (n : Nat) :
    visit m pid n = visit m id n := by
  induction n with
  | zero => rfl
  | succ n ih =>
    funext a s
    rw [visit, visit, lookup_pid hp, ih]

theorem enqueue_pid (hp : ∀ a b, pid a = pid b → a = b) (cs : List Nat) : ∀ (queue seen : List Nat),
    enqueue pid cs queue (seen.map pid) =
      ((enqueue id cs queue seen).1, (enqueue id cs queue seen).2.map pid) := by
  induction cs with
  | nil => intro queue seen; rfl
  | cons c cs ih =>
    intro queue seen
    have hm : pid c ∈ seen.map pid ↔ id c ∈ seen := by
      rw [List.mem_map]
      exact ⟨fun ⟨x, h1, h2⟩ => by rw [← hp _ _ h2]; exact h1, fun h => ⟨c, h, rfl⟩⟩
    rw [enqueue, enqueue]
    by_cases h : id c ∈ seen
    · rw [if_pos h, if_pos (hm.2 h), ih]
    · rw [if_neg h, if_neg (fun x => h (hm.1 x))]
      have := ih (queue ++ [c]) (c :: seen)
      rw [List.map_cons] at this
      rw [this]
      rfl

theorem walkFrom_pid (hp : ∀ a b, pid a = pid b → a = b) (h : Heap P) : ∀ (n : Nat)
    (queue seen : List Nat), walkFrom pid h n queue (seen.map pid) = walkFrom id h n queue seen := by
  intro n
  induction n with
  | zero => intro queue seen; rfl
  | succ n ih =>
    intro queue seen
    cases queue with
    | nil => rfl
    | cons a queue =>
      rw [walkFrom, walkFrom, enqueue_pid hp]
      simp only
      rw [ih]

theorem walk_pid (hp : ∀ a b, pid a = pid b → a = b) (h : Heap P) (root : Nat) :
    walk pid h root = walk id h root := walkFrom_pid hp h _ [root] [root]

theorem redefine_pid (hp : ∀ a b, pid a = pid b → a = b) (m : Method P) (limit : Nat) : ∀ (n : Nat)
    (queue seen : List Nat) (s : St P),
    redefine m pid limit n queue (seen.map pid) s = redefine m id limit n queue seen s := by
  intro n
  induction n with
  | zero => intro queue seen s; rfl
  | succ n ih =>
    intro queue seen s
    cases queue with
    | nil => rfl
    | cons a queue =>
      rw [redefine, redefine, visit_pid hp]
      simp only [enqueue_pid hp, ih]

theorem transform_pid (hp : ∀ a b, pid a = pid b → a = b) (m : Method P) (limit root : Nat)
    (h : Heap P) : transform m pid limit root h = transform m id limit root h := by
  unfold transform
  rw [show [pid root] = [root].map pid from rfl, redefine_pid hp, visit_pid hp]
  rfl

theorem removeForwards_pid (hp : ∀ a b, pid a = pid b → a = b) : ∀ (n : Nat) (queue seen : List Nat)
    (h : Heap P), removeForwards pid n queue (seen.map pid) h = removeForwards id n queue seen h := by
  intro n
  induction n with
  | zero => intro queue seen h; rfl
  | succ n ih =>
    intro queue seen h
    cases queue with
    | nil => rfl
    | cons a queue =>
      rw [removeForwards, removeForwards]
      simp only [enqueue_pid hp, ih]

theorem normalized_pid (hp : ∀ a b, pid a = pid b → a = b) (limit root : Nat) (h : Heap P) :
    normalized pid limit root h = normalized id limit root h := by
  unfold normalized replaced
  simp only [transform_pid hp]

theorem asBnf_pid (hp : ∀ a b, pid a = pid b → a = b) (limit root : Nat) (h : Heap P) :
    asBnf pid limit root h = asBnf id limit root h := by
  have hcount : parentCount pid h root = parentCount id h root := by
    funext a
    unfold parentCount
    rw [walk_pid hp]
    congr 2
    funext c
    have : pid c = pid a ↔ c = a := ⟨hp _ _, fun h => by rw [h]⟩
    simp only [this, id]
  have hremove : ∀ r (g : Heap P), removeForward pid r g = removeForward id r g := by
    intro r g
    unfold removeForward
    rw [show [pid r] = [r].map pid from rfl, removeForwards_pid hp]
    rfl
  unfold asBnf toBnf
  simp only [hcount, transform_pid hp, hremove, walk_pid hp]

/-- C22 (partial): as long as different objects have different addresses, the addresses do not matter:
compiling gives the same objects, or the same exception. Missing: addresses of objects that were freed
while the transformator runs, which may be given to new objects (`address_reuse_breaks`,
`forward_reuse_breaks`). -/
theorem addresses_irrelevant_partial {pid pid' : Nat → Nat} (hp : ∀ a b, pid a = pid b → a = b)
    (hp' : ∀ a b, pid' a = pid' b → a = b) (A : Activation P) (limit root : Nat) (h : Heap P) :
    compileRule A pid limit root h = compileRule A pid' limit root h := by
  have : ∀ {pid : Nat → Nat}, (∀ a b, pid a = pid b → a = b) →
      compileRule A pid limit root h = compileRule A id limit root h := by
    intro pid hp
    unfold compileRule activateRule
    simp only [walk_pid hp, normalized_pid hp, asBnf_pid hp]
  rw [this hp, this hp']

/-- Addresses that are all different, and not those of the model. -/
example : ∀ a b : Nat, 3 * a + 7 = 3 * b + 7 → a = b := by intro a b h; omega

/-! ### Reuse of addresses -/

/-- The predicates of words stand somewhere below the rule. -/
theorem says_preds {k : Kind} {h : Heap P} {R : Nat → Prop}
    (hR : ∀ (a : Nat) (o : Obj P), R a → h[a]? = some o → ∀ c ∈ o.children, R c)
    {ts : List (Term P)} {w : List (Sym P)} (hs : Says k h ts w)
    (ht : ∀ a, .rule a ∈ ts → R a) (p : P) (hp : .pred p ∈ w) :
    .pred p ∈ ts ∨ ∃ (a : Nat) (o : Obj P), R a ∧ h[a]? = some o ∧ p ∈ o.preds := by
  induction hs with
  | nil => cases hp
  | @pred q ts w hw ih =>
    rw [List.mem_cons] at hp
    rcases hp with e | hp
    · cases e; exact .inl List.mem_cons_self
    · rcases ih (fun a ha => ht a (List.mem_cons_of_mem _ ha)) hp with h | h
      · exact .inl (List.mem_cons_of_mem _ h)
      · exact .inr h
  | @rule a o us ts w v ho hsp h1 h2 ih1 ih2 =>
    have hRa : R a := ht a List.mem_cons_self
    rw [List.mem_append] at hp
    rcases hp with hp | hp
    · have hw : .pred p ∈ w := by
        cases hl : o.label k with
        | none => rw [hl] at hp; exact hp
        | some x =>
          rw [hl] at hp
          simp only [wrap, List.cons_append, List.mem_cons, List.mem_append, List.not_mem_nil,
            or_false] at hp
          rcases hp with h | h | h
          · cases h
          · exact h
          · cases h
      have hus : (∀ c, Term.rule c ∈ us → c ∈ o.children) ∧ ∀ q, Term.pred q ∈ us → q ∈ o.preds := by
        constructor
        · intro c hc; exact spells_children hsp c hc
        · intro q hq
          cases hsp with
          | prod => exact List.mem_filterMap.2 ⟨_, hq, rfl⟩
          | pipeProd =>
            obtain ⟨x, hx, e⟩ := List.mem_map.1 hq
            cases e; exact hx
          | pipe hk =>
            obtain ⟨x, hx, e⟩ := List.mem_map.1 hq
            cases e; exact List.mem_flatMap.2 ⟨_, hk, hx⟩
          | emptyProd => cases hq
          | none => cases hq
          | empty => cases hq
          | repeatable => exact absurd (List.eq_of_mem_replicate hq) (by simp)
          | repOptional => exact absurd (List.eq_of_mem_replicate hq) (by simp)
          | minBounded => exact absurd (List.eq_of_mem_replicate hq) (by simp)
          | maxBounded => exact absurd (List.eq_of_mem_replicate hq) (by simp)
          | minMaxBounded => exact absurd (List.eq_of_mem_replicate hq) (by simp)
          | _ => simp at hq
      rcases ih1 (fun c hc => hR a o hRa ho c (hus.1 c hc)) hw with h | h
      · exact .inr ⟨a, o, hRa, ho, hus.2 p h⟩
      · exact .inr h
    · rcases ih2 (fun a ha => ht a (List.mem_cons_of_mem _ ha)) hp with h | h
      · exact .inl (List.mem_cons_of_mem _ h)
      · exact .inr h

/-- Nothing below a rule mentions a predicate: then it is in no word. -/
theorem words_without {k : Kind} {h : Heap Nat} {root p : Nat} (hc : ClosedHeap h)
    (hr : root < h.length)
    (hn : ∀ a ∈ walk id h root, ∀ o, h[a]? = some o → p ∉ o.preds) {w : List (Sym Nat)}
    (hw : .pred p ∈ w) : ¬ Words k h root w := by
  intro hs
  have hp : ∀ a b : Nat, id a = id b → a = b := fun _ _ h => h
  rcases says_preds (R := Reach h root) (fun a o ha ho c hc => .step ha ho hc) hs
    (by intro a ha; simp only [List.mem_cons, List.not_mem_nil, or_false] at ha; cases ha; exact .root)
    p hw with h1 | ⟨a, o, h1, h2, h3⟩
  · simp at h1
  · exact hn a ((reach_iff hp hc hr a).2 h1) o h2 h3

/-- `rule(a.optional().repeatable(), b.optional().repeatable())` -/
def starsSource : Heap Nat :=
  [.prod [.pred 1] 0, .rule [0], .optional 1 false, .repeatable 2 false, .prod [.pred 2] 0, .rule [4],
   .optional 5 false, .repeatable 6 false, .prod [.rule 3, .rule 7] 0, .rule [8]]

/-- All objects have addresses of their own, but a later one may get that of an earlier one. -/
def reuse (old new : Nat) (x : Nat) : Nat := if x = new then old else x

theorem reuse_only (old new x y : Nat) (h : reuse old new x = reuse old new y) :
    x = y ∨ (x = old ∧ y = new) ∨ (x = new ∧ y = old) := by
  unfold reuse at h
  split at h <;> split at h <;> omega

/-- The heap after a run, if it did not raise. -/
def heapAfter (r : Except Err (Nat × Heap P)) : Heap P :=
  match r with
  | .ok x => x.2
  | .error _ => []

def rootAfter (r : Except Err (Nat × Heap P)) : Nat :=
  match r with
  | .ok x => x.1
  | .error _ => 0

theorem starsSource_says : Words .plain starsSource 9 [.pred 2] := by
  have b : Says .plain starsSource [.rule 5] [.pred 2] :=
    .rule (o := .rule [4]) (us := [.rule 4]) (w := [.pred 2]) rfl (.rule List.mem_cons_self)
      (.rule (o := .prod [.pred 2] 0) (us := [.pred 2]) (w := [.pred 2]) rfl .prod (.pred .nil) .nil) .nil
  have b7 : Says .plain starsSource [.rule 7] [.pred 2] :=
    .rule (o := .repeatable 6 false) (us := [.rule 6]) (w := [.pred 2]) rfl
      (.repeatable (n := 1) (Nat.le_refl 1))
      (.rule (o := .optional 5 false) (us := [.rule 5]) (w := [.pred 2]) rfl .one b .nil) .nil
  have a3 : Says .plain starsSource [.rule 3] [] :=
    .rule (o := .repeatable 2 false) (us := [.rule 2]) (w := []) rfl (.repeatable (n := 1) (Nat.le_refl 1))
      (.rule (o := .optional 1 false) (us := []) (w := []) rfl .none .nil .nil) .nil
  have both : Says .plain starsSource ([.rule 3] ++ [.rule 7]) ([] ++ [.pred 2]) :=
    says_append.2 ⟨_, _, a3, b7, rfl⟩
  exact .rule (o := .rule [8]) (us := [.rule 8]) (w := [.pred 2]) rfl (.rule List.mem_cons_self)
    (.rule (o := .prod [.rule 3, .rule 7] 0) (us := [.rule 3, .rule 7]) (w := [.pred 2]) rfl .prod both
      .nil) .nil

/-- C22 is false. Squashing makes a `RepeatableOptionalRule` (object 10) for `a.optional().repeatable()`,
visits it and drops it: no object of the heap refers to it any more. If the next such object (14), made
for `b.optional().repeatable()`, gets the address of the dropped one, then the transformator takes it
for visited and puts the first repetition in its place: `b` is lost. -/
theorem address_reuse_breaks :
    (∃ x, normalized (reuse 10 14) 60 9 starsSource = .ok x) ∧
    (∀ o ∈ heapAfter (transform squashMethod (reuse 10 14) 60 9 starsSource), 10 ∉ o.children) ∧
    Words .plain starsSource 9 [.pred 2] ∧
    ¬ Words .plain (heapAfter (normalized (reuse 10 14) 60 9 starsSource))
      (rootAfter (normalized (reuse 10 14) 60 9 starsSource)) [.pred 2] := by
  refine ⟨?_, by decide +kernel, starsSource_says, ?_⟩
  · have : (normalized (reuse 10 14) 60 9 starsSource).isOk = true := by decide +kernel
    cases hx : normalized (reuse 10 14) 60 9 starsSource with
    | error e => rw [hx] at this; cases this
    | ok x => exact ⟨x, rfl⟩
  · refine words_without (p := 2) ?_ ?_ ?_ List.mem_cons_self
    · unfold ClosedHeap; decide +kernel
    · decide +kernel
    · decide +kernel

/-- `f = forward(); g = forward(); f.define(rule(a.repeatable(), rule(c, g)));
g.define(rule(b.repeatable())); rule(f)` -/
def forwardsSource : Heap Nat :=
  [.forward (some 8), .forward (some 13), .prod [.pred 1] 0, .rule [2], .repeatable 3 false,
   .prod [.pred 3, .rule 1] 0, .rule [5], .prod [.rule 4, .rule 6] 0, .rule [7],
   .prod [.pred 2] 0, .rule [9], .repeatable 10 false, .prod [.rule 11] 0, .rule [12],
   .prod [.rule 0] 0, .rule [14]]

theorem forwardsSource_says : Words .plain forwardsSource 15 [.pred 1, .pred 3, .pred 2] := by
  have a : Says .plain forwardsSource [.rule 4] [.pred 1] :=
    .rule (o := .repeatable 3 false) (us := [.rule 3]) (w := [.pred 1]) rfl
      (.repeatable (n := 1) (Nat.le_refl 1))
      (.rule (o := .rule [2]) (us := [.rule 2]) (w := [.pred 1]) rfl (.rule List.mem_cons_self)
        (.rule (o := .prod [.pred 1] 0) (us := [.pred 1]) (w := [.pred 1]) rfl .prod (.pred .nil) .nil)
        .nil) .nil
  have b : Says .plain forwardsSource [.rule 11] [.pred 2] :=
    .rule (o := .repeatable 10 false) (us := [.rule 10]) (w := [.pred 2]) rfl
      (.repeatable (n := 1) (Nat.le_refl 1))
      (.rule (o := .rule [9]) (us := [.rule 9]) (w := [.pred 2]) rfl (.rule List.mem_cons_self)
        (.rule (o := .prod [.pred 2] 0) (us := [.pred 2]) (w := [.pred 2]) rfl .prod (.pred .nil) .nil)
        .nil) .nil
  have g : Says .plain forwardsSource [.rule 1] [.pred 2] :=
    .rule (o := .forward (some 13)) (us := [.rule 13]) (w := [.pred 2]) rfl .forward
      (.rule (o := .rule [12]) (us := [.rule 12]) (w := [.pred 2]) rfl (.rule List.mem_cons_self)
        (.rule (o := .prod [.rule 11] 0) (us := [.rule 11]) (w := [.pred 2]) rfl .prod b .nil) .nil) .nil
  have c : Says .plain forwardsSource [.rule 6] [.pred 3, .pred 2] :=
    .rule (o := .rule [5]) (us := [.rule 5]) (w := [.pred 3, .pred 2]) rfl (.rule List.mem_cons_self)
      (.rule (o := .prod [.pred 3, .rule 1] 0) (us := [.pred 3, .rule 1]) (w := [.pred 3, .pred 2]) rfl
        .prod (.pred g) .nil) .nil
  have both : Says .plain forwardsSource ([.rule 4] ++ [.rule 6]) ([.pred 1] ++ [.pred 3, .pred 2]) :=
    says_append.2 ⟨_, _, a, c, rfl⟩
  have f : Says .plain forwardsSource [.rule 0] [.pred 1, .pred 3, .pred 2] :=
    .rule (o := .forward (some 8)) (us := [.rule 8]) (w := [.pred 1, .pred 3, .pred 2]) rfl .forward
      (.rule (o := .rule [7]) (us := [.rule 7]) (w := [.pred 1, .pred 3, .pred 2]) rfl
        (.rule List.mem_cons_self)
        (.rule (o := .prod [.rule 4, .rule 6] 0) (us := [.rule 4, .rule 6])
          (w := [.pred 1, .pred 3, .pred 2]) rfl .prod both .nil) .nil) .nil
  exact .rule (o := .rule [14]) (us := [.rule 14]) (w := [.pred 1, .pred 3, .pred 2]) rfl
    (.rule List.mem_cons_self)
    (.rule (o := .prod [.rule 0] 0) (us := [.rule 0]) (w := [.pred 1, .pred 3, .pred 2]) rfl .prod f .nil)
    .nil

/-- C22 is false without nested quantifiers as well: replacing `a.repeatable()` below a forward rule makes
an `OrRule` (object 35) which is replaced by a copy and dropped when the walk comes to the forward rule
made for the repetition. If the `OrRule` made for `b.repeatable()` (object 50) gets its address, then it is
taken for visited and the repetition of `a` put in its place. -/
theorem forward_reuse_breaks :
    (∃ x, normalized (reuse 35 50) 90 15 forwardsSource = .ok x) ∧
    (∃ r h, transform squashMethod (reuse 35 50) 90 15 forwardsSource = .ok (r, h) ∧
      ∀ o ∈ heapAfter (transform extendedMethod (reuse 35 50) 90 r h), 35 ∉ o.children) ∧
    Words .plain forwardsSource 15 [.pred 1, .pred 3, .pred 2] ∧
    ¬ Words .plain (heapAfter (normalized (reuse 35 50) 90 15 forwardsSource))
      (rootAfter (normalized (reuse 35 50) 90 15 forwardsSource)) [.pred 1, .pred 3, .pred 2] := by
  refine ⟨?_, ?_, forwardsSource_says, ?_⟩
  · have : (normalized (reuse 35 50) 90 15 forwardsSource).isOk = true := by decide +kernel
    cases hx : normalized (reuse 35 50) 90 15 forwardsSource with
    | error e => rw [hx] at this; cases this
    | ok x => exact ⟨x, rfl⟩
  · have h1 : (transform squashMethod (reuse 35 50) 90 15 forwardsSource).isOk = true := by decide +kernel
    have h2 : ∀ o ∈ heapAfter (transform extendedMethod (reuse 35 50) 90
        (rootAfter (transform squashMethod (reuse 35 50) 90 15 forwardsSource))
        (heapAfter (transform squashMethod (reuse 35 50) 90 15 forwardsSource))), 35 ∉ o.children := by
      decide +kernel
    cases hx : transform squashMethod (reuse 35 50) 90 15 forwardsSource with
    | error e => rw [hx] at h1; cases h1
    | ok x => rw [hx] at h2; exact ⟨x.1, x.2, rfl, h2⟩
  · refine words_without (p := 2) ?_ ?_ ?_ (by decide)
    · unfold ClosedHeap; decide +kernel
    · decide +kernel
    · decide +kernel

end Yargy
