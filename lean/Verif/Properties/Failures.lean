import Verif.Properties.Rebuild
/-!
C58: parsers that cannot be built.
-/
namespace Yargy
open Spec Twins

variable {L : Lang} {setOrder : List Str → List Str}

/-- A parser is refused where its rule cannot be compiled, and nowhere else: what was compiled can be
used. -/
theorem build_refused_iff {h : Heap Pred} (hrun : Run L setOrder [] h) {c : Context} {split : Str → List Str}
    {relation : Nat → Relation} {pid : Nat → Nat} (hp : ∀ a b, pid a = pid b → a = b) {limit root : Nat}
    (hr : RuleAt h root) {e : Err} :
    buildParser L setOrder c split relation pid limit root h = .error e ↔
      compileRule (c.activation L split) pid limit root h = .error e := by
  have hh := run_healthy hrun healthy_nil
  obtain ⟨hlt, hpr⟩ := rule_at hr
  unfold buildParser
  simp only [bind, Except.bind]
  cases hc : compileRule (c.activation L split) pid limit root h with
  | error e' => exact ⟨fun h => by cases h; rfl, fun h => by cases h; rfl⟩
  | ok x =>
    obtain ⟨start, h1⟩ := x
    obtain ⟨hcomp, _⟩ := compile_healthy hh.sorted hh.stored hp hr hc
    obtain ⟨g2, hf2, heq⟩ := compileRule_endures (X := Fixed) hp filed_enduring filed_activate hh.sorted hlt hpr
      (fun x o o' _ ho e => activateObj_fixed (hh.stored o (List.mem_of_getElem? ho)) e) hh.filed hc
    have hf : Filed h1 := heq ▸ filed_names _ _ _ hf2
    have hprop := fit_proper hcomp.sorted.closed hcomp.bnf (fun x hx => typed_fit hcomp.typed hx)
    obtain ⟨rules, hrules⟩ := mapM_ok_of (filed_charted (L := L) (setOrder := setOrder) hf)
    have : toGrammar L setOrder start h1 = .ok (predGrammar L rules start) := by
      unfold toGrammar
      rw [if_pos hprop, hrules]; rfl
    simp only [this]
    constructor <;> (intro h; cases h)

/-- The object is what it was, or what the tokenizer makes of it, or a forward rule, defined anew. -/
inductive Touched (A : Activation Pred) (o : Obj Pred) : Obj Pred → Prop
  | same : Touched A o o
  | active {o'} : activateObj A o = .ok o' → Touched A o o'
  | defined {c r} : o = .forward c → Touched A o (.forward (some r))

/-- C58, the objects: a construction that raises leaves everything alone that is not part of its rule; the
parts of the rule are what they were, or activated, or, forward rules, defined anew. -/
theorem failure_touches {h : Heap Pred} (hrun : Run L setOrder [] h) {c : Context} {split : Str → List Str}
    {pid : Nat → Nat} (hp : ∀ a b, pid a = pid b → a = b) {limit root : Nat} (hr : RuleAt h root) {a : Nat}
    {o : Obj Pred} (ho : h[a]? = some o) :
    ∃ o', (compileLeft (c.activation L split) pid limit root h)[a]? = some o' ∧
      (¬ Reach h root a → o' = o) ∧ Touched (c.activation L split) o o' := by
  have hh := run_healthy hrun healthy_nil
  obtain ⟨hc, _⟩ := left_healthy (L := L) (c := c) (split := split) (limit := limit) hh.sorted hh.stored hh.filed hp hr
  by_cases hra : Reach h root a
  · rcases hc.done a o ho hra with q | ⟨o', q1, q⟩ | ⟨⟨d, hd⟩, r, q⟩
    · exact ⟨o, q, fun hn => absurd hra hn, .same⟩
    · exact ⟨o', q, fun hn => absurd hra hn, .active q1⟩
    · exact ⟨_, q, fun hn => absurd hra hn, .defined hd⟩
  · exact ⟨o, hc.rest a o ho hra, fun _ => rfl, .same⟩

/-- C58, trying again: where a predicate or a gazetteer cannot be activated, every further attempt raises
the same exception. -/
theorem retry_raises {h : Heap Pred} (hrun : Run L setOrder [] h) {c : Context} {split : Str → List Str}
    {relation : Nat → Relation} {pid pid' : Nat → Nat} (hp : ∀ a b, pid a = pid b → a = b)
    (hp' : ∀ a b, pid' a = pid' b → a = b) {limit limit' root : Nat} (hr : RuleAt h root) {e : Err}
    (he : activateRule (c.activation L split) pid root h = .error e) :
    buildParser L setOrder c split relation pid limit root h = .error e ∧
    buildParser L setOrder c split relation pid' limit' root
      (compileLeft (c.activation L split) pid limit root h) = .error e := by
  have hh := run_healthy hrun healthy_nil
  obtain ⟨hlt, hpr⟩ := rule_at hr
  have hid : ∀ a b : Nat, id a = id b → a = b := fun _ _ h => h
  refine ⟨by unfold buildParser compileRule; rw [he]; rfl, ?_⟩
  obtain ⟨S, hS, w⟩ := activation_stopped (A := c.activation L split) hp hh.sorted hlt hpr
  have hleft : compileLeft (c.activation L split) pid limit root h =
      activateLeft (c.activation L split) (walk pid h root ++ [root]) h := by
    unfold compileLeft; rw [he]
  rw [hleft]
  generalize activateLeft (c.activation L split) (walk pid h root ++ [root]) h = k at w
  have N : Near (c.activation L split) (Reach h root) h k := by
    constructor
    · intro x hx
      have := hh.sorted.reach hlt hx
      rw [List.getElem?_eq_none_iff, List.getElem?_eq_none_iff, w.length]
    · intro x o o' hx ho ho'
      by_cases hs : S x
      · obtain ⟨o1, k1, k2⟩ := w.done x o hs ho
        rw [ho'] at k1; cases k1
        refine ⟨?_, (activateObj_shape k2).2.1.symm⟩
        rw [k2, activateObj_twice (hh.stored o (List.mem_of_getElem? ho)) k2]
      · rw [w.rest x hs, ho] at ho'; cases ho'; exact ⟨rfl, rfl⟩
  have he' : activateRule (c.activation L split) id root h = .error e := by
    rw [← he]; unfold activateRule; rw [walk_pid hp]
  unfold buildParser
  rw [addresses_irrelevant_partial hp' hid]
  unfold compileRule
  rcases activateRule_near hh.sorted.closed hlt N with ⟨e', k1, k2⟩ | ⟨_, _, k1, _⟩
  · rw [he'] at k1; cases k1
    rw [k2]; rfl
  · rw [he'] at k1; cases k1

/-- C58, for rules without forward rules: after a construction that raised the next one does exactly what
it would have done without; with the same tokenizer and limit it raises the same exception. Missing:
forward rules (the first construction has defined some of them anew). -/
theorem retry_same_partial {h : Heap Pred} (hs : SetOrder setOrder) (hrun : Run L setOrder [] h)
    {c : Context} {split : Str → List Str} {relation relation' : Nat → Relation} {pid pid' : Nat → Nat}
    (hp : ∀ a b, pid a = pid b → a = b) (hp' : ∀ a b, pid' a = pid' b → a = b) {limit limit' root root' : Nat}
    (hr : RuleAt h root) (hr' : RuleAt h root')
    (hfwd : ∀ (x : Nat) d, Reach h root' x → h[x]? ≠ some (.forward d)) {e : Err}
    (he : buildParser L setOrder c split relation pid limit root h = .error e) :
    SameBuilds (buildParser L setOrder c split relation' pid' limit' root' h)
      (buildParser L setOrder c split relation' pid' limit' root'
        (compileLeft (c.activation L split) pid limit root h)) :=
  rebuild_same_partial (allowed := fun c' split' => c' = c ∧ split' = split) hs hrun hp' hp' hr' hfwd
    (by rintro c' split' ⟨rfl, rfl⟩ x o _ _; exact ⟨fun _ _ _ _ _ => rfl, fun _ _ _ _ _ => rfl⟩)
    (.cons (.failed hp hr ⟨rfl, rfl⟩ he) .nil)

/-! ### Such programs -/

/-- `rule(or_(rule(normalized('a')), rule(gram('Xxxx'))))` and `rule(normalized('a'))`. -/
def faultySource : Heap Pred :=
  [.prod [.pred (.normalized "a".toList)] 0, .rule [0], .prod [.pred (.gram "Xxxx".toList)] 0, .rule [2],
   .or [1, 3], .prod [.pred (.eq "b".toList)] 0, .rule [5]]

theorem faultySource_run : Run L setOrder [] faultySource := makeAll_run (h := []) (by decide +kernel)

def faultyActivation (c : Context) : Except Err (Heap Pred) :=
  activateRule (c.activation sampleLang sampleSplit) id 4 faultySource

def faultyLeft (c : Context) : Heap Pred :=
  compileLeft (c.activation sampleLang sampleSplit) id 60 4 faultySource

theorem faulty_raises : faultyActivation otherContext = .error .valueError := by
  have key : (match faultyActivation otherContext with
      | .error .valueError => true
      | _ => false) = true := by decide +kernel
  split at key
  · assumption
  · cases key

def isNormalized (h : Heap Pred) : Bool :=
  match (h[0]? : Option (Obj Pred)) with
  | some (.prod [.pred (.normalized _)] _) => true
  | _ => false

/-- The hypotheses of `retry_raises` and `retry_same_partial` are met, and the construction that raises
has activated a predicate. -/
example : SetOrder sampleOrder ∧ Run sampleLang sampleOrder [] faultySource ∧ RuleAt faultySource 4 ∧
    RuleAt faultySource 6 ∧ (∀ (x : Nat) d, Reach faultySource 4 x → faultySource[x]? ≠ some (.forward d)) ∧
    activateRule (otherContext.activation sampleLang sampleSplit) id 4 faultySource = .error .valueError ∧
    isNormalized faultySource = true ∧ isNormalized (faultyLeft otherContext) = false ∧
    ∃ b h1, wordBuild otherContext faultySource = .ok (b, h1) := by
  refine ⟨sampleOrder_ok, faultySource_run, ⟨_, rfl, rfl⟩, ⟨_, rfl, rfl⟩, ?_, faulty_raises, rfl,
    (by decide +kernel), ?_⟩
  · intro x d _ h
    have : faultySource.all noForward = true := by decide +kernel
    cases List.all_eq_true.1 this _ (List.mem_of_getElem? h)
  · have : (match wordBuild otherContext faultySource with | .ok _ => true | .error _ => false) = true := by
      decide +kernel
    split at this
    · exact ⟨_, _, ‹_›⟩
    · cases this

/-- A construction that raised is not without effect: `rule(normalized('a'))` finds the word with the sample
analyzer; after a construction with another analyzer has failed because of an unknown grammeme elsewhere,
the parser with the sample analyzer does not find it any more. -/
theorem failure_keeps_tokenizer : ∃ h : Heap Pred, Run sampleLang sampleOrder [] h ∧ RuleAt h 1 ∧ RuleAt h 4 ∧
    ∃ b0 h0 b2 h2, wordBuild sampleContext h = .ok (b0, h0) ∧
      buildParser sampleLang sampleOrder otherContext sampleSplit (fun _ => .gender) id 60 4 h = .error .valueError ∧
      wordBuild sampleContext (compileLeft (otherContext.activation sampleLang sampleSplit) id 60 4 h) = .ok (b2, h2) ∧
      wordFound b0 = 1 ∧ wordFound b2 = 0 := by
  refine ⟨faultySource, faultySource_run, ⟨_, rfl, rfl⟩, ⟨_, rfl, rfl⟩, ?_⟩
  have key : (match wordBuild sampleContext faultySource with
      | .ok (b0, _) => wordFound b0 == 1 && (match wordBuild sampleContext (faultyLeft otherContext) with
        | .ok (b2, _) => wordFound b2 == 0
        | .error _ => false)
      | .error _ => false) = true := by decide +kernel
  split at key
  · rename_i b0 h0 e0
    rw [Bool.and_eq_true, beq_iff_eq] at key
    obtain ⟨k0, key⟩ := key
    split at key
    · rename_i b2 h2 e2
      exact ⟨b0, h0, b2, h2, e0, (retry_raises faultySource_run (fun _ _ h => h) (fun _ _ h => h) (limit' := 60)
        (pid' := id) ⟨_, rfl, rfl⟩ faulty_raises).1, e2, k0, beq_iff_eq.1 key⟩
    · cases key
  · cases key

end Yargy
