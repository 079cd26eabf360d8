import Verif.Proofs.Terminate
import Verif.Properties.Chart
/-! C09: the chart loop stops for acyclic grammars and runs forever for cyclic ones. -/
set_option linter.unusedSectionVars false
namespace Yargy
open Spec

variable {P T H : Type} [DecidableEq H] {G : Grammar P T} {hash : Key → H} {toks : List T} {all : Bool}

/-- C09, first half: if no rule derives itself over the same tokens of the text, the chart loop
stops. Nothing is assumed about the hash function. -/
theorem chart_terminates (hG : PredictSound G) (hA : Acyclic G toks) :
    ∃ fuel cols, chart G hash toks all fuel = some cols := by
  obtain ⟨n, hn⟩ := reaches_done (hash := hash) (all := all) hG hA _ 0 (Nat.le_refl _)
  exact ⟨n, (runN G hash toks all n).cols, by simp [chart, hn]⟩

/-- Once stopped, the result does not depend on the number of iterations allowed. -/
theorem chart_stable {n m : Nat} {cols : List (Column P T H)} (h : chart G hash toks all n = some cols)
    (hm : n ≤ m) : chart G hash toks all m = some cols := by
  obtain ⟨d, rfl⟩ := Nat.exists_eq_add_of_le hm
  clear hm
  induction d with
  | zero => exact h
  | succ d ih =>
    obtain ⟨h1, h2⟩ := chart_runN ih
    have : step G hash toks all (runN G hash toks all (n + d)) = runN G hash toks all (n + d) := by
      unfold step; rw [h1]
    unfold chart
    rw [← Nat.add_assoc]
    simp only [runN, this, h1, h2]

/-- The loop has at most one result. -/
theorem chart_deterministic {n m : Nat} {cols cols' : List (Column P T H)}
    (h : chart G hash toks all n = some cols) (h' : chart G hash toks all m = some cols') :
    cols = cols' := by
  rcases Nat.le_total n m with hl | hl
  · rw [chart_stable h hl] at h'; exact Option.some.inj h'
  · rw [chart_stable h' hl] at h; exact (Option.some.inj h).symm

theorem sample_acyclic (toks : List Char) : Acyclic sampleGrammar toks := by
  have key : ∀ i j r r', Above sampleGrammar toks i j r r' → r < r' := by
    rintro i j r r' ⟨prod, hp, pre, post, he, ⟨ds, h1⟩, _, _⟩
    match r with
    | 0 =>
      simp [Grammar.productions, sampleGrammar, plainRule] at hp
      subst hp
      cases pre with
      | nil => simp at he; omega
      | cons x pre =>
        cases pre with
        | nil => simp at he; omega
        | cons y pre => simp at he
    | 1 =>
      simp [Grammar.productions, sampleGrammar, plainRule] at hp
      rcases hp with rfl | rfl
      · cases pre with
        | nil => simp at he
        | cons x pre =>
          simp at he
          obtain ⟨rfl, _⟩ := he
          cases h1 with
          | cons a b =>
            cases a
            have := derivesAll_le b
            omega
      · cases pre with
        | nil => simp at he
        | cons x pre => simp at he
    | 2 =>
      simp [Grammar.productions, sampleGrammar, plainRule] at hp
      rcases hp with rfl | rfl
      · simp at he
      · cases pre with
        | nil => simp at he
        | cons x pre => simp at he
    | n + 3 => simp [Grammar.productions, sampleGrammar] at hp
  intro i j r h
  have : ∀ {a b}, Relation.TransGen (Above sampleGrammar toks i j) a b → a < b := by
    intro a b h
    induction h with
    | single h => exact key _ _ _ _ h
    | tail _ h ih => exact Nat.lt_trans ih (key _ _ _ _ h)
  exact absurd (this h) (by omega)

/-- The hypotheses are met: a recursive grammar with an optional part parses every text. -/
example (toks : List Char) :
    ∃ fuel cols, chart sampleGrammar (id : Key → Key) toks true fuel = some cols :=
  chart_terminates sample_sound (sample_acyclic toks)

/-- C09, second half (partial): if while looking for the start rule the parser has to look for a
rule at some token, that rule derives some tokens from there, and derives itself over the same
tokens, the chart loop never stops. Missing: cycles that are only closed through empty subtrees at
places outside `EmptyOK` – some of those are missed by the parser (see `chart_complete_false`), so
that the loop may stop. -/
theorem chart_diverges_partial (hG : PredictSound G) (hL : PredictLossless G)
    (hD : DistinctProductions G) (hh : ∀ a b, hash a = hash b → a = b) {g : Goal} {t : DTree P T}
    (hn : Needed G toks all g.rule g.start) (hcyc : Relation.TransGen (Below G toks) g g)
    (ht : DerivesSafe G toks (.rule g.rule) g.start g.stop t) (fuel : Nat) :
    chart G hash toks all fuel = none := by
  have := never_done hG hL hD hh hn hcyc ht fuel
  unfold chart
  split
  · contradiction
  · rfl

/-- `S → 'x' E`, `E → E | 'a'`: what `rule('x', e)` with `e.define(or_(e, 'a'))` compiles to. -/
def cyclicGrammar : Grammar Char Char := {
  rules := [plainRule [⟨0, [.pred 'x', .rule 1], 0, none⟩],
            plainRule [⟨1, [.rule 1], 0, none⟩, ⟨2, [.pred 'a'], 0, none⟩]],
  start := 0, accepts := fun p t => p == t, constrain := fun _ t => t }

/-- Parsing "xa" with it runs forever. -/
example (fuel : Nat) : chart cyclicGrammar (id : Key → Key) "xa".toList false fuel = none := by
  have hp : ∀ r t, cyclicGrammar.predict r t = cyclicGrammar.productions r :=
    plain_predict (by simp [cyclicGrammar, plainRule])
  have hE : DerivesSafe cyclicGrammar "xa".toList (.rule 1) 1 2
      (.node 1 ⟨2, [.pred 'a'], 0, none⟩ [.leaf 'a' 'a']) :=
    .node (by decide +kernel) (.consLeaf (.leaf (t := 'a') rfl rfl) .nil)
  refine chart_diverges_partial (g := ⟨1, 1, 2⟩) ?_ ?_ ?_ (fun _ _ h => h) ?_ ?_ hE fuel
  · intro r t prod h; rwa [hp] at h
  · intro r t prod h _; rwa [hp]
  · have key : ∀ r prod, prod ∈ cyclicGrammar.productions r → prod ∈
        ([⟨0, [.pred 'x', .rule 1], 0, none⟩, ⟨1, [.rule 1], 0, none⟩,
          ⟨2, [.pred 'a'], 0, none⟩] : List (Production Char)) := by
      intro r prod h
      match r with
      | 0 => simp [Grammar.productions, cyclicGrammar, plainRule] at h ⊢; simp [h]
      | 1 => simp [Grammar.productions, cyclicGrammar, plainRule] at h ⊢; rcases h with h | h <;> simp [h]
      | n + 2 => simp [Grammar.productions, cyclicGrammar] at h
    intro r r' prod prod' h h' he
    have h1 := key _ _ h
    have h2 := key _ _ h'
    simp only [List.mem_cons, List.not_mem_nil, or_false] at h1 h2
    rcases h1 with rfl | rfl | rfl <;> rcases h2 with rfl | rfl | rfl <;>
      first | rfl | (simp at he)
  · exact .part (r := 0) (i := 0) (.start (by decide) (Or.inl rfl))
      (prod := ⟨0, [.pred 'x', .rule 1], 0, none⟩) (pre := [.pred 'x']) (post := [])
      (by decide +kernel) rfl (.consLeaf (.leaf (t := 'x') rfl rfl) .nil)
  · exact .single ⟨⟨1, [.rule 1], 0, none⟩, by decide +kernel, [], [], [], [], rfl, .nil, by decide, .nil⟩

end Yargy
