import Verif.Proofs.TintSource
import Verif.Properties.EndToEnd
/-!
C44 and C61 for rules with optional parts that stand directly after a token.
-/
namespace Yargy
open Spec

variable {L : Lang} {setOrder : List Str → List Str} {c : Context} {split : Str → List Str}
  {relation : Nat → Relation} {pid : Nat → Nat} {limit root : Nat} {h h' : Heap Pred} {b : Built}
  {H : Type} [DecidableEq H] {hash : Key → H} {toks : List Token}

/-- The compiled grammar has its empty parts where the parser finds them, and the whole rule is not empty. -/
theorem program_optionals (hrun : Run L setOrder [] h) (hr : RuleAt h root) (hp : ∀ a b, pid a = pid b → a = b)
    (hx : OptionalsAfterTokens h root)
    (hb : buildParser L setOrder c split relation pid limit root h = .ok (b, h')) :
    ∃ B, EmptiesFound b.grammar B ∧ ¬ B.null b.grammar.start := by
  obtain ⟨k1, k2, k3, k4, k5, k6, rules, k7, k8⟩ := program_parts hrun hr hp hb
  obtain ⟨col, h1, _, h2⟩ := Tint.compileRule_tint hp k1 k2 k3 (Tint.source_neat k1 hx) k4
  have hf : Tint.Full (col b.grammar.start) := by
    refine h2.full ?_
    unfold Tint.settle
    rcases Tint.source_sd hx.whole with h | ⟨_, h⟩
    · split
      · exact .inl rfl
      · exact h
    · rw [h]; exact .inl rfl
  exact ⟨_, Tint.painted_found h1 k5 hf, fun hn => hn hf⟩

/-- C44 (partial) for a rule that any program made, without agreement relations, whose optional parts stand directly
after a token: `extract` never raises, and reports exactly the ranges of tokens that the rule accepts. Missing:
optional parts at other places, for which this is false in general (`optionals_incomplete`). -/
theorem program_recognises_optionals_partial (hrun : Run L setOrder [] h) (hr : RuleAt h root)
    (hst : Spec.Steady .plain h root) (hp : ∀ a b, pid a = pid b → a = b) (hs : SetOrder setOrder)
    (hh : ∀ a b, hash a = hash b → a = b) (hx : OptionalsAfterTokens h root)
    (hsilent : ∀ (x : Nat) o, Reach h root x → h[x]? = some o → o.silent)
    (hb : buildParser L setOrder c split relation pid limit root h = .ok (b, h'))
    {fuel : Nat} {ms : List (Match Pred)} {σ : Store} {e : Option Err}
    (he : extract b.grammar b.agreement hash toks true fuel = some (ms, σ, e)) (i j : Nat) :
    e = none ∧ ((∃ m ∈ ms, m.tree.range = (i, j)) ↔ Accepts L (c.activation L split) h root toks i j) := by
  obtain ⟨B, hB, hn⟩ := program_optionals hrun hr hp hx hb
  exact program_recognises_found_partial hrun hr hst hp hs hh hsilent hb hB hn he i j

/-- C60 for rules whose optional parts stand directly after a token. -/
theorem optionals_consume (hrun : Run L setOrder [] h) (hx : OptionalsAfterTokens h root)
    (hf : ∀ (a x : Nat), Reach h root a → h[a]? = some (.forward (some x)) →
      ∀ d, ¬ Thin.Open (fun _ => False) h [.rule x] [d]) : Consumes h root :=
  Tint.painted_consumes (Tint.source_neat (run_healthy hrun healthy_nil).sorted hx) hf

/-- What is asked of a rule for the parser to do what the rule says: what the user has to get right, and what is
left out by the theorem (optional parts that are not after a token, and agreement). -/
structure CompleteOptionals (c : Context) (split : Str → List Str) (h : Heap Pred) (root : Nat) : Prop where
  /-- forward rules are defined, and not by a repetition without bounds or by a forward rule -/
  defined : ∀ a d, Reach h root a → h[a]? = some (.forward d) → ∃ r, d = some r ∧ Defining h r
  known : ∀ a ts m, Reach h root a → h[a]? = some (.prod ts m) → ∀ p, .pred p ∈ ts → ∀ q, PredPart q p → Known c q
  words : ∀ a k ls, Reach h root a → h[a]? = some (.pipe (.scheme k ls)) → ∀ l ∈ ls, split l ≠ []
  morph : ∀ a ls, Reach h root a → h[a]? = some (.pipe (.scheme .morph ls)) → ls ≠ [] → ∃ m, c.morph = some m
  steady : Spec.Steady .plain h root
  /-- no forward rule is, with no token beside it, in the place of a forward rule -/
  guarded : ∀ (a x : Nat), Reach h root a → h[a]? = some (.forward (some x)) →
    ∀ d, ¬ Thin.Open (fun _ => False) h [.rule x] [d]
  optionals : OptionalsAfterTokens h root
  silent : ∀ (x : Nat) o, Reach h root x → h[x]? = some o → o.silent

/-- C61 (partial): total correctness, for rules whose optional parts stand directly after a token and without
agreement relations. `Parser(rule)` succeeds, and on every text `extract`, `findall` and `match` end without raising:
`extract` reports exactly the ranges that the rule accepts, `findall` the best choice among them, and `match` finds
the whole text if the rule accepts it. -/
theorem fresh_correct_optionals_partial (hrun : Fresh L setOrder h) (hr : RuleAt h root)
    (hp : ∀ a b, pid a = pid b → a = b) (hs : SetOrder setOrder) (hh : ∀ a b, hash a = hash b → a = b)
    (hc : CompleteOptionals c split h root) :
    ∃ N b h', (∀ limit, N ≤ limit → buildParser L setOrder c split relation pid limit root h = .ok (b, h')) ∧
      ∀ toks : List Token,
        (∃ fuel ms σ, extract b.grammar b.agreement hash toks true fuel = some (ms, σ, none) ∧
          ∀ i j, (∃ m ∈ ms, m.tree.range = (i, j)) ↔ Accepts L (c.activation L split) h root toks i j) ∧
        (∃ fuel ms σ, findall b.grammar b.agreement hash toks fuel = some (.ok (ms, σ)) ∧
          Chosen (Accepts L (c.activation L split) h root toks) (ms.map (fun m => m.tree.range))) ∧
        ∃ fuel x σ, matchText b.grammar b.agreement hash toks fuel = some (.ok (x, σ)) ∧
          (Accepts L (c.activation L split) h root toks 0 toks.length →
            ∃ m, x = some m ∧ m.tree.range = (0, toks.length)) ∧
          ∀ m, x = some m → m.tree.range.2 = toks.length ∧
            Accepts L (c.activation L split) h root toks m.tree.range.1 m.tree.range.2 := by
  have hrun' := fresh_run hrun
  obtain ⟨N, b, h', hbuild⟩ := fresh_parser_builds_partial (c := c) (split := split) (relation := relation) hrun hp hr
    hc.defined (fun a d b r ha ho => (hc.optionals.kinds a _ ha ho).2.2.1 _ _ _ rfl) hc.known hc.words hc.morph
  refine ⟨N, b, h', hbuild, fun toks => ?_⟩
  have hb := hbuild N (Nat.le_refl N)
  have hu := optionals_consume hrun' hc.optionals hc.guarded
  obtain ⟨B, hB, hn⟩ := program_optionals hrun' hr hp hc.optionals hb
  obtain ⟨⟨f1, r1, e1⟩, ⟨f2, r2, e2⟩, e3⟩ := fresh_terminates (hash := hash) hrun hr hp hs hu hb toks
  obtain ⟨f3, ⟨ms3, σ3, er3⟩, e3⟩ := e3 true
  refine ⟨⟨f3, ms3, σ3, ?_, fun i j => ?_⟩, ?_, ?_⟩
  · rw [e3, (program_recognises_found_partial hrun' hr hc.steady hp hs hh hc.silent hb hB hn e3 0 0).1]
  · exact (program_recognises_found_partial hrun' hr hc.steady hp hs hh hc.silent hb hB hn e3 i j).2
  · obtain ⟨ms, σ, rfl, hch⟩ := program_findall_partial hrun' hr hc.steady hp hs hh hc.silent hb hB hn e1
    exact ⟨f1, ms, σ, e1, hch⟩
  · obtain ⟨x, σ, rfl, hm⟩ := program_match_partial hrun' hr hc.steady hp hs hh hc.silent hb hB hn e2
    exact ⟨f2, x, σ, e2, hm⟩

/-! ### Samples -/

/-- `TAIL = rule('c').optional(); NAME = pipeline(['b']); X = forward();
X.define(or_(rule('a', TAIL, X), rule(NAME, TAIL, 'd'), NAME))`: an optional part is used twice, after a predicate
and after a gazetteer, in a recursive rule. -/
def garlandSource : Heap Pred :=
  [.forward (some 9), .prod [.pred (.eq "c".toList)] 0, .rule [1], .optional 2 false,
   .pipe (.scheme .exact ["b".toList]), .prod [.pred (.eq "a".toList), .rule 3, .rule 0] 0, .rule [5],
   .prod [.rule 4, .rule 3, .pred (.eq "d".toList)] 0, .rule [7], .or [6, 8, 4]]

theorem garlandSource_fresh : Fresh L setOrder garlandSource :=
  fresh_trans (fresh_makes (g := []) (os := .forward none :: garlandSource.tail) (by decide +kernel))
    (.cons (.define (a := 0) (c := none) (r := 9) rfl ⟨.or [6, 8, 4], rfl, rfl⟩) .nil)

theorem garlandSource_token : HasToken garlandSource 9 := by
  have h5 : HasToken garlandSource 5 := .token (p := .eq "a".toList) rfl List.mem_cons_self
  have h7 : HasToken garlandSource 7 := .token (p := .eq "d".toList) rfl (by simp)
  have h6 : HasToken garlandSource 6 := .parts (o := .rule [5]) rfl rfl (by simpa [Obj.children] using h5)
  have h8 : HasToken garlandSource 8 := .parts (o := .rule [7]) rfl rfl (by simpa [Obj.children] using h7)
  have h4 : HasToken garlandSource 4 := .pipe rfl
  exact .parts (o := .or [6, 8, 4]) rfl rfl (by simpa [Obj.children] using ⟨h6, h8, h4⟩)

theorem garlandSource_optional {r : Nat} (hr : IsOptional garlandSource r) : r = 3 := by
  obtain ⟨x, v, e⟩ := hr
  match r with
  | 0 | 1 | 2 | 4 | 5 | 6 | 7 | 8 | 9 => cases e
  | 3 => rfl
  | n + 10 => cases e

theorem garlandSource_optionals : OptionalsAfterTokens garlandSource 0 := by
  have at_ : ∀ {a : Nat} {o : Obj Pred}, garlandSource[a]? = some o → o ∈ garlandSource := List.mem_of_getElem?
  refine ⟨fun h => ?_, ?_, ?_, ?_, ?_⟩
  · cases garlandSource_optional h
  · intro a o _ h
    have ho := at_ h
    simp only [garlandSource, List.mem_cons, List.not_mem_nil, or_false] at ho
    rcases ho with rfl | rfl | rfl | rfl | rfl | rfl | rfl | rfl | rfl | rfl <;> simp
  · intro a ts m _ h
    have ho := at_ h
    simp only [garlandSource, List.mem_cons, List.not_mem_nil, reduceCtorEq, or_false, false_or, Obj.prod.injEq] at ho
    rcases ho with ⟨rfl, _⟩ | ⟨rfl, _⟩ | ⟨rfl, _⟩
    · refine ⟨by simp, fun i r hi ho => ?_⟩
      cases garlandSource_optional ho
      match i with
      | 0 => cases hi
      | n + 1 => cases hi
    · refine ⟨by simp, fun i r hi ho => ?_⟩
      cases garlandSource_optional ho
      match i with
      | 0 => cases hi
      | 1 => exact ⟨0, _, rfl, rfl, .inl ⟨_, rfl⟩⟩
      | 2 => cases hi
      | n + 3 => cases hi
    · refine ⟨by simp, fun i r hi ho => ?_⟩
      cases garlandSource_optional ho
      match i with
      | 0 => cases hi
      | 1 => exact ⟨0, _, rfl, rfl, .inr ⟨4, rfl, .inl ⟨_, rfl⟩⟩⟩
      | 2 => cases hi
      | n + 3 => cases hi
  · intro a o _ h hn c hc hopt
    cases garlandSource_optional hopt
    have ho := at_ h
    simp only [garlandSource, List.mem_cons, List.not_mem_nil, or_false] at ho
    rcases ho with rfl | rfl | rfl | rfl | rfl | rfl | rfl | rfl | rfl | rfl <;>
      first | exact hn _ _ rfl | simp [Obj.children] at hc
  · intro a r v _ h
    cases garlandSource_optional ⟨r, v, h⟩
    cases h
    intro hu
    cases hu with
    | repeatable e => cases e
    | min e => cases e
    | max e => cases e
    | minMax e => cases e

/-- The hypotheses of `fresh_correct_optionals_partial` hold of it. -/
theorem garlandSource_words (hw : ∀ k ls l, .pipe (.scheme k ls) ∈ garlandSource → l ∈ ls → split l ≠ []) :
    CompleteOptionals c split garlandSource 0 := by
  have at_ : ∀ {a : Nat} {o : Obj Pred}, garlandSource[a]? = some o → o ∈ garlandSource := List.mem_of_getElem?
  refine ⟨?_, ?_, ?_, ?_, ⟨?_, ?_, ?_⟩, ?_, garlandSource_optionals, ?_⟩
  · intro a d _ h
    have : some (Obj.or (P := Pred) [6, 8, 4]) = garlandSource[9]? := rfl
    have hm := at_ h
    simp only [garlandSource, List.mem_cons, List.not_mem_nil, reduceCtorEq, or_false, Obj.forward.injEq] at hm
    exact ⟨9, hm, .plain this.symm rfl⟩
  · intro a ts m _ h p hp q hq
    have hm := at_ h
    simp only [garlandSource, List.mem_cons, List.not_mem_nil, reduceCtorEq, or_false, false_or,
      Obj.prod.injEq] at hm
    rcases hm with ⟨rfl, _⟩ | ⟨rfl, _⟩ | ⟨rfl, _⟩ <;> simp at hp <;> subst hp <;> cases hq <;> trivial
  · intro a k ls _ h l hl
    exact hw k ls l (at_ h) hl
  · intro a ls _ h _
    have hm := at_ h
    simp [garlandSource] at hm
  · intro a o _ h
    have ho := at_ h
    simp only [garlandSource, List.mem_cons, List.not_mem_nil, or_false] at ho
    rcases ho with rfl | rfl | rfl | rfl | rfl | rfl | rfl | rfl | rfl | rfl <;>
      first | trivial | (simp only [Obj.bounds]; omega)
  · intro a o _ h
    have ho := at_ h
    simp only [garlandSource, List.mem_cons, List.not_mem_nil, or_false] at ho
    rcases ho with rfl | rfl | rfl | rfl | rfl | rfl | rfl | rfl | rfl | rfl <;> trivial
  · intro a o _ h
    have ho := at_ h
    simp only [garlandSource, List.mem_cons, List.not_mem_nil, or_false] at ho
    rcases ho with rfl | rfl | rfl | rfl | rfl | rfl | rfl | rfl | rfl | rfl <;> (intro _ _ _ _ _ e; cases e)
  · intro a x _ h d
    have hm := at_ h
    simp only [garlandSource, List.mem_cons, List.not_mem_nil, reduceCtorEq, or_false, Obj.forward.injEq,
      Option.some.injEq] at hm
    subst hm
    exact token_open garlandSource_token _
  · intro a o _ h
    have ho := at_ h
    simp only [garlandSource, List.mem_cons, List.not_mem_nil, or_false] at ho
    rcases ho with rfl | rfl | rfl | rfl | rfl | rfl | rfl | rfl | rfl | rfl <;> simp [Obj.silent]

theorem garlandSource_complete : CompleteOptionals sampleContext sampleSplit garlandSource 0 := by
  refine garlandSource_words (fun k ls l hm hl => ?_)
  simp only [garlandSource, List.mem_cons, List.not_mem_nil, reduceCtorEq, or_false, false_or,
    Obj.pipe.injEq, Pipe.scheme.injEq] at hm
  obtain ⟨_, rfl⟩ := hm
  simp only [List.mem_cons, List.not_mem_nil, or_false] at hl
  subst hl
  decide +kernel

example : Fresh sampleLang sampleOrder garlandSource ∧ RuleAt garlandSource 0 ∧
    CompleteOptionals sampleContext sampleSplit garlandSource 0 ∧
    reportedRanges garlandSource 0 (["a", "c", "b", "c", "d"].map sourceWord) = some [(2, 3), (0, 3), (2, 5), (0, 5)] :=
  ⟨garlandSource_fresh, ⟨_, rfl, rfl⟩, garlandSource_complete, by decide +kernel⟩

end Yargy
