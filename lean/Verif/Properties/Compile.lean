import Verif.Proofs.GrammarWords
import Verif.Proofs.Keeps
/-!
C44: the parser built from a rule recognises what the rule says.
-/
namespace Yargy
open Spec

variable {L : Lang} {setOrder : List Str → List Str} {c : Context} {split : Str → List Str}
  {relation : Nat → Relation} {pid : Nat → Nat} {limit root : Nat} {h h' : Heap Pred} {b : Built}
  {H : Type} [DecidableEq H] {hash : Key → H} {toks : List Token}

/-- A rule object as the constructors make it: nothing dangling, bounds checked, no repetitions below
repetitions that squashing changes (`squash_adds_words`, `squash_loses_words`). -/
structure GoodRule {P : Type} (h : Heap P) (root : Nat) : Prop where
  closed : ClosedHeap h
  calm : Calm h
  lt : root < h.length
  rule : ∀ ts m, h[root]? ≠ some (.prod ts m)

theorem buildParser_ok (hg : GoodRule h root) (hp : ∀ a b, pid a = pid b → a = b)
    (hb : buildParser L setOrder c split relation pid limit root h = .ok (b, h')) :
    ∃ start, compileRule (c.activation L split) pid limit root h = .ok (start, h') ∧
      b.grammar.start = start ∧ Belongs L h' b.grammar (Reach h' start) ∧ isBnf h' start = true ∧
      (∃ rules, b.grammar = predGrammar L rules start ∧ LibraryRules L setOrder rules) ∧
      b.agreement = ⟨relationAt h', relation⟩ ∧
      ∀ w, Words .plain h' start w ↔ Reads (c.activation L split) .plain h [.rule root] w := by
  unfold buildParser at hb
  simp only [bind, Except.bind] at hb
  split at hb
  · cases hb
  · rename_i x hx
    obtain ⟨start, h1⟩ := x
    simp only at hb
    split at hb
    · cases hb
    · rename_i g hgr
      cases hb
      obtain ⟨t1, t2, t3⟩ := compileRule_words hp hx hg.closed hg.calm hg.lt hg.rule
      obtain ⟨g1, g2, g3, g4⟩ := toGrammar_ok t1.closed t2 hgr
      exact ⟨start, hx, g1, g2, g3, g4, rfl, t3⟩

theorem built_predict (hg : GoodRule h root) (hp : ∀ a b, pid a = pid b → a = b)
    (hs : SetOrder setOrder)
    (hb : buildParser L setOrder c split relation pid limit root h = .ok (b, h')) :
    PredictSound b.grammar ∧ PredictLossless b.grammar ∧ DistinctProductions b.grammar ∧
      ConstrainNarrows b.grammar := by
  obtain ⟨start, _, _, h3, _, ⟨rules, h5, h6⟩, _⟩ := buildParser_ok hg hp hb
  obtain ⟨q1, q2⟩ := library_predict (start := start) hs h6
  refine ⟨h5 ▸ q1, h5 ▸ q2, belongs_distinct h3, ?_⟩
  rw [h5]
  exact pred_narrows L rules start

/-- C44, derivations: the grammar of the parser derives a piece of the text iff the rule accepts it. -/
theorem parser_derives_iff (hg : GoodRule h root) (hp : ∀ a b, pid a = pid b → a = b)
    (hb : buildParser L setOrder c split relation pid limit root h = .ok (b, h')) (i j : Nat) :
    (∃ d, Derives b.grammar toks (.rule b.grammar.start) i j d) ↔
      Accepts L (c.activation L split) h root toks i j := by
  obtain ⟨start, _, h2, h3, h4, _, _, h7⟩ := buildParser_ok hg hp hb
  rw [h2, derives_iff h3 .root h4]
  unfold Accepts
  simp only [h7]

/-- C44, one direction: every match of `extract` covers a piece of the text that the rule accepts, even
if the iteration ends with an exception. -/
theorem parser_sound (hg : GoodRule h root) (hp : ∀ a b, pid a = pid b → a = b)
    (hs : SetOrder setOrder)
    (hb : buildParser L setOrder c split relation pid limit root h = .ok (b, h'))
    {all : Bool} {fuel : Nat} {ms : List (Match Pred)} {σ : Store} {e : Option Err}
    (hx : extract b.grammar b.agreement hash toks all fuel = some (ms, σ, e)) (m : Match Pred)
    (hm : m ∈ ms) :
    Accepts L (c.activation L split) h root toks m.tree.range.1 m.tree.range.2 := by
  obtain ⟨q1, _, _, q4⟩ := built_predict hg hp hs hb
  obtain ⟨d, hd, _⟩ := (extract_matches q1 q4 hx m hm).derives
  exact (parser_derives_iff hg hp hb _ _).1 ⟨d, hd⟩

/-! ### Rules without empty parts -/

/-- Nothing that is empty by itself. -/
def Obj.solid {P : Type} : Obj P → Prop
  | .optional _ _ => False
  | .repOptional _ _ _ => False
  | .empty => False
  | .emptyProd => False
  | .prod ts _ => ts ≠ []
  | .pipeProd _ ts => ts ≠ []
  | _ => True

/-- No agreement relation. -/
def Obj.silent {P : Type} : Obj P → Prop
  | .relation _ _ => False
  | .bnf _ _ _ r _ => r = none
  | _ => True

theorem solid_stable {P : Type} : Stable (Obj.solid (P := P)) where
  terms := by
    intro ts ts' m h1 h2 h3
    subst h3
    exact h1 (List.length_eq_zero_iff.1 h2.symm)
  prod _ _ _ := by simp [Obj.solid]
  pipeProd _ _ _ _ := by simp [Obj.solid]
  rule _ := trivial
  or _ := trivial
  forward _ := trivial
  repeatable _ _ := trivial
  pipe _ _ := trivial
  pipeBnf _ _ := trivial
  optional _ _ h := h
  both _ _ _ h := h.elim
  repOptional _ _ _ h := h
  empty h := h.elim
  empty' h := h.elim
  emptyProd h := h
  minBounded _ h := h
  maxBounded _ h := h
  minMaxBounded _ h := h
  named _ h := h
  interp _ h := h
  relation _ h := h
  bnf _ := trivial
  setName _ h := h
  setInterp _ h := h
  setRelation _ h := h

theorem silent_stable {P : Type} : Stable (Obj.silent (P := P)) where
  terms h _ := h
  prod _ _ _ := trivial
  pipeProd _ _ _ _ := trivial
  rule _ := trivial
  or _ := trivial
  forward _ := trivial
  repeatable _ _ := trivial
  pipe _ _ := trivial
  pipeBnf _ _ := rfl
  optional _ _ h := h
  both _ _ _ _ := trivial
  repOptional _ _ _ h := h
  empty _ := trivial
  empty' _ := trivial
  emptyProd _ := trivial
  minBounded _ h := h
  maxBounded _ h := h
  minMaxBounded _ h := h
  named _ h := h
  interp _ h := h
  relation _ h := h
  bnf _ := rfl
  setName _ h := h
  setInterp _ h := h
  setRelation h _ := h.elim

/-- Without empty productions all derivations are longer than nothing, and safe. -/
theorem derives_solid {P T : Type} {G : Grammar P T} {toks : List T} {Z : Nat → Prop}
    (hn : ∀ r prod, Z r → prod ∈ G.productions r → prod.terms ≠ [] ∧ ∀ x, .rule x ∈ prod.terms → Z x)
    {x : Term P} {i j : Nat} {d : DTree P T} (hd : Derives G toks x i j d) :
    (∀ r, x = .rule r → Z r) → i < j ∧ DerivesSafe G toks x i j d := by
  refine Derives.rec
    (motive_1 := fun x i j d _ => (∀ r, x = .rule r → Z r) → i < j ∧ DerivesSafe G toks x i j d)
    (motive_2 := fun xs i j ds _ => (∀ r, .rule r ∈ xs → Z r) → (xs ≠ [] → i < j) ∧ i ≤ j ∧
      ∀ b, DerivesAllSafe G toks b xs i j ds) ?_ ?_ ?_ ?_ hd
  · intro p i t h1 h2 _
    exact ⟨Nat.lt_succ_self i, .leaf h1 h2⟩
  · intro r i j prod cs hp _ ih hz
    obtain ⟨n1, n2⟩ := hn r prod (hz r rfl) hp
    exact ⟨(ih n2).1 n1, .node hp ((ih n2).2.2 _)⟩
  · intro i _
    exact ⟨fun h => absurd rfl h, Nat.le_refl i, fun _ => .nil⟩
  · intro x xs i j k t ts _ _ ih1 ih2 hz
    have a1 := ih1 (fun r e => hz r (by rw [e]; exact List.mem_cons_self))
    have a2 := ih2 (fun r e => hz r (List.mem_cons_of_mem _ e))
    refine ⟨fun _ => Nat.lt_of_lt_of_le a1.1 a2.2.1, Nat.le_of_lt (Nat.lt_of_lt_of_le a1.1 a2.2.1),
      fun b => ?_⟩
    cases x with
    | pred p => exact .consLeaf a1.2 (a2.2.2 _)
    | rule r => exact .consNode a1.2 (.inl a1.1) (a2.2.2 _)

theorem derives_inside {P T : Type} {G : Grammar P T} {toks : List T} {x : Term P} {i j : Nat}
    {d : DTree P T} (hd : Derives G toks x i j d) (hij : i < j) : j ≤ toks.length := by
  have : i ≤ j ∧ (i < j → j ≤ toks.length) := by
    refine Derives.rec
      (motive_1 := fun _ i j _ _ => i ≤ j ∧ (i < j → j ≤ toks.length))
      (motive_2 := fun _ i j _ _ => i ≤ j ∧ (i < j → j ≤ toks.length)) ?_ ?_ ?_ ?_ hd
    · intro p i t h1 _
      exact ⟨Nat.le_succ i, fun _ => (List.getElem?_eq_some_iff.1 h1).1⟩
    · intro r i j prod cs _ _ ih; exact ih
    · intro i; exact ⟨Nat.le_refl i, fun h => absurd h (Nat.lt_irrefl i)⟩
    · intro x xs i j k t ts _ _ ih1 ih2
      refine ⟨Nat.le_trans ih1.1 ih2.1, fun h => ?_⟩
      by_cases hjk : j < k
      · exact ih2.2 hjk
      · have : j = k := Nat.le_antisymm ih2.1 (Nat.le_of_not_lt hjk)
        subst this
        exact ih1.2 h
  exact this.2 hij

/-- C44 (partial): for a rule without optional or empty parts and without agreement relations,
`extract` never raises, and reports exactly the ranges of tokens that the rule accepts. Missing: rules
with empty parts (the chart parser loses some of their matches, `parser_incomplete`). -/
theorem parser_recognises_partial (hg : GoodRule h root) (hp : ∀ a b, pid a = pid b → a = b)
    (hs : SetOrder setOrder) (hh : ∀ a b, hash a = hash b → a = b)
    (hsolid : ∀ o ∈ h, o.solid) (hsilent : ∀ o ∈ h, o.silent)
    (hb : buildParser L setOrder c split relation pid limit root h = .ok (b, h'))
    {fuel : Nat} {ms : List (Match Pred)} {σ : Store} {e : Option Err}
    (hx : extract b.grammar b.agreement hash toks true fuel = some (ms, σ, e)) (i j : Nat) :
    e = none ∧ ((∃ m ∈ ms, m.tree.range = (i, j)) ↔
      Accepts L (c.activation L split) h root toks i j) := by
  obtain ⟨q1, q2, q3, q4⟩ := built_predict hg hp hs hb
  obtain ⟨start, h1, h2, h3, h4, _, h6, _⟩ := buildParser_ok hg hp hb
  have hso := compileRule_keeps solid_stable h1 hsolid
  have hsi := compileRule_keeps silent_stable h1 hsilent
  have hn : ∀ r prod, Reach h' start r → prod ∈ b.grammar.productions r →
      prod.terms ≠ [] ∧ ∀ x, .rule x ∈ prod.terms → Reach h' start x := by
    intro r prod hz hpr
    cases hr : isBnf h' r with
    | false => rw [h3.none r hr] at hpr; cases hpr
    | true =>
      unfold isBnf at hr
      split at hr
      · rename_i ps n x y d ho
        rw [h3.productions r ps n x y d ho] at hpr
        obtain ⟨p, hpm, rfl⟩ := List.mem_map.1 hpr
        obtain ⟨hzp, hip⟩ := h3.bnf r ps n x y d hz ho p hpm
        refine ⟨?_, fun x hx => (prod_terms h3 hzp x hx).1⟩
        unfold isProduction at hip
        unfold productionAt
        split at hip
        · rename_i ts m hm
          rw [hm]
          exact hso _ (List.mem_of_getElem? hm)
        · rename_i hm
          exact (hso _ (List.mem_of_getElem? hm)).elim
        · rename_i v ts hm
          rw [hm]
          have := hso _ (List.mem_of_getElem? hm)
          simpa [Obj.solid] using this
        · cases hip
      · cases hr
  have hstart : ∀ r, Term.rule (P := Pred) b.grammar.start = .rule r → Reach h' start r := by
    intro r e; cases e; rw [h2]; exact .root
  have hA : ∀ r, b.agreement.relationOf r = none := by
    intro r
    rw [h6]
    unfold relationAt
    dsimp only
    split
    · rename_i ho; exact hsi _ (List.mem_of_getElem? ho)
    · rfl
  have he : e = none := by
    rw [extract_raises_iff q1 hx]
    intro t ht
    have hd := reported_derives q1 ht
    exact checkable_of_no_relations hA (reported_prune q1 ht (derives_solid hn hd hstart).1)
  refine ⟨he, ?_⟩
  subst he
  rw [← parser_derives_iff hg hp hb]
  constructor
  · rintro ⟨m, hm, hr⟩
    obtain ⟨d, hd, _⟩ := (extract_matches q1 q4 hx m hm).derives
    rw [hr] at hd
    exact ⟨d, hd⟩
  · rintro ⟨d, hd⟩
    obtain ⟨d1, d2⟩ := derives_solid hn hd hstart
    have hil := derives_inside hd d1
    obtain ⟨n, d3⟩ := d2.rounds (fun _ => 0) 0
    rcases extract_complete_partial q1 q2 q3 hh (waits_zero _) hx i j n d (.inr rfl) (by omega) (.inl rfl)
        d3 with
      ⟨m, hm, hr, _⟩ | ⟨t, _, _, _, hrej⟩
    · exact ⟨m, hm, hr⟩
    · exact absurd hrej (not_rejected hA t)

/-! ### Samples -/

/-- A rule with a repetition, an alternative, a gazetteer and recursion:
`X = forward(); X.define(or_(rule(a.repeatable(max=2), X), pipeline(['b c'])))`. -/
def sampleSource : Heap Pred :=
  [.forward (some 6), .prod [.pred (.eq "a".toList)] 0, .rule [1], .maxBounded 2 2 false,
   .prod [.rule 3, .rule 0] 0, .rule [4], .or [5, 7], .pipe (.scheme .exact ["b c".toList])]

def sourceWord (s : String) : Token := { value := s.toList, span := (0, 0), type := "RU".toList }

/-- The ranges of the matches. -/
def ranges (r : Option (List (Match Pred) × Store × Option Err)) : Option (List (Nat × Nat)) :=
  r.map (fun x => x.1.map (fun m => m.tree.range))

/-- The ranges a parser reports for a rule. -/
def reportedRanges (h : Heap Pred) (root : Nat) (toks : List Token) : Option (List (Nat × Nat)) :=
  match buildParser sampleLang sampleOrder sampleContext sampleSplit (fun _ => .gender) id 60 root h with
  | .error _ => none
  | .ok (b, _) => ranges (extract b.grammar b.agreement (id : Key → Key) toks true 2000)

theorem sampleSource_good : GoodRule sampleSource 0 where
  closed := by unfold ClosedHeap sampleSource; decide +kernel
  calm := by
    refine ⟨?_, ?_⟩ <;>
    · intro o ho
      simp only [sampleSource, List.mem_cons, List.not_mem_nil, or_false] at ho
      rcases ho with rfl | rfl | rfl | rfl | rfl | rfl | rfl | rfl <;>
        first | trivial | (simp only [Obj.bounds]; omega)
  lt := by decide
  rule := by intro ts m e; cases e

/-- The hypotheses of `parser_recognises_partial` are met. -/
example : GoodRule sampleSource 0 ∧ (∀ o ∈ sampleSource, o.solid) ∧ (∀ o ∈ sampleSource, o.silent) ∧
    reportedRanges sampleSource 0 (["a", "a", "b", "c"].map sourceWord) =
      some [(2, 4), (0, 4), (1, 4), (0, 4)] := by
  refine ⟨sampleSource_good, ?_, ?_, by decide +kernel⟩ <;>
  · intro o ho
    simp only [sampleSource, List.mem_cons, List.not_mem_nil, or_false] at ho
    rcases ho with rfl | rfl | rfl | rfl | rfl | rfl | rfl | rfl <;> simp [Obj.solid, Obj.silent]

theorem reads_append {P : Type} {A : Activation P} {k : Kind} {h : Heap P} {ts us : List (Term P)}
    {w v : List (Sym P)} (h1 : Reads A k h ts w) (h2 : Reads A k h us v) :
    Reads A k h (ts ++ us) (w ++ v) := by
  induction h1 with
  | nil => exact h2
  | pred _ ih => exact .pred ih
  | rule ho hs hu _ _ ih => rw [List.append_assoc]; exact .rule ho hs hu ih

/-- `rule(rule('a').repeatable(), rule('b').optional())` -/
def lossySource : Heap Pred :=
  [.prod [.pred (.eq "a".toList)] 0, .rule [0], .repeatable 1 false, .prod [.pred (.eq "b".toList)] 0,
   .rule [3], .optional 4 false, .prod [.rule 2, .rule 5] 0, .rule [6]]

/-- C44 is false in general: the parser built from `rule(rule('a').repeatable(),
rule('b').optional())` does not find the whole text `a a a a`, which the rule accepts. -/
theorem parser_incomplete :
    GoodRule lossySource 7 ∧
    Accepts sampleLang (sampleContext.activation sampleLang sampleSplit) lossySource 7
      (["a", "a", "a", "a"].map sourceWord) 0 4 ∧
    ∃ rs, reportedRanges lossySource 7 (["a", "a", "a", "a"].map sourceWord) = some rs ∧
      (0, 4) ∉ rs := by
  refine ⟨⟨?_, ?_, by decide, by intro ts m e; cases e⟩, ?_, ?_⟩
  · unfold ClosedHeap lossySource; decide +kernel
  · refine ⟨?_, ?_⟩
    · intro o ho
      simp only [lossySource, List.mem_cons, List.not_mem_nil, or_false] at ho
      rcases ho with rfl | rfl | rfl | rfl | rfl | rfl | rfl | rfl <;> trivial
    · intro o ho
      simp only [lossySource, List.mem_cons, List.not_mem_nil, or_false] at ho
      rcases ho with rfl | rfl | rfl | rfl | rfl | rfl | rfl | rfl <;>
        first | trivial | exact tight_not_demands (by intro o e; cases e; rfl)
  · let A := sampleContext.activation sampleLang sampleSplit
    let x : Sym Pred := .pred (.eq "a".toList)
    have one : Reads A .plain lossySource [.rule 1] [x] := by
      have h0 : Reads A .plain lossySource [.rule 0] [x] :=
        .rule (o := .prod [.pred (.eq "a".toList)] 0) (us := [.pred (.eq "a".toList)]) (w := [x]) rfl
          (.prod (.cons (.pred rfl) .nil)) (.pred .nil) .nil
      exact .rule (o := .rule [0]) (w := [x]) rfl (.other (by simp) (.rule List.mem_cons_self)) h0 .nil
    have rep : Reads A .plain lossySource [.rule 2] [x, x, x, x] :=
      .rule (o := .repeatable 1 false) (w := [x, x, x, x]) rfl
        (.other (by simp) (.repeatable (n := 4) (by decide)))
        (reads_append one (reads_append one (reads_append one one))) .nil
    have opt : Reads A .plain lossySource [.rule 5] [] :=
      .rule (o := .optional 4 false) (w := []) rfl (.other (by simp) .none) .nil .nil
    have seq : Reads A .plain lossySource [.rule 6] [x, x, x, x] :=
      .rule (o := .prod [.rule 2, .rule 5] 0) (us := [.rule 2, .rule 5]) (w := [x, x, x, x]) rfl
        (.prod (.cons (.rule 2) (.cons (.rule 5) .nil))) (reads_append rep opt) .nil
    refine ⟨[x, x, x, x], .rule (o := .rule [6]) (w := [x, x, x, x]) rfl
      (.other (by simp) (.rule List.mem_cons_self)) seq .nil, ?_⟩
    exact .pred (t := sourceWord "a") rfl rfl (.pred (t := sourceWord "a") rfl rfl
      (.pred (t := sourceWord "a") rfl rfl (.pred (t := sourceWord "a") rfl rfl .nil)))
  · have : (reportedRanges lossySource 7 (["a", "a", "a", "a"].map sourceWord)).map
        (fun rs => decide ((0, 4) ∈ rs)) = some false := by decide +kernel
    obtain ⟨rs, h1, h2⟩ := Option.map_eq_some_iff.1 this
    exact ⟨rs, h1, of_decide_eq_false h2⟩

/-- `rule('x', rule('a').optional(), rule('x').optional(), rule('c').optional())` -/
def threeOptionals : Heap Pred :=
  [.prod [.pred (.eq "a".toList)] 0, .rule [0], .optional 1 false, .prod [.pred (.eq "x".toList)] 0, .rule [3],
   .optional 4 false, .prod [.pred (.eq "c".toList)] 0, .rule [6], .optional 7 false,
   .prod [.pred (.eq "x".toList), .rule 2, .rule 5, .rule 8] 0, .rule [9]]

/-- C44 is false even without repetitions: three optional words in a row after a word, the second like the
first word; in the text `x x` the match of the second word alone is not found. -/
theorem optionals_incomplete :
    GoodRule threeOptionals 10 ∧
    Accepts sampleLang (sampleContext.activation sampleLang sampleSplit) threeOptionals 10
      (["x", "x"].map sourceWord) 1 2 ∧
    reportedRanges threeOptionals 10 (["x", "x"].map sourceWord) = some [(0, 1), (0, 2)] := by
  refine ⟨⟨?_, ?_, by decide, by intro ts m e; cases e⟩, ?_, by decide +kernel⟩
  · unfold ClosedHeap threeOptionals; decide +kernel
  · refine ⟨?_, ?_⟩ <;>
    · intro o ho
      simp only [threeOptionals, List.mem_cons, List.not_mem_nil, or_false] at ho
      rcases ho with rfl | rfl | rfl | rfl | rfl | rfl | rfl | rfl | rfl | rfl | rfl <;> trivial
  · let A := sampleContext.activation sampleLang sampleSplit
    let x : Sym Pred := .pred (.eq "x".toList)
    have opt2 : Reads A .plain threeOptionals [.rule 2] [] :=
      .rule (o := .optional 1 false) (w := []) rfl (.other (by simp) .none) .nil .nil
    have opt5 : Reads A .plain threeOptionals [.rule 5] [] :=
      .rule (o := .optional 4 false) (w := []) rfl (.other (by simp) .none) .nil .nil
    have opt8 : Reads A .plain threeOptionals [.rule 8] [] :=
      .rule (o := .optional 7 false) (w := []) rfl (.other (by simp) .none) .nil .nil
    have seq : Reads A .plain threeOptionals [.rule 9] [x] :=
      .rule (o := .prod [.pred (.eq "x".toList), .rule 2, .rule 5, .rule 8] 0)
        (us := [.pred (.eq "x".toList), .rule 2, .rule 5, .rule 8]) (w := [x]) rfl
        (.prod (.cons (.pred rfl) (.cons (.rule 2) (.cons (.rule 5) (.cons (.rule 8) .nil)))))
        (.pred (reads_append opt2 (reads_append opt5 opt8))) .nil
    exact ⟨[x], .rule (o := .rule [9]) (w := [x]) rfl (.other (by simp) (.rule List.mem_cons_self)) seq .nil,
      .pred (t := sourceWord "x") rfl rfl .nil⟩

end Yargy
