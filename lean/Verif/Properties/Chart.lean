import Verif.Proofs.EarleyUnique
import Verif.Proofs.Yield
import Verif.Proofs.Levels
/-!
C05, C07 and C08 for the chart: what the parser finds in a token sequence, before sorting and
agreement. `Verif/Properties/Findall.lean` lifts them to `extract`, `findall` and `match`.
-/
set_option linter.unusedSectionVars false
namespace Yargy
open Spec

variable {P T H : Type} [DecidableEq H] {G : Grammar P T} {hash : Key → H} {toks : List T} {all : Bool}

/-! ### Sample grammar: `S → R0 R1`, `R0 → 'a' R0 | 'a'`, `R1 → ε | 'b'` over characters -/

def plainRule (ps : List (Production Char)) : ChartRule Char Char := ⟨ps, fun _ => ps⟩

/-- What `rule(rule('a').repeatable(), rule('b').optional())` compiles to (up to one-term
rules). -/
def sampleGrammar : Grammar Char Char := {
  rules := [plainRule [⟨0, [.rule 1, .rule 2], 0, none⟩],
            plainRule [⟨1, [.pred 'a', .rule 1], 0, none⟩, ⟨2, [.pred 'a'], 0, none⟩],
            plainRule [⟨3, [], 0, none⟩, ⟨4, [.pred 'b'], 0, none⟩]],
  start := 0, accepts := fun p t => p == t, constrain := fun _ t => t }

theorem plain_predict {G : Grammar Char Char} (h : ∀ r ∈ G.rules, ∀ t, r.predict t = r.productions)
    (r : Nat) (t : Char) : G.predict r t = G.productions r := by
  unfold Grammar.predict Grammar.productions
  cases hr : G.rules[r]? with
  | none => rfl
  | some x => exact h x (List.mem_of_getElem? hr) t

theorem sample_predict (r : Nat) (t : Char) :
    sampleGrammar.predict r t = sampleGrammar.productions r :=
  plain_predict (by simp [sampleGrammar, plainRule]) r t

theorem sample_sound : PredictSound sampleGrammar := by
  intro r t prod h; rwa [sample_predict] at h

theorem sample_lossless : PredictLossless sampleGrammar := by
  intro r t prod h _; rwa [sample_predict]

theorem sample_distinct : DistinctProductions sampleGrammar := by
  have key : ∀ r prod, prod ∈ sampleGrammar.productions r → prod ∈
      ([⟨0, [.rule 1, .rule 2], 0, none⟩, ⟨1, [.pred 'a', .rule 1], 0, none⟩,
        ⟨2, [.pred 'a'], 0, none⟩, ⟨3, [], 0, none⟩, ⟨4, [.pred 'b'], 0, none⟩] : List (Production Char)) := by
    intro r prod h
    match r with
    | 0 => simp [Grammar.productions, sampleGrammar, plainRule] at h ⊢; simp [h]
    | 1 => simp [Grammar.productions, sampleGrammar, plainRule] at h ⊢; rcases h with h | h <;> simp [h]
    | 2 => simp [Grammar.productions, sampleGrammar, plainRule] at h ⊢; rcases h with h | h <;> simp [h]
    | n + 3 => simp [Grammar.productions, sampleGrammar] at h
  intro r r' prod prod' h h' he
  have h1 := key _ _ h
  have h2 := key _ _ h'
  simp only [List.mem_cons, List.not_mem_nil, or_false] at h1 h2
  rcases h1 with rfl | rfl | rfl | rfl | rfl <;> rcases h2 with rfl | rfl | rfl | rfl | rfl <;>
    first | rfl | (simp at he)

/-! ### C05 -/

/-- C05: every state the chart ever holds is a partial derivation: its children derive, in order,
the terms of its production before the dot, over the tokens from its start to its column. This
needs no assumption on the hash function. -/
theorem chart_states_sound (hG : PredictSound G) (n k : Nat) (col : Column P T H)
    (hc : (runN G hash toks all n).cols[k]? = some col) (s : State P T) (hs : s ∈ col.states) :
    s.prod ∈ G.productions s.rule ∧ s.stop = k ∧
      DerivesAll G toks (s.prod.terms.take s.dot) s.start k (s.children.map PTree.erase) := by
  have h := (soundInv_runN (all := all) (toks := toks) (hash := hash) hG n).states k s ⟨col, hc, hs⟩
  exact ⟨h.prod, h.stop, h.derives⟩

theorem mem_chartMatches {start : Nat} {cols : List (Column P T H)} {s : State P T}
    (h : s ∈ chartMatches start all cols) :
    ∃ k, InCol cols k s ∧ s.completed = true ∧ s.rule = start ∧
      (all = false → k + 1 = cols.length) := by
  unfold chartMatches at h
  split at h
  · rename_i ha
    obtain ⟨c, hc, hs⟩ := List.mem_flatMap.1 h
    obtain ⟨k, hk⟩ := List.getElem?_of_mem hc
    simp only [Column.matches, List.mem_filter, Bool.and_eq_true, beq_iff_eq] at hs
    exact ⟨k, ⟨c, hk, hs.1⟩, hs.2.1, hs.2.2, by simp [ha]⟩
  · split at h
    · rename_i c hl
      simp only [Column.matches, List.mem_filter, Bool.and_eq_true, beq_iff_eq] at h
      rw [List.getLast?_eq_getElem?] at hl
      refine ⟨cols.length - 1, ⟨c, hl, h.1⟩, h.2.1, h.2.2, ?_⟩
      have := (List.getElem?_eq_some_iff.1 hl).1
      omega
    · simp at h

theorem chart_runN {fuel : Nat} {cols : List (Column P T H)}
    (h : chart G hash toks all fuel = some cols) :
    (runN G hash toks all fuel).phase = .done ∧ (runN G hash toks all fuel).cols = cols := by
  unfold chart at h
  split at h
  · rename_i hp; exact ⟨hp, by simpa using h⟩
  · simp at h

/-- C05: every reported tree is a derivation of the start rule over its range. -/
theorem chart_matches_sound (hG : PredictSound G) {fuel : Nat} {cols : List (Column P T H)}
    (h : chart G hash toks all fuel = some cols) (s : State P T)
    (hs : s ∈ chartMatches G.start all cols) :
    Derives G toks (.rule G.start) s.start s.stop s.dtree := by
  obtain ⟨hp, rfl⟩ := chart_runN h
  obtain ⟨k, h1, h2, h3, _⟩ := mem_chartMatches hs
  have hok := (soundInv_runN (all := all) (toks := toks) (hash := hash) hG fuel).states k s h1
  have := hok.derives_node h2
  rw [h3] at this
  rw [hok.stop]; exact this

/-- C05: the leaves of a reported tree are the consecutive tokens of its range, each accepted by
(and narrowed by) a predicate. -/
theorem chart_matches_yield (hG : PredictSound G) {fuel : Nat} {cols : List (Column P T H)}
    (h : chart G hash toks all fuel = some cols) (s : State P T)
    (hs : s ∈ chartMatches G.start all cols) :
    s.start ≤ s.stop ∧ s.dtree.yield.length = s.stop - s.start ∧
      ∀ m, m < s.stop - s.start → ∃ p tok, toks[s.start + m]? = some tok ∧
        G.accepts p tok = true ∧ s.dtree.yield[m]? = some (G.constrain p tok) := by
  have hr := derives_reads (chart_matches_sound hG h s hs)
  exact ⟨hr.le, hr.len, hr.get⟩

/-- The hypotheses are met, with several overlapping and ambiguous results. -/
example : (chart sampleGrammar (id : Key → Key) "aab".toList true 200).map
    (fun cols => (chartMatches 0 true cols).map State.range) =
      some [(0, 1), (1, 2), (0, 2), (1, 3), (0, 3)] := by
  decide +kernel

/-! ### C07 -/

theorem inCol_matches {cols : List (Column P T H)} {k : Nat} {s : State P T} {start : Nat}
    (h : InCol cols k s) (h1 : s.completed = true) (h2 : s.rule = start)
    (hk : all = true ∨ k + 1 = cols.length) : s ∈ chartMatches start all cols := by
  obtain ⟨c, hc, hs⟩ := h
  have hm : s ∈ c.matches start := by simp [Column.matches, hs, h1, h2]
  unfold chartMatches
  split
  · exact List.mem_flatMap.2 ⟨c, List.mem_of_getElem? hc, hm⟩
  · rename_i ha
    rcases hk with hk | hk
    · exact absurd hk ha
    · rw [List.getLast?_eq_getElem?, show cols.length - 1 = k by omega, hc]
      exact hm

/-- C07 (partial): every derivation of the start rule whose empty subtrees are at the places of
`EmptyFound` is reported: right after a token; first in the whole rule, or in a rule that stands there or
right after a token; after a subtree that ends with a token; first in the only production that uses them;
and wherever else no empty subtree of that rule can have been finished before. Missing: empty
subtrees at other places; the full statement is false, see `chart_complete_false`. -/
theorem chart_complete_partial (hG : PredictSound G) (hL : PredictLossless G)
    (hD : DistinctProductions G) (hh : ∀ a b, hash a = hash b → a = b) {w : Nat → Nat} (hw : Waits G w)
    {fuel : Nat} {cols : List (Column P T H)} (h : chart G hash toks all fuel = some cols)
    (i j n : Nat) (d : DTree P T) (hi : i = 0 ∨ all = true) (hil : i ≤ toks.length)
    (hj : all = true ∨ j = toks.length) (hd : DerivesRounds G w toks (.rule G.start) i j 0 n d) :
    ∃ s ∈ chartMatches G.start all cols, s.range = (i, j) ∧ s.dtree = d := by
  obtain ⟨hp, rfl⟩ := chart_runN h
  have hC := closed_of_done (toks := toks) (all := all) hG hD hh hp
  obtain ⟨lv, hV⟩ := Rounds.lclosed_of_done (toks := toks) (all := all) hG hD hw hh hp
  obtain ⟨q, s, h1, _, h2, h3, h4, h5⟩ := Rounds.closed_rounds hL hV hd _ rfl (hV.start i hil hi)
  refine ⟨s, inCol_matches h1.inCol h2 h3 ?_, ?_, h5⟩
  · rcases hj with hj | hj
    · exact Or.inl hj
    · right; rw [hC.len, hj]
  · have := (hC.sound.states _ _ h1.inCol).stop
    simp [State.range, h4, this]

/-- C07 (partial): for a grammar whose parts that may be empty are at such places, what is reported is
exactly the derivations of the start rule. -/
theorem chart_exact_partial (hG : PredictSound G) (hL : PredictLossless G)
    (hD : DistinctProductions G) (hh : ∀ a b, hash a = hash b → a = b) {B : Bounds}
    (hB : EmptiesFound G B) {fuel : Nat} {cols : List (Column P T H)}
    (h : chart G hash toks true fuel = some cols) (i j : Nat) (d : DTree P T) (hil : i ≤ toks.length) :
    (∃ s ∈ chartMatches G.start true cols, s.range = (i, j) ∧ s.dtree = d) ↔
      Derives G toks (.rule G.start) i j d := by
  constructor
  · rintro ⟨s, hs, h1, h2⟩
    have := chart_matches_sound hG h s hs
    rw [h2] at this
    have e1 : s.start = i := congrArg Prod.fst h1
    have e2 : s.stop = j := congrArg Prod.snd h1
    rw [← e1, ← e2]
    exact this
  · intro hd
    obtain ⟨n, hn, _⟩ := ((derives_rounds hB hd).2 _ rfl hB.start.1).2 0 hB.start.2
    exact chart_complete_partial hG hL hD hh hB.waits h i j n d (.inr rfl) hil (.inl rfl) hn

/-- The derivation of `"ab"`: no empty nodes; a non-trivial safe derivation. -/
example : DerivesSafe sampleGrammar "ab".toList (.rule 0) 0 2
    (.node 0 ⟨0, [.rule 1, .rule 2], 0, none⟩
      [.node 1 ⟨2, [.pred 'a'], 0, none⟩ [.leaf 'a' 'a'],
       .node 2 ⟨4, [.pred 'b'], 0, none⟩ [.leaf 'b' 'b']]) := by
  refine .node (by decide +kernel) (.consNode (j := 1) ?_ (Or.inl (by decide))
    (.consNode (j := 2) ?_ (Or.inl (by decide)) .nil))
  · exact .node (by decide +kernel) (.consLeaf (.leaf (t := 'a') rfl rfl) .nil)
  · exact .node (by decide +kernel) (.consLeaf (.leaf (t := 'b') rfl rfl) .nil)

/-- `S → 'a' R`, `R → ε | 'b'`: an optional word after a word. -/
def optionalAfterToken : Grammar Char Char := {
  rules := [plainRule [⟨0, [.pred 'a', .rule 1], 0, none⟩],
            plainRule [⟨1, [], 0, none⟩, ⟨2, [.pred 'b'], 0, none⟩]],
  start := 0, accepts := fun p t => p == t, constrain := fun _ t => t }

/-- A safe derivation with an empty node. -/
example : DerivesSafe optionalAfterToken "a".toList (.rule 0) 0 1
    (.node 0 ⟨0, [.pred 'a', .rule 1], 0, none⟩ [.leaf 'a' 'a', .node 1 ⟨1, [], 0, none⟩ []]) :=
  .node (by decide +kernel) (.consLeaf (.leaf (t := 'a') rfl rfl)
    (.consNode (j := 1) (.node (by decide +kernel) .nil) (Or.inr trivial) .nil))

/-- `S → A R A R`, `A → 'x' | 'y'`, `R → ε | 'z'`: an optional word in two places, after
alternatives. -/
def optionalTwice : Grammar Char Char := {
  rules := [plainRule [⟨0, [.rule 1, .rule 2, .rule 1, .rule 2], 0, none⟩],
            plainRule [⟨1, [.pred 'x'], 0, none⟩, ⟨2, [.pred 'y'], 0, none⟩],
            plainRule [⟨3, [], 0, none⟩, ⟨4, [.pred 'z'], 0, none⟩]],
  start := 0, accepts := fun p t => p == t, constrain := fun _ t => t }

/-- Only `R` may be empty, and it stands after `A`, which is done in round 0. -/
def optionalTwiceBounds : BoundsB := {
  live := fun r => decide (r < 3)
  null := fun r => r == 2
  waits := fun _ => 0
  begins := fun r => if r = 0 then some 0 else if r = 1 then some 4 else some 2
  ends := fun r => if r = 0 then some 3 else if r = 1 then some 0 else some 2 }

/-- The hypotheses of `chart_exact_partial` are met. -/
theorem optionalTwice_found : EmptiesFound optionalTwice optionalTwiceBounds.toBounds :=
  check_found (by decide +kernel)

/-- The grammar of `chart_complete_false` meets no bounds. -/
theorem sampleGrammar_not_found (B : Bounds) : ¬ EmptiesFound sampleGrammar B := by
  intro h
  have h0 := (h.places 0 ⟨0, [.rule 1, .rule 2], 0, none⟩ h.start.1 (by decide +kernel)).1
  obtain ⟨l1, _, _, l2, _, h2, _⟩ := h0
  have hn : B.null 2 := h.null 2 ⟨3, [], 0, none⟩ l2 (by decide +kernel) (fun x hx => by cases hx)
  obtain ⟨n, hn, _⟩ := h2 hn
  obtain ⟨m, hm, _⟩ := Option.map_eq_some_iff.1 hn
  have h1 := (h.places 1 ⟨1, [.pred 'a', .rule 1], 0, none⟩ l1 (by decide +kernel)).2
  obtain ⟨k, hk, hkm⟩ := h1 m hm
  simp only [Bounds.pass, hm, Option.map_some, Option.some.injEq] at hk
  omega

/-- The derivation of `"aaaa"` from the sample grammar (with nothing for the optional part). -/
def missedTree : DTree Char Char :=
  let a (cs : List (DTree Char Char)) : DTree Char Char :=
    .node 1 ⟨1, [.pred 'a', .rule 1], 0, none⟩ (.leaf 'a' 'a' :: cs)
  .node 0 ⟨0, [.rule 1, .rule 2], 0, none⟩
    [a [a [a [.node 1 ⟨2, [.pred 'a'], 0, none⟩ [.leaf 'a' 'a']]]], .node 2 ⟨3, [], 0, none⟩ []]

/-- C07 is false in general: for the grammar of
`rule(rule('a').repeatable(), rule('b').optional())` the text `aaaa` is derivable from its first
to its last token, the chart terminates, hashes do not collide, and yet no reported tree has that
range. -/
theorem chart_complete_false :
    PredictSound sampleGrammar ∧ PredictLossless sampleGrammar ∧ DistinctProductions sampleGrammar ∧
    Derives sampleGrammar "aaaa".toList (.rule 0) 0 4 missedTree ∧
    ∃ cols, chart sampleGrammar (id : Key → Key) "aaaa".toList true 400 = some cols ∧
      ∀ s ∈ chartMatches 0 true cols, s.range ≠ (0, 4) := by
  refine ⟨sample_sound, sample_lossless, sample_distinct, ?_, ?_⟩
  · have leaf : ∀ i, i < 4 → Derives sampleGrammar "aaaa".toList (.pred 'a') i (i + 1) (.leaf 'a' 'a') := by
      intro i hi
      refine .leaf (t := 'a') ?_ rfl
      match i, hi with
      | 0, _ => rfl
      | 1, _ => rfl
      | 2, _ => rfl
      | 3, _ => rfl
    have last : Derives sampleGrammar "aaaa".toList (.rule 1) 3 4
        (.node 1 ⟨2, [.pred 'a'], 0, none⟩ [.leaf 'a' 'a']) :=
      .node (by decide +kernel) (.cons (leaf 3 (by decide)) .nil)
    have more : ∀ i t, i < 3 → Derives sampleGrammar "aaaa".toList (.rule 1) (i + 1) 4 t →
        Derives sampleGrammar "aaaa".toList (.rule 1) i 4
          (.node 1 ⟨1, [.pred 'a', .rule 1], 0, none⟩ [.leaf 'a' 'a', t]) := by
      intro i t hi h
      exact .node (by decide +kernel) (.cons (leaf i (by omega)) (.cons h .nil))
    refine .node (by decide +kernel) (.cons (more 0 _ (by decide) (more 1 _ (by decide)
      (more 2 _ (by decide) last))) (.cons (.node (by decide +kernel) .nil) .nil))
  · have h : (chart sampleGrammar (id : Key → Key) "aaaa".toList true 400).map
        (fun cols => (chartMatches 0 true cols).all (fun s => s.range != (0, 4))) = some true := by
      decide +kernel
    obtain ⟨cols, h1, h2⟩ := Option.map_eq_some_iff.1 h
    refine ⟨cols, h1, fun s hs => ?_⟩
    simpa using List.all_eq_true.1 h2 s hs

/-! ### C08 -/

/-- C08: two states anywhere in the chart, at any time, that are completed, start at the same
token and have the same derivation are one state. No assumption on the hash function. -/
theorem chart_completed_unique (hG : PredictSound G) (n k1 k2 : Nat) (c1 c2 : Column P T H)
    (h1 : (runN G hash toks all n).cols[k1]? = some c1)
    (h2 : (runN G hash toks all n).cols[k2]? = some c2) (s1 s2 : State P T)
    (hs1 : s1 ∈ c1.states) (hs2 : s2 ∈ c2.states) (hc1 : s1.completed = true)
    (hc2 : s2.completed = true) (hst : s1.start = s2.start) (hd : s1.dtree = s2.dtree) : s1 = s2 :=
  (unique_completed (uniqInv_runN hG n) ⟨c1, h1, hs1⟩ ⟨c2, h2, hs2⟩ hc1 hc2 hst hd).1

theorem flatMap_pairwise {α β} {R : β → β → Prop} (f : α → List β) : ∀ (l : List α),
    (∀ a ∈ l, (f a).Pairwise R) →
    (l.Pairwise (fun a b => ∀ x ∈ f a, ∀ y ∈ f b, R x y)) → (l.flatMap f).Pairwise R
  | [], _, _ => List.Pairwise.nil
  | a :: l, h1, h2 => by
    rw [List.flatMap_cons, List.pairwise_append]
    rw [List.pairwise_cons] at h2
    refine ⟨h1 a List.mem_cons_self,
      flatMap_pairwise f l (fun b hb => h1 b (List.mem_cons_of_mem _ hb)) h2.2, ?_⟩
    intro x hx y hy
    obtain ⟨b, hb, hy⟩ := List.mem_flatMap.1 hy
    exact h2.1 b hb x hx y hy

/-- C08: in the list of reported parses no derivation occurs twice for one range. -/
theorem chart_matches_unique (hG : PredictSound G) {fuel : Nat} {cols : List (Column P T H)}
    (h : chart G hash toks all fuel = some cols) :
    (chartMatches G.start all cols).Pairwise
      (fun a b => a.range = b.range → a.dtree ≠ b.dtree) := by
  obtain ⟨hp, rfl⟩ := chart_runN h
  have hU := uniqInv_runN (hash := hash) (toks := toks) (all := all) hG fuel
  generalize runN G hash toks all fuel = c at hU
  have hin : ∀ (k : Nat) (col : Column P T H), c.cols[k]? = some col → (col.matches G.start).Pairwise
      (fun a b => a.range = b.range → a.dtree ≠ b.dtree) := by
    intro k col hk
    have hn := (hU.hashes k col hk).nodup
    unfold Column.matches
    have hn' := hn.sublist (List.filter_sublist (p := fun s => s.completed && s.rule == G.start))
    have hmem : ∀ a ∈ col.states.filter (fun s => s.completed && s.rule == G.start),
        InCol c.cols k a ∧ a.completed = true := by
      intro a ha
      rw [List.mem_filter] at ha
      simp only [Bool.and_eq_true] at ha
      exact ⟨⟨col, hk, ha.1⟩, ha.2.1⟩
    refine List.Pairwise.imp_of_mem ?_ hn'
    intro a b ha hb hne hr hd
    obtain ⟨a1, a2⟩ := hmem a ha
    obtain ⟨b1, b2⟩ := hmem b hb
    have := (unique_completed hU a1 b1 a2 b2 (congrArg Prod.fst hr) hd).1
    rw [this] at hne
    exact hne rfl
  unfold chartMatches
  split
  · refine flatMap_pairwise _ _ ?_ ?_
    · intro col hcol
      obtain ⟨k, hk⟩ := List.getElem?_of_mem hcol
      exact hin k col hk
    · rw [List.pairwise_iff_getElem]
      intro k1 k2 l1 l2 hlt a ha b hb hr
      exfalso
      have e1 : a.stop = k1 :=
        (hU.sound.states k1 a ⟨c.cols[k1], by simp [l1], (List.mem_filter.1 ha).1⟩).stop
      have e2 : b.stop = k2 :=
        (hU.sound.states k2 b ⟨c.cols[k2], by simp [l2], (List.mem_filter.1 hb).1⟩).stop
      have := congrArg Prod.snd hr
      simp only [State.range] at this
      omega
  · split
    · rename_i col hl
      rw [List.getLast?_eq_getElem?] at hl
      exact hin _ _ hl
    · exact List.Pairwise.nil

/-- An ambiguous grammar `S → S S | 'a'`. -/
def ambiguousGrammar : Grammar Char Char := {
  rules := [plainRule [⟨0, [.rule 0, .rule 0], 0, none⟩, ⟨1, [.pred 'a'], 0, none⟩]],
  start := 0, accepts := fun p t => p == t, constrain := fun _ t => t }

/-- The hypotheses are met with different derivations of one range: all five trees of `aaaa`. -/
example : (chart ambiguousGrammar (id : Key → Key) "aaaa".toList false 400).map
    (fun cols => (chartMatches 0 false cols).countP (fun s => s.range == (0, 4))) = some 5 := by
  decide +kernel

end Yargy
