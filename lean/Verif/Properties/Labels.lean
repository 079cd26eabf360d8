import Verif.Proofs.Reading
import Verif.Properties.Rebuild
/-!
C20: every use of a rule keeps the interpretations and relations that were put on it, and no others.
C44 for rules that any program made.
-/
namespace Yargy
open Spec Twins

variable {L : Lang} {setOrder : List Str → List Str} {c : Context} {split : Str → List Str}
  {relation : Nat → Relation} {pid : Nat → Nat} {limit root : Nat} {h h' : Heap Pred} {b : Built}
  {H : Type} [DecidableEq H] {hash : Key → H} {toks : List Token} {k : Kind}

/-- What a parser is made of, for a rule in a program. -/
theorem program_parts (hrun : Run L setOrder [] h) (hr : RuleAt h root) (hp : ∀ a b, pid a = pid b → a = b)
    (hb : buildParser L setOrder c split relation pid limit root h = .ok (b, h')) :
    Sorted h ∧ root < h.length ∧ isProdAt h root = false ∧
      compileRule (c.activation L split) pid limit root h = .ok (b.grammar.start, h') ∧
      Belongs L h' b.grammar (Reach h' b.grammar.start) ∧ isBnf h' b.grammar.start = true ∧
      ∃ rules, b.grammar = predGrammar L rules b.grammar.start ∧ LibraryRules L setOrder rules := by
  have hh := run_healthy hrun healthy_nil
  obtain ⟨hlt, hpr⟩ := rule_at hr
  obtain ⟨start, e1, e2, _⟩ := buildParser_parts hb
  obtain ⟨hc, _⟩ := compile_healthy hh.sorted hh.stored hp hr e1
  obtain ⟨g1, g2, g3, g4⟩ := toGrammar_ok hc.sorted.closed hc.typed.lt e2
  subst g1
  exact ⟨hh.sorted, hlt, hpr, e1, g2, g3, g4⟩

theorem program_predict (hrun : Run L setOrder [] h) (hr : RuleAt h root) (hp : ∀ a b, pid a = pid b → a = b)
    (hs : SetOrder setOrder)
    (hb : buildParser L setOrder c split relation pid limit root h = .ok (b, h')) :
    PredictSound b.grammar ∧ ConstrainNarrows b.grammar := by
  obtain ⟨_, _, _, _, _, _, rules, h5, h6⟩ := program_parts hrun hr hp hb
  obtain ⟨q1, _⟩ := library_predict (start := b.grammar.start) hs h6
  rw [← h5] at q1
  refine ⟨q1, ?_⟩
  rw [h5]
  exact pred_narrows L rules b.grammar.start

/-! ### C44 -/

/-- C44, derivations, for a rule that any program made, whatever other rules and parsers it made before:
the grammar of the parser derives a piece of the text iff the rule accepts it. -/
theorem program_derives_iff (hrun : Run L setOrder [] h) (hr : RuleAt h root) (hst : Steady .plain h root)
    (hp : ∀ a b, pid a = pid b → a = b)
    (hb : buildParser L setOrder c split relation pid limit root h = .ok (b, h')) (i j : Nat) :
    (∃ d, Derives b.grammar toks (.rule b.grammar.start) i j d) ↔
      Accepts L (c.activation L split) h root toks i j := by
  obtain ⟨h1, h2, h3, h4, h5, h6, _⟩ := program_parts hrun hr hp hb
  rw [derives_iff h5 .root h6]
  unfold Accepts
  simp only [compileRule_words' hp h1 h2 h3 hst.bounds hst.calm h4]

/-- C44, one direction, for a rule that any program made. -/
theorem program_sound (hrun : Run L setOrder [] h) (hr : RuleAt h root) (hst : Steady .plain h root)
    (hp : ∀ a b, pid a = pid b → a = b) (hs : SetOrder setOrder)
    (hb : buildParser L setOrder c split relation pid limit root h = .ok (b, h'))
    {all : Bool} {fuel : Nat} {ms : List (Match Pred)} {σ : Store} {e : Option Err}
    (hx : extract b.grammar b.agreement hash toks all fuel = some (ms, σ, e)) (m : Match Pred)
    (hm : m ∈ ms) :
    Accepts L (c.activation L split) h root toks m.tree.range.1 m.tree.range.2 := by
  obtain ⟨q1, q2⟩ := program_predict hrun hr hp hs hb
  obtain ⟨d, hd, _⟩ := (extract_matches q1 q2 hx m hm).derives
  exact (program_derives_iff hrun hr hst hp hb _ _).1 ⟨d, hd⟩

theorem program_closed {G : Grammar Pred Token} {Z : Nat → Prop} (hB : Belongs L h G Z) :
    ∀ r prod, Z r → prod ∈ G.productions r → ∀ x, .rule x ∈ prod.terms → Z x := by
  intro r prod hz hpr
  cases hr : isBnf h r with
  | false => rw [hB.none r hr] at hpr; cases hpr
  | true =>
    unfold isBnf at hr
    split at hr
    · rename_i ps n x y d ho
      rw [hB.productions r ps n x y d ho] at hpr
      obtain ⟨p, hpm, rfl⟩ := List.mem_map.1 hpr
      obtain ⟨hzp, _⟩ := hB.bnf r ps n x y d hz ho p hpm
      exact fun x hx => (prod_terms hB hzp x hx).1
    · cases hr

/-- Bounds of a grammar without empty productions. -/
def solidBounds (live : Nat → Prop) : Bounds := ⟨live, fun _ => False, fun _ => 0, fun _ => none, fun _ => none⟩

theorem solid_found {P T : Type} {G : Grammar P T} {Z : Nat → Prop} (hz : Z G.start)
    (hn : ∀ r prod, Z r → prod ∈ G.productions r → prod.terms ≠ [] ∧ ∀ x, .rule x ∈ prod.terms → Z x) :
    EmptiesFound G (solidBounds Z) := by
  have hpl : ∀ (xs : List (Term P)) c, (∀ x, .rule x ∈ xs → Z x) →
      (solidBounds Z).Places G.start c xs := by
    intro xs
    induction xs with
    | nil => intro _ _; trivial
    | cons x xs ih =>
      intro c h
      cases x with
      | pred p => exact ih _ (fun y hy => h y (List.mem_cons_of_mem _ hy))
      | rule r =>
        exact ⟨h r List.mem_cons_self, (fun m e => by cases e), False.elim,
          ih _ (fun y hy => h y (List.mem_cons_of_mem _ hy))⟩
  refine ⟨waits_zero G, ⟨hz, fun m e => by cases e⟩, ?_, ?_⟩
  · intro r prod hl hp hx
    obtain ⟨h1, _⟩ := hn r prod hl hp
    cases ht : prod.terms with
    | nil => exact h1 ht
    | cons x xs =>
      obtain ⟨_, _, h2⟩ := hx x (by rw [ht]; exact List.mem_cons_self)
      exact h2
  · intro r prod hl hp
    exact ⟨hpl _ _ (hn r prod hl hp).2, fun m e => by cases e⟩

/-- C44 (partial) for a rule that any program made, without agreement relations: if the compiled grammar
shows that parts that may be empty are at places where the parser finds that (`EmptiesFound`), and the whole
rule does not accept nothing, then `extract` never raises, and reports exactly the ranges of tokens that the
rule accepts. Missing: rules with empty parts at other places (`parser_incomplete`). -/
theorem program_recognises_found_partial (hrun : Run L setOrder [] h) (hr : RuleAt h root)
    (hst : Steady .plain h root)
    (hp : ∀ a b, pid a = pid b → a = b) (hs : SetOrder setOrder) (hh : ∀ a b, hash a = hash b → a = b)
    (hsilent : ∀ (x : Nat) o, Reach h root x → h[x]? = some o → o.silent)
    (hb : buildParser L setOrder c split relation pid limit root h = .ok (b, h'))
    {B : Bounds} (hB : EmptiesFound b.grammar B) (hnull : ¬ B.null b.grammar.start)
    {fuel : Nat} {ms : List (Match Pred)} {σ : Store} {e : Option Err}
    (hx : extract b.grammar b.agreement hash toks true fuel = some (ms, σ, e)) (i j : Nat) :
    e = none ∧ ((∃ m ∈ ms, m.tree.range = (i, j)) ↔
      Accepts L (c.activation L split) h root toks i j) := by
  obtain ⟨k1, k2, k3, k4, k5, k6, rules, k7, k8⟩ := program_parts hrun hr hp hb
  obtain ⟨_, _, _, k9⟩ := buildParser_parts hb
  obtain ⟨q1, q4⟩ := program_predict hrun hr hp hs hb
  have q2 : PredictLossless b.grammar := by
    rw [k7]
    exact (library_predict (start := b.grammar.start) hs k8).2
  have q3 := belongs_distinct k5
  have hsi := compileRule_kept silent_stable hp k1 k2 k3 k4 hsilent
  have hn := program_closed k5
  have hlong : ∀ {i j : Nat} {d : DTree Pred Token},
      Derives b.grammar toks (.rule b.grammar.start) i j d → i < j := by
    intro i j d hd
    obtain ⟨h1, h2⟩ := derives_rounds hB hd
    by_cases e : i = j
    · exact absurd ((h2 _ rfl hB.start.1).1 e) hnull
    · omega
  -- relations of rules that are not part of this one do not matter
  let A : Agreement := ⟨fun _ => none, relation⟩
  have hsame : SameOn (Reach h' b.grammar.start) b.grammar b.grammar := {
    start := rfl, root := .root, accepts := rfl, constrain := rfl
    productions := fun _ _ => rfl, predict := fun _ _ _ => rfl
    closed := fun r hz p hpr x hx => hn r p hz hpr x hx
    closed' := fun r t hz p hpr x hx => hn r p hz (q1 r t p hpr) x hx }
  have hagree : SameAgreement (Reach h' b.grammar.start) b.agreement A := by
    refine ⟨fun r hz => ?_, by rw [k9]⟩
    rw [k9]
    show none = relationAt h' r
    unfold relationAt
    split
    · rename_i ho; exact (hsi _ _ hz ho).symm
    · rfl
  rw [← extract_sameOn hsame hagree] at hx
  have hA : ∀ r, A.relationOf r = none := fun _ => rfl
  have he : e = none := by
    rw [extract_raises_iff q1 hx]
    intro t ht
    exact checkable_of_no_relations hA (reported_prune q1 ht (hlong (reported_derives q1 ht)))
  refine ⟨he, ?_⟩
  subst he
  rw [← program_derives_iff hrun hr hst hp hb]
  constructor
  · rintro ⟨m, hm, hr⟩
    obtain ⟨d, hd, _⟩ := (extract_matches q1 q4 hx m hm).derives
    rw [hr] at hd
    exact ⟨d, hd⟩
  · rintro ⟨d, hd⟩
    have hil := derives_inside hd (hlong hd)
    have hlt := hlong hd
    obtain ⟨n, d3, _⟩ := ((derives_rounds hB hd).2 _ rfl hB.start.1).2 0 hB.start.2
    rcases extract_complete_partial q1 q2 q3 hh hB.waits hx i j n d (.inr rfl) (by omega) (.inl rfl)
        d3 with
      ⟨m, hm, hr, _⟩ | ⟨t, _, _, _, hrej⟩
    · exact ⟨m, hm, hr⟩
    · exact absurd hrej (not_rejected hA t)

/-- C44 (partial) for a rule that any program made: without optional or empty parts and without agreement
relations in the rule, `extract` never raises, and reports exactly the ranges of tokens that the rule
accepts. Missing: rules with empty parts (see `program_recognises_found_partial`). -/
theorem program_recognises_partial (hrun : Run L setOrder [] h) (hr : RuleAt h root) (hst : Steady .plain h root)
    (hp : ∀ a b, pid a = pid b → a = b) (hs : SetOrder setOrder) (hh : ∀ a b, hash a = hash b → a = b)
    (hsolid : ∀ (x : Nat) o, Reach h root x → h[x]? = some o → o.solid)
    (hsilent : ∀ (x : Nat) o, Reach h root x → h[x]? = some o → o.silent)
    (hb : buildParser L setOrder c split relation pid limit root h = .ok (b, h'))
    {fuel : Nat} {ms : List (Match Pred)} {σ : Store} {e : Option Err}
    (hx : extract b.grammar b.agreement hash toks true fuel = some (ms, σ, e)) (i j : Nat) :
    e = none ∧ ((∃ m ∈ ms, m.tree.range = (i, j)) ↔
      Accepts L (c.activation L split) h root toks i j) := by
  obtain ⟨k1, k2, k3, k4, k5, k6, rules, k7, k8⟩ := program_parts hrun hr hp hb
  have hso := compileRule_kept solid_stable hp k1 k2 k3 k4 hsolid
  refine program_recognises_found_partial hrun hr hst hp hs hh hsilent hb
    (solid_found (Z := Reach h' b.grammar.start) .root ?_) (fun h => h) hx i j
  intro r prod hz hpr
  refine ⟨?_, program_closed k5 r prod hz hpr⟩
  cases hr : isBnf h' r with
  | false => rw [k5.none r hr] at hpr; cases hpr
  | true =>
    unfold isBnf at hr
    split at hr
    · rename_i ps n x y d ho
      rw [k5.productions r ps n x y d ho] at hpr
      obtain ⟨p, hpm, rfl⟩ := List.mem_map.1 hpr
      obtain ⟨hzp, hip⟩ := k5.bnf r ps n x y d hz ho p hpm
      unfold isProduction at hip
      unfold productionAt
      split at hip
      · rename_i ts m hm
        rw [hm]
        exact hso _ _ hzp hm
      · rename_i hm
        exact (hso _ _ hzp hm).elim
      · rename_i v ts hm
        rw [hm]
        have := hso _ _ hzp hm
        simpa [Obj.solid] using this
      · cases hip
    · cases hr

/-! ### C20 -/

/-- The derivations of a parser over the tokens `i, …, j-1` read as the words in `W`. -/
def ReadsAs (k : Kind) (L : Lang) (toks : List Token) (h : Heap Pred) (G : Grammar Pred Token)
    (W : List (Sym Pred) → Prop) : Prop :=
  ∀ i j w, (∃ d, Derives G toks (.rule G.start) i j d ∧ reading (carried k h) d = w) ↔
    W w ∧ Fits (Pred.accepts L) toks w i j

/-- C20 (partial): the derivations of a parser carry the names (interpretators, relations) that the rule says,
at the places that the rule says, or one of them is put around the whole match as well. Missing: that the
second never happens; it does (`extra_interpretation`). Names that look like those that the parser gives
itself do not count. -/
theorem labels_kept_partial (hrun : Run L setOrder [] h) (hr : RuleAt h root)
    (hst : Steady k h root) (hp : ∀ a b, pid a = pid b → a = b)
    (hb : buildParser L setOrder c split relation pid limit root h = .ok (b, h')) :
    ReadsAs k L toks h' b.grammar (Reads (c.activation L split) k h [.rule root]) ∨
      ((∀ o, h[root]? = some o → o.label k = none) ∧ ∃ x, ReadsAs k L toks h' b.grammar
        (fun w => ∃ u, w = wrap (some x) u ∧ Reads (c.activation L split) k h [.rule root] u)) := by
  obtain ⟨h1, h2, h3, h4, h5, h6, _⟩ := program_parts hrun hr hp hb
  rcases compileRule_labels' hp h1 h2 h3 hst.bounds hst.calm hst.bare h4 with hw | ⟨hn, x, hw⟩
  · refine .inl fun i j w => ?_
    rw [derives_reading h5 .root h6, hw]
  · refine .inr ⟨?_, x, fun i j w => ?_⟩
    · intro o ho
      unfold labelAt at hn
      rw [ho] at hn
      exact hn
    · rw [derives_reading h5 .root h6, hw]

/-- C20 for a rule on which a name (an interpretation, a relation) was put last, as in
`Parser(RULE.interpretation(Fact))`: the derivations of the parser carry exactly the names (interpretators,
relations) that the rule says, at the places that the rule says. -/
theorem labels_kept (hrun : Run L setOrder [] h) (hr : RuleAt h root)
    (hst : Steady k h root) (hlab : ∃ o x, h[root]? = some o ∧ o.label k = some x)
    (hp : ∀ a b, pid a = pid b → a = b)
    (hb : buildParser L setOrder c split relation pid limit root h = .ok (b, h')) :
    ReadsAs k L toks h' b.grammar (Reads (c.activation L split) k h [.rule root]) := by
  rcases labels_kept_partial hrun hr hst hp hb with h1 | ⟨h1, _⟩
  · exact h1
  · obtain ⟨o, x, ho, hx⟩ := hlab
    rw [h1 o ho] at hx
    cases hx

/-- The same of a match that is what matches are. -/
theorem labels_of (hrun : Run L setOrder [] h) (hr : RuleAt h root)
    (hst : Steady k h root) (hlab : ∃ o x, h[root]? = some o ∧ o.label k = some x)
    (hp : ∀ a b, pid a = pid b → a = b)
    (hb : buildParser L setOrder c split relation pid limit root h = .ok (b, h')) {σ : Store} {m : Match Pred}
    (hm : MatchOK b.grammar toks σ m) :
    ∃ w, Reads (c.activation L split) k h [.rule root] w ∧
      Fits (Pred.accepts L) toks w m.tree.range.1 m.tree.range.2 ∧
      Sheds w (reading (carried k h') (m.tree.root.load σ).erase) ∧
      Tight (reading (carried k h') (m.tree.root.load σ).erase) := by
  obtain ⟨d, hd, ht⟩ := hm.derives
  obtain ⟨h1, h2⟩ := (labels_kept (toks := toks) hrun hr hst hlab hp hb _ _ _).1 ⟨d, hd, rfl⟩
  exact ⟨_, h1, h2, trims_sheds ht, (trims_solid ht).tight⟩

/-- The matches of `extract`, `findall` and `match` are what matches are. -/
theorem returned_ok (hrun : Run L setOrder [] h) (hr : RuleAt h root) (hp : ∀ a b, pid a = pid b → a = b)
    (hs : SetOrder setOrder) (hb : buildParser L setOrder c split relation pid limit root h = .ok (b, h'))
    {σ : Store} {m : Match Pred} (hm : Returned b.grammar b.agreement hash toks σ m) :
    MatchOK b.grammar toks σ m := by
  obtain ⟨q1, q2⟩ := program_predict hrun hr hp hs hb
  obtain ⟨_, _, _, _, _, _, rules, k7, k8⟩ := program_parts hrun hr hp hb
  have ql : PredictLossless b.grammar := by
    rw [k7]
    exact (library_predict (start := b.grammar.start) hs k8).2
  rcases hm with ⟨all, fuel, ms, e, h1, h2⟩ | ⟨fuel, ms, h1, h2⟩ | ⟨fuel, h1⟩
  · exact extract_matches q1 q2 h1 m h2
  · exact findall_matches q1 ql q2 h1 m h2
  · exact match_matches q1 ql q2 h1

/-- C20, in a match: the tree of a match shows the names (interpretators, relations) that the rule says around
the parts of the match that the rule says; parts that are empty are not shown. -/
theorem match_labels (hrun : Run L setOrder [] h) (hr : RuleAt h root)
    (hst : Steady k h root) (hlab : ∃ o x, h[root]? = some o ∧ o.label k = some x)
    (hp : ∀ a b, pid a = pid b → a = b) (hs : SetOrder setOrder)
    (hb : buildParser L setOrder c split relation pid limit root h = .ok (b, h')) {σ : Store} (m : Match Pred)
    (hm : Returned b.grammar b.agreement hash toks σ m) :
    ∃ w, Reads (c.activation L split) k h [.rule root] w ∧
      Fits (Pred.accepts L) toks w m.tree.range.1 m.tree.range.2 ∧
      Sheds w (reading (carried k h') (m.tree.root.load σ).erase) ∧
      Tight (reading (carried k h') (m.tree.root.load σ).erase) :=
  labels_of hrun hr hst hlab hp hb (returned_ok hrun hr hp hs hb hm)

/-! ### Samples -/

/-- `A = rule('a'); WHOLE = rule(A.interpretation(5), A.interpretation(6).optional()).interpretation(7)`:
one rule is used under two interpretations. -/
def twoUses : Heap Pred :=
  [.prod [.pred (.eq "a".toList)] 0, .rule [0], .interp 1 5, .interp 1 6, .optional 3 false,
   .prod [.rule 2, .rule 4] 0, .rule [5], .interp 6 7]

theorem twoUses_run : Run L setOrder [] twoUses :=
  makeAll_run (h := []) (by decide +kernel)

theorem twoUses_steady : Steady k twoUses 7 := by
  refine ⟨?_, ?_, ?_⟩ <;>
  · intro x o _ ho
    have ho := List.mem_of_getElem? ho
    simp only [twoUses, List.mem_cons, List.not_mem_nil, or_false] at ho
    rcases ho with rfl | rfl | rfl | rfl | rfl | rfl | rfl | rfl <;>
      first | trivial | (intro ps n i r d e; cases e)

/-- Brackets as numbers. -/
def Sym.mark {P : Type} : Sym P → Int
  | .opn (.interp n) => n
  | .cls (.interp n) => -n
  | _ => 0

/-- How the matches of a parser read. -/
def matchMarks (b : Built) (h : Heap Pred) (toks : List Token) : Option (List (List Int)) :=
  (extract b.grammar b.agreement (id : Key → Key) toks true 2000).map
    (fun x => x.1.map (fun m => (reading (carried .interp h) (m.tree.root.load x.2.1).erase).map Sym.mark))

/-- The hypotheses of `labels_kept` and `match_labels` are met, and there are matches. -/
example : Run sampleLang sampleOrder [] twoUses ∧ RuleAt twoUses 7 ∧ Steady .interp twoUses 7 ∧
    (∃ o x, twoUses[7]? = some o ∧ o.label .interp = some x) ∧
    ∃ b h', sampleBuild 7 twoUses = .ok (b, h') ∧
      matchMarks b h' (["a", "a"].map sourceWord) =
        some [[7, 5, 0, -5, -7], [7, 5, 0, -5, 6, 0, -6, -7], [7, 5, 0, -5, -7]] := by
  refine ⟨twoUses_run, ⟨_, rfl, rfl⟩, twoUses_steady, ⟨_, _, rfl, rfl⟩, ?_⟩
  have key : (match sampleBuild 7 twoUses with
      | .ok (b, h') => decide (matchMarks b h' (["a", "a"].map sourceWord) =
          some [[7, 5, 0, -5, -7], [7, 5, 0, -5, 6, 0, -6, -7], [7, 5, 0, -5, -7]])
      | .error _ => false) = true := by decide +kernel
  split at key
  · rename_i b h' e
    exact ⟨b, h', e, of_decide_eq_true key⟩
  · cases key

/-- `A = rule('a'); WHOLE = rule(A.named('x'), A.named('y').optional()).named('z')`: one rule is used under
two names. -/
def twoNames : Heap Pred :=
  [.prod [.pred (.eq "a".toList)] 0, .rule [0], .named 1 ['x'], .named 1 ['y'], .optional 3 false,
   .prod [.rule 2, .rule 4] 0, .rule [5], .named 6 ['z']]

/-- Brackets as letters. -/
def Sym.letter {P : Type} : Sym P → Str
  | .opn (.name n) => '<' :: n
  | .cls (.name n) => n ++ ['>']
  | _ => ['.']

/-- How the matches of a parser read, with the names of the rules. -/
def matchTitles (b : Built) (h : Heap Pred) (toks : List Token) : Option (List Str) :=
  (extract b.grammar b.agreement (id : Key → Key) toks true 2000).map
    (fun x => x.1.map (fun m => ((reading (carried .name h) (m.tree.root.load x.2.1).erase).map Sym.letter).flatten))

theorem twoNames_steady : Steady k twoNames 7 := by
  refine ⟨?_, ?_, ?_⟩ <;>
  · intro x o _ ho
    have ho := List.mem_of_getElem? ho
    simp only [twoNames, List.mem_cons, List.not_mem_nil, or_false] at ho
    rcases ho with rfl | rfl | rfl | rfl | rfl | rfl | rfl | rfl <;>
      first | trivial | (intro ps n i r d e; cases e)

/-- The hypotheses of `labels_kept` and `match_labels` are met by a rule with names, and there are matches;
the names that the parser gave to the other rules do not count. -/
example : Run sampleLang sampleOrder [] twoNames ∧ RuleAt twoNames 7 ∧ Steady .name twoNames 7 ∧
    (∃ o x, twoNames[7]? = some o ∧ o.label .name = some x) ∧
    ∃ b h', sampleBuild 7 twoNames = .ok (b, h') ∧
      matchTitles b h' (["a", "a"].map sourceWord) =
        some ["<z<x.x>z>".toList, "<z<x.x><y.y>z>".toList, "<z<x.x>z>".toList] := by
  refine ⟨makeAll_run (h := []) (by decide +kernel), ⟨_, rfl, rfl⟩, twoNames_steady,
    ⟨_, .name ['z'], rfl, by decide⟩, ?_⟩
  have key : (match sampleBuild 7 twoNames with
      | .ok (b, h') => decide (matchTitles b h' (["a", "a"].map sourceWord) =
          some ["<z<x.x>z>".toList, "<z<x.x><y.y>z>".toList, "<z<x.x>z>".toList])
      | .error _ => false) = true := by decide +kernel
  split at key
  · rename_i b h' e
    exact ⟨b, h', e, of_decide_eq_true key⟩
  · cases key

/-- `X = forward(); R = rule('a', X.optional()); X.define(R.interpretation(7))` -/
def againSource : Heap Pred :=
  [.forward (some 4), .optional 0 false, .prod [.pred (.eq "a".toList), .rule 1] 0, .rule [2], .interp 3 7]

theorem againSource_run : Run L setOrder [] againSource := by
  have h1 : Run L setOrder [] (.forward none :: againSource.tail) :=
    makeAll_run (h := []) (by decide +kernel)
  exact run_trans h1 (.cons (.define (a := 0) (c := none) (r := 4) rfl ⟨.interp 3 7, rfl, rfl⟩) .nil)

theorem againSource_steady : Steady k againSource 3 := by
  refine ⟨?_, ?_, ?_⟩ <;>
  · intro x o _ ho
    have ho := List.mem_of_getElem? ho
    simp only [againSource, List.mem_cons, List.not_mem_nil, or_false] at ho
    rcases ho with rfl | rfl | rfl | rfl | rfl <;>
      first | trivial | (intro ps n i r d e; cases e)

/-- C20 is false in general: in a parser for `R` the whole match is given the interpretator that was put
only on the use of `R` inside `R`. (The use of a rule as the rule of a parser is not counted among its
uses, `yargy/rule/bnf.py:94-99`.) -/
theorem extra_interpretation :
    Run sampleLang sampleOrder [] againSource ∧ RuleAt againSource 3 ∧ Steady .interp againSource 3 ∧
    Reads (sampleContext.activation sampleLang sampleSplit) .interp againSource [.rule 3]
      [.pred (Pred.eq "a".toList)] ∧
    ∃ b h', sampleBuild 3 againSource = .ok (b, h') ∧
      (∀ toks i j d, Derives b.grammar toks (.rule b.grammar.start) i j d →
        ∃ w, reading (carried .interp h') d = wrap (some (.interp 7)) w) ∧
      matchMarks b h' (["a"].map sourceWord) = some [[7, 0, -7]] := by
  refine ⟨againSource_run, ⟨_, rfl, rfl⟩, againSource_steady, ?_, ?_⟩
  · exact .rule (o := .rule [2]) (w := [.pred (Pred.eq "a".toList)]) (v := []) rfl
      (.other (by intro ts m e; cases e) (.rule (p := 2) (by simp)))
      (.rule (o := .prod [.pred (Pred.eq "a".toList), .rule 1] 0) (w := [.pred (Pred.eq "a".toList)]) (v := []) rfl
        (.prod (.cons (.pred rfl) (.cons (.rule 1) .nil)))
        (.pred (.rule (o := .optional 0 false) (w := []) (v := []) rfl
          (.other (by intro ts m e; cases e) .none) .nil .nil)) .nil) .nil
  · have key : (match sampleBuild 3 againSource with
        | .ok (b, h') => decide (interpretatorAt h' b.grammar.start = some 7) &&
            decide (matchMarks b h' (["a"].map sourceWord) = some [[7, 0, -7]])
        | .error _ => false) = true := by decide +kernel
    split at key
    · rename_i b h' e
      rw [Bool.and_eq_true] at key
      refine ⟨b, h', e, fun toks i j d hd => ?_, of_decide_eq_true key.2⟩
      cases hd with
      | @node _ _ _ _ cs _ _ =>
        refine ⟨readingAll (carried .interp h') cs, ?_⟩
        simp only [reading, carried, of_decide_eq_true key.1, Option.map_some]
    · cases key

/-- The hypotheses of `labels_kept_partial`, `program_derives_iff` and `program_sound` are met by a rule on
which nothing was put last. -/
example : Run sampleLang sampleOrder [] againSource ∧ RuleAt againSource 3 ∧ Steady .interp againSource 3 ∧
    Steady .plain againSource 3 ∧ (match sampleBuild 3 againSource with | .ok _ => true | .error _ => false) = true :=
  ⟨againSource_run, ⟨_, rfl, rfl⟩, againSource_steady, againSource_steady, by decide +kernel⟩

/-- `R = rule(rule('a').repeatable(), 'b')`, and a rule made of it with an optional part and a relation. -/
def besideSource : Heap Pred :=
  [.prod [.pred (.eq "a".toList)] 0, .rule [0], .repeatable 1 false, .prod [.rule 2, .pred (.eq "b".toList)] 0,
   .rule [3], .optional 4 false, .relation 5 0]

/-- What can be reached from an address, for objects that refer to older ones. -/
theorem reach_old {P : Type} {h : Heap P} (ho : ∀ (x : Nat) o, h[x]? = some o → ∀ c ∈ o.children, c < x)
    {r x : Nat} (hx : Reach h r x) : x ≤ r := by
  induction hx with
  | root => exact Nat.le_refl _
  | step _ h1 h2 ih => exact Nat.le_trans (Nat.le_of_lt (ho _ _ h1 _ h2)) ih

theorem besideSource_reach {x : Nat} {o : Obj Pred} (hx : Reach besideSource 4 x)
    (ho : besideSource[x]? = some o) : o ∈ besideSource.take 5 := by
  have hle : x ≤ 4 := by
    refine reach_old ?_ hx
    intro x o ho c hc
    have hlt := (List.getElem?_eq_some_iff.1 ho).1
    have : ∀ x < besideSource.length, ∀ c ∈ (besideSource[x]?.map Obj.children).getD [], c < x := by
      decide +kernel
    exact this x hlt c (by rw [ho]; exact hc)
  rw [List.mem_iff_getElem?]
  exact ⟨x, by rw [List.getElem?_take]; simp only [show x < 5 by omega, if_true]; exact ho⟩

/-- The hypotheses of `program_recognises_partial` are met, and there are matches. -/
example : Run sampleLang sampleOrder [] besideSource ∧ RuleAt besideSource 4 ∧ Steady .plain besideSource 4 ∧
    (∀ (x : Nat) o, Reach besideSource 4 x → besideSource[x]? = some o → o.solid) ∧
    (∀ (x : Nat) o, Reach besideSource 4 x → besideSource[x]? = some o → o.silent) ∧
    reportedRanges besideSource 4 (["a", "a", "b"].map sourceWord) = some [(1, 3), (0, 3)] := by
  refine ⟨makeAll_run (h := []) (by decide +kernel), ⟨_, rfl, rfl⟩, ⟨?_, ?_, ?_⟩, ?_, ?_, by decide +kernel⟩ <;>
  · intro x o hx ho
    have := besideSource_reach hx ho
    simp only [besideSource, List.take, List.mem_cons, List.not_mem_nil, or_false] at this
    rcases this with rfl | rfl | rfl | rfl | rfl <;>
      first | trivial | (intro ps n i r d e; cases e; done) | (simp [Obj.solid]; done) |
        (intro d; cases d <;> simp_all [besideSource])

/-- Bounds are found for the parser built from a rule, and the whole rule is not empty. -/
def foundFor (n : Nat) (h : Heap Pred) (root : Nat) : Bool :=
  match buildParser sampleLang sampleOrder sampleContext sampleSplit (fun _ => .gender) id 60 root h with
  | .error _ => false
  | .ok (b, _) => emptiesFound n b.grammar && !(findBounds n b.grammar).null b.grammar.start

/-- `WORD = or_(rule('a'), rule('b')); TAIL = rule('c').optional(); rule(WORD, TAIL, WORD, TAIL)`: an
optional part is used twice, after alternatives. -/
def tailsSource : Heap Pred :=
  [.prod [.pred (.eq "a".toList)] 0, .rule [0], .prod [.pred (.eq "b".toList)] 0, .rule [2], .or [1, 3],
   .prod [.pred (.eq "c".toList)] 0, .rule [5], .optional 6 false,
   .prod [.rule 4, .rule 7, .rule 4, .rule 7] 0, .rule [8]]

theorem tails_found : foundFor 4 tailsSource 9 = true := by decide +kernel

theorem twoUses_found : foundFor 4 twoUses 7 = true := by decide +kernel

/-- `rule(rule('a').repeatable(), rule('b').optional())` has no such bounds. -/
theorem lossy_not_found : foundFor 4 lossySource 7 = false := by decide +kernel

theorem tails_ranges : reportedRanges tailsSource 9 (["a", "c", "b", "a"].map sourceWord) =
    some [(0, 3), (2, 4)] := by decide +kernel

/-- The hypotheses of `program_recognises_found_partial` are met, and there are matches. -/
example : Run sampleLang sampleOrder [] tailsSource ∧ RuleAt tailsSource 9 ∧ Steady .plain tailsSource 9 ∧
    (∀ (x : Nat) o, Reach tailsSource 9 x → tailsSource[x]? = some o → o.silent) ∧
    foundFor 4 tailsSource 9 = true ∧
    reportedRanges tailsSource 9 (["a", "c", "b", "a"].map sourceWord) = some [(0, 3), (2, 4)] := by
  refine ⟨makeAll_run (h := []) (by decide +kernel), ⟨_, rfl, rfl⟩, ⟨?_, ?_, ?_⟩, ?_, tails_found,
    tails_ranges⟩ <;>
  · intro x o _ ho
    have ho := List.mem_of_getElem? ho
    simp only [tailsSource, List.mem_cons, List.not_mem_nil, or_false] at ho
    rcases ho with rfl | rfl | rfl | rfl | rfl | rfl | rfl | rfl | rfl | rfl <;>
      first | trivial | (intro ps n i r d e; cases e)

end Yargy
