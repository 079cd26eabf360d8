import Verif.Proofs.Listing
/-!
C59: the printed grammar is the grammar of the parser.
-/
namespace Yargy
open Spec Twins

variable {L : Lang} {setOrder : List Str → List Str} {c : Context} {split : Str → List Str}
  {relation : Nat → Relation} {pid pid' : Nat → Nat} {limit root : Nat} {h h' : Heap Pred} {b : Built}
  {N : Labels Pred}

theorem isBnfRule_eq (h : Heap Pred) (a : Nat) : isBnfRule h a = isBnf h a := by
  unfold isBnfRule isBnf
  split <;> simp_all

theorem nodup_map {α β : Type} {f : α → β} : ∀ {xs : List α}, xs.Nodup → (∀ x ∈ xs, ∀ y ∈ xs, f x = f y → x = y) →
    (xs.map f).Nodup := by
  intro xs
  induction xs with
  | nil => intro _ _; simp
  | cons x xs ih =>
    intro hn h
    obtain ⟨h1, h2⟩ := List.nodup_cons.1 hn
    rw [List.map_cons, List.nodup_cons]
    refine ⟨fun hm => ?_, ih h2 (fun a ha b hb => h a (List.mem_cons_of_mem _ ha) b (List.mem_cons_of_mem _ hb))⟩
    obtain ⟨y, y1, y2⟩ := List.mem_map.1 hm
    exact h1 (h y (List.mem_cons_of_mem _ y1) x List.mem_cons_self y2 ▸ y1)

/-- C59, lines: whatever was built before, the grammar of a parser can be printed, and printing it changes
nothing. There is one line for every rule of the compiled grammar, the first line is that of the rule the
parser starts with, and each line shows the productions of its rule one after the other, or that the rule is a
gazetteer. -/
theorem grammar_printed (hrun : Run L setOrder [] h) (hr : RuleAt h root) (hp : ∀ a b, pid a = pid b → a = b)
    (hp' : ∀ a b, pid' a = pid' b → a = b)
    (hb : buildParser L setOrder c split relation pid limit root h = .ok (b, h')) :
    ∃ rules lines, listing N pid' b.grammar.start h' = .ok (lines, h') ∧
      rules.head? = some b.grammar.start ∧ rules.Nodup ∧
      (∀ x, x ∈ rules ↔ Reach h' b.grammar.start x ∧ isBnf h' x = true) ∧
      Pointwise (LineFor N h') rules lines := by
  obtain ⟨h1, h2, h3, h4, h5, h6, _⟩ := program_parts hrun hr hp hb
  have hh := run_healthy hrun healthy_nil
  obtain ⟨hc, _⟩ := compile_healthy hh.sorted hh.stored hp hr h4
  obtain ⟨hn, _⟩ := compileRule_titles hp h1 h2 h3 h4
  obtain ⟨hnd, _⟩ := walk_spec hp' hc.sorted.closed hc.typed.lt
  have hmem : ∀ x, x ∈ (walk pid' h' b.grammar.start).filter (isBnfRule h') ↔
      Reach h' b.grammar.start x ∧ isBnf h' x = true := by
    intro x
    rw [List.mem_filter, reach_iff hp' hc.sorted.closed hc.typed.lt, isBnfRule_eq]
  obtain ⟨lines, k1, k2⟩ := mapM_matching (f := grammarLine N h') (R := LineFor N h')
    (xs := (walk pid' h' b.grammar.start).filter (isBnfRule h')) (by
      intro x hx
      obtain ⟨q1, q2⟩ := (hmem x).1 hx
      exact grammarLine_proper h5 hn q1 q2)
  refine ⟨_, lines, ?_, ?_, hnd.filter _, hmem, k2⟩
  · have hnames : generateNames (walk pid' h' b.grammar.start) 0 h' = h' :=
      generateNames_none _ _ _ (fun a ha => hn a ((reach_iff hp' hc.sorted.closed hc.typed.lt a).1 ha))
    simp only [listing, bnfRules, hnames, k1]
    rfl
  · have hw := walk_head (pid := pid') h' b.grammar.start
    cases hx : walk pid' h' b.grammar.start with
    | nil => rw [hx] at hw; cases hw
    | cons x xs =>
      rw [hx] at hw
      cases hw
      rw [List.filter_cons_of_pos ((isBnfRule_eq _ _).trans h6), List.head?_cons]

/-- C59, names: every rule of the compiled grammar has a name. It is one that was given in the rule the parser
was built from, or one that was made; only given names are the names of two rules. -/
theorem grammar_names (hrun : Run L setOrder [] h) (hr : RuleAt h root) (hp : ∀ a b, pid a = pid b → a = b)
    (hb : buildParser L setOrder c split relation pid limit root h = .ok (b, h')) :
    (∀ x, Reach h' b.grammar.start x → isBnf h' x = true → ∃ n, nameAt h' x = some n ∧ n ≠ [] ∧
      ((∃ a r, Reach h root a ∧ h[a]? = some (.named r n)) ∨ generated n = true)) ∧
    ∀ x y n, Reach h' b.grammar.start x → Reach h' b.grammar.start y → x ≠ y →
      nameAt h' x = some n → nameAt h' y = some n → ∃ a r, Reach h root a ∧ h[a]? = some (.named r n) := by
  obtain ⟨h1, h2, h3, h4, _, _, _⟩ := program_parts hrun hr hp hb
  obtain ⟨hn, hg, ht⟩ := compileRule_titles hp h1 h2 h3 h4
  refine ⟨fun x hx hbx => ?_, ht⟩
  unfold isBnf at hbx
  split at hbx
  · rename_i ps n i r k ho
    have hnm : nameAt h' x = n := by unfold nameAt; rw [ho]
    have hreal : Real n := Classical.byContradiction fun hr => hn x hx ⟨_, _, _, _, _, ho, hr⟩
    match n, hreal, hnm with
    | some (ch :: cs), _, hnm => exact ⟨ch :: cs, hnm, by simp, hg x _ hx hnm⟩
  · cases hbx

/-- C59 (partial), meaning: read as a grammar, the printed lines generate exactly the words of the rule the
parser was built from, each predicate as it is printed, if no label is printed for two things and the rule has
no gazetteers. Missing: labels printed twice, where it does not hold (`printed_twice`), and gazetteers, of
which only the kind is printed. -/
theorem printed_generates_partial (hrun : Run L setOrder [] h) (hr : RuleAt h root) (hst : Steady .plain h root)
    (hp : ∀ a b, pid a = pid b → a = b) (hp' : ∀ a b, pid' a = pid' b → a = b)
    (hb : buildParser L setOrder c split relation pid limit root h = .ok (b, h'))
    {lines : List Line} {g : Heap Pred} (hl : listing N pid' b.grammar.start h' = .ok (lines, g))
    (hread : Readable N h' b.grammar.start lines) :
    ∃ l, lines.head? = some l ∧ ∀ w, Generates lines [l.label] w ↔
      ∃ u, Reads (c.activation L split) .plain h [.rule root] u ∧ w = printed N u := by
  obtain ⟨rules, lines', k1, k2, _, k4, k5⟩ := grammar_printed (N := N) hrun hr hp hp' hb
  rw [hl] at k1
  cases k1
  obtain ⟨h1, h2, h3, h4, h5, h6, _⟩ := program_parts hrun hr hp hb
  obtain ⟨hn, _⟩ := compileRule_titles hp h1 h2 h3 h4
  cases k5 with
  | nil => cases k2
  | @cons x l rules ls hx hls =>
    cases k2
    refine ⟨l, rfl, fun w => ?_⟩
    rw [hx.label, generates_iff k4 (.cons hx hls) hread h5 hn h6]
    simp only [compileRule_words' hp h1 h2 h3 hst.bounds hst.calm h4]

/-- C59, text: a line written out and cut at its spaces is what the line says: the label of the rule, an arrow,
and the terms of the alternatives with a bar between the alternatives, each main term with its mark. -/
theorem line_read (l : Line) (hl : ∀ w ∈ written l, ' ' ∉ w) : cutSpaces l.text = written l := by
  rw [line_joined]
  exact cutSpaces_joined _ (by simp [written]) hl

/-- The hypothesis of `line_read` is met. -/
example : (∀ w ∈ written ⟨"R0".toList, .alts [.terms [(false, "'a'".toList), (true, "R1".toList)], .empty]⟩, ' ' ∉ w) ∧
    written ⟨"R0".toList, .alts [.terms [(false, "'a'".toList), (true, "R1".toList)], .empty]⟩ =
      ["R0".toList, "->".toList, "'a'".toList, "^R1".toList, "|".toList, "e".toList] := by
  decide +kernel

/-! ### Rules on which nothing was put -/

/-- No name, interpretator, relation or gazetteer. -/
def Obj.unmarked {P : Type} : Obj P → Prop
  | .named _ _ => False
  | .interp _ _ => False
  | .relation _ _ => False
  | .pipe _ => False
  | .bnf _ _ _ _ _ => False
  | _ => True

/-- No interpretator, relation or gazetteer. -/
def Obj.untitled {P : Type} : Obj P → Prop
  | .interp _ _ => False
  | .relation _ _ => False
  | .pipe _ => False
  | .bnf _ _ i r k => i = none ∧ r = none ∧ k = none
  | _ => True

theorem untitled_stable {P : Type} : Stable (Obj.untitled (P := P)) where
  terms h _ := h
  prod _ _ _ := trivial
  pipeProd _ _ _ _ := trivial
  rule _ := trivial
  or _ := trivial
  forward _ := trivial
  repeatable _ _ := trivial
  pipe h _ := h
  pipeBnf _ h := h.elim
  optional _ _ h := h
  both _ _ _ _ := trivial
  repOptional _ _ _ h := h
  empty _ := trivial
  empty' _ := trivial
  emptyProd _ := trivial
  minBounded _ h := h
  maxBounded _ h := h
  minMaxBounded _ h := h
  named _ h := h
  interp _ h := h
  relation _ h := h
  bnf _ := ⟨rfl, rfl, rfl⟩
  setName _ h := h
  setInterp h _ := h.elim
  setRelation h _ := h.elim

/-- C59 for rules without names, interpretations, relations and gazetteers, whatever else the program made: the
printed lines generate exactly the words of the rule, if no predicate is printed like the names that the
parser makes. -/
theorem plain_printed (hrun : Run L setOrder [] h) (hr : RuleAt h root) (hst : Steady .plain h root)
    (hplain : ∀ (x : Nat) o, Reach h root x → h[x]? = some o → o.unmarked)
    (hN : ∀ p, generated (N.pred p) = false)
    (hp : ∀ a b, pid a = pid b → a = b) (hp' : ∀ a b, pid' a = pid' b → a = b)
    (hb : buildParser L setOrder c split relation pid limit root h = .ok (b, h')) :
    ∃ l lines, listing N pid' b.grammar.start h' = .ok (l :: lines, h') ∧
      ∀ w, Generates (l :: lines) [l.label] w ↔
        ∃ u, Reads (c.activation L split) .plain h [.rule root] u ∧ w = printed N u := by
  obtain ⟨rules, lines, k1, k2, k3, k4, k5⟩ := grammar_printed (N := N) hrun hr hp hp' hb
  obtain ⟨h1, h2, h3, h4, h5, h6, _⟩ := program_parts hrun hr hp hb
  obtain ⟨hnm, hty⟩ := grammar_names hrun hr hp hb
  have hun := compileRule_kept untitled_stable hp h1 h2 h3 h4 (by
    intro x o hx ho
    have := hplain x o hx ho
    cases o <;> first | exact this | exact trivial | exact this.elim)
  have nogiven : ∀ n, ¬ ∃ a r, Reach h root a ∧ h[a]? = some (.named r n) := by
    rintro n ⟨a, r, q1, q2⟩
    exact hplain a _ q1 q2
  have hlab : ∀ x ∈ rules, nameAt h' x = some (ruleLabel N h' x) ∧ generated (ruleLabel N h' x) = true := by
    intro x hx
    obtain ⟨q1, q2⟩ := (k4 x).1 hx
    obtain ⟨n, n1, _, n3⟩ := hnm x q1 q2
    have n3 := n3.resolve_left (nogiven n)
    unfold isBnf at q2
    split at q2
    · rename_i ps m i r k ho
      obtain ⟨rfl, rfl, rfl⟩ := hun x _ q1 ho
      unfold nameAt at n1 ⊢
      unfold ruleLabel
      rw [ho] at n1 ⊢
      simp only at n1
      subst n1
      simp [title, n3]
    · cases q2
  have hread : Readable N h' b.grammar.start lines := by
    refine ⟨?_, ?_, ?_⟩
    · rw [lines_labels k5]
      refine nodup_map k3 ?_
      intro x hx y hy e
      refine Classical.byContradiction fun hne => ?_
      refine nogiven _ (hty x y (ruleLabel N h' x) ((k4 x).1 hx).1 ((k4 y).1 hy).1 hne (hlab x hx).1 ?_)
      rw [e]
      exact (hlab y hy).1
    · intro p _ l hl e
      obtain ⟨x, x1, x2⟩ := k5.mem_right l hl
      have := (hlab x x1).2
      rw [← x2.label, e, hN p] at this
      cases this
    · intro l hl
      obtain ⟨x, x1, x2⟩ := k5.mem_right l hl
      obtain ⟨q1, q2⟩ := (k4 x).1 x1
      unfold isBnf at q2
      split at q2
      · rename_i ps m i r k ho
        obtain ⟨rfl, rfl, rfl⟩ := hun x _ q1 ho
        obtain ⟨as, e, _⟩ := x2.side _ _ _ _ ho
        exact ⟨as, e⟩
      · cases q2
  obtain ⟨l, l1, l2⟩ := printed_generates_partial hrun hr hst hp hp' hb k1 hread
  cases lines with
  | nil => cases l1
  | cons x lines =>
    cases l1
    exact ⟨l, lines, k1, l2⟩

/-! ### Samples -/

/-- Labels like those of the library: `eq('a')` is printed as `'a'`. -/
def sampleLabels : Labels Pred where
  pred p := match p with
    | .eq v => "'".toList ++ v ++ "'".toList
    | _ => "custom(f)".toList
  interp i := "Fact".toList ++ Nat.toDigits 10 i
  relation _ := "gnc".toList

/-- `rule('a', rule('b').optional())`. -/
def printSource : Heap Pred :=
  [.prod [.pred (.eq "b".toList)] 0, .rule [0], .optional 1 false, .prod [.pred (.eq "a".toList), .rule 2] 0,
   .rule [3]]

theorem printSource_run : Run L setOrder [] printSource := makeAll_run (h := []) (by decide +kernel)

theorem printSource_all {Q : Obj Pred → Prop} (h : ∀ o ∈ printSource, Q o) (x : Nat) (o : Obj Pred)
    (ho : printSource[x]? = some o) : Q o := h o (List.mem_of_getElem? ho)

theorem sampleLabels_plain (p : Pred) : generated (sampleLabels.pred p) = false := by
  cases p <;> rfl

/-- The lines of a printed grammar. -/
def printLines (root : Nat) (h : Heap Pred) : List String :=
  match sampleBuild root h with
  | .ok (b, h') =>
    match listing sampleLabels id b.grammar.start h' with
    | .ok (lines, _) => lines.map (fun l => String.ofList l.text)
    | .error _ => []
  | .error _ => []

/-- The hypotheses of `plain_printed` are met, and this is what is printed. -/
example : Run sampleLang sampleOrder [] printSource ∧ RuleAt printSource 4 ∧ Steady .plain printSource 4 ∧
    (∀ (x : Nat) o, Reach printSource 4 x → printSource[x]? = some o → o.unmarked) ∧
    (∀ p, generated (sampleLabels.pred p) = false) ∧
    (∃ b h', sampleBuild 4 printSource = .ok (b, h')) ∧
    printLines 4 printSource = ["R0 -> 'a' R1", "R1 -> e | 'b'"] := by
  refine ⟨printSource_run, ⟨_, rfl, rfl⟩, ⟨?_, ?_, ?_⟩, ?_, sampleLabels_plain, ?_, by decide +kernel⟩
  · exact fun x o _ => printSource_all (by simp [printSource, Obj.bounds]) x o
  · exact fun x o _ => printSource_all (by simp [printSource, Obj.calm]) x o
  · exact fun x o _ => printSource_all (by simp [printSource, Obj.bare]) x o
  · exact fun x o _ => printSource_all (by simp [printSource, Obj.unmarked]) x o
  · have key : (match sampleBuild 4 printSource with | .ok _ => true | .error _ => false) = true := by
      decide +kernel
    split at key
    · rename_i y e; exact ⟨y.1, y.2, e⟩
    · cases key

/-- `rule('a', rule('b').named('R0'))`. -/
def clashSource : Heap Pred :=
  [.prod [.pred (.eq "b".toList)] 0, .rule [0], .named 1 "R0".toList,
   .prod [.pred (.eq "a".toList), .rule 2] 0, .rule [3]]

theorem clashSource_run : Run L setOrder [] clashSource := makeAll_run (h := []) (by decide +kernel)

/-- All words of this rule begin with `'a'`. -/
theorem clash_reads {u : List (Sym Pred)} (hu : Reads (c.activation L split) .plain clashSource [.rule 4] u) :
    ∃ v, printed sampleLabels u = "'a'".toList :: v := by
  cases hu with
  | rule ho hopen h1 h2 =>
    cases ho
    cases hopen with
    | other _ hsp =>
      cases hsp with
      | rule hm =>
        rw [List.mem_singleton] at hm
        subst hm
        cases h1 with
        | rule ho hopen h3 h4 =>
          cases ho
          cases hopen with
          | other hne _ => exact absurd rfl (hne _ _)
          | prod ha =>
            cases ha with
            | cons h5 _ =>
              cases h5 with
              | pred h5 =>
                cases h5
                cases h3 with
                | pred h6 => exact ⟨_, rfl⟩

/-- C59 does not hold for all rules: if the user gives a name that the parser makes for another rule, two lines
begin with the same name, and the lines generate what the rule does not allow. -/
theorem printed_twice : ∃ b h' lines, sampleBuild 4 clashSource = .ok (b, h') ∧
    listing sampleLabels id b.grammar.start h' = .ok (lines, h') ∧
    lines.map Line.label = ["R0".toList, "R0".toList] ∧
    Generates lines ["R0".toList] ["'b'".toList] ∧
    ¬ ∃ u, Reads (sampleContext.activation sampleLang sampleSplit) .plain clashSource [.rule 4] u ∧
      ["'b'".toList] = printed sampleLabels u := by
  have key : (match sampleBuild 4 clashSource with
      | .ok (b, h') =>
        match listing sampleLabels id b.grammar.start h' with
        | .ok ([⟨n, .alts [.terms [(false, x), (false, y)]]⟩, ⟨m, .alts [.terms [(false, z)]]⟩], _) =>
          decide (n = "R0".toList ∧ m = "R0".toList ∧ x = "'a'".toList ∧ y = "R0".toList ∧ z = "'b'".toList)
        | _ => false
      | .error _ => false) = true := by decide +kernel
  split at key
  · rename_i b h' e
    split at key
    · rename_i n x y m z g e2
      obtain ⟨rfl, rfl, rfl, rfl, rfl⟩ := of_decide_eq_true key
      obtain ⟨_, lines, k1, _⟩ := grammar_printed (N := sampleLabels) (pid' := id) clashSource_run
        ⟨_, rfl, rfl⟩ (fun _ _ h => h) (fun _ _ h => h) e
      rw [e2] at k1
      cases k1
      refine ⟨b, h', _, e, e2, rfl, ?_, ?_⟩
      · refine Generates.line (l := ⟨"R0".toList, .alts [.terms [(false, "'b'".toList)]]⟩)
          (v := ["'b'".toList]) (w := []) (by simp) rfl List.mem_cons_self (.word ?_ .nil) .nil
        intro l hl
        simp only [List.mem_cons, List.not_mem_nil, or_false] at hl
        rcases hl with rfl | rfl <;> decide
      · rintro ⟨u, h1, h2⟩
        obtain ⟨v, h3⟩ := clash_reads h1
        rw [h3] at h2
        exact absurd (List.cons.inj h2).1 (by decide)
    · cases key
  · cases key

end Yargy
