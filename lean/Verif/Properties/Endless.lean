import Verif.Properties.EndToEnd
import Verif.Properties.Termination
/-!
C60: the condition is needed. Repeating something that may be empty gives a parser that does not end.
-/
namespace Yargy
open Spec

variable {H : Type} [DecidableEq H] {hash : Key → H}

/-- A rule `R` with productions `S R` and `S`, where `S` may be empty, never ends on a text in which `S` is found. -/
theorem hollow_runs {P T : Type} {G : Grammar P T} {toks : List T} {all : Bool}
    (hG : PredictSound G) (hL : PredictLossless G) (hD : DistinctProductions G)
    (hh : ∀ a b, hash a = hash b → a = b) {S i j m : Nat} {p1 p2 p3 : Production P} {d : DTree P T}
    (h1 : p1 ∈ G.productions G.start) (e1 : p1.terms = [.rule S, .rule G.start])
    (h2 : p2 ∈ G.productions G.start) (e2 : p2.terms = [.rule S])
    (h3 : p3 ∈ G.productions S) (e3 : p3.terms = [])
    (hi : i = 0 ∨ all = true) (hil : i ≤ toks.length) (hij : i < j)
    (hd : DerivesRounds G (fun _ => 0) toks (.rule S) i j 1 m d) (n : Nat) :
    (runN G hash toks all n).phase ≠ .done := by
  intro hdone
  have hw : Waits G (fun _ => 0) := 
    fun _ _ _ _ => ⟨fun _ => ⟨Nat.zero_le _, fun _ => rfl⟩, fun _ _ => ⟨Nat.zero_le _, fun _ _ => rfl⟩⟩
  obtain ⟨lv, hC⟩ := Rounds.lclosed_of_done (toks := toks) (all := all) hG hD hw hh hdone
  generalize (runN G hash toks all n).cols = cols at hC
  have hpred := hC.start i hil hi
  -- the whole rule is found once
  have hfirst : DerivesRounds G (fun _ => 0) toks (.rule G.start) i j 0 (m + 1) (.node G.start p2 [d]) := by
    refine .node h2 ?_
    rw [e2]
    exact .consNode hd (.inl hij) .nil
  obtain ⟨q0, s0, f1, _, f3, f4, f5, _⟩ := Rounds.closed_rounds hL hC hfirst _ rfl hpred
  -- the state that has passed an empty `S`
  have hmem : p1 ∈ predicted G toks i G.start := by
    unfold predicted
    cases ht : toks[i]? with
    | none => exact h1
    | some t => exact hL _ _ _ h1 (by intro p hp; rw [e1] at hp; cases hp)
  obtain ⟨qa, sa, a1, a2, a3, a4, a5, a6, a7⟩ := hpred p1 hmem
  have hempty : DerivesRounds G (fun _ => 0) toks (.rule S) i i 1 1 (.node S p3 []) := by
    refine .node h3 ?_
    rw [e3]
    exact .nil
  have hHa := hC.handled _ _ _ a1
  have hpS : Rounds.HasPredL G toks lv cols i S 1 := by
    intro prod hp
    obtain ⟨k, s, b1, b2, b3⟩ := hHa.pred S (by unfold State.next; rw [a4, a5, e1]; rfl) prod hp
    exact ⟨k, s, b1, by omega, b3⟩
  obtain ⟨qe, se, c1, c2, c3, c4, c5, c6⟩ := Rounds.closed_rounds hL hC hempty _ rfl hpS
  obtain ⟨qb, sb, b1, _, b3, b4, b5, b6, b7⟩ := (hC.handled _ _ _ c1).comp c3 qa sa (by rw [c5]; exact a1)
    (by unfold State.next; rw [a4, a5, e1, c4]; rfl) (.inr (.inr (by omega)))
  -- every way to find the whole rule gives a larger one
  have grow : ∀ s, InCol cols j s → s.completed = true → s.rule = G.start → s.start = i →
      ∃ s', InCol cols j s' ∧ s'.completed = true ∧ s'.rule = G.start ∧ s'.start = i ∧ dsize s.dtree < dsize s'.dtree := by
    intro s hs g1 g2 g3
    obtain ⟨q, hq⟩ := hs.at
    obtain ⟨q', s', k1, _, k3, k4, k5, k6, k7⟩ := (hC.handled _ _ _ hq).comp g1 qb sb (by rw [g3]; exact b1)
      (by unfold State.next; rw [b4, b5, a4, a5, e1, g2]; rfl) (.inl (by rw [g3]; exact hij))
    refine ⟨s', k1.inCol, ?_, by rw [k3, b3, a3], by rw [k6, b6, a6], ?_⟩
    · simp [State.completed, k4, k5, b4, b5, a4, a5, e1]
    · rw [s'.dtree_eq, k7, b7, a7]
      simp [dsize, dsizeAll]
      omega
  have bounded : ∀ k, ∃ s, InCol cols j s ∧ s.completed = true ∧ s.rule = G.start ∧ s.start = i ∧ k ≤ dsize s.dtree := by
    intro k
    induction k with
    | zero => exact ⟨s0, f1.inCol, f3, f4, f5, Nat.zero_le _⟩
    | succ k ih =>
      obtain ⟨s, g1, g2, g3, g4, g5⟩ := ih
      obtain ⟨s', k1, k2, k3, k4, k5⟩ := grow s g1 g2 g3 g4
      exact ⟨s', k1, k2, k3, k4, by omega⟩
  obtain ⟨s, ⟨c, hc, hs⟩, _, _, _, h6⟩ :=
    bounded (natMax (cols.flatMap (fun c => c.states.map (fun s => dsize s.dtree))) + 1)
  have : dsize s.dtree ≤ natMax (cols.flatMap (fun c => c.states.map (fun s => dsize s.dtree))) :=
    le_natMax (List.mem_flatMap.2 ⟨c, List.mem_of_getElem? hc, List.mem_map.2 ⟨s, hs, rfl⟩⟩)
  omega

/-- `rule(rule('a').optional()).repeatable()`. -/
def hollowSource : Heap Pred :=
  [.prod [.pred (.eq "a".toList)] 0, .rule [0], .optional 1 false, .prod [.rule 2] 0, .rule [3], .repeatable 4 false]

/-- A term as a number: rules by their address. -/
def termCode : Term Pred → Nat
  | .pred (.eq ['a']) => 1
  | .pred _ => 0
  | .rule r => r + 2

def codesAt (b : Built) (r : Nat) : List (List Nat) := (b.grammar.productions r).map (fun p => p.terms.map termCode)

theorem termCode_rule {t : Term Pred} {r : Nat} (h : termCode t = r + 2) : t = .rule r := by
  unfold termCode at h
  split at h
  · omega
  · omega
  · cases Nat.add_right_cancel h; rfl

theorem termCode_word {t : Term Pred} (h : termCode t = 1) : t = .pred (.eq ['a']) := by
  unfold termCode at h
  split at h
  · rfl
  · omega
  · omega

theorem one_term {ts : List (Term Pred)} {a : Nat} (h : ts.map termCode = [a]) : ∃ t, ts = [t] ∧ termCode t = a := by
  match ts, h with
  | [t], h => exact ⟨t, rfl, by simpa using h⟩

theorem two_terms {ts : List (Term Pred)} {a b : Nat} (h : ts.map termCode = [a, b]) :
    ∃ t u, ts = [t, u] ∧ termCode t = a ∧ termCode u = b := by
  match ts, h with
  | [t, u], h => exact ⟨t, u, rfl, by simpa using h⟩

theorem two_productions {b : Built} {r : Nat} {x y : List Nat} (h : codesAt b r = [x, y]) :
    ∃ p q, b.grammar.productions r = [p, q] ∧ p.terms.map termCode = x ∧ q.terms.map termCode = y := by
  unfold codesAt at h
  generalize b.grammar.productions r = ps at h ⊢
  match ps, h with
  | [p, q], h => exact ⟨p, q, rfl, by simpa using h⟩

/-- C60: the condition is needed. `Parser(rule(rule('a').optional()).repeatable())` is built, and neither `findall`
nor `extract` ends on a text that contains the word. -/
theorem hollow_never_ends (hh : ∀ a b, hash a = hash b → a = b) :
    Fresh sampleLang sampleOrder hollowSource ∧ RuleAt hollowSource 5 ∧
      ∃ b h', buildParser sampleLang sampleOrder sampleContext sampleSplit (fun _ => .gnc) id 20 5 hollowSource = .ok (b, h') ∧
        ∀ toks t, t ∈ toks → t.value = "a".toList → ∀ fuel,
          findall b.grammar b.agreement hash toks fuel = none ∧
          extract b.grammar b.agreement hash toks true fuel = none := by
  have hfresh : Fresh sampleLang sampleOrder hollowSource :=
    fresh_makes (g := []) (os := hollowSource) (by decide +kernel)
  have hr : RuleAt hollowSource 5 := ⟨_, rfl, rfl⟩
  refine ⟨hfresh, hr, ?_⟩
  have key : (match buildParser sampleLang sampleOrder sampleContext sampleSplit (fun _ => .gnc) id 20 5 hollowSource with
      | .ok (b, _) => b.grammar.start == 57 && codesAt b 57 == [[56, 59], [56]] && codesAt b 54 == [[], [1]]
      | .error _ => false) = true := by decide +kernel
  split at key
  · rename_i b h' hb
    refine ⟨b, h', hb, fun toks t ht hv fuel => ?_⟩
    simp only [Bool.and_eq_true, beq_iff_eq] at key
    obtain ⟨⟨hst, hR⟩, hS⟩ := key
    have hp : ∀ a b : Nat, id a = id b → a = b := fun _ _ h => h
    obtain ⟨k1, k2, k3, k4, k5, k6, rules, k7, k8⟩ := program_parts (fresh_run hfresh) hr hp hb
    obtain ⟨q1, q4⟩ := program_predict (fresh_run hfresh) hr hp sampleOrder_ok hb
    have q2 : PredictLossless b.grammar := by
      rw [k7]
      exact (library_predict (start := b.grammar.start) sampleOrder_ok k8).2
    have q3 := belongs_distinct k5
    obtain ⟨p1, p2, e0, e1, e2⟩ := two_productions hR
    obtain ⟨p3, p4, f0, e3, e4⟩ := two_productions hS
    have x1 : p1.terms = [.rule 54, .rule b.grammar.start] := by
      obtain ⟨t1, t2, r, c1, c2⟩ := two_terms e1
      rw [r, termCode_rule c1, termCode_rule (r := 57) c2, hst]
    have x2 : p2.terms = [.rule 54] := by
      obtain ⟨t1, r, c1⟩ := one_term e2
      rw [r, termCode_rule c1]
    have x3 : p3.terms = [] := List.map_eq_nil_iff.1 e3
    have x4 : p4.terms = [.pred (.eq ['a'])] := by
      obtain ⟨t1, r, c1⟩ := one_term e4
      rw [r, termCode_word c1]
    obtain ⟨i, hi⟩ := List.mem_iff_getElem?.1 ht
    have hil := (List.getElem?_eq_some_iff.1 hi).1
    have hacc : b.grammar.accepts (.eq ['a']) t = true := by
      rw [k7]
      simp [predGrammar, Pred.accepts, Pred.call, hv]
    have hd : DerivesRounds b.grammar (fun _ => 0) toks (.rule 54) i (i + 1) 1 0 (.node 54 p4 [.leaf (.eq ['a']) (b.grammar.constrain (.eq ['a']) t)]) := by
      refine .node (by rw [f0]; simp) ?_
      rw [x4]
      exact .consLeaf (.leaf (n := 1) hi hacc) .nil
    have hrun := hollow_runs (all := true) (hash := hash) q1 q2 q3 hh (p1 := p1) (p2 := p2) (p3 := p3) (S := 54)
      (by rw [hst, e0]; simp) x1 (by rw [hst, e0]; simp) x2 (by rw [f0]; simp) x3 (.inr rfl) (by omega)
      (Nat.lt_succ_self i) hd fuel
    have hchart : chart b.grammar hash toks true fuel = none := by
      unfold chart
      split
      · rename_i h; exact absurd h hrun
      · rfl
    constructor
    · unfold findall matchStates; rw [hchart]; rfl
    · unfold extract matchStates; rw [hchart]; rfl
  · cases key

end Yargy
