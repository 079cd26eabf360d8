import Verif.Proofs.Match
import Verif.Spec.Parser
import Verif.Spec.Cycle
import Verif.Properties.Agreement
/-! Sample words, grammars and texts for the examples beside the theorems. -/
namespace Yargy
open Spec

/-- A word of the text with its readings. -/
def word (v : String) (start : Nat) (fs : List Form) : Token :=
  { value := v.toList, span := (start, start + v.length), type := "RU".toList, forms := some fs }

def wordRule (ps : List (Production String)) : ChartRule String Token := ⟨ps, fun _ => ps⟩

/-- A grammar whose predicates are words, `*` standing for any word. -/
def wordGrammar (rules : List (List (Production String))) : Grammar String Token := {
  rules := rules.map wordRule
  start := 0
  accepts := fun p t => p == "*" || p.toList == t.value
  constrain := fun _ t => t }

theorem word_predict (rules : List (List (Production String))) (r : Nat) (t : Token) :
    (wordGrammar rules).predict r t = (wordGrammar rules).productions r := by
  unfold Grammar.predict Grammar.productions
  cases hr : (wordGrammar rules).rules[r]? with
  | none => rfl
  | some x =>
    obtain ⟨ps, _, rfl⟩ := List.mem_map.1 (List.mem_of_getElem? hr)
    rfl

theorem word_sound (rules : List (List (Production String))) : PredictSound (wordGrammar rules) := by
  intro r t prod h; rwa [word_predict] at h

theorem word_lossless (rules : List (List (Production String))) :
    PredictLossless (wordGrammar rules) := by
  intro r t prod h _; rwa [word_predict]

theorem word_narrows (rules : List (List (Production String))) :
    ConstrainNarrows (wordGrammar rules) := fun _ t _ => Narrowed.refl t

theorem eq_of_nodup_map {α β : Type} {f : α → β} : ∀ {l : List α}, (l.map f).Nodup →
    ∀ {a b : α}, a ∈ l → b ∈ l → f a = f b → a = b := by
  intro l
  induction l with
  | nil => intro _ a b ha; simp at ha
  | cons x l ih =>
    intro h a b ha hb he
    rw [List.map_cons, List.nodup_cons] at h
    rcases List.mem_cons.1 ha with ha | ha <;> rcases List.mem_cons.1 hb with hb | hb
    · rw [ha, hb]
    · exact absurd (List.mem_map.2 ⟨b, hb, by rw [← he, ha]⟩) h.1
    · exact absurd (List.mem_map.2 ⟨a, ha, by rw [he, hb]⟩) h.1
    · exact ih h.2 ha hb he

theorem word_productions {rules : List (List (Production String))} {r : Nat}
    {prod : Production String} (h : prod ∈ (wordGrammar rules).productions r) :
    ∃ ps, rules[r]? = some ps ∧ prod ∈ ps := by
  unfold Grammar.productions at h
  rw [show (wordGrammar rules).rules[r]? = (rules[r]?).map wordRule from List.getElem?_map ..] at h
  cases hr : rules[r]? with
  | none => rw [hr] at h; simp at h
  | some ps => rw [hr] at h; exact ⟨ps, rfl, h⟩

theorem word_distinct {rules : List (List (Production String))}
    (h : (rules.flatten.map (fun p => p.id)).Nodup) : DistinctProductions (wordGrammar rules) := by
  intro r r' prod prod' h1 h2 he
  obtain ⟨ps, k1, k2⟩ := word_productions h1
  obtain ⟨ps', k3, k4⟩ := word_productions h2
  exact eq_of_nodup_map h (List.mem_flatten.2 ⟨ps, List.mem_of_getElem? k1, k2⟩)
    (List.mem_flatten.2 ⟨ps', List.mem_of_getElem? k3, k4⟩) he

def noAgreement : Agreement := ⟨fun _ => none, fun _ => .gender⟩

/-- `S → X Y`, `X → *`, `Y → *`; with `coupleAgreement`: two words that agree in gender. -/
def coupleRules : List (List (Production String)) :=
  [[⟨0, [.rule 1, .rule 2], 0, none⟩], [⟨1, [.pred "*"], 0, none⟩], [⟨2, [.pred "*"], 0, none⟩]]

def coupleGrammar : Grammar String Token := wordGrammar coupleRules

def coupleAgreement : Agreement :=
  ⟨fun r => if r = 1 ∨ r = 2 then some 0 else none, fun _ => .gender⟩

def coupleText : List Token :=
  [word "a" 0 [masc, femn], word "b" 2 [masc], word "c" 4 [femn], word "d" 6 [femn, masc]]

theorem couple_findall : ∃ ms σ, findall coupleGrammar coupleAgreement (id : Key → Key) coupleText 200
      = some (.ok (ms, σ)) ∧ ms.map (fun m => m.tree.range) = [(0, 2), (2, 4)] := by
  have h : (findall coupleGrammar coupleAgreement (id : Key → Key) coupleText 200).map
      (fun r => match r with
        | .ok (ms, _) => decide (ms.map (fun m => m.tree.range) = [(0, 2), (2, 4)])
        | _ => false) = some true := by decide +kernel
  obtain ⟨r, h1, h2⟩ := Option.map_eq_some_iff.1 h
  match r, h2 with
  | .ok (ms, σ), h2 => exact ⟨ms, σ, h1, by simpa using h2⟩

theorem couple_extract : ∃ ms σ, extract coupleGrammar coupleAgreement (id : Key → Key) coupleText true
      200 = some (ms, σ, none) ∧ ms.map (fun m => m.tree.range) = [(0, 2), (2, 4)] := by
  have h : (extract coupleGrammar coupleAgreement (id : Key → Key) coupleText true 200).map
      (fun r => decide (r.1.map (fun m => m.tree.range) = [(0, 2), (2, 4)]) && decide (r.2.2 = none))
        = some true := by decide +kernel
  obtain ⟨⟨ms, σ, e⟩, h1, h2⟩ := Option.map_eq_some_iff.1 h
  simp only [Bool.and_eq_true, decide_eq_true_eq] at h2
  obtain ⟨h2, rfl⟩ := h2
  exact ⟨ms, σ, h1, h2⟩

theorem couple_match : ∃ m σ, matchText coupleGrammar coupleAgreement (id : Key → Key)
      (coupleText.take 2) 200 = some (.ok (some m, σ)) ∧ m.tree.range = (0, 2) := by
  have h : (matchText coupleGrammar coupleAgreement (id : Key → Key) (coupleText.take 2) 200).map
      (fun r => match r with
        | .ok (some m, _) => decide (m.tree.range = (0, 2))
        | _ => false) = some true := by decide +kernel
  obtain ⟨r, h1, h2⟩ := Option.map_eq_some_iff.1 h
  match r, h2 with
  | .ok (some m, σ), h2 => exact ⟨m, σ, h1, by simpa using h2⟩

/-- The reported trees of the sample text share no words. -/
theorem couple_apart : (chart coupleGrammar (id : Key → Key) coupleText true 200).map (fun cols =>
    decide (((prepareTrees (chartMatches 0 true cols)).map (fun t => t.root.leaves.map Prod.fst)).Pairwise
      (fun a b => ∀ x ∈ a, x ∉ b)) &&
    decide ((prepareTrees (chartMatches 0 true cols)).map (fun t => t.range) = [(0, 2), (1, 3), (2, 4)]))
      = some true := by
  decide +kernel

theorem couple_distinct : DistinctProductions coupleGrammar := word_distinct (by decide)

/-- A reported tree of the sample text: two words, `a` (masculine or feminine) and `b`
(masculine). -/
theorem couple_tree : ∃ (n n1 n2 k k1 k2 l1 l2 : Nat), l1 ≠ l2 ∧
    Reported coupleGrammar (id : Key → Key) coupleText true 200
      ⟨.node n 0 ⟨0, [.rule 1, .rule 2], 0, none⟩ k
        [.node n1 1 ⟨1, [.pred "*"], 0, none⟩ k1 [.leaf l1 "*" (word "a" 0 [masc, femn])],
         .node n2 2 ⟨2, [.pred "*"], 0, none⟩ k2 [.leaf l2 "*" (word "b" 2 [masc])]], (0, 2)⟩ := by
  have h : (chart coupleGrammar (id : Key → Key) coupleText true 200).map (fun cols =>
      match (prepareTrees (chartMatches coupleGrammar.start true cols)).head? with
      | some ⟨.node _ 0 p _ [.node _ 1 p1 _ [.leaf l1 q1 w1], .node _ 2 p2 _ [.leaf l2 q2 w2]], r⟩ =>
        decide (p = ⟨0, [.rule 1, .rule 2], 0, none⟩ ∧ p1 = ⟨1, [.pred "*"], 0, none⟩ ∧
          p2 = ⟨2, [.pred "*"], 0, none⟩ ∧ q1 = "*" ∧ q2 = "*" ∧ w1 = word "a" 0 [masc, femn] ∧
          w2 = word "b" 2 [masc] ∧ r = (0, 2) ∧ l1 ≠ l2)
      | _ => false) = some true := by decide +kernel
  obtain ⟨cols, h1, h2⟩ := Option.map_eq_some_iff.1 h
  split at h2
  · rename_i n p k n1 p1 k1 l1 q1 w1 n2 p2 k2 l2 q2 w2 r he
    simp only [decide_eq_true_eq] at h2
    obtain ⟨rfl, rfl, rfl, rfl, rfl, rfl, rfl, rfl, hne⟩ := h2
    refine ⟨n, n1, n2, k, k1, k2, l1, l2, hne, ?_⟩
    refine ⟨_, by unfold matchStates; rw [h1]; rfl, List.mem_of_mem_head? he⟩
  · simp at h2

theorem word_acyclic {rules : List (List (Production String))}
    (h : ∀ (r : Nat) ps, rules[r]? = some ps → ∀ prod ∈ ps, ∀ r', .rule r' ∈ prod.terms → r < r')
    (toks : List Token) : Acyclic (wordGrammar rules) toks := by
  intro i j r hr
  have : ∀ a b, Relation.TransGen (Above (wordGrammar rules) toks i j) a b → a < b := by
    intro a b hab
    have one : ∀ a b, Above (wordGrammar rules) toks i j a b → a < b := by
      rintro a b ⟨prod, hp, pre, post, ht, _⟩
      obtain ⟨ps, h1, h2⟩ := word_productions hp
      exact h a ps h1 prod h2 b (by rw [ht]; simp)
    induction hab with
    | single h1 => exact one _ _ h1
    | tail _ h1 ih => exact Nat.lt_trans ih (one _ _ h1)
  exact absurd (this _ _ hr) (Nat.lt_irrefl _)

theorem couple_forward (r : Nat) (ps : List (Production String)) (h : coupleRules[r]? = some ps)
    (prod : Production String) (hp : prod ∈ ps) (r' : Nat) (hr : .rule r' ∈ prod.terms) : r < r' := by
  match r with
  | 0 =>
    simp [coupleRules] at h; subst h; simp at hp; subst hp; simp at hr; omega
  | 1 => simp [coupleRules] at h; subst h; simp at hp; subst hp; simp at hr
  | 2 => simp [coupleRules] at h; subst h; simp at hp; subst hp; simp at hr
  | n + 3 => simp [coupleRules] at h

theorem couple_acyclic (toks : List Token) : Acyclic coupleGrammar toks :=
  word_acyclic couple_forward toks

end Yargy
