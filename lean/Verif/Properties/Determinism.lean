import Verif.Proofs.Rehash
import Verif.Properties.Pipelines
/-!
C46: the result is the same in every run.
-/
namespace Yargy
open Spec

section
variable {P H₁ H₂ : Type} [DecidableEq H₁] [DecidableEq H₂]

theorem matchStates_same {h₁ : Key → H₁} {h₂ : Key → H₂} (hh₁ : ∀ a b, h₁ a = h₁ b → a = b)
    (hh₂ : ∀ a b, h₂ a = h₂ b → a = b) (G : Grammar P Token) (toks : List Token) (all : Bool)
    (fuel : Nat) : matchStates G h₁ toks all fuel = matchStates G h₂ toks all fuel := by
  unfold matchStates
  rw [chart_rehash hh₁, chart_rehash hh₂, Option.map_map, Option.map_map]
  congr 1
  funext cols
  show chartMatches _ _ (cols.map _) = chartMatches _ _ (cols.map _)
  rw [chartMatches_rehash, chartMatches_rehash]

/-- C46: whatever the hash seed and the addresses of rules, productions and tree nodes (both only enter
through the hashes of states), as long as hashes do not collide, every method of the parser gives the
same matches, with the same trees, in the same order, or raises the same exception. -/
theorem results_same_hash {h₁ : Key → H₁} {h₂ : Key → H₂} (hh₁ : ∀ a b, h₁ a = h₁ b → a = b)
    (hh₂ : ∀ a b, h₂ a = h₂ b → a = b) (G : Grammar P Token) (A : Agreement) (toks : List Token)
    (fuel : Nat) :
    (∀ all, extract G A h₁ toks all fuel = extract G A h₂ toks all fuel) ∧
    findall G A h₁ toks fuel = findall G A h₂ toks fuel ∧
    find G A h₁ toks fuel = find G A h₂ toks fuel ∧
    matchText G A h₁ toks fuel = matchText G A h₂ toks fuel := by
  have hs := fun all => matchStates_same hh₁ hh₂ G toks all fuel
  refine ⟨?_, ?_, ?_, ?_⟩
  · intro all
    unfold extract
    rw [hs]
  · unfold findall
    rw [hs]
  · unfold find findall
    rw [hs]
  · unfold matchText
    rw [hs]

end

section
variable {P T H : Type} [DecidableEq H]

/-- Two grammars that predict the same productions for the words of a text have the same chart. -/
theorem chart_same {G G' : Grammar P T} {toks : List T} (hs : G.start = G'.start)
    (ha : G.accepts = G'.accepts) (hc : G.constrain = G'.constrain)
    (hr : ∀ r, G.productions r = G'.productions r)
    (hp : ∀ r, ∀ t ∈ toks, G.predict r t = G'.predict r t) (hash : Key → H) (all : Bool) (fuel : Nat) :
    chart G hash toks all fuel = chart G' hash toks all fuel := by
  have h1 : ∀ k r, predicted G toks k r = predicted G' toks k r := by
    intro k r
    unfold predicted
    split
    · rename_i t ht
      exact hp r t (List.mem_of_getElem? ht)
    · exact hr r
  have h2 : ∀ c : Config P T H, step G hash toks all c = step G' hash toks all c := by
    intro c
    unfold step predict scan
    simp only [h1, hs, ha, hc]
  have h3 : ∀ n, runN G hash toks all n = runN G' hash toks all n := by
    intro n
    induction n with
    | zero => rfl
    | succ n ih => rw [runN, runN, ih, h2]
  unfold chart
  rw [h3]

end

/-- The same rules compiled in two runs, in which Python iterates over sets in different orders. -/
def Recompiled (L : Lang) (o₁ o₂ : List Str → List Str) (rules₁ rules₂ : List (ChartRule Pred Token)) :
    Prop :=
  rules₁.length = rules₂.length ∧ ∀ (k : Nat) (r₁ r₂ : ChartRule Pred Token), rules₁[k]? = some r₁ →
    rules₂[k]? = some r₂ → (∃ ps, r₁ = ordinaryRule ps ∧ r₂ = ordinaryRule ps) ∨
    ∃ kind ps, pipeRule L o₁ kind ps = .ok r₁ ∧ pipeRule L o₂ kind ps = .ok r₂

/-- In no `morph_pipeline` can a word of the text stand for the first words of different lines by way of
different normal forms. -/
def Unambiguous (rules : List (ChartRule Pred Token)) (toks : List Token) : Prop :=
  ∀ r ∈ rules, ∀ t ∈ toks, ∀ fs, t.forms = some fs → ∀ f ∈ fs, ∀ f' ∈ fs,
    ∀ p ∈ r.productions, ∀ p' ∈ r.productions, ∀ vs vs' rest rest',
      p.terms = .pred (.dict vs) :: rest → p'.terms = .pred (.dict vs') :: rest' →
      f.normalized ∈ vs → f'.normalized ∈ vs' → f.normalized = f'.normalized

theorem flatMap_one {α β : Type} {g : α → List β} : ∀ {l l' : List α}, l.Nodup → l'.Nodup →
    (∀ x, x ∈ l ↔ x ∈ l') → (∀ x ∈ l, ∀ y ∈ l, g x ≠ [] → g y ≠ [] → x = y) →
    l.flatMap g = l'.flatMap g := by
  intro l l' h1 h2 h3 h4
  by_cases hx : ∃ x ∈ l, g x ≠ []
  · obtain ⟨x, hx, hg⟩ := hx
    have one : ∀ m : List α, m.Nodup → x ∈ m → (∀ y ∈ m, g y ≠ [] → y = x) → m.flatMap g = g x := by
      intro m
      induction m with
      | nil => intro _ hm _; cases hm
      | cons y m ih =>
        intro hn hm ho
        have hn' := List.nodup_cons.1 hn
        rw [List.flatMap_cons]
        rcases List.mem_cons.1 hm with e | hm
        · subst e
          have : m.flatMap g = [] := by
            rw [List.flatMap_eq_nil_iff]
            intro y hy
            cases hgy : g y with
            | nil => rfl
            | cons a b =>
              have := ho y (List.mem_cons_of_mem _ hy) (by rw [hgy]; simp)
              exact absurd (this ▸ hy) hn'.1
          rw [this, List.append_nil]
        · have : g y = [] := by
            cases hgy : g y with
            | nil => rfl
            | cons a b =>
              have := ho y List.mem_cons_self (by rw [hgy]; simp)
              exact absurd (this ▸ hm) hn'.1
          rw [this, List.nil_append]
          exact ih hn'.2 hm (fun y hy => ho y (List.mem_cons_of_mem _ hy))
    rw [one l h1 hx (fun y hy hgy => h4 y hy x hx hgy hg),
      one l' h2 ((h3 x).1 hx) (fun y hy hgy => h4 y ((h3 y).2 hy) x hx hgy hg)]
  · have none : ∀ m : List α, (∀ y ∈ m, y ∈ l) → m.flatMap g = [] := by
      intro m hm
      rw [List.flatMap_eq_nil_iff]
      intro y hy
      cases hgy : g y with
      | nil => rfl
      | cons a b => exact absurd ⟨y, hm y hy, by rw [hgy]; simp⟩ hx
    rw [none l (fun _ h => h), none l' (fun y hy => (h3 y).2 hy)]

/-- C46, partial: nor do the results depend on the order in which Python iterates over sets, as long as
no word of the text has different normal forms with which different lines of one `morph_pipeline`
begin (without this: `gazetteer_order_matters`). -/
theorem results_same_order_partial {L : Lang} {o₁ o₂ : List Str → List Str} (ho₁ : SetOrder o₁)
    (ho₂ : SetOrder o₂) {rules₁ rules₂ : List (ChartRule Pred Token)}
    (hr : Recompiled L o₁ o₂ rules₁ rules₂) {toks : List Token} (hu : Unambiguous rules₁ toks)
    {H : Type} [DecidableEq H] (hash : Key → H) (A : Agreement) (start fuel : Nat) :
    (∀ all, extract (predGrammar L rules₁ start) A hash toks all fuel =
      extract (predGrammar L rules₂ start) A hash toks all fuel) ∧
    findall (predGrammar L rules₁ start) A hash toks fuel =
      findall (predGrammar L rules₂ start) A hash toks fuel ∧
    matchText (predGrammar L rules₁ start) A hash toks fuel =
      matchText (predGrammar L rules₂ start) A hash toks fuel := by
  have key : ∀ (k : Nat), (rules₁[k]? = none ∧ rules₂[k]? = none) ∨ ∃ r₁ r₂, rules₁[k]? = some r₁ ∧
      rules₂[k]? = some r₂ ∧ r₁.productions = r₂.productions ∧
      ∀ t ∈ toks, r₁.predict t = r₂.predict t := by
    intro k
    cases h1 : rules₁[k]? with
    | none =>
      refine .inl ⟨rfl, ?_⟩
      rw [List.getElem?_eq_none_iff] at h1 ⊢
      rw [← hr.1]
      exact h1
    | some r₁ =>
      refine .inr ?_
      have hlt := (List.getElem?_eq_some_iff.1 h1).1
      rw [hr.1] at hlt
      refine ⟨r₁, rules₂[k], rfl, List.getElem?_eq_getElem hlt, ?_⟩
      rcases hr.2 k r₁ _ h1 (List.getElem?_eq_getElem hlt) with ⟨ps, e1, e2⟩ | ⟨kind, ps, e1, e2⟩
      · rw [e2, e1]
        exact ⟨rfl, fun _ _ => rfl⟩
      · have hu' := hu r₁ (List.mem_of_getElem? h1)
        unfold pipeRule at e1 e2
        obtain ⟨index, g1, g2⟩ := except_map_ok e1
        rw [g1] at e2
        replace e2 : Except.ok _ = Except.ok _ := e2
        injection e2 with e2
        rw [← e2, ← g2]
        rw [← g2] at hu'
        refine ⟨rfl, ?_⟩
        intro t ht
        show pipePredict L o₁ kind index t = pipePredict L o₂ kind index t
        cases kind with
        | exact => rfl
        | caseless => rfl
        | morph =>
          unfold pipePredict
          cases hf : t.forms with
          | none => rfl
          | some fs =>
            dsimp only
            refine flatMap_one (ho₁ _).1 (ho₂ _).1 (fun x => ?_) ?_
            · rw [(ho₁ _).2, (ho₂ _).2]
            · intro x hx y hy hgx hgy
              rw [(ho₁ _).2] at hx hy
              obtain ⟨f, hf1, hf2⟩ := List.mem_map.1 hx
              obtain ⟨f', hf1', hf2'⟩ := List.mem_map.1 hy
              obtain ⟨p, hp⟩ := List.exists_mem_of_ne_nil _ hgx
              obtain ⟨p', hp'⟩ := List.exists_mem_of_ne_nil _ hgy
              obtain ⟨hp1, vs, hp2, hp3⟩ := (mem_indexGet g1 x p).1 hp
              obtain ⟨hp1', vs', hp2', hp3'⟩ := (mem_indexGet g1 y p').1 hp'
              rcases indexValues_ok hp2 with ⟨_, _, hk, _⟩ | ⟨_, _, hk, _⟩ | ⟨rest, _, hk⟩
              · cases hk
              · cases hk
              rcases indexValues_ok hp2' with ⟨_, _, hk', _⟩ | ⟨_, _, hk', _⟩ | ⟨rest', _, hk'⟩
              · cases hk'
              · cases hk'
              rw [← hf2, ← hf2'] at *
              exact hu' t ht fs hf f hf1 f' hf1' p hp1 p' hp1' vs vs' rest rest' hk hk' hp3 hp3'
  have hm : ∀ all, matchStates (predGrammar L rules₁ start) hash toks all fuel =
      matchStates (predGrammar L rules₂ start) hash toks all fuel := by
    intro all
    unfold matchStates
    rw [chart_same (G := predGrammar L rules₁ start) (G' := predGrammar L rules₂ start) rfl rfl rfl]
    · rfl
    · intro r
      unfold Grammar.productions predGrammar
      dsimp only
      rcases key r with ⟨h1, h2⟩ | ⟨r₁, r₂, h1, h2, h3, _⟩
      · rw [h1, h2]
      · rw [h1, h2]
        exact h3
    · intro r t ht
      unfold Grammar.predict predGrammar
      dsimp only
      rcases key r with ⟨h1, h2⟩ | ⟨r₁, r₂, h1, h2, _, h3⟩
      · rw [h1, h2]
      · rw [h1, h2]
        exact h3 t ht
  refine ⟨?_, ?_, ?_⟩
  · intro all
    unfold extract
    rw [hm]
  · unfold findall
    rw [hm]
  · unfold matchText
    rw [hm]

/-- The lines `x` and `y`, compiled. -/
def xyRule (o : List Str → List Str) : ChartRule Pred Token :=
  match pipeRule sampleLang o .morph (pipeProductions sampleLang (fun w => [w]) sampleSplit .morph 0
    ["x".toList, "y".toList]) with
  | .ok r => r
  | .error _ => ordinaryRule []

/-- A word with the normal form `x` only. -/
def xToken : Token :=
  { ambiguousToken with forms := some [⟨"x".toList, [], 0⟩, ⟨"x".toList, [], 1⟩] }

/-- The hypotheses are met by the lines `x` and `y`, iterating forwards or backwards, on a text with the
word `x`; and the text is found. -/
example : Recompiled sampleLang sampleOrder (fun l => (sampleOrder l).reverse) [xyRule sampleOrder]
      [xyRule (fun l => (sampleOrder l).reverse)] ∧
    Unambiguous [xyRule sampleOrder] [xToken] ∧
    foundLines (findall (predGrammar sampleLang [xyRule sampleOrder] 0) noAgreement (id : Key → Key)
      [xToken] 100) = [some "x".toList] := by
  refine ⟨⟨rfl, ?_⟩, ?_, ?_⟩
  · intro k r₁ r₂ h1 h2
    cases k with
    | zero =>
      cases h1
      cases h2
      exact .inr ⟨.morph, pipeProductions sampleLang (fun w => [w]) sampleSplit .morph 0
        ["x".toList, "y".toList], rfl, rfl⟩
    | succ k => cases h1
  · intro r _ t ht fs hfs f hf f' hf' p _ p' _ vs vs' rest rest' _ _ _ _
    rw [List.mem_singleton.1 ht] at hfs
    cases hfs
    have e : ∀ g ∈ [(⟨"x".toList, [], 0⟩ : Form), ⟨"x".toList, [], 1⟩], g.normalized = "x".toList := by
      decide
    rw [e f hf, e f' hf']
  · decide +kernel

end Yargy
