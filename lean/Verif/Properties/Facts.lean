import Verif.Proofs.Evaluate
import Verif.Properties.Interpretation
import Verif.Properties.Labels
/-!
C54: the fact of a match is what the rule as written says.
-/
namespace Yargy
open Spec Twins

variable {L : Lang} {setOrder : List Str → List Str} {c : Context} {split : Str → List Str}
  {relation : Nat → Relation} {pid : Nat → Nat} {limit root : Nat} {h h' : Heap Pred} {b : Built}
  {H : Type} [DecidableEq H] {hash : Key → H} {toks : List Token}

/-- What comes out of a piece of the events. -/
def outcome : Except Err (List Frame × List Item) → Except Err Result
  | .ok ([], [.result r]) => .ok r
  | .ok _ => .error .typeError
  | .error e => .error e

theorem interpretTree_outcome {P : Type} {F : Facts} {I : Nat → Option Interpretator} {n r : Nat}
    {p : Production P} {k : Nat} {cs : List (TTree P)} (hr : I r ≠ none) :
    interpretTree F I (.node n r p k cs) = outcome (follow F (events I (.node n r p k cs)) [] []) := by
  have hroot : ∃ n' r' p' k' cs', PTree.node n r p k cs = PTree.node n' r' p' k' cs' ∧ I r' ≠ none :=
    ⟨n, r, p, k, cs, rfl, hr⟩
  cases hx : interpretTree F I (.node n r p k cs) with
  | ok res =>
    rw [((interpret_follows _ res).1 hx).2]
    rfl
  | error e =>
    rcases (interpret_raises _ e).1 hx with ⟨_, h⟩ | ⟨_, h⟩
    · exact absurd (h _ _ _ _ _ rfl) hr
    · rw [h]
      rfl

theorem outcome_bare (x : Except Err (List Frame × List Item)) :
    outcome (x.map bareState) = (outcome x).map Result.bare := by
  cases x with
  | error e => rfl
  | ok y =>
    obtain ⟨fs, out⟩ := y
    cases fs with
    | cons f fs => rfl
    | nil =>
      match out with
      | [] => rfl
      | [.result r] => rfl
      | [.token t] => rfl
      | .token _ :: _ :: _ => rfl
      | .result _ :: _ :: _ => rfl

theorem sameFact_refl (F : Facts) (x : Except Err Result) : SameFact F x x := ⟨rfl, rfl, rfl⟩

theorem sameFact_bare (F : Facts) (x : Except Err Result) : SameFact F x (x.map Result.bare) := by
  cases x with
  | error e => exact sameFact_refl F _
  | ok r => exact ⟨(bare_normalized r).symm, (bare_asJson r).symm, (bare_spans r).symm⟩

/-- The productions of a parser for a rule without gazetteers have no dictionary lines. -/
theorem program_keyless (hrun : Run L setOrder [] h) (hr : RuleAt h root) (hp : ∀ a b, pid a = pid b → a = b)
    (hb : buildParser L setOrder c split relation pid limit root h = .ok (b, h'))
    (hg : ∀ (x : Nat) o, Reach h root x → h[x]? = some o → isGazetteer o = false)
    {i j : Nat} {d : DTree Pred Token} (hd : Derives b.grammar toks (.rule b.grammar.start) i j d) : Keyless d := by
  obtain ⟨h1, h2, h3, h4, h5, h6, _⟩ := program_parts hrun hr hp hb
  have hk := compileRule_kept gazetteer_stable hp h1 h2 h3 h4 hg
  refine derives_keyless (Z := Reach h' b.grammar.start) ?_ hd (by intro r e; cases e; exact .root)
  intro r prod hz hpr
  cases hbn : isBnf h' r with
  | false => rw [h5.none r hbn] at hpr; cases hpr
  | true =>
    unfold isBnf at hbn
    split at hbn
    · rename_i ps n x y d ho
      rw [h5.productions r ps n x y d ho] at hpr
      obtain ⟨p, hpm, rfl⟩ := List.mem_map.1 hpr
      obtain ⟨hzp, hip⟩ := h5.bnf r ps n x y d hz ho p hpm
      refine ⟨?_, fun x hx => (prod_terms h5 hzp x hx).1⟩
      unfold isProduction at hip
      unfold productionAt
      split at hip
      · rename_i hm; rw [hm]
      · rename_i hm; rw [hm]
      · rename_i hm; cases hk _ _ hzp hm
      · cases hip
    · cases hbn

/-- The fact of a match, from the tokens of its tree. -/
theorem match_fact_tree (hrun : Run L setOrder [] h) (hr : RuleAt h root) (hst : Steady .interp h root)
    (hlab : ∃ r x, h[root]? = some (.interp r x)) (hp : ∀ a b, pid a = pid b → a = b) (hs : SetOrder setOrder)
    (hb : buildParser L setOrder c split relation pid limit root h = .ok (b, h')) {σ : Store} (m : Match Pred)
    (hm : Returned b.grammar b.agreement hash toks σ m) :
    ∃ w, Reads (c.activation L split) .interp h [.rule root] w ∧
      Fits (Pred.accepts L) toks w m.tree.range.1 m.tree.range.2 ∧
      Sheds w (reading (carried .interp h') (m.tree.root.load σ).erase) ∧
      ∀ (F : Facts) (its : Nat → Interpretator),
        ((∀ (x : Nat) o, Reach h root x → h[x]? = some o → isGazetteer o = false) ∨
          ∀ (x : Nat) r n, Reach h root x → h[x]? = some (.interp r n) → takesLine (its n) = false) →
        SameFact F (interpretTree F (interpretators its h') (m.tree.root.load σ)) 
          (evaluate F its (shed w) ((m.tree.root.load σ).leaves.map Prod.snd)) := by
  obtain ⟨r0, x0, ho⟩ := hlab
  have hok := returned_ok hrun hr hp hs hb hm
  obtain ⟨w, w1, w2, w3, w4⟩ := match_labels hrun hr (k := .interp) hst
    ⟨_, _, ho, rfl⟩ hp hs hb m hm
  obtain ⟨d, hd, ht⟩ := hok.derives
  refine ⟨w, w1, w2, w3, ?_⟩
  intro F its hc
  rw [← sheds_shed w3 w4]
  obtain ⟨h1, h2, h3, h4, _, h6, _⟩ := program_parts hrun hr hp hb
  have hroot := compileRule_root (k := .interp) hp h1 h2 h3 ho trivial rfl h4
  have hI : interpretatorAt h' b.grammar.start = some x0 := by
    unfold isBnf at h6
    split at h6
    · rename_i ps n i t d e
      unfold labelAt at hroot
      unfold interpretatorAt
      rw [e] at hroot ⊢
      cases i with
      | none => cases hroot
      | some y => cases hroot; rfl
    · cases h6
  -- the tree is a node of the start rule
  have hnode : ∃ n p k cs, m.tree.root.load σ = .node n b.grammar.start p k cs := by
    cases hd with
    | node _ _ =>
      cases hl : m.tree.root.load σ with
      | leaf n p t => rw [hl] at ht; cases ht
      | node n r p k cs =>
        rw [hl] at ht
        simp only [PTree.erase] at ht
        cases ht
        exact ⟨n, _, k, cs, rfl⟩
  obtain ⟨n, p, k, cs, hl⟩ := hnode
  have hin : interpretTree F (interpretators its h') (m.tree.root.load σ) =
      outcome (follow F (events (interpretators its h') (m.tree.root.load σ)) [] []) := by
    rw [hl]
    exact interpretTree_outcome (by simp [interpretators, hI])
  have hev : evaluate F its (reading (carried .interp h') (m.tree.root.load σ).erase)
      ((m.tree.root.load σ).leaves.map Prod.snd) =
        outcome (follow F ((events (interpretators its h') (m.tree.root.load σ)).map Event.bare) [] []) := by
    rw [← play_events]
    rfl
  rw [hin, hev]
  rcases hc with hc | hc
  · rw [keyless_events _ (trims_keyless ht (program_keyless hrun hr hp hb hc hd))]
    exact sameFact_refl F _
  · have := follow_bare (F := F) (events (interpretators its h') (m.tree.root.load σ)) [] [] (by
      intro i key hmem
      have := bare_opens hmem
      rw [← play_events] at this
      obtain ⟨n, h1, rfl⟩ := play_opens _ _ this
      obtain ⟨x, r, h2, h3⟩ := reads_interp hst.bare w1 (by
        intro r hm
        rw [List.mem_singleton] at hm
        cases hm
        exact .root) n (sheds_subset w3 _ h1)
      exact hc x r n h2 h3) (by intro f hf; cases hf)
    rw [List.map_nil, List.map_nil] at this
    rw [this, outcome_bare]
    exact sameFact_bare F _

/-- C54: the fact of a match is what the rule as written says. There is a word of the rule, with brackets for
the interpretations that were put on its parts, that fits the tokens of the match; without the brackets of
empty parts, and with the tokens of the match (some of their forms removed) for its predicates, the
interpretations give the fact of the match, its JSON and its spans, or raise what the match raises. This is
for rules without gazetteers, or without `normalized()` in their interpretations. -/
theorem match_fact (hrun : Run L setOrder [] h) (hr : RuleAt h root) (hst : Steady .interp h root)
    (hlab : ∃ r x, h[root]? = some (.interp r x)) (hp : ∀ a b, pid a = pid b → a = b) (hs : SetOrder setOrder)
    (hb : buildParser L setOrder c split relation pid limit root h = .ok (b, h')) {σ : Store} (m : Match Pred)
    (hm : Returned b.grammar b.agreement hash toks σ m) :
    ∃ w ts, Reads (c.activation L split) .interp h [.rule root] w ∧
      Fits (Pred.accepts L) toks w m.tree.range.1 m.tree.range.2 ∧
      ts.length = m.tree.range.2 - m.tree.range.1 ∧
      (∀ k, k < m.tree.range.2 - m.tree.range.1 → ∃ t t', toks[m.tree.range.1 + k]? = some t ∧
        ts[k]? = some t' ∧ Narrowed t t') ∧
      ∀ (F : Facts) (its : Nat → Interpretator),
        ((∀ (x : Nat) o, Reach h root x → h[x]? = some o → isGazetteer o = false) ∨
          ∀ (x : Nat) r n, Reach h root x → h[x]? = some (.interp r n) → takesLine (its n) = false) →
        SameFact F (interpretTree F (interpretators its h') (m.tree.root.load σ)) (evaluate F its (shed w) ts) := by
  obtain ⟨_, q2⟩ := program_predict hrun hr hp hs hb
  have tk := match_tokens_read (I := fun _ => none) q2 (returned_ok hrun hr hp hs hb hm)
  rw [events_tokens] at tk
  obtain ⟨w, w1, w2, _, w4⟩ := match_fact_tree hrun hr hst hlab hp hs hb m hm
  exact ⟨w, (m.tree.root.load σ).leaves.map Prod.snd, w1, w2, tk.1, tk.2, w4⟩

/-! ### Samples -/

/-- Number 5: `Name.first`; 6: `Name.last`; any other: `Name`. -/
def sampleIts : Nat → Interpretator
  | 5 => .attr 0 (str "first")
  | 6 => .attr 0 (str "last")
  | _ => .fact 0

/-- The values of the facts of the matches of a parser, if they are names. -/
def matchNames (its : Nat → Interpretator) (b : Built) (h : Heap Pred) (toks : List Token) :
    Option (List (List (Option Str))) :=
  (extract b.grammar b.agreement (id : Key → Key) toks true 2000).map (fun x => x.1.map (fun m =>
    match matchFact sampleFacts (interpretators its h) (m.tree.root.load x.2.1) with
    | .ok (.fact _ fields) => fields.map (fun f => match f.2 with | .str s => some s | _ => none)
    | .ok (.str s) => [some s]
    | _ => []))

/-- The same for a rule. -/
def namesOf (its : Nat → Interpretator) (root : Nat) (h : Heap Pred) (toks : List Token) :
    Option (List (List (Option Str))) :=
  match sampleBuild root h with
  | .ok (b, h') => matchNames its b h' toks
  | .error _ => none

theorem namesOf_build {its : Nat → Interpretator} {toks : List Token} {names : List (List (Option Str))}
    (hn : namesOf its root h toks = some names) :
    ∃ b h', sampleBuild root h = .ok (b, h') ∧ matchNames its b h' toks = some names := by
  unfold namesOf at hn
  split at hn
  · rename_i b h' e
    exact ⟨b, h', e, hn⟩
  · cases hn

/-- The hypotheses of `match_fact` are met, and there are matches. The second optional use of the rule is
missing in the first and in the last match, the name then has the default last name. -/
example : Run sampleLang sampleOrder [] twoUses ∧ RuleAt twoUses 7 ∧ Steady .interp twoUses 7 ∧
    (∃ r x, twoUses[7]? = some (.interp r x)) ∧
    (∀ (x : Nat) o, Reach twoUses 7 x → twoUses[x]? = some o → isGazetteer o = false) ∧
    (∃ b h', sampleBuild 7 twoUses = .ok (b, h') ∧
      matchNames sampleIts b h' (["a", "a"].map sourceWord) =
        some [[some (str "a"), some (str "Petrov"), none], [some (str "a"), some (str "a"), none],
          [some (str "a"), some (str "Petrov"), none]]) ∧
    (evaluate sampleFacts sampleIts (shed [.opn (.interp 7), .opn (.interp 5), .pred (Pred.eq "a".toList),
        .cls (.interp 5), .opn (.interp 6), .cls (.interp 6), .cls (.interp 7)]) [sourceWord "a"]).bind
      (Result.normalized sampleFacts) =
        .ok (.fact 0 [(str "first", .str (str "a")), (str "last", .str (str "Petrov")), (str "tags", .list [])]) := by
  refine ⟨twoUses_run, ⟨_, rfl, rfl⟩, twoUses_steady, ⟨_, _, rfl⟩, ?_, ?_, rfl⟩
  · intro x o _ ho
    have ho := List.mem_of_getElem? ho
    simp only [twoUses, List.mem_cons, List.not_mem_nil, or_false] at ho
    rcases ho with rfl | rfl | rfl | rfl | rfl | rfl | rfl | rfl <;> rfl
  · exact namesOf_build (by decide +kernel)

/-! ### C40 -/

/-- Number 5: `Name.first.normalized()`; 6: `Name.last.normalized()`; any other: `Name`. -/
def lineIts : Nat → Interpretator
  | 5 => .attrNorm 0 (str "first") (.morph .normalized)
  | 6 => .attrNorm 0 (str "last") (.morph .normalized)
  | _ => .fact 0

/-- `G = pipeline(['z']); rule(G.interpretation(Name.first.normalized()), G.interpretation(Name.last
.normalized())).interpretation(Name)` -/
def sharedGazetteer : Heap Pred :=
  [.pipe (.scheme .exact ["z".toList]), .interp 0 5, .interp 0 6, .prod [.rule 1, .rule 2] 0, .rule [3], .interp 4 7]

/-- The same with a gazetteer for each use. -/
def ownGazetteers : Heap Pred :=
  [.pipe (.scheme .exact ["z".toList]), .pipe (.scheme .exact ["z".toList]), .interp 0 5, .interp 1 6,
   .prod [.rule 2, .rule 3] 0, .rule [4], .interp 5 7]

theorem sharedGazetteer_run : Run sampleLang sampleOrder [] sharedGazetteer :=
  makeAll_run (h := []) (by decide +kernel)

theorem ownGazetteers_run : Run sampleLang sampleOrder [] ownGazetteers :=
  makeAll_run (h := []) (by decide +kernel)

theorem sharedGazetteer_names : namesOf lineIts 5 sharedGazetteer [ambiguousToken, ambiguousToken] =
    some [[some (str "x"), some (str "x"), none]] := by decide +kernel

theorem ownGazetteers_names : namesOf lineIts 6 ownGazetteers [ambiguousToken, ambiguousToken] =
    some [[some (str "z"), some (str "z"), none]] := by decide +kernel

/-- C40 is false in general: of two rules that say the same, the one that uses one gazetteer twice gives the
normal form `x` of the word `z` instead of the line `z` of the gazetteer. (The interpretation of something
that is used twice is put on a rule of its own, `yargy/rule/bnf.py:115-123`, and its node does not know the
line.) -/
theorem shared_gazetteer_loses_line :
    Run sampleLang sampleOrder [] sharedGazetteer ∧ Run sampleLang sampleOrder [] ownGazetteers ∧
    (∃ b h', sampleBuild 5 sharedGazetteer = .ok (b, h') ∧
      matchNames lineIts b h' [ambiguousToken, ambiguousToken] =
        some [[some (str "x"), some (str "x"), none]]) ∧
    ∃ b h', sampleBuild 6 ownGazetteers = .ok (b, h') ∧
      matchNames lineIts b h' [ambiguousToken, ambiguousToken] =
        some [[some (str "z"), some (str "z"), none]] := by
  exact ⟨sharedGazetteer_run, ownGazetteers_run, namesOf_build sharedGazetteer_names,
    namesOf_build ownGazetteers_names⟩

end Yargy
