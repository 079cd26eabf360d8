import Verif.Proofs.Exact
import Verif.Properties.EndToEnd
import Verif.Properties.Facts
import Verif.Properties.Pair
/-! C77: without agreement, a match keeps the forms that its predicates leave. -/
set_option linter.unusedSectionVars false
namespace Yargy
open Spec

namespace Exact
variable {P : Type} {L : Lang}

theorem kept_narrow {p : Pred} {t : Token} (ha : p.accepts L t = true) : p.narrow t = keptBy p t := by
  have plain : p.constrain t = .ok t → (∀ f, FormAllowed p f) → p.narrow t = keptBy p t := by
    intro e hall
    have : t.forms.map (fun fs => fs.filter (fun f => decide (FormAllowed p f))) = t.forms := by
      cases t.forms with
      | none => rfl
      | some fs =>
        have : fs.filter (fun f => decide (FormAllowed p f)) = fs :=
          List.filter_eq_self.2 (fun f _ => by simpa using hall f)
        simp [this]
    simp only [Pred.narrow, e, keptBy, this]
  cases p with
  | isSingle =>
    cases hf : t.forms with
    | none => simp [Pred.accepts, Pred.call, morphRequired, hf] at ha
    | some fs =>
      simp only [Pred.narrow, Pred.constrain, hf, Token.constrained, keptBy, Option.map_some]
      congr 2
      refine List.filter_congr (fun f _ => ?_)
      rw [Bool.eq_iff_iff, decide_eq_true_iff]
      simp [FormAllowed, Form.isSingle]
  | gramP g =>
    cases hf : t.forms with
    | none => simp [Pred.accepts, Pred.call, morphRequired, hf] at ha
    | some fs =>
      simp only [Pred.narrow, Pred.constrain, hf, Token.constrained, keptBy, Option.map_some]
      congr 2
      refine List.filter_congr (fun f _ => ?_)
      rw [Bool.eq_iff_iff, decide_eq_true_iff]
      simp [FormAllowed]
  | gram g => simp [Pred.accepts, Pred.call] at ha
  | _ => exact plain rfl (fun _ => trivial)

theorem from_kept {G : Grammar Pred Token} {toks : List Token} (h1 : G.accepts = Pred.accepts L)
    (h2 : G.constrain = Pred.narrow) {i j : Nat} {l : List (Pred × Token)} (h : From G toks i l j) :
    KeptFrom L toks i (l.map Prod.fst) (l.map Prod.snd) ∧ j = i + l.length := by
  induction h with
  | nil => exact ⟨.nil, rfl⟩
  | @cons i p t l j g1 g2 _ ih =>
    rw [h1] at g2
    rw [h2, kept_narrow g2]
    refine ⟨.cons g1 g2 ih.1, ?_⟩
    rw [ih.2, List.length_cons]
    omega

theorem preds_append (v w : List (Sym P)) : wordPreds (v ++ w) = wordPreds v ++ wordPreds w := by
  induction v with
  | nil => rfl
  | cons x v ih => cases x <;> simp [wordPreds, ih]

theorem preds_map (ps : List P) : wordPreds (ps.map Sym.pred) = ps := by
  induction ps with
  | nil => rfl
  | cons p ps ih => simp [wordPreds, ih]

theorem preds_wrap (x : Option Attr) (w : List (Sym P)) : wordPreds (wrap x w) = wordPreds w := by
  cases x with
  | none => rfl
  | some x => simp [wrap, wordPreds, preds_append]

theorem preds_sheds {v w : List (Sym P)} (h : Sheds v w) : wordPreds v = wordPreds w := by
  induction h with
  | refl => rfl
  | step _ ih => rw [← ih]; simp [preds_append, wordPreds]

theorem preds_reading {T : Type} {lab : Nat → Option Attr} (t : DTree P T) :
    wordPreds (reading lab t) = (leafPairs t).map Prod.fst := by
  refine DTree.rec (motive_1 := fun t => wordPreds (reading lab t) = (leafPairs t).map Prod.fst)
    (motive_2 := fun ts => wordPreds (readingAll lab ts) = (leafPairsAll ts).map Prod.fst) ?_ ?_ ?_ ?_ t
  · intro p t; rfl
  · intro r prod cs ih
    rw [reading, preds_wrap, ih]
    rfl
  · rfl
  · intro c cs h1 h2
    simp [leafPairsAll, readingAll, preds_append, h1, h2]

end Exact

variable {L : Lang} {setOrder : List Str → List Str} {c : Context} {split : Str → List Str} {relation : Nat → Relation}
  {pid : Nat → Nat} {limit root : Nat} {h h' : Heap Pred} {b : Built} {H : Type} [DecidableEq H] {hash : Key → H}
  {toks : List Token}

/-- Matches are the same if the relations of other rules are forgotten. -/
theorem returned_silent (hrun : Run L setOrder [] h) (hr : RuleAt h root) (hp : ∀ a b, pid a = pid b → a = b)
    (hs : SetOrder setOrder) (hsilent : ∀ (x : Nat) o, Reach h root x → h[x]? = some o → o.silent)
    (hb : buildParser L setOrder c split relation pid limit root h = .ok (b, h')) {σ : Store} {m : Match Pred}
    (hm : Returned b.grammar b.agreement hash toks σ m) :
    Returned b.grammar ⟨fun _ => none, relation⟩ hash toks σ m := by
  obtain ⟨h1, h2⟩ := program_silent hrun hr hp hs hsilent hb
  unfold Returned at hm ⊢
  simpa only [extract_sameOn h1 h2, findall_sameOn h1 h2, matchText_sameOn h1 h2] using hm

/-- The tree and the tokens of a match. -/
theorem match_exact (hrun : Run L setOrder [] h) (hr : RuleAt h root) (hp : ∀ a b, pid a = pid b → a = b)
    (hs : SetOrder setOrder) (hsilent : ∀ (x : Nat) o, Reach h root x → h[x]? = some o → o.silent)
    (hb : buildParser L setOrder c split relation pid limit root h = .ok (b, h')) {σ : Store} {m : Match Pred}
    (hm : Returned b.grammar b.agreement hash toks σ m) :
    ∃ d, Derives b.grammar toks (.rule b.grammar.start) m.tree.range.1 m.tree.range.2 d ∧
      leafPairs (m.tree.root.load σ).erase = leafPairs d ∧ m.tokens = (leafPairs d).map Prod.snd ∧
      KeptFrom L toks m.tree.range.1 ((leafPairs d).map Prod.fst) m.tokens ∧
      m.tree.range.2 = m.tree.range.1 + (leafPairs d).length := by
  obtain ⟨q1, q4⟩ := program_predict hrun hr hp hs hb
  obtain ⟨_, _, _, _, _, _, rules, k7, k8⟩ := program_parts hrun hr hp hb
  have ql : PredictLossless b.grammar := by
    rw [k7]
    exact (library_predict (start := b.grammar.start) hs k8).2
  obtain ⟨d, h1, h2, h3⟩ := Exact.returned_exact (fun _ => rfl) q1 ql (returned_silent hrun hr hp hs hsilent hb hm)
  rw [← Exact.pairs_yield] at h3
  obtain ⟨g1, g2⟩ := Exact.from_kept (L := L) (by rw [k7]; rfl) (by rw [k7]; rfl) (Exact.derives_from h1)
  exact ⟨d, h1, h2, h3, by rw [h3]; exact g1, g2⟩

/-- C77: without agreement relations, the tokens of a match, and those in its tree, are the tokens of the text, each with
all the forms that its predicate leaves and no others; the predicates are those of one reading of the rule. -/
theorem forms_exact (hrun : Run L setOrder [] h) (hr : RuleAt h root) (hst : Spec.Steady .plain h root)
    (hp : ∀ a b, pid a = pid b → a = b) (hs : SetOrder setOrder)
    (hsilent : ∀ (x : Nat) o, Reach h root x → h[x]? = some o → o.silent)
    (hb : buildParser L setOrder c split relation pid limit root h = .ok (b, h')) {σ : Store} {m : Match Pred}
    (hm : Returned b.grammar b.agreement hash toks σ m) :
    ∃ ps, Reads (c.activation L split) .plain h [.rule root] (ps.map .pred) ∧
      KeptFrom L toks m.tree.range.1 ps m.tokens ∧ m.tree.range.2 = m.tree.range.1 + ps.length ∧
      leafPairs (m.tree.root.load σ).erase = ps.zip m.tokens := by
  obtain ⟨d, h1, h2, h3, h4, h5⟩ := match_exact hrun hr hp hs hsilent hb hm
  obtain ⟨g1, g2, g3, g4, g5, g6, _⟩ := program_parts hrun hr hp hb
  have hw := ((derives_reading (k := .plain) g5 .root g6 _ _ _).1 ⟨d, h1, rfl⟩).1
  rw [compileRule_words' hp g1 g2 g3 hst.bounds hst.calm g4, Exact.pairs_reading (lab := carried .plain h') (fun _ => rfl)] at hw
  refine ⟨(leafPairs d).map Prod.fst, by rw [List.map_map]; exact hw, h4, by rw [h5, List.length_map], ?_⟩
  rw [h2, h3]
  generalize leafPairs d = l
  induction l with
  | nil => rfl
  | cons x l ih => simp only [List.map_cons, List.zip_cons_cons, ← ih]

/-- C77, facts: without agreement relations, the fact of a match is what the interpretations of the rule, put at the
places that the rule says, make of the tokens of the text with the forms that their predicates leave. -/
theorem fact_exact (hrun : Run L setOrder [] h) (hr : RuleAt h root) (hst : Spec.Steady .interp h root)
    (hlab : ∃ r x, h[root]? = some (.interp r x)) (hp : ∀ a b, pid a = pid b → a = b) (hs : SetOrder setOrder)
    (hsilent : ∀ (x : Nat) o, Reach h root x → h[x]? = some o → o.silent)
    (hb : buildParser L setOrder c split relation pid limit root h = .ok (b, h')) {σ : Store} {m : Match Pred}
    (hm : Returned b.grammar b.agreement hash toks σ m) :
    ∃ w, Reads (c.activation L split) .interp h [.rule root] w ∧
      KeptFrom L toks m.tree.range.1 (wordPreds w) m.tokens ∧ m.tree.range.2 = m.tree.range.1 + (wordPreds w).length ∧
      ∀ (F : Facts) (its : Nat → Interpretator),
        ((∀ (x : Nat) o, Reach h root x → h[x]? = some o → isGazetteer o = false) ∨
          ∀ (x : Nat) r n, Reach h root x → h[x]? = some (.interp r n) → takesLine (its n) = false) →
        SameFact F (interpretTree F (interpretators its h') (m.tree.root.load σ)) (evaluate F its (shed w) m.tokens) := by
  obtain ⟨d, h1, h2, h3, h4, h5⟩ := match_exact hrun hr hp hs hsilent hb hm
  obtain ⟨w, w1, _, w3, w4⟩ := match_fact_tree hrun hr hst hlab hp hs hb m hm
  have e : wordPreds w = (leafPairs d).map Prod.fst := by rw [Exact.preds_sheds w3, Exact.preds_reading, h2]
  have et : (m.tree.root.load σ).leaves.map Prod.snd = m.tokens := by
    rw [← yield_erase, ← Exact.pairs_yield, h2, h3]
  rw [et] at w4
  exact ⟨w, w1, by rw [e]; exact h4, by rw [e, h5, List.length_map], w4⟩

/-! ### Example -/

/-- `rule(gram('ADJF'), or_(gram('NOUN'), eq('x'))).interpretation(…)`. -/
def keptSource : Heap Pred :=
  [.prod [.pred (.gram "ADJF".toList), .pred (.or_ [.gram "NOUN".toList, .eq "x".toList])] 0, .rule [0], .interp 1 3]

def keptTokens : List Token := [agreeWord "рыжий" 0, agreeWord "рыжий" 6]

/-- The grammemes that are left in the tokens of the matches of `extract`. -/
def leftGrams (root : Nat) (h : Heap Pred) (toks : List Token) : Option (List (List (Option (List (List Str))))) :=
  match buildParser sampleLang sampleOrder agreeReader.context agreeReader.split (fun _ => .gender) id 60 root h with
  | .error _ => none
  | .ok (b, _) => (extract b.grammar b.agreement (id : Key → Key) toks true 2000).map
      (fun x => x.1.map (fun m => m.tokens.map (fun t => t.forms.map (fun fs => fs.map Form.grams))))

theorem kept_left : leftGrams 2 keptSource keptTokens =
    some [[some [["ADJF".toList, "masc".toList]],
      some [["NOUN".toList, "femn".toList], ["ADJF".toList, "masc".toList]]]] := by
  decide +kernel

theorem keptSource_objects (x : Nat) (o : Obj Pred) (h : keptSource[x]? = some o) :
    o = .prod [.pred (.gram "ADJF".toList), .pred (.or_ [.gram "NOUN".toList, .eq "x".toList])] 0 ∨ o = .rule [0] ∨
      o = .interp 1 3 := by
  have := List.mem_of_getElem? h
  simpa [keptSource] using this

/-- The hypotheses are met; of the two forms of the word `gram('ADJF')` leaves one, `or_` leaves both. -/
example : Run sampleLang sampleOrder [] keptSource ∧ RuleAt keptSource 2 ∧ Spec.Steady .plain keptSource 2 ∧
    Spec.Steady .interp keptSource 2 ∧
    (∀ (x : Nat) o, Reach keptSource 2 x → keptSource[x]? = some o → o.silent) ∧
    KeptFrom sampleLang keptTokens 0 [.gramP "ADJF".toList, .or_ [.gramP "NOUN".toList, .eq "x".toList]]
      [keptBy (.gramP "ADJF".toList) (agreeWord "рыжий" 0), agreeWord "рыжий" 6] ∧
    leftGrams 2 keptSource keptTokens = some [[some [["ADJF".toList, "masc".toList]],
      some [["NOUN".toList, "femn".toList], ["ADJF".toList, "masc".toList]]]] := by
  have e : keptBy (.or_ [.gramP "NOUN".toList, .eq "x".toList]) (agreeWord "рыжий" 6) = agreeWord "рыжий" 6 := by
    decide +kernel
  have a1 : Pred.accepts sampleLang (.gramP "ADJF".toList) (agreeWord "рыжий" 0) = true := by decide +kernel
  have a2 : Pred.accepts sampleLang (.or_ [.gramP "NOUN".toList, .eq "x".toList]) (agreeWord "рыжий" 6) = true := by
    decide +kernel
  refine ⟨fresh_run (fresh_makes (g := []) (os := keptSource) (by decide +kernel)), ⟨_, rfl, rfl⟩, ⟨?_, ?_, ?_⟩, ⟨?_, ?_, ?_⟩, ?_,
    .cons rfl a1 (by rw [← e]; exact .cons rfl a2 .nil), kept_left⟩ <;>
  · intro x o _ ho
    rcases keptSource_objects x o ho with rfl | rfl | rfl <;> simp [Obj.bounds, Obj.calm, Obj.bare, Obj.silent]

end Yargy
