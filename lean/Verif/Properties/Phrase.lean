import Verif.Spec.Phrase
import Verif.Properties.Text
/-!
C70: rules that are sequences of predicates.
-/
namespace Yargy
open Spec

variable {L : Lang} {setOrder : List Str → List Str} {relation : Nat → Relation} {pid : Nat → Nat} {limit root a main : Nat}
  {h h' : Heap Pred} {H : Type} [DecidableEq H] {hash : Key → H} {r : Reader} {p : TextParser} {ps : List Pred}

theorem known_to {rules : List TokenRule} (ht : Tokenizer.new rules = .ok r.tokenizer) {q : Pred} (hk : KnownTo r q) :
    Known r.context q := by
  obtain ⟨e, _⟩ := new_ok ht
  have ty : ∀ v, (∃ rule ∈ r.tokenizer.rules, rule.type = v) → v ∈ r.context.types := by
    rintro v ⟨rule, h1, rfl⟩
    show _ ∈ r.tokenizer.types
    rw [e] at h1 ⊢
    exact List.mem_map.2 ⟨rule, h1, rfl⟩
  have mo : r.analyzer ≠ none → ∃ m, r.context.morph = some m := by
    intro hne
    unfold Reader.context
    cases ha : r.analyzer with
    | none => exact absurd ha hne
    | some a => exact ⟨a.morph, rfl⟩
  cases q with
  | normalized v => exact mo hk
  | dictionary vs => exact hk.imp id mo
  | gram g =>
    obtain ⟨a, h1, h2⟩ := hk
    exact ⟨a.morph, by unfold Reader.context; rw [h1]; rfl, h2⟩
  | type v => exact ty v hk
  | custom f types => exact fun v hv => ty v (hk v hv)
  | _ => trivial

theorem reads_preds {A : Activation Pred} (ps : List Pred) (w : List (Sym Pred)) :
    Reads A .plain h (ps.map .pred) w ↔ w = ps.map .pred := by
  induction ps generalizing w with
  | nil =>
    constructor
    · intro h; cases h; rfl
    · rintro rfl; exact .nil
  | cons p ps ih =>
    constructor
    · intro h
      cases h with
      | pred h => rw [(ih _).1 h]; rfl
    · rintro rfl
      exact .pred ((ih _).2 rfl)

theorem activated_preds {c : Context} {split : Str → List Str} (ps : List Pred)
    (hk : ∀ p ∈ ps, ∀ q, PredPart q p → Known c q) :
    ∃ qs : List Pred, Pointwise (fun p q => p.activate c = .ok q) ps qs ∧
      ∀ us, ActivatedAll (c.activation L split) (ps.map .pred) us ↔ us = qs.map .pred := by
  induction ps with
  | nil =>
    refine ⟨[], .nil, fun us => ⟨fun h => ?_, fun h => ?_⟩⟩
    · cases h; rfl
    · rw [h]; exact .nil
  | cons p ps ih =>
    obtain ⟨qs, h1, h2⟩ := ih (fun p hp => hk p (List.mem_cons_of_mem _ hp))
    obtain ⟨q, hq⟩ := (activate_iff_known_partial c p).2 (hk p List.mem_cons_self)
    refine ⟨q :: qs, .cons hq h1, fun us => ⟨fun h => ?_, fun h => ?_⟩⟩
    · cases h with
      | cons g1 g2 =>
        rw [(h2 _).1 g2]
        cases g1 with
        | pred g =>
          have g' : p.activate c = .ok _ := g
          rw [hq] at g'
          cases g'
          rfl
    · rw [h]
      exact .cons (.pred hq) ((h2 _).2 rfl)

theorem fits_said {c : Context} {toks : List Token} (hq : ∀ t ∈ toks, Quiet L t) {ps qs : List Pred}
    (ha : Pointwise (fun p q => p.activate c = .ok q) ps qs) : ∀ i j,
    Fits (Pred.accepts L) toks (qs.map .pred) i j ↔ j = i + ps.length ∧ SaidAt L c toks i ps := by
  induction ha with
  | nil =>
    intro i j
    constructor
    · intro h; cases h; exact ⟨rfl, trivial⟩
    · rintro ⟨rfl, _⟩; exact .nil
  | @cons p q ps qs h1 _ ih =>
    intro i j
    constructor
    · intro h
      cases h with
      | pred g1 g2 g3 =>
        obtain ⟨e1, e2⟩ := (ih _ _).1 g3
        refine ⟨by rw [List.length_cons]; omega, ⟨_, g1, ?_⟩, e2⟩
        exact (accepts_means L c _ (hq _ (List.mem_of_getElem? g1)) p q h1).1 g2
    · rintro ⟨e1, ⟨t, g1, g2⟩, e2⟩
      refine .pred g1 ((accepts_means L c _ (hq _ (List.mem_of_getElem? g1)) p q h1).2 g2) ((ih _ _).2 ⟨?_, e2⟩)
      rw [List.length_cons] at e1
      omega

/-- What a sequence of predicates accepts. -/
theorem accepts_phrase {c : Context} {split : Str → List Str} (ho : h[root]? = some (.rule [a]))
    (hp : h[a]? = some (.prod (ps.map .pred) main)) (hk : ∀ p ∈ ps, ∀ q, PredPart q p → Known c q)
    {toks : List Token} (hq : ∀ t ∈ toks, Quiet L t) (i j : Nat) :
    Accepts L (c.activation L split) h root toks i j ↔ j = i + ps.length ∧ SaidAt L c toks i ps := by
  obtain ⟨qs, h1, h2⟩ := activated_preds (L := L) (split := split) ps hk
  rw [← fits_said hq h1]
  constructor
  · rintro ⟨w, hw, hf⟩
    cases hw with
    | rule g1 g2 g3 g4 =>
      rw [ho] at g1
      cases g1
      cases g4
      cases g2 with
      | other _ hs =>
        cases hs with
        | rule hm =>
          cases List.mem_singleton.1 hm
          cases g3 with
          | rule k1 k2 k3 k4 =>
            rw [hp] at k1
            cases k1
            cases k4
            cases k2 with
            | prod k =>
              rw [(h2 _).1 k] at k3
              rw [(reads_preds _ _).1 k3] at hf
              simpa [Obj.label, wrap] using hf
            | other k _ => exact absurd rfl (k _ _)
  · intro hf
    refine ⟨_, .rule ho (.other (fun _ _ e => nomatch e) (.rule (List.mem_singleton_self a)))
      (.rule hp (.prod ((h2 _).2 rfl)) ((reads_preds _ _).2 rfl) .nil) .nil, ?_⟩
    simpa [Obj.label, wrap] using hf

/-- A sequence of predicates is a rule for which everything works. -/
theorem phrase_complete {c : Context} {split : Str → List Str} (ho : h[root]? = some (.rule [a]))
    (hp : h[a]? = some (.prod (ps.map .pred) main)) (hne : ps ≠ [])
    (hk : ∀ p ∈ ps, ∀ q, PredPart q p → Known c q) : Complete c split h root := by
  have none_ : termRules (ps.map (Term.pred (P := Pred))) = [] := by
    clear hp hne hk
    induction ps with
    | nil => rfl
    | cons p ps ih => exact ih
  have only : ∀ x, Reach h root x → x = root ∨ x = a := by
    intro x hx
    induction hx with
    | root => exact .inl rfl
    | step _ h1 h2 ih =>
      rcases ih with rfl | rfl
      · rw [ho] at h1
        cases h1
        exact .inr (List.mem_singleton.1 h2)
      · rw [hp] at h1
        cases h1
        have h3 : _ ∈ termRules (ps.map (Term.pred (P := Pred))) := h2
        rw [none_] at h3
        cases h3
  have at_ : ∀ {x o}, Reach h root x → h[x]? = some o → o = .rule [a] ∨ o = .prod (ps.map .pred) main := by
    intro x o hx hox
    rcases only x hx with rfl | rfl
    · rw [ho] at hox; exact .inl (Option.some.inj hox).symm
    · rw [hp] at hox; exact .inr (Option.some.inj hox).symm
  refine ⟨?_, ?_, ?_, ?_, ⟨?_, ?_, ?_⟩, ?_, ?_, ?_⟩
  · intro x d hx hd; rcases at_ hx hd with e | e <;> cases e
  · intro x ts m hx hd p hpm q hq
    rcases at_ hx hd with e | e <;> cases e
    obtain ⟨p', hp', e⟩ := List.mem_map.1 hpm
    cases e
    exact hk p hp' q hq
  · intro x k' ls' hx hd; rcases at_ hx hd with e | e <;> cases e
  · intro x ls' hx hd; rcases at_ hx hd with e | e <;> cases e
  · intro x o hx hox; rcases at_ hx hox with e | e <;> cases e <;> trivial
  · intro x o hx hox; rcases at_ hx hox with e | e <;> cases e <;> trivial
  · intro x o hx hox; rcases at_ hx hox with e | e <;> cases e <;> (intro _ _ _ _ _ e; cases e)
  · intro y x hy hd; rcases at_ hy hd with e | e <;> cases e
  · intro x o hx hox
    rcases at_ hx hox with e | e <;> cases e
    · trivial
    · show ps.map Term.pred ≠ []
      simpa using hne
  · intro x o hx hox; rcases at_ hx hox with e | e <;> cases e <;> trivial

/-- Ranges of one token each that are listed in order do not overlap, so all of them are chosen. -/
theorem chosen_units {accepted : Nat → Nat → Prop} {rs : List Range} (hu : ∀ i j, accepted i j → j = i + 1)
    (hc : Chosen accepted rs) : ∀ i j, (i, j) ∈ rs ↔ accepted i j := by
  obtain ⟨cands, c1, c2, c3, c4, _⟩ := hc
  have unit : ∀ x ∈ cands, x.2 = x.1 + 1 := fun x hx => hu _ _ ((c2 x.1 x.2).1 hx)
  have all : Selection cands cands := by
    refine ⟨List.Sublist.refl _, List.Pairwise.imp_of_mem (fun {x y} hx hy hxy => ?_) c1⟩
    have := unit x hx
    have := unit y hy
    unfold Apart
    omega
  have cov : ∀ l : List Range, (∀ x ∈ l, x.2 = x.1 + 1) → coverage l = l.length := by
    intro l hl
    induction l with
    | nil => rfl
    | cons x l ih =>
      have e := hl x List.mem_cons_self
      have := ih (fun y hy => hl y (List.mem_cons_of_mem _ hy))
      unfold coverage at this ⊢
      rw [List.map_cons, List.sum_cons, this, List.length_cons]
      omega
  have hle := c4 _ all
  rw [cov _ unit, cov rs (fun x hx => unit x (c3.1.subset hx))] at hle
  have e : rs = cands := c3.1.eq_of_length_le (by omega)
  rw [e]
  exact c2

/-- C70: the parser of `rule(p1, …, pn)` is built if what the predicates refer to is known; `extract` reports exactly
the runs of `n` tokens that are what the predicates say, one by one; `match` finds the whole text iff it is such a
run; with one predicate `findall` returns exactly the tokens that are what it says. The tokens are those of the
tokenizer after the tagger. -/
theorem phrase_found {rules : List TokenRule} (ht : Tokenizer.new rules = .ok r.tokenizer) (hr : Answers r)
    (hrun : Fresh L setOrder h) (ho : h[root]? = some (.rule [a])) (hp : h[a]? = some (.prod (ps.map .pred) main))
    (hne : ps ≠ []) (hk : ∀ p ∈ ps, ∀ q, PredPart q p → KnownTo r q) (hpid : ∀ a b, pid a = pid b → a = b)
    (hs : SetOrder setOrder) (hh : ∀ a b, hash a = hash b → a = b) :
    ∃ N p h', (∀ limit, N ≤ limit → newParser L setOrder r relation pid limit root h = .ok (p, h')) ∧
      ∀ text ts toks, r.tokenize text = .ok ts → r.tagger.call ts = .ok toks → (∀ t ∈ toks, Quiet L t) →
        (∃ fuel ms σ, p.extract hash text true fuel = some (ms, σ, none) ∧
          ∀ i j, (∃ m ∈ ms, m.tree.range = (i, j)) ↔ j = i + ps.length ∧ SaidAt L r.context toks i ps) ∧
        (∃ fuel x σ, p.match hash text fuel = some (.ok (x, σ)) ∧
          ((∃ m, x = some m ∧ m.tree.range = (0, toks.length)) ↔
            toks.length = ps.length ∧ SaidAt L r.context toks 0 ps)) ∧
        ∀ q, ps = [q] → ∃ fuel ms σ, p.findall hash text fuel = some (.ok (ms, σ)) ∧
          ∀ i j, (∃ m ∈ ms, m.tree.range = (i, j)) ↔
            j = i + 1 ∧ ∃ t, toks[i]? = some t ∧ Means L r.context t q := by
  have hk' : ∀ p ∈ ps, ∀ q, PredPart q p → Known r.context q := fun p hp q hq => known_to ht (hk p hp q hq)
  obtain ⟨N, p, h', h1, h2⟩ := text_correct_partial (relation := relation) hrun ⟨_, ho, rfl⟩ hpid hs hh hr
    (phrase_complete ho hp hne hk')
  refine ⟨N, p, h', h1, fun text ts toks e1 e2 hq => ?_⟩
  obtain ⟨toks', k1, _, ⟨f1, ms1, σ1, k2, k3⟩, ⟨f2, ms2, σ2, k4, k5⟩, f3, x, σ3, k6, k7, k8⟩ := h2 text
  have e : toks' = toks := by
    unfold Reader.tokens at k1
    rw [e1] at k1
    have k1' : r.tagger.call ts = .ok toks' := k1
    rw [e2] at k1'
    exact (Except.ok.inj k1').symm
  subst e
  have acc := fun i j => accepts_phrase (L := L) (split := r.split) ho hp hk' hq i j
  refine ⟨⟨f1, ms1, σ1, k2, fun i j => (k3 i j).trans (acc i j)⟩, ⟨f3, x, σ3, k6, ?_, ?_⟩, fun q hq1 => ?_⟩
  · rintro ⟨m, hm1, hm2⟩
    have := (k8 m hm1).2
    rw [hm2] at this
    obtain ⟨g1, g2⟩ := (acc _ _).1 this
    dsimp only at g1
    exact ⟨by omega, g2⟩
  · rintro ⟨g1, g2⟩
    exact k7 ((acc _ _).2 ⟨by omega, g2⟩)
  · refine ⟨f2, ms2, σ2, k4, fun i j => ?_⟩
    have hl : ps.length = 1 := by rw [hq1]; rfl
    have := chosen_units (fun i j hij => by have := ((acc i j).1 hij).1; omega) k5 i j
    have e3 : (∃ m ∈ ms2, m.tree.range = (i, j)) ↔ (i, j) ∈ ms2.map (fun m => m.tree.range) := by
      rw [List.mem_map]
    rw [e3, this, acc, hq1]
    show j = i + 1 ∧ (_ ∧ True) ↔ _
    rw [and_true]

/-! ### Example -/

/-- The sample reader with a tagger that tags numbers. -/
def taggedReader : Reader := { sampleReader with tagger := sampleTagger }

/-- `rule(tag('N'), normalized('кот'))` and `rule(tag('N'))`. -/
def tagSource : Heap Pred :=
  [.prod ([.tag "N".toList, .normalized "кот".toList].map .pred) 0, .rule [0], .prod ([.tag "N".toList].map .pred) 0,
   .rule [2]]

/-- C34 is false for tags also with parsers: the parser passes the question on to its tagger, and is made whatever the
answer. -/
theorem parser_unknown_tag : taggedReader.context.hasTag "N".toList = true ∧ taggedReader.context.hasTag "M".toList = false ∧
    (newParser sampleLang sampleOrder taggedReader (fun _ => .gender) id 60 1
      [.prod [.pred (.tag "M".toList)] 0, .rule [0]]).isOk = true := by
  decide +kernel

theorem tagText_tokens : (taggedReader.tokens "x 12 коты 7".toList).toOption =
    some [{ value := "x".toList, span := (0, 1), type := "LATIN".toList },
      { value := "12".toList, span := (2, 4), type := intType, tag := some "N".toList }, ruWord "коты" 5,
      { value := "7".toList, span := (10, 11), type := intType, tag := some "N".toList }] := by
  decide +kernel

theorem tagPhrase_spans : reportedSpans taggedReader tagSource 1 "x 12 коты 7".toList = some [[(2, 9)], [(2, 9)], []] := by
  rw [reportedSpans_tokens tagText_tokens]
  decide +kernel

theorem tagWord_spans : reportedSpans taggedReader tagSource 3 "x 12 коты 7".toList =
    some [[(2, 4), (10, 11)], [(2, 4), (10, 11)], []] := by
  rw [reportedSpans_tokens tagText_tokens]
  decide +kernel

example : Tokenizer.new (defaultRules sampleClasses) = .ok taggedReader.tokenizer ∧ Answers taggedReader ∧
    Fresh sampleLang sampleOrder tagSource ∧
    (∀ p ∈ [Pred.tag "N".toList, .normalized "кот".toList], ∀ q, PredPart q p → KnownTo taggedReader q) ∧
    (∀ t ∈ [{ value := "x".toList, span := (0, 1), type := "LATIN".toList },
      { value := "12".toList, span := (2, 4), type := intType, tag := some "N".toList }, ruWord "коты" 5], Quiet sampleLang t) ∧
    reportedSpans taggedReader tagSource 1 "x 12 коты 7".toList = some [[(2, 9)], [(2, 9)], []] ∧
    reportedSpans taggedReader tagSource 3 "x 12 коты 7".toList =
      some [[(2, 4), (10, 11)], [(2, 4), (10, 11)], []] := by
  refine ⟨rfl, ⟨by simp [taggedReader, sampleReader, defaultRules], fun ts => ?_⟩,
    fresh_makes (g := []) (os := tagSource) (by decide +kernel), ?_, ?_, tagPhrase_spans, tagWord_spans⟩
  · refine ⟨_, rfl, ?_⟩
    induction ts with
    | nil => exact .nil
    | cons t ts ih =>
      rw [List.map_cons]
      split
      · exact .cons rfl rfl rfl rfl ih
      · exact .cons rfl rfl rfl rfl ih
  · intro p hp q hq
    simp only [List.mem_cons, List.not_mem_nil, or_false] at hp
    rcases hp with rfl | rfl <;> cases hq
    · trivial
    · exact fun h => nomatch h
  · intro t ht
    simp only [List.mem_cons, List.not_mem_nil, or_false] at ht
    rcases ht with rfl | rfl | rfl
    · exact ⟨by decide, fun e => absurd e (by decide), fun f => ⟨_, rfl⟩⟩
    · exact ⟨by decide, fun _ => ⟨12, by decide +kernel⟩, fun f => ⟨_, rfl⟩⟩
    · exact ⟨by decide +kernel, fun e => absurd e (by decide +kernel), fun f => ⟨_, rfl⟩⟩

end Yargy
