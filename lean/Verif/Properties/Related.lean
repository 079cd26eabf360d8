import Verif.Properties.Nested
/-!
C80: facts of rules with agreement.
-/
namespace Yargy
open Spec

namespace Related

variable {F : Facts} {cls : Nat}

theorem kept_true : ∀ (ts : List Token), List.zipWith keptBy (ts.map (fun _ => Pred.true)) ts = ts
  | [] => rfl
  | t :: ts => by
    rw [List.map_cons, List.zipWith_cons_cons, kept_true ts]
    congr 1
    unfold keptBy
    have : ∀ f, decide (FormAllowed Pred.true f) = true := fun f => decide_eq_true trivial
    simp only [this]
    cases t with
    | mk v s y g fs => cases fs <;> simp

/-- The text of tokens that have lost forms. -/
theorem narrowed_text {it : Interpretator} {words left : List Token} (hl : Slots.SameLook words left) {x : Except Err Str}
    (hx : SlotText F it (left.map (fun _ => Pred.true)) left x) : WordsText F it words left x := by
  cases hx with
  | said a b =>
    refine .said a ((join_exact _ _).1 ?_)
    rw [← Slots.look_joined hl]
    exact (join_exact _ _).2 b
  | formed a b c =>
    rw [kept_true] at b
    exact .formed a b c
  | lost a b c =>
    rw [kept_true] at b
    exact .lost a b c

/-- What an interpretation makes of tokens that have lost forms. -/
theorem narrowed_value {it : Interpretator} (hi : IsValue it) {words left : List Token} (hl : Slots.SameLook words left) :
    (∃ e, it.call F none (left.map .token) = .error e ∧ (WordsText F it words left (.error e) ∨
      ∃ s, WordsText F it words left (.ok s) ∧ valueGives it s = .error e)) ∨
    ∃ r v s, it.call F none (left.map .token) = .ok r ∧ WordsText F it words left (.ok s) ∧ valueGives it s = .ok v ∧
      Nesting.Wrapped r ∧ r.normalized F = .ok v ∧ r.asJson F = .ok (.val v) := by
  have := Nesting.value_call (F := F) hi (left.map (fun _ => Pred.true)) left (by rw [List.length_map]; exact Nat.le_refl _)
  rw [kept_true] at this
  rcases this with ⟨e, h1, h2⟩ | ⟨r, v, s, h1, h2, h3⟩
  · refine .inl ⟨e, h1, ?_⟩
    rcases h2 with h2 | ⟨s, h2, h3⟩
    · exact .inl (narrowed_text hl h2)
    · exact .inr ⟨s, narrowed_text hl h2, h3⟩
  · exact .inr ⟨r, v, s, h1, narrowed_text hl h2, h3⟩

theorem look_spans {us ts : List Token} (h : Slots.SameLook us ts) : ts.map Token.span = us.map Token.span := by
  induction h with
  | nil => rfl
  | cons _ b _ ih => rw [List.map_cons, List.map_cons, ih, b]

theorem fits_end {accepts : Pred → Token → Bool} {toks : List Token} {w : List (Sym Pred)} {i j : Nat}
    (h : Fits accepts toks w i j) : j = i + (wordPreds w).length := by
  induction h with
  | nil => rfl
  | pred _ _ _ ih => rw [ih]; show _ = _ + (_ + 1); omega
  | opn _ ih => exact ih
  | cls _ ih => exact ih

theorem fits_inside {accepts : Pred → Token → Bool} {toks : List Token} {x : Attr} : ∀ {w : List (Sym Pred)} {i j : Nat},
    Fits accepts toks (w ++ [.cls x]) i j → Fits accepts toks w i j
  | [], _, _, h => by cases h with | cls h => exact h
  | .pred _ :: _, _, _, h => by cases h with | pred a b c => exact .pred a b (fits_inside c)
  | .opn _ :: _, _, _, h => by cases h with | opn a => exact .opn (fits_inside a)
  | .cls _ :: _, _, _, h => by cases h with | cls a => exact .cls (fits_inside a)

end Related

variable {L : Lang} {setOrder : List Str → List Str} {relation : Nat → Relation} {pid : Nat → Nat} {limit root n cls : Nat}
  {h h' : Heap Pred} {H : Type} [DecidableEq H] {hash : Key → H} {F : Facts} {its : Nat → Interpretator}
  {b : Built} {c : Context} {split : Str → List Str} {y : Nat}

/-- C80: the fact of a match of a rule with agreement relations, in every program. -/
theorem related_fact (hrun : Run L setOrder [] h) (hroot : h[root]? = some (.interp y n)) (hst : Spec.Steady .plain h root)
    (hpid : ∀ a b, pid a = pid b → a = b) (hs : SetOrder setOrder) (hF : SaneFacts F) (hn : its n = .fact cls)
    (hi : Dressed F its h root)
    (hg : (∀ (x : Nat) o, Reach h root x → h[x]? = some o → isGazetteer o = false) ∨
      ∀ (x : Nat) r k, Reach h root x → h[x]? = some (.interp r k) → takesLine (its k) = false)
    (hb : buildParser L setOrder c split relation pid limit root h = .ok (b, h')) {toks : List Token} {σ : Store}
    {m : Match Pred} (hm : Returned b.grammar b.agreement hash toks σ m) :
    NarrowedFact L (c.activation L split) h root n F its cls toks m.tree.range.1 m.tree.range.2
      (matchFact F (interpretators its h') (m.tree.root.load σ))
      ((interpretTree F (interpretators its h') (m.tree.root.load σ)).bind (Result.asJson F))
      ((interpretTree F (interpretators its h') (m.tree.root.load σ)).bind (Result.factSpans F)) := by
  have hst' := dressed_steady hst hi
  obtain ⟨w, ts, g1, g2, g3, g4, g5⟩ := match_fact hrun ⟨_, hroot, rfl⟩ hst' ⟨_, _, hroot⟩ hpid hs hb m hm
  have hok := returned_ok hrun ⟨_, hroot, rfl⟩ hpid hs hb hm
  have same := g5 F its hg
  obtain ⟨u, v, rfl, e1, e2⟩ := (Slots.reads_interp hroot _ _).1 g1
  cases e2
  have hsh := Nesting.reads_shape hi e1 (fun x hx => by
    cases List.mem_singleton.1 hx
    exact Reach.root.step hroot List.mem_cons_self)
  have ew : wrap ((Obj.interp 0 n : Obj Pred).label .interp) u ++ [] = .opn (.interp n) :: (u ++ [.cls (.interp n)]) := by
    simp [Obj.label, wrap]
  rw [ew] at same g1 g2
  have fits : Fits (Pred.accepts L) toks u m.tree.range.1 m.tree.range.2 := by
    cases g2 with
    | opn g => exact Related.fits_inside g
  have el := Related.fits_end fits
  have hlen : ts.length = (wordPreds u).length := by omega
  have ne : wordPreds u ≠ [] := by
    intro e
    have := hok.nonempty
    rw [e] at el
    have e0 : ([] : List Pred).length = 0 := rfl
    omega
  have look : Slots.SameLook ((toks.drop m.tree.range.1).take ts.length) ts := by
    have gen : ∀ (ts us : List Token), us.length = ts.length → (∀ k, k < ts.length → ∃ t t', us[k]? = some t ∧
        ts[k]? = some t' ∧ Narrowed t t') → Slots.SameLook us ts := by
      intro ts
      induction ts with
      | nil =>
        intro us hu _
        cases us with
        | nil => exact .nil
        | cons _ _ => cases hu
      | cons t ts ih =>
        intro us hu hk
        cases us with
        | nil => cases hu
        | cons x us =>
          obtain ⟨a, a', p1, p2, p3⟩ := hk 0 (Nat.zero_lt_succ _)
          cases p1
          cases p2
          refine .cons ?_ ?_ (ih us (Nat.succ.inj hu) (fun k hk' => hk (k + 1) (Nat.succ_lt_succ hk')))
          · exact p3.value
          · exact p3.span
    have := hok.inside
    refine gen ts _ (by rw [List.length_take, List.length_drop]; omega) (fun k hk => ?_)
    obtain ⟨t, t', p1, p2, p3⟩ := g4 k (by omega)
    exact ⟨t, t', by rw [List.getElem?_take_of_lt hk, List.getElem?_drop]; exact p1, p2, p3⟩
  have hT : Nesting.Speaks F its (fun n qs k => WordsText F (its n) ((toks.drop (m.tree.range.1 + k)).take qs.length)
      ((ts.drop k).take qs.length)) (fun k l => wordsSpan ((toks.drop (m.tree.range.1 + k)).take l)) ts (wordPreds u) := by
    have hlook : ∀ (qs : List Pred) (k : Nat), k + qs.length ≤ ts.length →
        Slots.SameLook ((toks.drop (m.tree.range.1 + k)).take qs.length) ((ts.drop k).take qs.length) := by
      intro qs k hl
      have := Slots.look_take (Slots.look_drop look k) qs.length
      rwa [List.drop_take, List.drop_drop, List.take_take, Nat.min_eq_left (by omega)] at this
    exact ⟨fun n qs k hs _ hl => Related.narrowed_value hs (hlook qs k hl),
      fun qs k _ hl => Nesting.stretch_look (Related.look_spans (hlook qs k hl))⟩
  obtain ⟨x, f1, f2, f3, f4⟩ := Nesting.told hF hn hT hsh hlen ne
  refine ⟨u, x, ts, g1, fits, g3, g4, f1, same.fact.trans f2, same.json.trans f3, ?_⟩
  rw [← f4, ← same.spans]
  exact Nesting.bind_sorted _

/-! ### Example -/

/-- `NAME = rule(rule(gram('ADJF')).match(gender).interpretation(Name.first.normalized()),
rule(gram('NOUN')).match(gender).interpretation(Name.last)).interpretation(Name)`,
`rule(NAME.interpretation(Person.name)).interpretation(Person)`. -/
def relatedSource : Heap Pred :=
  [.prod [.pred (.gram "ADJF".toList)] 0, .rule [0], .relation 1 0, .interp 2 5,
   .prod [.pred (.gram "NOUN".toList)] 0, .rule [4], .relation 5 0, .interp 6 6,
   .prod [.rule 3, .rule 7] 0, .rule [8], .interp 9 9, .interp 10 10, .prod [.rule 11] 0, .rule [12], .interp 13 12]

def relatedIts : Nat → Interpretator
  | 5 => .attrNorm 0 (str "first") (.morph .normalized)
  | 6 => .attr 0 (str "last")
  | 10 => .attr 1 (str "name")
  | 12 => .fact 1
  | _ => .fact 0

theorem relatedSource_dressed : Dressed sampleFacts relatedIts relatedSource 14 := by
  intro x o _ ho
  have hm := List.mem_of_getElem? ho
  simp only [relatedSource, List.mem_cons, List.not_mem_nil, or_false] at hm
  have own : ∀ k, OwnAttribute sampleFacts (relatedIts k) := by
    intro k
    unfold relatedIts
    split
    · simp only [OwnAttribute]; decide
    · simp only [OwnAttribute]; decide
    · simp only [OwnAttribute]; decide
    · trivial
    · trivial
  rcases hm with rfl | rfl | rfl | rfl | rfl | rfl | rfl | rfl | rfl | rfl | rfl | rfl | rfl | rfl | rfl <;>
    first | exact .inl rfl | exact .inr ⟨_, _, rfl, own _⟩

def relatedTokens : List Token := [agreeWord "рыжая" 0, agreeWord "кот" 6, agreeWord "рыжий" 10, agreeWord "кот" 16]

/-- The words that agree are the fact. -/
theorem relatedFacts : (match buildParser sampleLang sampleOrder agreeReader.context agreeReader.split (fun _ => .gender) id 60
      14 relatedSource with
    | .error _ => none
    | .ok (b, h') =>
      (extract b.grammar b.agreement (id : Key → Key) relatedTokens true 2000).map (fun x => x.1.map (fun m =>
        match matchFact sampleFacts (interpretators relatedIts h') (m.tree.root.load x.2.1) with
        | .ok v => insideTexts v
        | .error _ => []))) =
    some [[[str "name", str "first", str "рыжий"], [str "name", str "last", str "кот"], [str "name", str "tags"],
      [str "age"]]] := by
  decide +kernel

/-- Where they stand. -/
theorem relatedSpans : (match buildParser sampleLang sampleOrder agreeReader.context agreeReader.split (fun _ => .gender) id 60
      14 relatedSource with
    | .error _ => none
    | .ok (b, h') =>
      (extract b.grammar b.agreement (id : Key → Key) relatedTokens true 2000).map (fun x => x.1.map (fun m =>
        ((interpretTree sampleFacts (interpretators relatedIts h') (m.tree.root.load x.2.1)).bind
          (Result.factSpans sampleFacts)).toOption))) = some [some [(10, 15), (16, 19)]] := by
  decide +kernel

/-- The hypotheses are met. -/
example : Run sampleLang sampleOrder [] relatedSource ∧ relatedSource[14]? = some (.interp 13 12) ∧
    Spec.Steady .plain relatedSource 14 ∧ SaneFacts sampleFacts ∧ relatedIts 12 = .fact 1 ∧
    Dressed sampleFacts relatedIts relatedSource 14 ∧
    (∀ (x : Nat) o, Reach relatedSource 14 x → relatedSource[x]? = some o → isGazetteer o = false) := by
  have at_ : ∀ {a : Nat} {o : Obj Pred}, relatedSource[a]? = some o → o ∈ relatedSource := List.mem_of_getElem?
  refine ⟨fresh_run (fresh_makes (g := []) (os := relatedSource) (by decide +kernel)), rfl, ⟨?_, ?_, ?_⟩, sampleFacts_sane, rfl,
    relatedSource_dressed, ?_⟩ <;>
  · intro x o _ ho
    have hm := at_ ho
    simp only [relatedSource, List.mem_cons, List.not_mem_nil, or_false] at hm
    rcases hm with rfl | rfl | rfl | rfl | rfl | rfl | rfl | rfl | rfl | rfl | rfl | rfl | rfl | rfl | rfl <;>
      simp [Obj.bounds, Obj.calm, Obj.bare, isGazetteer]

end Yargy
