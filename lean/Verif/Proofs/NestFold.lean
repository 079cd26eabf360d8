import Verif.Spec.Nested
import Verif.Proofs.SlotFold
import Verif.Proofs.InterpGood
/-!
C79: facts that were given words and facts.
-/
namespace Yargy.Nesting
open Spec Slots

variable {F : Facts} {cls : Nat}

/-- Results, their values and their JSON. -/
inductive Worth (F : Facts) : List (Str × Result) → List Gift → Prop
  | nil : Worth F [] []
  | cons {k r v j rs g} : r.normalized F = .ok v → r.asJson F = .ok j → Worth F rs g →
      Worth F ((k, r) :: rs) ((k, v, j, r.spans F) :: g)

inductive WorthAll (F : Facts) : List Result → List GiftWorth → Prop
  | nil : WorthAll F [] []
  | cons {r v j rs g} : r.normalized F = .ok v → r.asJson F = .ok j → WorthAll F rs g →
      WorthAll F (r :: rs) ((v, j, r.spans F) :: g)

theorem worth_to {rs : List (Str × Result)} {g : List Gift} (h : Worth F rs g) (key : Str) :
    WorthAll F (resultsTo rs key) (giftsTo g key) := by
  induction h with
  | nil => exact .nil
  | @cons k r v j rs vs h1 h2 _ ih =>
    unfold resultsTo giftsTo at ih ⊢
    by_cases e : k = key
    · simp only [e, decide_true, List.filter_cons_of_pos, List.map_cons]
      exact .cons h1 h2 ih
    · simp only [e, decide_false, List.filter_cons, Bool.false_eq_true, if_false]
      exact ih

theorem gifts_given (g : List Gift) (key : Str) : givenTo (giftValues g) key = (giftsTo g key).map Prod.fst := by
  unfold givenTo giftValues giftsTo
  induction g with
  | nil => rfl
  | cons x g ih =>
    obtain ⟨k, v, j⟩ := x
    by_cases e : k = key
    · simp only [List.map_cons, e, decide_true, List.filter_cons_of_pos, ih]
    · simp only [List.map_cons, e, decide_false, List.filter_cons, Bool.false_eq_true, if_false, ih]

theorem worth_normalized {rs : List Result} {g : List GiftWorth} (h : WorthAll F rs g) :
    normalizedAll F rs = .ok (g.map Prod.fst) := by
  induction h with
  | nil => rfl
  | cons h1 _ _ ih => simp only [normalizedAll, h1, ih]; rfl

theorem worth_json {rs : List Result} {g : List GiftWorth} (h : WorthAll F rs g) :
    jsonAll F rs = .ok (g.map (fun x => x.2.1)) := by
  induction h with
  | nil => rfl
  | cons _ h1 _ ih => simp only [jsonAll, h1, ih]; rfl

theorem worth_last {rs : List Result} {g : List GiftWorth} (h : WorthAll F rs g) :
    (rs = [] ∧ g = []) ∨ ∃ r v, rs.getLast? = some r ∧ g.getLast? = some v ∧ r.normalized F = .ok v.1 ∧
      r.asJson F = .ok v.2.1 ∧ r.spans F = v.2.2 := by
  induction h with
  | nil => exact .inl ⟨rfl, rfl⟩
  | @cons r v j rs vs h1 h2 _ ih =>
    refine .inr ?_
    rcases ih with ⟨rfl, rfl⟩ | ⟨r', v', a, b, c, d⟩
    · exact ⟨r, (v, j, r.spans F), rfl, rfl, h1, h2, rfl⟩
    · refine ⟨r', v', ?_, ?_, c, d⟩
      · rw [List.getLast?_cons, a]; rfl
      · rw [List.getLast?_cons, b]; rfl

theorem slot_value (hF : SaneFacts F) {rs : List (Str × Result)} {g : List Gift} (h : Worth F rs g)
    {a : Str × AttrKind} (ha : a ∈ F.attrs cls) :
    normalizedAttr F cls (rs.map Prod.fst) (a.1, slotFor a.2 (resultsTo rs a.1)) = .ok (fieldOf (giftValues g) a) := by
  have hw := worth_to h a.1
  unfold normalizedAttr fieldOf
  rw [mem_keys, Slots.repeatable_iff hF ha, gifts_given]
  cases hk : a.2 with
  | repeatable => simp [slotFor, normalizedSlot, worth_normalized hw, Except.map]
  | single d =>
    rcases worth_last hw with ⟨e1, e2⟩ | ⟨r, v, e1, e2, e3, _⟩
    · simp [slotFor, e1, e2, normalizedSlot]
    · have : (resultsTo rs a.1).isEmpty = false := by
        cases hx : resultsTo rs a.1 with
        | nil => rw [hx] at e1; cases e1
        | cons _ _ => rfl
      simp [slotFor, e1, e2, normalizedSlot, this, e3, List.getLast?_map]

/-- The value of an attribute in JSON. -/
def jsonOf (given : List Gift) (a : Str × AttrKind) : Json :=
  match a.2 with
  | .repeatable => .list ((giftsTo given a.1).map (fun x => x.2.1))
  | .single d => ((giftsTo given a.1).map (fun x => x.2.1)).getLast?.getD (.val d)

theorem slot_json (hF : SaneFacts F) {rs : List (Str × Result)} {g : List Gift} (h : Worth F rs g)
    {a : Str × AttrKind} (ha : a ∈ F.attrs cls) :
    jsonAttr F cls (rs.map Prod.fst) (a.1, slotFor a.2 (resultsTo rs a.1)) = .ok (jsonOf g a) := by
  have hw := worth_to h a.1
  unfold jsonAttr jsonOf
  rw [mem_keys, Slots.repeatable_iff hF ha]
  cases hk : a.2 with
  | repeatable => simp [slotFor, jsonSlot, worth_json hw, Except.map]
  | single d =>
    rcases worth_last hw with ⟨e1, e2⟩ | ⟨r, v, e1, e2, _, e3, _⟩
    · simp [slotFor, e1, e2, jsonSlot]
    · have : (resultsTo rs a.1).isEmpty = false := by
        cases hx : resultsTo rs a.1 with
        | nil => rw [hx] at e1; cases e1
        | cons _ _ => rfl
      simp [slotFor, e1, e2, jsonSlot, this, e3, List.getLast?_map]

theorem attrs_value (hF : SaneFacts F) {rs : List (Str × Result)} {g : List Gift} (h : Worth F rs g) :
    normalizedAttrs F cls (rs.map Prod.fst) (stateOf (F.attrs cls) rs) =
      .ok ((F.attrs cls).map (fun a => (a.1, fieldOf (giftValues g) a))) := by
  have : ∀ attrs : List (Str × AttrKind), (∀ a ∈ attrs, a ∈ F.attrs cls) →
      normalizedAttrs F cls (rs.map Prod.fst) (stateOf attrs rs) =
        .ok (attrs.map (fun a => (a.1, fieldOf (giftValues g) a))) := by
    intro attrs hs
    induction attrs with
    | nil => rfl
    | cons a attrs ih =>
      have h1 := slot_value hF h (hs a List.mem_cons_self)
      have h2 := ih (fun b hb => hs b (List.mem_cons_of_mem _ hb))
      unfold stateOf at h2 ⊢
      rw [List.map_cons]
      unfold normalizedAttrs
      rw [h1, h2]
      rfl
  exact this _ (fun a ha => ha)

theorem attrs_json (hF : SaneFacts F) {rs : List (Str × Result)} {g : List Gift} (h : Worth F rs g) :
    jsonAttrs F cls (rs.map Prod.fst) (stateOf (F.attrs cls) rs) =
      .ok ((F.attrs cls).map (fun a => (a.1, jsonOf g a))) := by
  have : ∀ attrs : List (Str × AttrKind), (∀ a ∈ attrs, a ∈ F.attrs cls) →
      jsonAttrs F cls (rs.map Prod.fst) (stateOf attrs rs) = .ok (attrs.map (fun a => (a.1, jsonOf g a))) := by
    intro attrs hs
    induction attrs with
    | nil => rfl
    | cons a attrs ih =>
      have h1 := slot_json hF h (hs a List.mem_cons_self)
      have h2 := ih (fun b hb => hs b (List.mem_cons_of_mem _ hb))
      unfold stateOf at h2 ⊢
      rw [List.map_cons]
      unfold jsonAttrs
      rw [h1, h2]
      rfl
  exact this _ (fun a ha => ha)

theorem fact_value (hF : SaneFacts F) {rs : List (Str × Result)} {g : List Gift} (h : Worth F rs g) :
    (Result.fact cls (stateOf (F.attrs cls) rs) (rs.map Prod.fst)).normalized F =
      .ok (factWith F cls (giftValues g)) := by
  unfold Result.normalized
  rw [attrs_value hF h]
  show makeFact F cls _ = _
  unfold makeFact
  rw [if_pos]
  · unfold factWith
    congr 2
    refine List.map_congr_left (fun a ha => ?_)
    rw [lookup_map (hF.nodup cls) ha]
  · rw [List.all_eq_true]
    intro x hx
    obtain ⟨a, ha, rfl⟩ := List.mem_map.1 hx
    rw [List.any_eq_true]
    exact ⟨a, ha, by simp⟩

theorem field_json (g : List Gift) (a : Str × AttrKind) :
    giftField g a = match (jsonOf g a).isNone with | true => none | false => some (a.1, jsonOf g a) := by
  unfold jsonOf giftField
  cases a.2 with
  | repeatable => rfl
  | single d =>
    dsimp only
    generalize (List.map (fun x => x.2.1) (giftsTo g a.1)).getLast?.getD (.val d) = x
    cases x with
    | val v => cases v <;> rfl
    | list _ => rfl
    | obj _ => rfl

theorem fact_json (hF : SaneFacts F) {rs : List (Str × Result)} {g : List Gift} (h : Worth F rs g) :
    (Result.fact cls (stateOf (F.attrs cls) rs) (rs.map Prod.fst)).asJson F = .ok (giftJson F cls g) := by
  unfold Result.asJson
  rw [attrs_json hF h]
  have fields : ∀ attrs : List (Str × AttrKind), (∀ a ∈ attrs, a ∈ F.attrs cls) →
      jsonFields ((F.attrs cls).map (fun a => (a.1, jsonOf g a))) (attrs.map Prod.fst) =
        .ok (attrs.map (fun a => (a.1, jsonOf g a))) := by
    intro attrs hs
    induction attrs with
    | nil => rfl
    | cons a attrs ih =>
      rw [List.map_cons]
      unfold jsonFields
      rw [find_map (hF.nodup cls) (hs a List.mem_cons_self)]
      dsimp only
      rw [ih (fun b hb => hs b (List.mem_cons_of_mem _ hb))]
      rfl
  show Except.bind _ _ = _
  rw [Except.bind]
  show Except.bind (jsonFields _ _) _ = _
  rw [fields _ (fun a ha => ha), Except.bind]
  unfold giftJson
  show Except.ok _ = _
  congr 2
  generalize F.attrs cls = attrs
  induction attrs with
  | nil => rfl
  | cons a attrs ih =>
    rw [List.map_cons, List.filter_cons, List.filterMap_cons, ih, field_json]
    cases (jsonOf g a).isNone <;> rfl

theorem together_append (a b : List (Except Err (List (Nat × Nat)))) :
    together (a ++ b) = (together a).bind (fun l => (together b).map (fun l' => l ++ l')) := by
  induction a with
  | nil =>
    show together b = Except.bind (.ok []) _
    cases h : together b <;> simp [Except.bind, Except.map]
  | cons x a ih =>
    cases x with
    | error e => rfl
    | ok l =>
      show (together (a ++ b)).map _ = ((together a).map _).bind _
      rw [ih]
      cases together a with
      | error e => rfl
      | ok l1 => cases together b <;> simp [Except.bind, Except.map]

theorem worth_spans {rs : List Result} {g : List GiftWorth} (h : WorthAll F rs g) :
    spansAll F rs = together (g.map (fun x => x.2.2)) := by
  induction h with
  | nil => rfl
  | @cons r v j rs g _ _ _ ih =>
    unfold spansAll
    rw [ih]
    show (r.spans F).bind _ = together (r.spans F :: _)
    cases r.spans F with
    | error e => rfl
    | ok l => rw [together]; rfl

theorem slot_places (hF : SaneFacts F) {rs : List (Str × Result)} {g : List Gift} (h : Worth F rs g)
    {a : Str × AttrKind} (ha : a ∈ F.attrs cls) :
    spansAttr F cls (rs.map Prod.fst) (a.1, slotFor a.2 (resultsTo rs a.1)) = together (placesOf g a) := by
  have hw := worth_to h a.1
  unfold spansAttr placesOf
  rw [mem_keys, Slots.repeatable_iff hF ha]
  cases hk : a.2 with
  | repeatable => simp [slotFor, spansSlot, worth_spans hw]
  | single d =>
    rcases worth_last hw with ⟨e1, e2⟩ | ⟨r, v, e1, e2, _, _, e3⟩
    · simp [slotFor, e1, e2, spansSlot, together]
    · have : (resultsTo rs a.1).isEmpty = false := by
        cases hx : resultsTo rs a.1 with
        | nil => rw [hx] at e1; cases e1
        | cons _ _ => rfl
      simp only [slotFor, e1, spansSlot, this, e3, List.getLast?_map, e2]
      show (if (false : Bool) = true then _ else _) = together [v.2.2]
      cases v.2.2 <;> simp [together, Except.map]

theorem fact_places (hF : SaneFacts F) {rs : List (Str × Result)} {g : List Gift} (h : Worth F rs g) :
    (Result.fact cls (stateOf (F.attrs cls) rs) (rs.map Prod.fst)).spans F = giftPlaces F cls g := by
  have : ∀ attrs : List (Str × AttrKind), (∀ a ∈ attrs, a ∈ F.attrs cls) →
      spansAttrs F cls (rs.map Prod.fst) (stateOf attrs rs) = together (attrs.flatMap (placesOf g)) := by
    intro attrs hs
    induction attrs with
    | nil => rfl
    | cons a attrs ih =>
      have h1 := slot_places hF h (hs a List.mem_cons_self)
      have h2 := ih (fun b hb => hs b (List.mem_cons_of_mem _ hb))
      unfold stateOf at h2 ⊢
      rw [List.map_cons]
      unfold spansAttrs
      rw [h1, h2, List.flatMap_cons, together_append]
      cases together (placesOf g a) with
      | error e => rfl
      | ok l => cases together (attrs.flatMap (placesOf g)) <;> rfl
  unfold Result.spans
  exact this _ (fun a ha => ha)

theorem sort_order (x : Except Err (List (Nat × Nat))) : InTextOrder x (x.map sortSpans) := by
  cases x with
  | error e => exact rfl
  | ok l =>
    refine ⟨?_, sortSpans_sorted l⟩
    induction l with
    | nil => exact .refl _
    | cons s l ih =>
      have ins : ∀ l, (insertSpan s l).Perm (s :: l) := by
        intro l
        induction l with
        | nil => exact .refl _
        | cons x l ih =>
          unfold insertSpan
          split
          · exact .refl _
          · exact (ih.cons x).trans (.swap _ _ _)
      exact (ins _).trans (ih.cons s)

theorem span_stretch {ts : List Token} (h : ts ≠ []) : tokensSpan ts = .ok (wordsSpan ts) := by
  cases ts with
  | nil => exact absurd rfl h
  | cons t ts =>
    unfold tokensSpan wordsSpan
    rw [List.getLast?_cons]
    rfl

theorem stretch_look {ts us : List Token} (h : ts.map Token.span = us.map Token.span) : wordsSpan ts = wordsSpan us := by
  cases ts with
  | nil => cases us with
    | nil => rfl
    | cons _ _ => cases h
  | cons t ts => cases us with
    | nil => cases h
    | cons u us =>
      rw [List.map_cons, List.map_cons, List.cons.injEq] at h
      show (t.span.1, (ts.getLast?.getD t).span.2) = (u.span.1, (us.getLast?.getD u).span.2)
      have e : (ts.getLast?.getD t).span = (us.getLast?.getD u).span := by
        have := congrArg List.getLast? h.2
        rw [List.getLast?_map, List.getLast?_map] at this
        cases h1 : ts.getLast? <;> cases h2 : us.getLast? <;> rw [h1, h2] at this
        · exact h.1
        · cases this
        · cases this
        · exact Option.some.inj this
      rw [e, h.1]

theorem all_tokens (ts : List Token) : allTokens (ts.map .token) = some ts := by
  induction ts with
  | nil => rfl
  | cons t ts ih => rw [List.map_cons]; unfold allTokens; rw [ih]; rfl

/-- Results of interpretations. -/
def Wrapped : Result → Prop
  | .chain _ _ => False
  | _ => True

/-- Where that stands which a slot has made of tokens. -/
theorem value_stands {it : Interpretator} (hi : IsValue it) {ts : List Token} (hne : ts ≠ []) {r : Result}
    (h : it.call F none (ts.map .token) = .ok r) : r.spans F = slotPlaces it (wordsSpan ts) := by
  have chain : ∀ key, (Result.chain ts key).spans F = .ok [wordsSpan ts] := by
    intro key
    unfold Result.spans
    rw [span_stretch hne]
    rfl
  have norm : ∀ (n : Normalizer) r, normCall F n none (ts.map .token) = .ok r → r.spans F = slotPlaces (.norm n) (wordsSpan ts) := by
    intro n r h
    unfold normCall at h
    rw [all_tokens] at h
    have done : ∀ (x : Except Err Val), x.map (fun v => Result.norm v (some (Result.chain ts none))) = .ok r →
        r.spans F = .ok [wordsSpan ts] := by
      intro x hx
      cases x with
      | error e => cases hx
      | ok v =>
        cases hx
        unfold Result.spans
        exact chain _
    cases n with
    | const v =>
      cases h
      rfl
    | morph m => exact done _ h
    | fn f => exact done _ h
    | fnfn f g => exact done _ h
    | morphFn m f => exact done _ h
  cases it with
  | fact cls => exact hi.elim
  | norm n => exact norm n r h
  | attr c' name' =>
    unfold Interpretator.call attrValue at h
    rw [all_tokens] at h
    cases h
    unfold Result.spans
    exact chain _
  | attrNorm c' name' n =>
    unfold Interpretator.call at h
    dsimp only at h
    cases e : normCall F n none (ts.map .token) with
    | error err => rw [e] at h; cases h
    | ok r' =>
      rw [e] at h
      cases h
      have := norm n r' e
      unfold Result.spans
      rw [this]
      cases n <;> rfl

theorem slot_value_of {it : Interpretator} (hi : IsSlot F cls it) : IsValue it := by
  cases it with
  | fact c => exact hi.elim
  | _ => trivial

/-- What a normalizer makes of a result. -/
theorem norm_call (n : Normalizer) {r : Result} {v : Val} {j : Json} (hv : r.normalized F = .ok v) (hw : Wrapped r) :
    (∃ e, normCall F n none [.result r] = .error e ∧ normWorn n (v, j, r.spans F) = .error e) ∨
    ∃ r' v' j', normCall F n none [.result r] = .ok r' ∧ normWorn n (v, j, r.spans F) = .ok (v', j', r'.spans F) ∧
      Wrapped r' ∧ r'.normalized F = .ok v' ∧ r'.asJson F = .ok j' := by
  have done : ∀ (x : Except Err Val), normCall F n none [.result r] = x.map (fun y => Result.norm y (some r)) →
      normWorn n (v, j, r.spans F) = x.map (fun y => (y, .val y, r.spans F)) →
      (∃ e, normCall F n none [.result r] = .error e ∧ normWorn n (v, j, r.spans F) = .error e) ∨
      ∃ r' v' j', normCall F n none [.result r] = .ok r' ∧ normWorn n (v, j, r.spans F) = .ok (v', j', r'.spans F) ∧
        Wrapped r' ∧ r'.normalized F = .ok v' ∧ r'.asJson F = .ok j' := by
    intro x h1 h2
    cases x with
    | error e => exact .inl ⟨e, h1, h2⟩
    | ok y =>
      refine .inr ⟨_, y, .val y, h1, ?_, trivial, by unfold Result.normalized; rfl, by unfold Result.asJson; rfl⟩
      rw [h2]
      show _ = Except.ok (y, Json.val y, Result.spans F (.norm y (some r)))
      rw [show Result.spans F (.norm y (some r)) = r.spans F by rw [Result.spans]]
      rfl
  have bad : ∀ m, Morphing.call F m r = .error .typeError := by
    intro m
    unfold Morphing.call
    cases r with
    | chain _ _ => exact hw.elim
    | _ => rfl
  cases n with
  | const v' => exact .inr ⟨_, v', .val v', rfl, by unfold Result.spans; rfl, trivial, by unfold Result.normalized; rfl, by unfold Result.asJson; rfl⟩
  | morph m =>
    refine .inl ⟨.typeError, ?_, rfl⟩
    show (Morphing.call F m r).map _ = _
    rw [bad]
    rfl
  | morphFn m f =>
    refine .inl ⟨.typeError, ?_, rfl⟩
    show ((Morphing.call F m r).bind f).map _ = _
    rw [bad]
    rfl
  | fn f =>
    refine done (f v) ?_ rfl
    show ((r.normalized F).bind f).map _ = _
    rw [hv]
    rfl
  | fnfn f g =>
    refine done ((f v).bind g) ?_ rfl
    show (((r.normalized F).bind f).bind g).map _ = _
    rw [hv]
    rfl

/-- The result of an attribute. -/
def AttributeOf : Interpretator → Result → Prop
  | .attr c name, r | .attrNorm c name _, r => ∃ r', r = .attr r' c name
  | _, _ => True

/-- What an interpretation makes of a result. -/
theorem held_call {it : Interpretator} (hi : IsValue it) {r : Result} {v : Val} {j : Json} (hv : r.normalized F = .ok v)
    (hj : r.asJson F = .ok j) (hw : Wrapped r) :
    (∃ e, it.call F none [.result r] = .error e ∧ worn it (v, j, r.spans F) = .error e) ∨
    ∃ r' v' j', it.call F none [.result r] = .ok r' ∧ worn it (v, j, r.spans F) = .ok (v', j', r'.spans F) ∧
      Wrapped r' ∧ r'.normalized F = .ok v' ∧ r'.asJson F = .ok j' ∧ AttributeOf it r' := by
  cases it with
  | fact cls => exact hi.elim
  | norm n =>
    rcases norm_call n (j := j) hv hw with x | ⟨r', v', j', h1, h2, h3, h4, h5⟩
    · exact .inl x
    · exact .inr ⟨r', v', j', h1, h2, h3, h4, h5, trivial⟩
  | attr c name =>
    have same : ∀ r0, attrValue none [.result r] = .ok r0 → r0.normalized F = r.normalized F → r0.asJson F = r.asJson F →
        r0.spans F = r.spans F → ∃ r' v' j', Interpretator.call F (.attr c name) none [.result r] = .ok r' ∧
        worn (.attr c name) (v, j, r.spans F) = .ok (v', j', r'.spans F) ∧ Wrapped r' ∧ r'.normalized F = .ok v' ∧
        r'.asJson F = .ok j' ∧ AttributeOf (.attr c name) r' := by
      intro r0 h0 h1 h2 h3
      refine ⟨.attr r0 c name, v, j, ?_, ?_, trivial, ?_, ?_, r0, rfl⟩
      · unfold Interpretator.call
        dsimp only
        rw [h0]
        rfl
      · rw [show Result.spans F (.attr r0 c name) = r0.spans F by rw [Result.spans], h3]
        rfl
      · rw [Result.normalized, h1, hv]
      · rw [Result.asJson, h2, hj]
    refine .inr ?_
    cases r with
    | chain _ _ => exact hw.elim
    | attr r0 c0 n0 =>
      exact same r0 rfl (by rw [Result.normalized]) (by rw [Result.asJson]) (by rw [Result.spans])
    | fact _ _ _ => exact same _ rfl rfl rfl rfl
    | norm _ _ => exact same _ rfl rfl rfl rfl
  | attrNorm c name n =>
    have call : Interpretator.call F (.attrNorm c name n) none [.result r] =
      (normCall F n none [.result r]).map (fun x => .attr x c name) := rfl
    rcases norm_call n (j := j) hv hw with ⟨e, h1, h2⟩ | ⟨r', v', j', h1, h2, h3, h4, h5⟩
    · exact .inl ⟨e, by rw [call, h1]; rfl, h2⟩
    · refine .inr ⟨.attr r' c name, v', j', by rw [call, h1]; rfl, ?_, trivial, ?_, ?_, r', rfl⟩
      · rw [show Result.spans F (.attr r' c name) = r'.spans F by rw [Result.spans]]
        exact h2
      · rw [Result.normalized, h4]
      · rw [Result.asJson, h5]

/-! ### Facts directly inside -/

/-- The names in `modified`, and what was given. -/
structure Stands (F : Facts) (cls : Nat) (rs : List (Str × Result)) (mods : List Str) : Prop where
  same : ∀ key, key ∈ mods ↔ key ∈ rs.map Prod.fst
  named : ∀ key ∈ mods, key ∈ names F cls

theorem normalized_mods {mods mods' : List Str} (h : ∀ key, key ∈ mods ↔ key ∈ mods') (st : List (Str × Slot)) :
    (Result.fact cls st mods).normalized F = (Result.fact cls st mods').normalized F := by
  have hc : ∀ key, mods.contains key = mods'.contains key := fun key => by
    rw [Bool.eq_iff_iff, List.contains_iff_mem, List.contains_iff_mem, h]
  unfold Result.normalized
  congr 1
  induction st with
  | nil => rfl
  | cons a st ih =>
    unfold normalizedAttrs
    rw [ih]
    unfold normalizedAttr
    rw [hc]

theorem json_mods {mods mods' : List Str} (h : ∀ key, key ∈ mods ↔ key ∈ mods') (st : List (Str × Slot)) :
    (Result.fact cls st mods).asJson F = (Result.fact cls st mods').asJson F := by
  have hc : ∀ key, mods.contains key = mods'.contains key := fun key => by
    rw [Bool.eq_iff_iff, List.contains_iff_mem, List.contains_iff_mem, h]
  unfold Result.asJson
  congr 1
  induction st with
  | nil => rfl
  | cons a st ih =>
    unfold jsonAttrs
    rw [ih]
    unfold jsonAttr
    rw [hc]

theorem places_mods {mods mods' : List Str} (h : ∀ key, key ∈ mods ↔ key ∈ mods') (st : List (Str × Slot)) :
    (Result.fact cls st mods).spans F = (Result.fact cls st mods').spans F := by
  have hc : ∀ key, mods.contains key = mods'.contains key := fun key => by
    rw [Bool.eq_iff_iff, List.contains_iff_mem, List.contains_iff_mem, h]
  unfold Result.spans
  induction st with
  | nil => rfl
  | cons a st ih =>
    unfold spansAttrs
    rw [ih]
    unfold spansAttr
    rw [hc]

theorem stands_places (hF : SaneFacts F) {rs : List (Str × Result)} {g : List Gift} {mods : List Str} (h : Worth F rs g)
    (hs : Stands F cls rs mods) :
    (Result.fact cls (stateOf (F.attrs cls) rs) mods).spans F = giftPlaces F cls g := by
  rw [places_mods hs.same, fact_places hF h]

theorem stands_value (hF : SaneFacts F) {rs : List (Str × Result)} {g : List Gift} {mods : List Str} (h : Worth F rs g)
    (hs : Stands F cls rs mods) :
    (Result.fact cls (stateOf (F.attrs cls) rs) mods).normalized F = .ok (factWith F cls (giftValues g)) := by
  rw [normalized_mods hs.same, fact_value hF h]

theorem stands_json (hF : SaneFacts F) {rs : List (Str × Result)} {g : List Gift} {mods : List Str} (h : Worth F rs g)
    (hs : Stands F cls rs mods) :
    (Result.fact cls (stateOf (F.attrs cls) rs) mods).asJson F = .ok (giftJson F cls g) := by
  rw [json_mods hs.same, fact_json hF h]

/-- What `merge` does to the attributes. -/
theorem merge_map {f g : Str × AttrKind → Slot} {attrs : List (Str × AttrKind)} (hn : (attrs.map Prod.fst).Nodup)
    {keys : List Str} (hk : ∀ key ∈ keys, key ∈ attrs.map Prod.fst) :
    mergeAttrs (attrs.map (fun a => (a.1, g a))) keys (attrs.map (fun a => (a.1, f a))) =
      .ok (attrs.map (fun a => (a.1, if a.1 ∈ keys then g a else f a))) := by
  induction keys generalizing f with
  | nil => simp [mergeAttrs]
  | cons key keys ih =>
    obtain ⟨a, ha, rfl⟩ := List.mem_map.1 (hk key List.mem_cons_self)
    unfold mergeAttrs
    rw [getSlot_map hn ha]
    dsimp only
    rw [putSlot_map (g := fun b => if b.1 = a.1 then g a else f b) hn (hk _ List.mem_cons_self) (fun _ _ => rfl),
      ih (fun k hk' => hk k (List.mem_cons_of_mem _ hk'))]
    congr 1
    refine List.map_congr_left (fun b hb => ?_)
    by_cases e : b.1 = a.1
    · have : b = a := by
        clear ih hk
        induction attrs with
        | nil => cases ha
        | cons c attrs ih =>
          rw [List.map_cons, List.nodup_cons] at hn
          rcases List.mem_cons.1 ha with rfl | ha' <;> rcases List.mem_cons.1 hb with rfl | hb'
          · rfl
          · exact absurd (List.mem_map.2 ⟨b, hb', e⟩) hn.1
          · exact absurd (List.mem_map.2 ⟨a, ha', e.symm⟩) hn.1
          · exact ih hn.2 ha' hb'
      subst this
      simp
    · simp [e]

theorem resultsTo_none {rs : List (Str × Result)} {key : Str} (h : key ∉ rs.map Prod.fst) : resultsTo rs key = [] := by
  unfold resultsTo
  rw [List.map_eq_nil_iff, List.filter_eq_nil_iff]
  intro x hx e
  exact h (List.mem_map.2 ⟨x, hx, of_decide_eq_true e⟩)

theorem resultsTo_all (rs ss : List (Str × Result)) (key : Str) :
    resultsTo (addStep rs (.all ss)) key = if key ∈ ss.map Prod.fst then resultsTo ss key else resultsTo rs key := by
  have split : resultsTo (addStep rs (.all ss)) key =
      resultsTo (rs.filter (fun y => !ss.any (fun z => decide (z.1 = y.1)))) key ++ resultsTo ss key := by
    unfold addStep resultsTo
    rw [List.filter_append, List.map_append]
  rw [split]
  by_cases h : key ∈ ss.map Prod.fst
  · rw [if_pos h, resultsTo_none, List.nil_append]
    intro h'
    obtain ⟨x, hx, rfl⟩ := List.mem_map.1 h'
    obtain ⟨z, hz, e⟩ := List.mem_map.1 h
    have := (List.mem_filter.1 hx).2
    rw [Bool.not_eq_true', List.any_eq_false] at this
    exact this z hz (decide_eq_true e)
  · rw [if_neg h, resultsTo_none h, List.append_nil]
    unfold resultsTo
    rw [List.filter_filter]
    congr 1
    refine List.filter_congr (fun x _ => ?_)
    by_cases e : x.1 = key
    · have : ss.any (fun z => decide (z.1 = x.1)) = false := by
        rw [List.any_eq_false]
        intro z hz e'
        exact h (List.mem_map.2 ⟨z, hz, (of_decide_eq_true e').trans e⟩)
      simp [e, e ▸ this]
    · simp [e]

theorem merge_state (hF : SaneFacts F) {inner : Nat} (hi : F.sub inner cls = true) {ss : List (Str × Result)}
    {mods : List Str} (hs : Stands F inner ss mods) (rs : List (Str × Result)) :
    mergeAttrs (stateOf (F.attrs inner) ss) mods (stateOf (F.attrs cls) rs) =
      .ok (stateOf (F.attrs cls) (addStep rs (.all ss))) := by
  rw [hF.inherits _ _ hi]
  unfold stateOf
  rw [merge_map (f := fun a => slotFor a.2 (resultsTo rs a.1)) (g := fun a => slotFor a.2 (resultsTo ss a.1)) (hF.nodup cls)]
  · congr 1
    refine List.map_congr_left (fun a _ => ?_)
    rw [resultsTo_all]
    by_cases e : a.1 ∈ mods
    · rw [if_pos e, if_pos ((hs.same _).1 e)]
    · rw [if_neg e, if_neg (fun h => e ((hs.same _).2 h))]
  · intro key hk
    have := hs.named key hk
    unfold names at this
    rw [hF.inherits _ _ hi] at this
    exact this

theorem keys_all (rs ss : List (Str × Result)) (key : Str) :
    key ∈ (addStep rs (.all ss)).map Prod.fst ↔ key ∈ rs.map Prod.fst ∨ key ∈ ss.map Prod.fst := by
  unfold addStep
  rw [List.map_append, List.mem_append]
  constructor
  · rintro (h | h)
    · obtain ⟨x, hx, rfl⟩ := List.mem_map.1 h
      exact .inl (List.mem_map.2 ⟨x, (List.mem_filter.1 hx).1, rfl⟩)
    · exact .inr h
  · intro h
    by_cases h2 : key ∈ ss.map Prod.fst
    · exact .inr h2
    · rcases h with h | h
      · refine .inl ?_
        obtain ⟨x, hx, rfl⟩ := List.mem_map.1 h
        refine List.mem_map.2 ⟨x, List.mem_filter.2 ⟨hx, ?_⟩, rfl⟩
        rw [Bool.not_eq_true', List.any_eq_false]
        intro z hz e
        exact h2 (List.mem_map.2 ⟨z, hz, of_decide_eq_true e⟩)
      · exact .inr h

/-- The items of a fact: tokens, attributes of it, facts. -/
inductive Parts (F : Facts) (cls : Nat) : List Item → List (Giving Result) → Prop
  | nil : Parts F cls [] []
  | token {t items steps} : Parts F cls items steps → Parts F cls (.token t :: items) steps
  | slot {r c name items steps} : F.sub cls c = true → name ∈ names F cls → Parts F cls items steps →
      Parts F cls (.result (.attr r c name) :: items) (.one name r :: steps)
  | merged {inner ss mods items steps} : F.sub inner cls = true → Stands F inner ss mods → Parts F cls items steps →
      Parts F cls (.result (.fact inner (stateOf (F.attrs inner) ss) mods) :: items) (.all ss :: steps)
  | stray {inner st mods items steps} : F.sub inner cls = false → Parts F cls items steps →
      Parts F cls (.result (.fact inner st mods) :: items) steps

  | passed {it l r items steps} : IsStray F cls it → it.call F none l = .ok r → Parts F cls items steps →
      Parts F cls (.result r :: items) steps

/-- Facts pass over results of other interpretations. -/
theorem passed_item {it : Interpretator} (hi : IsStray F cls it) {l : List Item} {r : Result} (h : it.call F none l = .ok r)
    (st : List (Str × Slot) × List Str) : factItem F cls st (.result r) = .ok st := by
  have other : ∀ {x : Except Err Result} {c : Nat} {name : Str}, F.sub cls c = false →
      x.map (fun y => Result.attr y c name) = .ok r → factItem F cls st (.result r) = .ok st := by
    intro x c name hc hx
    cases x with
    | error e => cases hx
    | ok y =>
      cases hx
      unfold factItem
      simp only [hc, Bool.false_eq_true, if_false]
  cases it with
  | fact c =>
    have hn : factCall F c l = .ok r := h
    unfold factCall at hn
    cases hx : l.foldlM (factItem F c) ((F.attrs c).map (fun a => (a.1, a.2.initial)), []) with
    | error e => rw [hx] at hn; cases hn
    | ok st' =>
      rw [hx] at hn
      cases hn
      have hc : F.sub c cls = false := hi
      unfold factItem
      simp only [hc, Bool.false_eq_true, if_false]
  | attr c name => exact other hi h
  | attrNorm c name n => exact other hi h
  | norm n =>
    have hn : normCall F n none l = .ok r := h
    have made : ∃ v i, r = .norm v i := by
      have done : ∀ (x : Except Err Val) (i : Option Result), x.map (fun v => Result.norm v i) = .ok r →
          ∃ v i, r = .norm v i := by
        intro x i hx
        cases x with
        | error e => cases hx
        | ok v => cases hx; exact ⟨v, i, rfl⟩
      unfold normCall at hn
      split at hn
      · cases hn
        exact ⟨_, _, rfl⟩
      · split at hn
        · exact done _ _ hn
        · split at hn
          · exact done _ _ hn
          · cases hn
    obtain ⟨v, i, rfl⟩ := made
    rfl

/-- What is found, and the items. -/
inductive Shown (F : Facts) : List Item → List (Option GiftWorth) → Prop
  | nil : Shown F [] []
  | token {t l ys} : Shown F l ys → Shown F (.token t :: l) (none :: ys)
  | part {r v j l ys} : Wrapped r → r.normalized F = .ok v → r.asJson F = .ok j → Shown F l ys →
      Shown F (.result r :: l) (some (v, j, r.spans F) :: ys)

theorem Shown.length {l : List Item} {ys : List (Option GiftWorth)} (h : Shown F l ys) : l.length = ys.length := by
  induction h with
  | nil => rfl
  | token _ ih => rw [List.length_cons, List.length_cons, ih]
  | part _ _ _ _ ih => rw [List.length_cons, List.length_cons, ih]

theorem Shown.mixed {l : List Item} {ys : List (Option GiftWorth)} (h : Shown F l ys) {y : GiftWorth} (hy : some y ∈ ys) :
    allTokens l = none := by
  induction h with
  | nil => cases hy
  | token _ ih =>
    unfold allTokens
    rw [ih (by simpa using hy)]
    rfl
  | part _ _ _ _ _ => rfl

/-- What an interpretation makes of several items. -/
theorem mixed_call {it : Interpretator} (hi : IsValue it) {l : List Item} {ys : List (Option GiftWorth)} (h : Shown F l ys)
    {y : GiftWorth} (hy : some y ∈ ys) (h2 : 2 ≤ ys.length) :
    (∃ e, it.call F none l = .error e ∧ mixedWorth it = .error e) ∨
    ∃ r v j, it.call F none l = .ok r ∧ mixedWorth it = .ok (v, j, r.spans F) ∧ Wrapped r ∧ r.normalized F = .ok v ∧
      r.asJson F = .ok j := by
  have ht := h.mixed hy
  have hl : 2 ≤ l.length := by rw [h.length]; exact h2
  have norm : ∀ n : Normalizer, (∀ v, n ≠ .const v) → normCall F n none l = .error .typeError := by
    intro n hn
    unfold normCall
    cases n with
    | const v => exact absurd rfl (hn v)
    | _ =>
      simp only [ht]
      match l, hl with
      | .token _ :: _ :: _, _ => rfl
      | .result _ :: _ :: _, _ => rfl
  cases it with
  | fact c => exact hi.elim
  | attr c name =>
    refine .inl ⟨.typeError, ?_, rfl⟩
    show (attrValue none l).map _ = _
    unfold attrValue
    rw [ht]
    match l, hl with
    | .token _ :: _ :: _, _ => rfl
    | .result r :: _ :: _, _ => cases r <;> rfl
  | attrNorm c name n =>
    by_cases hn : ∃ v, n = .const v
    · obtain ⟨v, rfl⟩ := hn
      refine .inr ⟨.attr (.norm v none) c name, v, .val v, rfl, ?_, trivial, ?_, ?_⟩
      · rw [Result.spans, Result.spans]
        rfl
      · rw [Result.normalized, Result.normalized]
      · rw [Result.asJson, Result.asJson]
    · refine .inl ⟨.typeError, ?_, ?_⟩
      · show (normCall F n none l).map _ = _
        rw [norm n (fun v e => hn ⟨v, e⟩)]
        rfl
      · cases n with
        | const v => exact absurd ⟨v, rfl⟩ hn
        | _ => rfl
  | norm n =>
    by_cases hn : ∃ v, n = .const v
    · obtain ⟨v, rfl⟩ := hn
      refine .inr ⟨.norm v none, v, .val v, rfl, ?_, trivial, ?_, ?_⟩
      · rw [Result.spans]
        rfl
      · rw [Result.normalized]
      · rw [Result.asJson]
    · refine .inl ⟨.typeError, norm n (fun v e => hn ⟨v, e⟩), ?_⟩
      cases n with
      | const v => exact absurd ⟨v, rfl⟩ hn
      | _ => rfl

theorem fold_parts (hF : SaneFacts F) {items : List Item} {steps : List (Giving Result)} (hi : Parts F cls items steps) :
    ∀ rs mods, Stands F cls rs mods → ∃ mods', items.foldlM (factItem F cls) (stateOf (F.attrs cls) rs, mods) =
      .ok (stateOf (F.attrs cls) (steps.foldl addStep rs), mods') ∧ Stands F cls (steps.foldl addStep rs) mods' := by
  induction hi with
  | nil => exact fun rs mods hs => ⟨mods, rfl, hs⟩
  | token _ ih => exact fun rs mods hs => ih rs mods hs
  | @slot r c name items steps h1 h2 _ ih =>
    intro rs mods hs
    obtain ⟨mods', e1, e2⟩ := ih (rs ++ [(name, r)]) (mods ++ [name]) ⟨fun key => by simp [hs.same], fun key hk => by
      rcases List.mem_append.1 hk with hk | hk
      · exact hs.named key hk
      · rw [List.mem_singleton.1 hk]; exact h2⟩
    refine ⟨mods', ?_, e2⟩
    rw [List.foldlM_cons]
    have : factItem F cls (stateOf (F.attrs cls) rs, mods) (.result (.attr r c name)) =
        .ok (stateOf (F.attrs cls) (rs ++ [(name, r)]), mods ++ [name]) := by
      unfold factItem
      simp only [h1, if_true, set_state hF h2, Except.map]
    rw [this]
    exact e1
  | @merged inner ss mods2 items steps h1 h2 _ ih =>
    intro rs mods hs
    obtain ⟨mods', e1, e2⟩ := ih (addStep rs (.all ss)) (mods ++ mods2) ⟨fun key => by
      rw [keys_all, List.mem_append, hs.same, h2.same], fun key hk => by
      rcases List.mem_append.1 hk with hk | hk
      · exact hs.named key hk
      · have := h2.named key hk
        unfold names at this ⊢
        rw [hF.inherits _ _ h1] at this
        exact this⟩
    refine ⟨mods', ?_, e2⟩
    rw [List.foldlM_cons]
    have : factItem F cls (stateOf (F.attrs cls) rs, mods) (.result (.fact inner (stateOf (F.attrs inner) ss) mods2)) =
        .ok (stateOf (F.attrs cls) (addStep rs (.all ss)), mods ++ mods2) := by
      unfold factItem
      simp only [h1, if_true, merge_state hF h1 h2, Except.map]
    rw [this]
    exact e1
  | @stray inner st mods2 items steps h1 _ ih =>
    intro rs mods hs
    obtain ⟨mods', e1, e2⟩ := ih rs mods hs
    refine ⟨mods', ?_, e2⟩
    rw [List.foldlM_cons]
    have : factItem F cls (stateOf (F.attrs cls) rs, mods) (.result (.fact inner st mods2)) =
        .ok (stateOf (F.attrs cls) rs, mods) := by
      unfold factItem
      simp only [h1, Bool.false_eq_true, if_false]
    rw [this]
    exact e1
  | @passed it l r items steps h1 h2 _ ih =>
    intro rs mods hs
    obtain ⟨mods', e1, e2⟩ := ih rs mods hs
    refine ⟨mods', ?_, e2⟩
    rw [List.foldlM_cons, passed_item h1 h2]
    exact e1

theorem factCall_parts (hF : SaneFacts F) {items : List Item} {steps : List (Giving Result)} (hi : Parts F cls items steps) :
    ∃ mods, factCall F cls items = .ok (.fact cls (stateOf (F.attrs cls) (gather steps)) mods) ∧
      Stands F cls (gather steps) mods := by
  obtain ⟨mods, e1, e2⟩ := fold_parts hF hi [] [] ⟨fun key => by simp, fun key hk => by cases hk⟩
  refine ⟨mods, ?_, e2⟩
  unfold factCall
  rw [← stateOf_nil, e1]
  rfl

/-- Steps with results, and with their values. -/
inductive Worths (F : Facts) : List (Giving Result) → List (Giving GiftWorth) → Prop
  | nil : Worths F [] []
  | one {k r v j rs g} : r.normalized F = .ok v → r.asJson F = .ok j → Worths F rs g →
      Worths F (.one k r :: rs) (.one k (v, j, r.spans F) :: g)
  | all {ss gs rs g} : Worth F ss gs → Worths F rs g → Worths F (.all ss :: rs) (.all gs :: g)

theorem Worth.append {rs ss : List (Str × Result)} {g k : List Gift} (h1 : Worth F rs g) (h2 : Worth F ss k) :
    Worth F (rs ++ ss) (g ++ k) := by
  induction h1 with
  | nil => exact h2
  | cons a b _ ih => exact .cons a b ih

theorem worth_keys {rs : List (Str × Result)} {g : List Gift} (h : Worth F rs g) (key : Str) :
    rs.any (fun z => decide (z.1 = key)) = g.any (fun z => decide (z.1 = key)) := by
  induction h with
  | nil => rfl
  | cons _ _ _ ih => rw [List.any_cons, List.any_cons, ih]

theorem worth_filter {rs : List (Str × Result)} {g : List Gift} (h : Worth F rs g) (q : Str → Bool) :
    Worth F (rs.filter (fun y => q y.1)) (g.filter (fun y => q y.1)) := by
  induction h with
  | nil => exact .nil
  | @cons k r v j rs g a b _ ih =>
    cases e : q k with
    | true =>
      rw [List.filter_cons_of_pos (by exact e), List.filter_cons_of_pos (by exact e)]
      exact .cons a b ih
    | false =>
      rw [List.filter_cons_of_neg (by simp [e]), List.filter_cons_of_neg (by simp [e])]
      exact ih

theorem gather_worth {steps : List (Giving Result)} {gs : List (Giving GiftWorth)} (h : Worths F steps gs) :
    Worth F (gather steps) (gather gs) := by
  have : ∀ rs (g : List Gift), Worth F rs g → Worth F (steps.foldl addStep rs) (gs.foldl addStep g) := by
    induction h with
    | nil => exact fun _ _ h => h
    | one a b _ ih => exact fun rs g h => ih _ _ (h.append (.cons a b .nil))
    | @all ss g' _ _ a _ ih =>
      intro rs g h
      refine ih _ _ ?_
      unfold addStep
      dsimp only
      have e : (fun y : Gift => !g'.any (fun z => decide (z.1 = y.1))) = (fun y => !ss.any (fun z => decide (z.1 = y.1))) := by
        funext y
        rw [worth_keys a]
      rw [e]
      exact (worth_filter h (fun key => !ss.any (fun z => decide (z.1 = key)))).append a
  exact this [] [] .nil

end Yargy.Nesting
