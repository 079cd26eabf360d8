import Verif.Spec.Slots
import Verif.Spec.Facts
import Verif.Properties.Tokenizers
/-!
C76: what becomes of the parts of a fact that are attributes with words or with values of user functions.
-/
namespace Yargy.Slots
open Spec

variable {F : Facts} {cls : Nat}

/-- What was given to an attribute, as results. -/
def resultsTo (rs : List (Str × Result)) (key : Str) : List Result :=
  (rs.filter (fun x => decide (x.1 = key))).map Prod.snd

/-- The slot of an attribute that was given these results. -/
def slotFor (k : AttrKind) (rs : List Result) : Slot :=
  match k with
  | .repeatable => .many rs
  | .single d =>
    match rs.getLast? with
    | some r => .one r
    | none => .default d

/-- The attributes of a fact that was given these results. -/
def stateOf (attrs : List (Str × AttrKind)) (rs : List (Str × Result)) : List (Str × Slot) :=
  attrs.map (fun a => (a.1, slotFor a.2 (resultsTo rs a.1)))

theorem resultsTo_append (rs : List (Str × Result)) (x : Str × Result) (key : Str) :
    resultsTo (rs ++ [x]) key = resultsTo rs key ++ (if x.1 = key then [x.2] else []) := by
  unfold resultsTo
  rw [List.filter_append, List.map_append]
  congr 1
  by_cases h : x.1 = key
  · simp [h]
  · simp [h]

theorem stateOf_nil (attrs : List (Str × AttrKind)) :
    stateOf attrs [] = attrs.map (fun a => (a.1, a.2.initial)) := by
  unfold stateOf
  refine List.map_congr_left (fun a _ => ?_)
  cases h : a.2 <;> rfl

theorem getSlot_map {f : Str × AttrKind → Slot} {attrs : List (Str × AttrKind)}
    (hn : (attrs.map Prod.fst).Nodup) {a : Str × AttrKind} (ha : a ∈ attrs) :
    getSlot a.1 (attrs.map (fun a => (a.1, f a))) = some (f a) := by
  induction attrs with
  | nil => cases ha
  | cons b attrs ih =>
    rw [List.map_cons, List.nodup_cons] at hn
    rw [List.map_cons]
    unfold getSlot
    rcases List.mem_cons.1 ha with rfl | ha'
    · rw [if_pos rfl]
    · rw [if_neg (by rintro e; exact hn.1 (by rw [e]; exact List.mem_map.2 ⟨a, ha', rfl⟩))]
      exact ih hn.2 ha'

theorem putSlot_map {f g : Str × AttrKind → Slot} {attrs : List (Str × AttrKind)} {key : Str} {s : Slot}
    (hn : (attrs.map Prod.fst).Nodup) (hk : key ∈ attrs.map Prod.fst)
    (hg : ∀ a ∈ attrs, g a = if a.1 = key then s else f a) :
    putSlot key s (attrs.map (fun a => (a.1, f a))) = attrs.map (fun a => (a.1, g a)) := by
  induction attrs with
  | nil => cases hk
  | cons b attrs ih =>
    rw [List.map_cons, List.nodup_cons] at hn
    rw [List.map_cons, List.map_cons]
    unfold putSlot
    by_cases e : b.1 = key
    · rw [if_pos e, hg b List.mem_cons_self, if_pos e]
      congr 1
      refine List.map_congr_left (fun a ha => ?_)
      rw [hg a (List.mem_cons_of_mem _ ha), if_neg]
      rintro e'
      exact hn.1 (by rw [e, ← e']; exact List.mem_map.2 ⟨a, ha, rfl⟩)
    · rw [if_neg e, hg b List.mem_cons_self, if_neg e]
      congr 1
      refine ih hn.2 ?_ (fun a ha => hg a (List.mem_cons_of_mem _ ha))
      rw [List.map_cons] at hk
      rcases List.mem_cons.1 hk with e' | h
      · exact absurd e'.symm e
      · exact h

theorem repeatable_iff {a : Str × AttrKind} (hF : SaneFacts F) (ha : a ∈ F.attrs cls) :
    F.repeatable cls a.1 = (match a.2 with | .repeatable => true | .single _ => false) := by
  unfold Facts.repeatable
  have hn := hF.nodup cls
  generalize F.attrs cls = attrs at ha hn
  cases hk : a.2 with
  | repeatable =>
    rw [List.any_eq_true]
    exact ⟨a, ha, by simp [hk]⟩
  | single d =>
    rw [List.any_eq_false]
    intro b hb
    by_cases e : b.1 = a.1
    · have : b = a := by
        clear hk
        induction attrs with
        | nil => cases ha
        | cons c attrs ih =>
          rw [List.map_cons, List.nodup_cons] at hn
          rcases List.mem_cons.1 ha with rfl | ha' <;> rcases List.mem_cons.1 hb with rfl | hb'
          · rfl
          · exact absurd (List.mem_map.2 ⟨b, hb', e⟩) hn.1
          · exact absurd (List.mem_map.2 ⟨a, ha', e.symm⟩) hn.1
          · exact ih ha' hn.2 hb'
      rw [this, hk]
      simp
    · simp [e]

/-- Giving one more result. -/
theorem set_state (hF : SaneFacts F) {key : Str} (hk : key ∈ names F cls) (rs : List (Str × Result)) (r : Result) :
    setAttr F cls (stateOf (F.attrs cls) rs) key r = .ok (stateOf (F.attrs cls) (rs ++ [(key, r)])) := by
  obtain ⟨a, ha, rfl⟩ := List.mem_map.1 hk
  unfold setAttr
  rw [repeatable_iff hF ha]
  cases hk' : a.2 with
  | repeatable =>
    rw [if_pos rfl]
    unfold stateOf
    rw [getSlot_map (f := fun a => slotFor a.2 (resultsTo rs a.1)) (hF.nodup cls) ha]
    simp only [hk', slotFor]
    congr 1
    refine putSlot_map (hF.nodup cls) hk (fun b hb => ?_)
    rw [resultsTo_append]
    by_cases e : b.1 = a.1
    · rw [if_pos e.symm, if_pos e]
      have h1 := repeatable_iff hF hb
      rw [e, repeatable_iff hF ha, hk'] at h1
      cases hb2 : b.2 with
      | repeatable => rw [e]
      | single d => rw [hb2] at h1; cases h1
    · rw [if_neg (fun h => e h.symm), if_neg e, List.append_nil]
  | single d =>
    rw [if_neg (by simp)]
    congr 1
    unfold stateOf
    refine putSlot_map (f := fun a => slotFor a.2 (resultsTo rs a.1)) (hF.nodup cls) hk (fun b hb => ?_)
    rw [resultsTo_append]
    by_cases e : b.1 = a.1
    · rw [if_pos e.symm, if_pos e]
      have h1 := repeatable_iff hF hb
      rw [e, repeatable_iff hF ha, hk'] at h1
      cases hb2 : b.2 with
      | repeatable => rw [hb2] at h1; cases h1
      | single d => simp [slotFor]
    · rw [if_neg (fun h => e h.symm), if_neg e, List.append_nil]

/-- The items of a fact: tokens, and attributes of it. -/
inductive Items (F : Facts) (cls : Nat) : List Item → List (Str × Result) → Prop
  | nil : Items F cls [] []
  | token {t items rs} : Items F cls items rs → Items F cls (.token t :: items) rs
  | slot {r c name items rs} : F.sub cls c = true → name ∈ names F cls → Items F cls items rs →
      Items F cls (.result (.attr r c name) :: items) ((name, r) :: rs)

theorem items_append {xs ys : List Item} {rs ss : List (Str × Result)} (h1 : Items F cls xs rs)
    (h2 : Items F cls ys ss) : Items F cls (xs ++ ys) (rs ++ ss) := by
  induction h1 with
  | nil => exact h2
  | token _ ih => exact .token ih
  | slot a b _ ih => exact .slot a b ih

theorem items_tokens (ts : List Token) : Items F cls (ts.map .token) [] := by
  induction ts with
  | nil => exact .nil
  | cons t ts ih => exact .token ih

theorem fold_items (hF : SaneFacts F) {items : List Item} {rs : List (Str × Result)} (hi : Items F cls items rs) :
    ∀ rs0 mods, items.foldlM (factItem F cls) (stateOf (F.attrs cls) rs0, mods) =
      .ok (stateOf (F.attrs cls) (rs0 ++ rs), mods ++ rs.map Prod.fst) := by
  induction hi with
  | nil => intro rs0 mods; simp; rfl
  | token _ ih =>
    intro rs0 mods
    rw [List.foldlM_cons]
    exact ih rs0 mods
  | @slot r c name items rs h1 h2 _ ih =>
    intro rs0 mods
    rw [List.foldlM_cons]
    have : factItem F cls (stateOf (F.attrs cls) rs0, mods) (.result (.attr r c name)) =
        .ok (stateOf (F.attrs cls) (rs0 ++ [(name, r)]), mods ++ [name]) := by
      unfold factItem
      simp only [h1, if_true, set_state hF h2, Except.map]
    rw [this]
    have := ih (rs0 ++ [(name, r)]) (mods ++ [name])
    rw [List.append_assoc, List.append_assoc] at this
    exact this

theorem factCall_items (hF : SaneFacts F) {items : List Item} {rs : List (Str × Result)} (hi : Items F cls items rs) :
    factCall F cls items = .ok (.fact cls (stateOf (F.attrs cls) rs) (rs.map Prod.fst)) := by
  unfold factCall
  rw [← stateOf_nil, fold_items hF hi]
  rfl

/-- Results and the values they have, also in JSON. -/
inductive Worth (F : Facts) : List (Str × Result) → List (Str × Val) → Prop
  | nil : Worth F [] []
  | cons {k r v rs vs} : r.normalized F = .ok v → r.asJson F = .ok (.val v) → Worth F rs vs →
      Worth F ((k, r) :: rs) ((k, v) :: vs)

inductive WorthAll (F : Facts) : List Result → List Val → Prop
  | nil : WorthAll F [] []
  | cons {r v rs vs} : r.normalized F = .ok v → r.asJson F = .ok (.val v) → WorthAll F rs vs →
      WorthAll F (r :: rs) (v :: vs)

theorem worth_to {rs : List (Str × Result)} {vs : List (Str × Val)} (h : Worth F rs vs) (key : Str) :
    WorthAll F (resultsTo rs key) (givenTo vs key) := by
  induction h with
  | nil => exact .nil
  | @cons k r v rs vs h1 h2 _ ih =>
    unfold resultsTo givenTo at ih ⊢
    by_cases e : k = key
    · simp only [e, decide_true, List.filter_cons_of_pos, List.map_cons]
      exact .cons h1 h2 ih
    · simp only [e, decide_false, List.filter_cons, Bool.false_eq_true, if_false]
      exact ih

theorem worth_keys {rs : List (Str × Result)} {vs : List (Str × Val)} (h : Worth F rs vs) :
    rs.map Prod.fst = vs.map Prod.fst := by
  induction h with
  | nil => rfl
  | cons _ _ _ ih => rw [List.map_cons, List.map_cons, ih]

theorem worth_normalized {rs : List Result} {vs : List Val} (h : WorthAll F rs vs) : normalizedAll F rs = .ok vs := by
  induction h with
  | nil => rfl
  | cons h1 _ _ ih => simp only [normalizedAll, h1, ih]; rfl

theorem worth_json {rs : List Result} {vs : List Val} (h : WorthAll F rs vs) : jsonAll F rs = .ok (vs.map .val) := by
  induction h with
  | nil => rfl
  | cons _ h1 _ ih => simp only [jsonAll, h1, ih]; rfl

theorem worth_last {rs : List Result} {vs : List Val} (h : WorthAll F rs vs) :
    (rs = [] ∧ vs = []) ∨ ∃ r v, rs.getLast? = some r ∧ vs.getLast? = some v ∧ r.normalized F = .ok v ∧
      r.asJson F = .ok (.val v) := by
  induction h with
  | nil => exact .inl ⟨rfl, rfl⟩
  | @cons r v rs vs h1 h2 _ ih =>
    refine .inr ?_
    rcases ih with ⟨rfl, rfl⟩ | ⟨r', v', a, b, c, d⟩
    · exact ⟨r, v, rfl, rfl, h1, h2⟩
    · refine ⟨r', v', ?_, ?_, c, d⟩
      · rw [List.getLast?_cons, a]; rfl
      · rw [List.getLast?_cons, b]; rfl

theorem mem_keys {rs : List (Str × Result)} {key : Str} : (rs.map Prod.fst).contains key = !(resultsTo rs key).isEmpty := by
  induction rs with
  | nil => rfl
  | cons x rs ih =>
    rw [List.map_cons, List.contains_cons, ih]
    unfold resultsTo
    by_cases e : x.1 = key
    · simp [e]
    · have e' : ¬ key = x.1 := fun h => e h.symm
      simp [e, e']

theorem slot_value (hF : SaneFacts F) {rs : List (Str × Result)} {vs : List (Str × Val)} (h : Worth F rs vs)
    {a : Str × AttrKind} (ha : a ∈ F.attrs cls) :
    normalizedAttr F cls (rs.map Prod.fst) (a.1, slotFor a.2 (resultsTo rs a.1)) = .ok (fieldOf vs a) := by
  have hw := worth_to h a.1
  unfold normalizedAttr fieldOf
  rw [mem_keys, repeatable_iff hF ha]
  cases hk : a.2 with
  | repeatable => simp [slotFor, normalizedSlot, worth_normalized hw, Except.map]
  | single d =>
    rcases worth_last hw with ⟨e1, e2⟩ | ⟨r, v, e1, e2, e3, _⟩
    · simp [slotFor, e1, e2, normalizedSlot]
    · have : (resultsTo rs a.1).isEmpty = false := by
        cases hx : resultsTo rs a.1 with
        | nil => rw [hx] at e1; cases e1
        | cons _ _ => rfl
      simp [slotFor, e1, e2, normalizedSlot, this, e3]

/-- The value of an attribute in JSON. -/
def jsonOf (given : List (Str × Val)) (a : Str × AttrKind) : Json :=
  match a.2 with
  | .repeatable => .list ((givenTo given a.1).map .val)
  | .single d => .val ((givenTo given a.1).getLast?.getD d)

theorem slot_json (hF : SaneFacts F) {rs : List (Str × Result)} {vs : List (Str × Val)} (h : Worth F rs vs)
    {a : Str × AttrKind} (ha : a ∈ F.attrs cls) :
    jsonAttr F cls (rs.map Prod.fst) (a.1, slotFor a.2 (resultsTo rs a.1)) = .ok (jsonOf vs a) := by
  have hw := worth_to h a.1
  unfold jsonAttr jsonOf
  rw [mem_keys, repeatable_iff hF ha]
  cases hk : a.2 with
  | repeatable => simp [slotFor, jsonSlot, worth_json hw, Except.map]
  | single d =>
    rcases worth_last hw with ⟨e1, e2⟩ | ⟨r, v, e1, e2, _, e3⟩
    · simp [slotFor, e1, e2, jsonSlot]
    · have : (resultsTo rs a.1).isEmpty = false := by
        cases hx : resultsTo rs a.1 with
        | nil => rw [hx] at e1; cases e1
        | cons _ _ => rfl
      simp [slotFor, e1, e2, jsonSlot, this, e3]

theorem attrs_value (hF : SaneFacts F) {rs : List (Str × Result)} {vs : List (Str × Val)} (h : Worth F rs vs) :
    normalizedAttrs F cls (rs.map Prod.fst) (stateOf (F.attrs cls) rs) =
      .ok ((F.attrs cls).map (fun a => (a.1, fieldOf vs a))) := by
  have : ∀ attrs : List (Str × AttrKind), (∀ a ∈ attrs, a ∈ F.attrs cls) →
      normalizedAttrs F cls (rs.map Prod.fst) (stateOf attrs rs) = .ok (attrs.map (fun a => (a.1, fieldOf vs a))) := by
    intro attrs hs
    induction attrs with
    | nil => rfl
    | cons a attrs ih =>
      have h1 := slot_value hF h (hs a List.mem_cons_self)
      have h2 := ih (fun b hb => hs b (List.mem_cons_of_mem _ hb))
      unfold stateOf at h2 ⊢
      rw [List.map_cons]
      unfold normalizedAttrs
      rw [h1, h2]
      rfl
  exact this _ (fun a ha => ha)

theorem attrs_json (hF : SaneFacts F) {rs : List (Str × Result)} {vs : List (Str × Val)} (h : Worth F rs vs) :
    jsonAttrs F cls (rs.map Prod.fst) (stateOf (F.attrs cls) rs) =
      .ok ((F.attrs cls).map (fun a => (a.1, jsonOf vs a))) := by
  have : ∀ attrs : List (Str × AttrKind), (∀ a ∈ attrs, a ∈ F.attrs cls) →
      jsonAttrs F cls (rs.map Prod.fst) (stateOf attrs rs) = .ok (attrs.map (fun a => (a.1, jsonOf vs a))) := by
    intro attrs hs
    induction attrs with
    | nil => rfl
    | cons a attrs ih =>
      have h1 := slot_json hF h (hs a List.mem_cons_self)
      have h2 := ih (fun b hb => hs b (List.mem_cons_of_mem _ hb))
      unfold stateOf at h2 ⊢
      rw [List.map_cons]
      unfold jsonAttrs
      rw [h1, h2]
      rfl
  exact this _ (fun a ha => ha)

theorem lookup_map {f : Str × AttrKind → Val} {attrs : List (Str × AttrKind)} (hn : (attrs.map Prod.fst).Nodup)
    {a : Str × AttrKind} (ha : a ∈ attrs) : lookupVal a.1 (attrs.map (fun a => (a.1, f a))) = some (f a) := by
  induction attrs with
  | nil => cases ha
  | cons b attrs ih =>
    rw [List.map_cons, List.nodup_cons] at hn
    rw [List.map_cons]
    unfold lookupVal
    rcases List.mem_cons.1 ha with rfl | ha'
    · rw [if_pos rfl]
    · rw [if_neg (by rintro e; exact hn.1 (by rw [e]; exact List.mem_map.2 ⟨a, ha', rfl⟩))]
      exact ih hn.2 ha'

theorem find_map {f : Str × AttrKind → Json} {attrs : List (Str × AttrKind)} (hn : (attrs.map Prod.fst).Nodup)
    {a : Str × AttrKind} (ha : a ∈ attrs) :
    (attrs.map (fun a => (a.1, f a))).find? (fun x => x.1 == a.1) = some (a.1, f a) := by
  induction attrs with
  | nil => cases ha
  | cons b attrs ih =>
    rw [List.map_cons, List.nodup_cons] at hn
    rw [List.map_cons]
    rcases List.mem_cons.1 ha with rfl | ha'
    · rw [List.find?_cons_of_pos (by simp)]
    · rw [List.find?_cons_of_neg]
      · exact ih hn.2 ha'
      · have : b.1 ≠ a.1 := by rintro e; exact hn.1 (by rw [e]; exact List.mem_map.2 ⟨a, ha', rfl⟩)
        simpa using this

theorem fact_value (hF : SaneFacts F) {rs : List (Str × Result)} {vs : List (Str × Val)} (h : Worth F rs vs) :
    (Result.fact cls (stateOf (F.attrs cls) rs) (rs.map Prod.fst)).normalized F = .ok (factWith F cls vs) := by
  unfold Result.normalized
  rw [attrs_value hF h]
  show makeFact F cls _ = _
  unfold makeFact
  rw [if_pos]
  · unfold factWith
    congr 2
    refine List.map_congr_left (fun a ha => ?_)
    rw [lookup_map (hF.nodup cls) ha]
  · rw [List.all_eq_true]
    intro x hx
    obtain ⟨a, ha, rfl⟩ := List.mem_map.1 hx
    rw [List.any_eq_true]
    exact ⟨a, ha, by simp⟩

theorem field_json (vs : List (Str × Val)) (a : Str × AttrKind) :
    jsonField vs a = match (jsonOf vs a).isNone with | true => none | false => some (a.1, jsonOf vs a) := by
  unfold jsonOf jsonField
  cases a.2 with
  | repeatable => rfl
  | single d =>
    dsimp only
    generalize (givenTo vs a.1).getLast?.getD d = x
    cases x <;> rfl

theorem fact_json (hF : SaneFacts F) {rs : List (Str × Result)} {vs : List (Str × Val)} (h : Worth F rs vs) :
    (Result.fact cls (stateOf (F.attrs cls) rs) (rs.map Prod.fst)).asJson F = .ok (jsonWith F cls vs) := by
  unfold Result.asJson
  rw [attrs_json hF h]
  have fields : ∀ attrs : List (Str × AttrKind), (∀ a ∈ attrs, a ∈ F.attrs cls) →
      jsonFields ((F.attrs cls).map (fun a => (a.1, jsonOf vs a))) (attrs.map Prod.fst) =
        .ok (attrs.map (fun a => (a.1, jsonOf vs a))) := by
    intro attrs hs
    induction attrs with
    | nil => rfl
    | cons a attrs ih =>
      rw [List.map_cons]
      unfold jsonFields
      rw [find_map (hF.nodup cls) (hs a List.mem_cons_self)]
      dsimp only
      rw [ih (fun b hb => hs b (List.mem_cons_of_mem _ hb))]
      rfl
  show Except.bind _ _ = _
  rw [Except.bind]
  show Except.bind (jsonFields _ _) _ = _
  rw [fields _ (fun a ha => ha), Except.bind]
  unfold jsonWith
  show Except.ok _ = _
  congr 2
  generalize F.attrs cls = attrs
  induction attrs with
  | nil => rfl
  | cons a attrs ih =>
    rw [List.map_cons, List.filter_cons, List.filterMap_cons, ih, field_json]
    cases (jsonOf vs a).isNone <;> rfl

end Yargy.Slots
