import Verif.Spec.Facts
import Verif.Proofs.Interp
/-!
Dictionary lines do not matter for interpretations that do not take them.
-/
namespace Yargy
open Spec

mutual
/-- A result without the dictionary lines in it. -/
def Result.bare : Result → Result
  | .chain tokens _ => .chain tokens none
  | .fact cls attrs modified => .fact cls (bareAttrs attrs) modified
  | .attr value cls name => .attr value.bare cls name
  | .norm value input => .norm value (bareInput input)
def bareInput : Option Result → Option Result
  | none => none
  | some r => some r.bare
def bareAttrs : List (Str × Slot) → List (Str × Slot)
  | [] => []
  | a :: rest => bareAttr a :: bareAttrs rest
def bareAttr : Str × Slot → Str × Slot
  | (key, slot) => (key, bareSlot slot)
def bareSlot : Slot → Slot
  | .default v => .default v
  | .one r => .one r.bare
  | .many rs => .many (bareAll rs)
def bareAll : List Result → List Result
  | [] => []
  | r :: rs => r.bare :: bareAll rs
end

def Item.bare : Item → Item
  | .token t => .token t
  | .result r => .result r.bare

variable {F : Facts}

mutual
theorem bare_normalized : ∀ r : Result, r.bare.normalized F = r.normalized F
  | .chain tokens _ => rfl
  | .fact cls attrs modified => by
    simp only [Result.bare, Result.normalized, bareAttrs_normalized cls modified attrs]
  | .attr value cls name => by
    simp only [Result.bare, Result.normalized, bare_normalized value]
  | .norm value input => rfl
theorem bareAttrs_normalized (cls : Nat) (modified : List Str) : ∀ attrs : List (Str × Slot),
    normalizedAttrs F cls modified (bareAttrs attrs) = normalizedAttrs F cls modified attrs
  | [] => rfl
  | a :: rest => by
    simp only [bareAttrs, normalizedAttrs, bareAttrs_normalized cls modified rest,
      bareAttr_normalized cls modified a]
    cases a
    rfl
theorem bareAttr_normalized (cls : Nat) (modified : List Str) : ∀ a : Str × Slot,
    normalizedAttr F cls modified (bareAttr a) = normalizedAttr F cls modified a
  | (key, slot) => by
    simp only [bareAttr, normalizedAttr, bareSlot_normalized _ _ slot]
theorem bareSlot_normalized (rep mod : Bool) : ∀ slot : Slot,
    normalizedSlot F rep mod (bareSlot slot) = normalizedSlot F rep mod slot
  | .default v => rfl
  | .one r => by simp only [bareSlot, normalizedSlot, bare_normalized r]
  | .many rs => by simp only [bareSlot, normalizedSlot, bareAll_normalized rs]
theorem bareAll_normalized : ∀ rs : List Result, normalizedAll F (bareAll rs) = normalizedAll F rs
  | [] => rfl
  | r :: rs => by simp only [bareAll, normalizedAll, bare_normalized r, bareAll_normalized rs]
end

mutual
theorem bare_asJson : ∀ r : Result, r.bare.asJson F = r.asJson F
  | .chain tokens _ => rfl
  | .fact cls attrs modified => by
    simp only [Result.bare, Result.asJson, bareAttrs_asJson cls modified attrs]
  | .attr value cls name => by
    simp only [Result.bare, Result.asJson, bare_asJson value]
  | .norm value input => rfl
theorem bareAttrs_asJson (cls : Nat) (modified : List Str) : ∀ attrs : List (Str × Slot),
    jsonAttrs F cls modified (bareAttrs attrs) = jsonAttrs F cls modified attrs
  | [] => rfl
  | a :: rest => by
    simp only [bareAttrs, jsonAttrs, bareAttrs_asJson cls modified rest, bareAttr_asJson cls modified a]
    cases a
    rfl
theorem bareAttr_asJson (cls : Nat) (modified : List Str) : ∀ a : Str × Slot,
    jsonAttr F cls modified (bareAttr a) = jsonAttr F cls modified a
  | (key, slot) => by
    simp only [bareAttr, jsonAttr, bareSlot_asJson _ _ slot]
theorem bareSlot_asJson (rep mod : Bool) : ∀ slot : Slot,
    jsonSlot F rep mod (bareSlot slot) = jsonSlot F rep mod slot
  | .default v => rfl
  | .one r => by simp only [bareSlot, jsonSlot, bare_asJson r]
  | .many rs => by simp only [bareSlot, jsonSlot, bareAll_asJson rs]
theorem bareAll_asJson : ∀ rs : List Result, jsonAll F (bareAll rs) = jsonAll F rs
  | [] => rfl
  | r :: rs => by simp only [bareAll, jsonAll, bare_asJson r, bareAll_asJson rs]
end

mutual
theorem bare_spans : ∀ r : Result, r.bare.spans F = r.spans F
  | .chain tokens _ => rfl
  | .fact cls attrs modified => by
    simp only [Result.bare, Result.spans, bareAttrs_spans cls modified attrs]
  | .attr value cls name => by
    simp only [Result.bare, Result.spans, bare_spans value]
  | .norm value none => rfl
  | .norm value (some r) => by
    simp only [Result.bare, bareInput, Result.spans, bare_spans r]
theorem bareAttrs_spans (cls : Nat) (modified : List Str) : ∀ attrs : List (Str × Slot),
    spansAttrs F cls modified (bareAttrs attrs) = spansAttrs F cls modified attrs
  | [] => rfl
  | a :: rest => by
    simp only [bareAttrs, spansAttrs, bareAttrs_spans cls modified rest, bareAttr_spans cls modified a]
theorem bareAttr_spans (cls : Nat) (modified : List Str) : ∀ a : Str × Slot,
    spansAttr F cls modified (bareAttr a) = spansAttr F cls modified a
  | (key, slot) => by
    simp only [bareAttr, spansAttr, bareSlot_spans _ _ slot]
theorem bareSlot_spans (rep mod : Bool) : ∀ slot : Slot,
    spansSlot F rep mod (bareSlot slot) = spansSlot F rep mod slot
  | .default v => rfl
  | .one r => by simp only [bareSlot, spansSlot, bare_spans r]
  | .many rs => by simp only [bareSlot, spansSlot, bareAll_spans rs]
theorem bareAll_spans : ∀ rs : List Result, spansAll F (bareAll rs) = spansAll F rs
  | [] => rfl
  | r :: rs => by simp only [bareAll, spansAll, bare_spans r, bareAll_spans rs]
end

/-! ### Filling facts -/

theorem bareAll_append (rs ss : List Result) : bareAll (rs ++ ss) = bareAll rs ++ bareAll ss := by
  induction rs with
  | nil => rfl
  | cons r rs ih => simp only [List.cons_append, bareAll, ih]

theorem getSlot_bare (key : Str) (attrs : List (Str × Slot)) :
    getSlot key (bareAttrs attrs) = (getSlot key attrs).map bareSlot := by
  induction attrs with
  | nil => rfl
  | cons a rest ih =>
    obtain ⟨k, s⟩ := a
    simp only [bareAttrs, bareAttr, getSlot]
    split
    · rfl
    · exact ih

theorem putSlot_bare (key : Str) (slot : Slot) (attrs : List (Str × Slot)) :
    putSlot key (bareSlot slot) (bareAttrs attrs) = bareAttrs (putSlot key slot attrs) := by
  induction attrs with
  | nil => rfl
  | cons a rest ih =>
    obtain ⟨k, s⟩ := a
    simp only [bareAttrs, bareAttr, putSlot]
    split
    · rfl
    · rw [ih]; rfl

theorem setAttr_bare (cls : Nat) (attrs : List (Str × Slot)) (key : Str) (value : Result) :
    setAttr F cls (bareAttrs attrs) key value.bare = (setAttr F cls attrs key value).map bareAttrs := by
  unfold setAttr
  split
  · rw [getSlot_bare]
    cases getSlot key attrs with
    | none => rfl
    | some s =>
      cases s with
      | many rs =>
        simp only [Option.map_some, bareSlot, Except.map]
        have := putSlot_bare key (.many (rs ++ [value])) attrs
        rw [bareSlot, bareAll_append] at this
        rw [← this]
        rfl
      | _ => rfl
  · simp only [Except.map]
    rw [← putSlot_bare]
    rfl

theorem mergeAttrs_bare (other : List (Str × Slot)) : ∀ (keys : List Str) (attrs : List (Str × Slot)),
    mergeAttrs (bareAttrs other) keys (bareAttrs attrs) = (mergeAttrs other keys attrs).map bareAttrs := by
  intro keys
  induction keys with
  | nil => intro attrs; rfl
  | cons key keys ih =>
    intro attrs
    simp only [mergeAttrs, getSlot_bare]
    cases getSlot key other with
    | none => rfl
    | some s =>
      simp only [Option.map_some]
      rw [putSlot_bare, ih]

theorem factItem_bare (cls : Nat) (st : List (Str × Slot) × List Str) (item : Item) :
    factItem F cls (bareAttrs st.1, st.2) item.bare =
      (factItem F cls st item).map (fun st => (bareAttrs st.1, st.2)) := by
  cases item with
  | token t => rfl
  | result r =>
    cases r with
    | chain _ _ => rfl
    | norm _ _ => rfl
    | attr value acls name =>
      simp only [Item.bare, Result.bare, factItem]
      split
      · rw [setAttr_bare]
        cases setAttr F cls st.1 name value <;> rfl
      · rfl
    | fact fcls other modified =>
      simp only [Item.bare, Result.bare, factItem]
      split
      · rw [mergeAttrs_bare]
        cases mergeAttrs other modified st.1 <;> rfl
      · rfl

theorem bareAttrs_initial (as : List (Str × AttrKind)) :
    bareAttrs (as.map (fun a => (a.1, a.2.initial))) = as.map (fun a => (a.1, a.2.initial)) := by
  induction as with
  | nil => rfl
  | cons a as ih =>
    simp only [List.map_cons, bareAttrs, ih]
    obtain ⟨k, s⟩ := a
    cases s <;> rfl

theorem factCall_bare (cls : Nat) (items : List Item) :
    factCall F cls (items.map Item.bare) = (factCall F cls items).map Result.bare := by
  have key : ∀ (items : List Item) (st : List (Str × Slot) × List Str),
      (items.map Item.bare).foldlM (factItem F cls) (bareAttrs st.1, st.2) =
        (items.foldlM (factItem F cls) st).map (fun st => (bareAttrs st.1, st.2)) := by
    intro items
    induction items with
    | nil => intro st; rfl
    | cons x xs ih =>
      intro st
      rw [List.map_cons, List.foldlM_cons, List.foldlM_cons, factItem_bare]
      cases factItem F cls st x with
      | error e => rfl
      | ok st' => exact ih st'
  unfold factCall
  have := key items ((F.attrs cls).map (fun a => (a.1, a.2.initial)), [])
  rw [bareAttrs_initial] at this
  rw [this]
  cases items.foldlM (factItem F cls) ((F.attrs cls).map (fun a => (a.1, a.2.initial)), []) <;> rfl

/-! ### Interpretators -/

theorem allTokens_bare (items : List Item) : allTokens (items.map Item.bare) = allTokens items := by
  induction items with
  | nil => rfl
  | cons x xs ih =>
    cases x with
    | token t => simp only [List.map_cons, Item.bare, allTokens, ih]
    | result r => rfl

theorem normalizer_bare {n : Normalizer} (hn : Normalizer.takesLine n = false) (r : Result) :
    n.call F r.bare = n.call F r := by
  cases n with
  | morph m =>
    cases m with
    | normalized => cases hn
    | inflected g => cases r <;> rfl
  | const v => rfl
  | fn f => simp only [Normalizer.call, bare_normalized]
  | fnfn f g => simp only [Normalizer.call, bare_normalized]
  | morphFn m f =>
    cases m with
    | normalized => cases hn
    | inflected g => cases r <;> rfl

theorem normCall_bare {n : Normalizer} (hn : Normalizer.takesLine n = false) (key : Option Str) (items : List Item) :
    normCall F n none (items.map Item.bare) = (normCall F n key items).map Result.bare := by
  have main : ∀ n : Normalizer, Normalizer.takesLine n = false → (∀ v, n ≠ .const v) →
      normCall F n none (items.map Item.bare) = (normCall F n key items).map Result.bare := by
    intro n hn hc
    have unf : ∀ (k : Option Str) (xs : List Item), normCall F n k xs = (match allTokens xs with
      | some tokens =>
        (n.call F (Result.chain tokens k)).map (fun v => .norm v (some (Result.chain tokens k)))
      | none =>
        match xs with
        | [.result r] => (n.call F r).map (fun v => .norm v (some r))
        | _ => .error .typeError) := by
      intro k xs
      cases n with
      | const v => exact absurd rfl (hc v)
      | _ => rfl
    rw [unf, unf, allTokens_bare]
    cases allTokens items with
    | some tokens =>
      dsimp only
      have e := normalizer_bare (F := F) hn (.chain tokens key)
      rw [Result.bare] at e
      rw [e]
      cases n.call F (Result.chain tokens key) <;> rfl
    | none =>
      match items with
      | [] => rfl
      | [.token _] => rfl
      | [.result r] =>
        simp only [List.map_cons, List.map_nil, Item.bare]
        rw [normalizer_bare hn]
        cases n.call F r <;> rfl
      | .token _ :: _ :: _ => rfl
      | .result _ :: _ :: _ => rfl
  cases n with
  | const v => rfl
  | _ => exact main _ hn (by intro v e; cases e)

theorem attrValue_bare (key : Option Str) (items : List Item) :
    attrValue none (items.map Item.bare) = (attrValue key items).map Result.bare := by
  unfold attrValue
  rw [allTokens_bare]
  cases allTokens items with
  | some tokens => rfl
  | none =>
    match items with
    | [] => rfl
    | [.token _] => rfl
    | [.result r] => cases r <;> rfl
    | .token _ :: _ :: _ => rfl
    | .result r :: _ :: _ => cases r <;> rfl

theorem call_bare {i : Interpretator} (hi : takesLine i = false) (key : Option Str) (items : List Item) :
    i.call F none (items.map Item.bare) = (i.call F key items).map Result.bare := by
  cases i with
  | fact cls => exact factCall_bare cls items
  | attr cls name =>
    simp only [Interpretator.call, attrValue_bare key]
    cases attrValue key items <;> rfl
  | norm n => exact normCall_bare hi key items
  | attrNorm cls name n =>
    simp only [Interpretator.call]
    rw [normCall_bare (n := n) hi key]
    cases normCall F n key items <;> rfl

/-! ### Following events -/

def Event.bare : Event → Event
  | .opens i _ => .opens i none
  | e => e

def Frame.bare (f : Frame) : Frame := ⟨f.interpretator, none, f.items.map Item.bare⟩

def bareState (x : List Frame × List Item) : List Frame × List Item := (x.1.map Frame.bare, x.2.map Item.bare)

theorem deliver_bare (x : Item) (fs : List Frame) (out : List Item) :
    deliver x.bare (fs.map Frame.bare) (out.map Item.bare) = bareState (deliver x fs out) := by
  cases fs with
  | nil => simp [deliver, bareState]
  | cons f fs => simp [deliver, bareState, Frame.bare]

theorem follow_bare : ∀ (es : List Event) (fs : List Frame) (out : List Item),
    (∀ i key, Event.opens i key ∈ es → takesLine i = false) → (∀ f ∈ fs, takesLine f.interpretator = false) →
    follow F (es.map Event.bare) (fs.map Frame.bare) (out.map Item.bare) = (follow F es fs out).map bareState := by
  intro es
  induction es with
  | nil => intro fs out _ _; rfl
  | cons e es ih =>
    intro fs out he hf
    have he' : ∀ i key, Event.opens i key ∈ es → takesLine i = false :=
      fun i key h => he i key (List.mem_cons_of_mem _ h)
    have hd : ∀ x, ∀ f ∈ (deliver x fs out).1, takesLine f.interpretator = false := by
      intro x f hx
      cases fs with
      | nil => cases hx
      | cons g gs =>
        rcases List.mem_cons.1 hx with rfl | hx
        · exact hf g List.mem_cons_self
        · exact hf f (List.mem_cons_of_mem _ hx)
    cases e with
    | token t =>
      simp only [List.map_cons, Event.bare, follow]
      have := deliver_bare (.token t) fs out
      rw [Item.bare] at this
      rw [this]
      exact ih _ _ he' (hd _)
    | opens i key =>
      simp only [List.map_cons, Event.bare, follow]
      have := ih (⟨i, key, []⟩ :: fs) out he' (by
        intro f h
        rcases List.mem_cons.1 h with rfl | h
        · exact he i key List.mem_cons_self
        · exact hf f h)
      exact this
    | closes =>
      cases fs with
      | nil => rfl
      | cons f fs =>
        simp only [List.map_cons, Event.bare, follow, Frame.bare]
        rw [call_bare (hf f List.mem_cons_self) f.key]
        cases f.interpretator.call F f.key f.items with
        | error e => rfl
        | ok r =>
          simp only [Except.map]
          have := deliver_bare (.result r) fs out
          rw [Item.bare] at this
          rw [show List.map (fun f => Frame.bare f) fs = fs.map Frame.bare from rfl, this]
          refine ih _ _ he' ?_
          intro g hg
          cases fs with
          | nil => cases hg
          | cons g' gs =>
            rcases List.mem_cons.1 hg with rfl | hg
            · exact hf g' (List.mem_cons_of_mem _ List.mem_cons_self)
            · exact hf g (List.mem_cons_of_mem _ (List.mem_cons_of_mem _ hg))

end Yargy
