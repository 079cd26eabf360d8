import Verif.Proofs.Interp
/-! Lemmas about the results of interpretation: values, JSON, spans. -/
namespace Yargy
open Spec

variable {P : Type} {F : Facts} {I : Nat → Option Interpretator}
variable {C : List Token → Prop} {N : Val → Bool → Prop}

/-! ### Interpretators make well-formed results -/

theorem allTokens_map {items : List Item} {ts : List Token} (h : allTokens items = some ts) :
    items = ts.map .token := by
  induction items generalizing ts with
  | nil => cases h; rfl
  | cons x xs ih =>
    cases x with
    | result r => cases h
    | token t =>
      rw [allTokens] at h
      cases h' : allTokens xs with
      | none => rw [h'] at h; cases h
      | some us =>
        rw [h'] at h
        cases h
        rw [ih h']
        rfl

theorem allTokens_of_map (ts : List Token) : allTokens (ts.map .token) = some ts := by
  induction ts with
  | nil => rfl
  | cons t ts ih => rw [List.map_cons, allTokens, ih]; rfl

/-- What `N` must satisfy for an interpretator. -/
def NormOk (F : Facts) (N : Val → Bool → Prop) : Interpretator → Prop
  | .norm n => (∀ v, n = .const v → N v false) ∧
      ((∀ v, n ≠ .const v) → ∀ input v, n.call F input = .ok v → N v true)
  | .attrNorm _ _ n => (∀ v, n = .const v → N v false) ∧
      ((∀ v, n ≠ .const v) → ∀ input v, n.call F input = .ok v → N v true)
  | _ => True

theorem normCall_good {n : Normalizer} {key items r}
    (h1 : ∀ v, n = .const v → N v false)
    (h2 : (∀ v, n ≠ .const v) → ∀ input v, n.call F input = .ok v → N v true)
    (hx : ∀ x ∈ items, GoodItem F C N x) (hC : ∀ ts, items = ts.map .token → C ts)
    (h : normCall F n key items = .ok r) : Good F C N r := by
  have main : (∀ v, n ≠ .const v) → (match allTokens items with
      | some tokens => (n.call F (.chain tokens key)).map (fun v => Result.norm v (some (.chain tokens key)))
      | none => match (generalizing := false) items with
        | [.result r] => (n.call F r).map (fun v => Result.norm v (some r))
        | _ => .error .typeError) = .ok r → Good F C N r := by
    intro hn h
    cases ha : allTokens items with
    | some ts =>
      rw [ha] at h
      obtain ⟨v, h3, h4⟩ := except_map_ok h
      subst h4
      exact .norm (h2 hn _ v h3) (.chain (hC ts (allTokens_map ha)))
    | none =>
      rw [ha] at h
      dsimp only at h
      split at h
      · obtain ⟨v, h3, h4⟩ := except_map_ok h
        subst h4
        exact .norm (h2 hn _ v h3) (hx (.result _) List.mem_cons_self)
      · cases h
  cases n with
  | const v =>
    cases h
    exact .const (h1 v rfl)
  | morph m => exact main (fun v e => by cases e) h
  | fn f => exact main (fun v e => by cases e) h
  | fnfn f g => exact main (fun v e => by cases e) h
  | morphFn m f => exact main (fun v e => by cases e) h

theorem call_good (hF : SaneFacts F) {i : Interpretator} {key items r} (ho : OwnAttribute F i)
    (hn : NormOk F N i) (hx : ∀ x ∈ items, GoodItem F C N x)
    (hC : ∀ ts, items = ts.map .token → C ts) (h : i.call F key items = .ok r) : Good F C N r := by
  cases i with
  | fact cls =>
    obtain ⟨attrs, modified, h1, h2⟩ := factCall_good hF (cls := cls) hx
    have h' : factCall F cls items = .ok r := h
    rw [h1] at h'
    cases h'
    exact h2
  | attr cls name =>
    have h' : (attrValue key items).map (fun v => .attr v cls name) = .ok r := h
    obtain ⟨v, h1, h2⟩ := except_map_ok h'
    subst h2
    refine .attr ?_ ho
    unfold attrValue at h1
    cases ha : allTokens items with
    | some ts =>
      rw [ha] at h1
      cases h1
      exact .chain (hC ts (allTokens_map ha))
    | none =>
      rw [ha] at h1
      dsimp only at h1
      split at h1
      · cases h1
        have h3 := hx _ List.mem_cons_self
        have h4 : Good F C N (.attr v _ _) := h3
        cases h4
        assumption
      · cases h1
      · cases h1
        exact hx (.result v) List.mem_cons_self
      · cases h1
  | norm n => exact normCall_good hn.1 hn.2 hx hC h
  | attrNorm cls name n =>
    have h' : (normCall F n key items).map (fun v => .attr v cls name) = .ok r := h
    obtain ⟨v, h1, h2⟩ := except_map_ok h'
    subst h2
    exact .attr (normCall_good hn.1 hn.2 hx hC h1) ho

/-! ### Trees -/

theorem keepAll_eq {T : Type} (cs : List (PTree P T)) : keepAll I cs = cs.flatMap (PTree.keep I) := by
  induction cs with
  | nil => rfl
  | cons c cs ih => rw [keepAll, ih]; rfl

theorem bushyAll_iff {T : Type} (cs : List (PTree P T)) : BushyAll cs ↔ ∀ c ∈ cs, Bushy c := by
  induction cs with
  | nil => simp [BushyAll]
  | cons c cs ih => simp [BushyAll, ih]

theorem interpAll_ne {cs : List (TTree P)} {items} (h : interpAll F I cs = .ok items)
    (hc : cs ≠ []) : items ≠ [] := by
  cases cs with
  | nil => exact absurd rfl hc
  | cons c cs =>
    rw [interpAll] at h
    obtain ⟨x, _, h2⟩ := except_bind_ok h
    obtain ⟨xs, _, h3⟩ := except_bind_ok h2
    cases h3
    simp

mutual
theorem interp_good (hF : SaneFacts F) {B : Prop} {T : Token → Prop}
    (hC : ∀ ts, (B → ts ≠ []) → (∀ t ∈ ts, T t) → C ts)
    (ho : ∀ r i, I r = some i → OwnAttribute F i) (hn : ∀ r i, I r = some i → NormOk F N i) :
    ∀ (t : TTree P), (∀ l ∈ t.leaves, T l.2) → (B → Bushy t) → ∀ items,
      interpAll F I (t.keep I) = .ok items →
      (∀ x ∈ items, GoodItem F C N x) ∧ (∀ u, .token u ∈ items → T u) ∧ (B → items ≠ [])
  | .leaf i p t, hT, hB, items, h => by
    rw [PTree.keep, interpAll] at h
    cases h
    refine ⟨?_, ?_, ?_⟩
    · intro x hx
      rw [List.mem_singleton.1 hx]
      trivial
    · intro u hu
      cases List.mem_singleton.1 hu
      exact hT (i, t) List.mem_cons_self
    · intro _
      simp
  | .node i r p k cs, hT, hB, items, h => by
    have hT' : ∀ c ∈ cs, ∀ l ∈ c.leaves, T l.2 := by
      intro c hc l hl
      refine hT l ?_
      rw [leaves_node]
      exact List.mem_flatMap.2 ⟨c, hc, hl⟩
    rw [PTree.keep] at h
    cases hr : I r with
    | none =>
      rw [hr] at h
      obtain ⟨h1, h2, h3⟩ := interpAll_good hF hC ho hn cs hT' (fun b => (hB b).2) items h
      exact ⟨h1, h2, fun b => h3 b (hB b).1⟩
    | some it =>
      rw [hr] at h
      dsimp only at h
      rw [interpAll] at h
      obtain ⟨x, h1, h2⟩ := except_bind_ok h
      cases h2
      rw [PTree.interp, hr] at h1
      obtain ⟨xs, h3, h4⟩ := except_bind_ok h1
      dsimp only at h4
      obtain ⟨res, h5, h6⟩ := except_map_ok h4
      subst h6
      obtain ⟨g1, g2, g3⟩ := interpAll_good hF hC ho hn cs hT' (fun b => (hB b).2) xs h3
      have : Good F C N res := by
        refine call_good hF (ho r it hr) (hn r it hr) g1 ?_ h5
        intro ts hts
        refine hC ts (fun b e => ?_) ?_
        · subst e
          exact g3 b (hB b).1 hts
        · intro t ht
          refine g2 t ?_
          rw [hts]
          exact List.mem_map.2 ⟨t, ht, rfl⟩
      refine ⟨?_, ?_, ?_⟩
      · intro x hx
        rw [List.mem_singleton.1 hx]
        exact this
      · intro u hu
        cases List.mem_singleton.1 hu
      · intro _
        simp
theorem interpAll_good (hF : SaneFacts F) {B : Prop} {T : Token → Prop}
    (hC : ∀ ts, (B → ts ≠ []) → (∀ t ∈ ts, T t) → C ts)
    (ho : ∀ r i, I r = some i → OwnAttribute F i) (hn : ∀ r i, I r = some i → NormOk F N i) :
    ∀ (cs : List (TTree P)), (∀ c ∈ cs, ∀ l ∈ c.leaves, T l.2) → (B → BushyAll cs) → ∀ items,
      interpAll F I (keepAll I cs) = .ok items →
      (∀ x ∈ items, GoodItem F C N x) ∧ (∀ u, .token u ∈ items → T u) ∧
        (B → cs ≠ [] → items ≠ [])
  | [], hT, hB, items, h => by
    cases h
    exact ⟨fun x hx => (by cases hx), fun u hu => (by cases hu), fun _ e => absurd rfl e⟩
  | c :: cs, hT, hB, items, h => by
    rw [keepAll, interpAll_append] at h
    obtain ⟨xs, h1, h2⟩ := except_bind_ok h
    obtain ⟨ys, h3, h4⟩ := except_map_ok h2
    subst h4
    obtain ⟨a1, a2, a3⟩ := interp_good hF hC ho hn c (hT c List.mem_cons_self)
      (fun b => (hB b).1) xs h1
    obtain ⟨b1, b2, _⟩ := interpAll_good hF hC ho hn cs
      (fun c' hc' => hT c' (List.mem_cons_of_mem _ hc')) (fun b => (hB b).2) ys h3
    refine ⟨?_, ?_, ?_⟩
    · intro x hx
      rcases List.mem_append.1 hx with hx | hx
      · exact a1 x hx
      · exact b1 x hx
    · intro u hu
      rcases List.mem_append.1 hu with hu | hu
      · exact a2 u hu
      · exact b2 u hu
    · intro b _ e
      exact a3 b (List.append_eq_nil_iff.1 e).1
end

/-- The result of interpreting a tree, as an item. -/
theorem interpretTree_iff {root : TTree P} {res : Result} :
    interpretTree F I root = .ok res ↔
      (∃ i r p k cs, root = .node i r p k cs ∧ I r ≠ none) ∧
        interpAll F I (root.keep I) = .ok [.result res] := by
  cases root with
  | leaf i p t =>
    constructor
    · intro h; cases h
    · rintro ⟨⟨i', r, p', k, cs, e, _⟩, _⟩; cases e
  | node i r p k cs =>
    rw [interpretTree]
    cases hr : I r with
    | none =>
      constructor
      · intro h; cases h
      · rintro ⟨⟨i', r', p', k', cs', e, h⟩, _⟩
        cases e
        exact absurd hr h
    | some it =>
      dsimp only
      rw [PTree.keep, hr]
      dsimp only
      rw [interpAll]
      constructor
      · intro h
        refine ⟨⟨i, r, p, k, cs, rfl, by rw [hr]; simp⟩, ?_⟩
        obtain ⟨x, h1, h2⟩ := except_bind_ok h
        rw [h1]
        cases x with
        | token t => cases h2
        | result r' => cases h2; rfl
      · rintro ⟨_, h⟩
        obtain ⟨x, h1, h2⟩ := except_bind_ok h
        rw [h1]
        cases h2
        rfl

theorem interpretTree_good (hF : SaneFacts F) {B : Prop} {T : Token → Prop}
    (hC : ∀ ts, (B → ts ≠ []) → (∀ t ∈ ts, T t) → C ts)
    (ho : ∀ r i, I r = some i → OwnAttribute F i) (hn : ∀ r i, I r = some i → NormOk F N i)
    {root : TTree P} (hT : ∀ l ∈ root.leaves, T l.2) (hB : B → Bushy root) {res : Result}
    (h : interpretTree F I root = .ok res) : Good F C N res :=
  (interp_good hF hC ho hn root hT hB _ (interpretTree_iff.1 h).2).1 _ List.mem_cons_self

/-! ### Values -/

theorem normalizedAll_ok {rs : List Result} (h : ∀ r ∈ rs, ∃ v, r.normalized F = .ok v) :
    ∃ vs, normalizedAll F rs = .ok vs ∧ rs.map (Result.normalized F) = vs.map .ok := by
  induction rs with
  | nil => exact ⟨[], rfl, rfl⟩
  | cons r rs ih =>
    obtain ⟨v, h1⟩ := h r List.mem_cons_self
    obtain ⟨vs, h2, h3⟩ := ih (fun r' h' => h r' (List.mem_cons_of_mem _ h'))
    refine ⟨v :: vs, ?_, ?_⟩
    · rw [normalizedAll, h1, h2]
      rfl
    · rw [List.map_cons, List.map_cons, h1, h3]

/-- The value of an attribute made from what it holds. -/
def SlotValue (F : Facts) : Slot → Val → Prop
  | .default d, v => v = d
  | .one r, v => r.normalized F = .ok v
  | .many rs, v => ∃ vs, v = .list vs ∧ rs.map (Result.normalized F) = vs.map .ok

theorem normalizedAttrs_ok {cls modified} {R : Str × Slot → Val → Prop} :
    ∀ {attrs : List (Str × Slot)},
    (∀ a ∈ attrs, ∃ v, normalizedAttr F cls modified a = .ok v ∧ R a v) →
    ∃ vals, normalizedAttrs F cls modified attrs = .ok vals ∧
      vals.map Prod.fst = attrs.map Prod.fst ∧
      (∀ key v, (key, v) ∈ vals → ∃ slot, (key, slot) ∈ attrs ∧ R (key, slot) v) := by
  intro attrs
  induction attrs with
  | nil =>
    intro _
    exact ⟨[], rfl, rfl, fun key v h => by cases h⟩
  | cons a attrs ih =>
    intro h
    obtain ⟨v, h1, h2⟩ := h a List.mem_cons_self
    obtain ⟨vals, h3, h4, h5⟩ := ih (fun b hb => h b (List.mem_cons_of_mem _ hb))
    refine ⟨(a.1, v) :: vals, ?_, ?_, ?_⟩
    · rw [normalizedAttrs, h1, h3]
      rfl
    · rw [List.map_cons, List.map_cons, h4]
    · intro key w hw
      rcases List.mem_cons.1 hw with hw | hw
      · cases hw
        exact ⟨a.2, List.mem_cons_self, h2⟩
      · obtain ⟨slot, g1, g2⟩ := h5 key w hw
        exact ⟨slot, List.mem_cons_of_mem _ g1, g2⟩

theorem lookupVal_mem {kwargs : List (Str × Val)} (hn : (kwargs.map Prod.fst).Nodup) {key v}
    (h : (key, v) ∈ kwargs) : lookupVal key kwargs = some v := by
  induction kwargs with
  | nil => cases h
  | cons a rest ih =>
    obtain ⟨k, w⟩ := a
    rw [List.map_cons, List.nodup_cons] at hn
    rw [lookupVal]
    rcases List.mem_cons.1 h with h | h
    · cases h
      rw [if_pos rfl]
    · rw [if_neg, ih hn.2 h]
      intro e
      exact hn.1 (List.mem_map.2 ⟨_, h, e.symm⟩)

theorem makeFact_ok (hF : SaneFacts F) {cls} {kwargs : List (Str × Val)}
    (h : kwargs.map Prod.fst = names F cls) : makeFact F cls kwargs = .ok (.fact cls kwargs) := by
  unfold makeFact
  rw [if_pos]
  · have hn : (kwargs.map Prod.fst).Nodup := h ▸ hF.nodup cls
    have hlook : ∀ a ∈ kwargs, lookupVal a.1 kwargs = some a.2 := fun a ha => lookupVal_mem hn ha
    have : ∀ (f : Str → Option Val) (l : List (Str × AttrKind)) (ks : List (Str × Val)),
        ks.map Prod.fst = l.map Prod.fst → (∀ a ∈ ks, f a.1 = some a.2) →
        l.map (fun a => (a.1, match f a.1 with
          | some v => v
          | none => match a.2 with
            | .repeatable => .list []
            | .single d => d)) = ks := by
      intro f l
      induction l with
      | nil =>
        intro ks hk _
        cases ks with
        | nil => rfl
        | cons _ _ => cases hk
      | cons a l ih =>
        intro ks hk hf
        cases ks with
        | nil => cases hk
        | cons b ks =>
          rw [List.map_cons, List.map_cons] at hk
          injection hk with hk1 hk2
          rw [List.map_cons, ih ks hk2 (fun c hc => hf c (List.mem_cons_of_mem _ hc))]
          have := hf b List.mem_cons_self
          rw [hk1] at this
          rw [this]
          obtain ⟨b1, b2⟩ := b
          dsimp only at hk1 ⊢
          rw [hk1]
    exact congrArg (fun l => Except.ok (Val.fact cls l))
      (this (fun k => lookupVal k kwargs) (F.attrs cls) kwargs h hlook)
  · rw [List.all_eq_true]
    intro a ha
    rw [List.any_eq_true]
    have : a.1 ∈ names F cls := h ▸ List.mem_map.2 ⟨a, ha, rfl⟩
    obtain ⟨b, hb, e⟩ := List.mem_map.1 this
    exact ⟨b, hb, by rw [beq_iff_eq]; exact e⟩

theorem contains_iff {l : List Str} {k : Str} : l.contains k = true ↔ k ∈ l := by simp

/-- Every slot of a well-formed fact has a value. -/
theorem attr_value (hF : SaneFacts F) {cls attrs modified}
    (h : Good F C N (.fact cls attrs modified))
    (hone : ∀ key r, (key, Slot.one r) ∈ attrs → ∃ v, r.normalized F = .ok v)
    (hmany : ∀ key rs r, (key, Slot.many rs) ∈ attrs → r ∈ rs → ∃ v, r.normalized F = .ok v) :
    ∀ a ∈ attrs, ∃ v, normalizedAttr F cls modified a = .ok v ∧ SlotValue F a.2 v := by
  cases h with
  | fact hmod hk hsing hrep _ _ =>
  rintro ⟨key, slot⟩ ha
  have hkey : key ∈ names F cls := hk ▸ List.mem_map.2 ⟨_, ha, rfl⟩
  obtain ⟨kind, hkind⟩ := kind_of_name hkey
  have hri := repeatable_iff hF hkind
  rw [normalizedAttr]
  cases kind with
  | repeatable =>
    obtain ⟨rs, e⟩ := hrep key slot hkind ha
    subst e
    rw [hri.2 rfl, normalizedSlot, if_pos rfl]
    obtain ⟨vs, h1, h2⟩ := normalizedAll_ok (F := F) (fun r hr => hmany key rs r ha hr)
    rw [h1]
    exact ⟨_, rfl, vs, rfl, h2⟩
  | single d =>
    have hr : F.repeatable cls key = false := by
      cases hc : F.repeatable cls key with
      | false => rfl
      | true => have := hri.1 hc; cases this
    rw [hr]
    rcases hsing key d slot hkind ha with ⟨h1, h2⟩ | ⟨h1, r, h2⟩
    · subst h2
      have : modified.contains key = false := by simpa using h1
      rw [this, normalizedSlot]
      exact ⟨d, rfl, rfl⟩
    · subst h2
      have : modified.contains key = true := by simpa using h1
      rw [this, normalizedSlot]
      obtain ⟨v, hv⟩ := hone key r ha
      exact ⟨v, hv, hv⟩

theorem good_normalized (hF : SaneFacts F) {r : Result} (h : Good F C N r) :
    ∃ v, r.normalized F = .ok v := by
  induction h with
  | chain _ => exact ⟨_, rfl⟩
  | attr _ _ ih => exact ih
  | const _ => exact ⟨_, rfl⟩
  | norm _ _ _ => exact ⟨_, rfl⟩
  | @fact cls attrs modified hmod hk hsing hrep hone hmany ih1 ih2 =>
    have hg : Good F C N (.fact cls attrs modified) := .fact hmod hk hsing hrep hone hmany
    obtain ⟨vals, h1, h2, _⟩ := normalizedAttrs_ok (attr_value hF hg ih1 ih2)
    refine ⟨.fact cls vals, ?_⟩
    rw [Result.normalized, h1]
    exact makeFact_ok hF (h2.trans hk)

theorem fact_value (hF : SaneFacts F) {cls attrs modified}
    (h : Good F C N (.fact cls attrs modified)) :
    ∃ vals, (Result.fact cls attrs modified).normalized F = .ok (.fact cls vals) ∧
      vals.map Prod.fst = names F cls ∧
      (∀ key v, (key, v) ∈ vals → ∃ slot, (key, slot) ∈ attrs ∧ SlotValue F slot v) := by
  have h' := h
  cases h' with
  | fact hmod hk hsing hrep hone hmany =>
  obtain ⟨vals, h1, h2, h3⟩ := normalizedAttrs_ok (attr_value hF h
    (fun key r hr => good_normalized hF (hone key r hr))
    (fun key rs r hr hr' => good_normalized hF (hmany key rs r hr hr')))
  refine ⟨vals, ?_, h2.trans hk, h3⟩
  rw [Result.normalized, h1]
  exact makeFact_ok hF (h2.trans hk)

/-! ### JSON -/

mutual
theorem toJson_plain : ∀ {v : Val}, Plain v → toJson v = valJson v
  | .none, _ => rfl
  | .str _, _ => rfl
  | .obj _, _ => rfl
  | .list vs, h => by
    have h' : PlainAll vs := by rwa [Plain] at h
    rw [toJson, valJson, toJsons_plain h']
  | .fact _ _, h => by
    rw [Plain] at h
    exact h.elim
theorem toJsons_plain : ∀ {vs : List Val}, PlainAll vs → toJsons vs = valJsons vs
  | [], _ => rfl
  | v :: vs, h => by
    have h' : Plain v ∧ PlainAll vs := by rwa [PlainAll] at h
    rw [toJsons, valJsons, toJson_plain h'.1, toJsons_plain h'.2]
end

theorem clean_none (j : Json) : (cleanJson j).isNone = j.isNone := by
  cases j with
  | val v => cases v <;> rfl
  | list js => rfl
  | obj fs => rfl

theorem cleanFields_filter (fs : List (Str × Json)) :
    cleanFields (fs.filter (fun f => !f.2.isNone)) = (cleanFields fs).filter (fun f => !f.2.isNone) := by
  induction fs with
  | nil => rfl
  | cons f fs ih =>
    obtain ⟨k, j⟩ := f
    rw [cleanFields, List.filter_cons, List.filter_cons]
    dsimp only
    rw [clean_none]
    split
    · rw [cleanFields, ih]
    · exact ih

theorem toFields_filter (vals : List (Str × Val)) :
    (vals.map (fun a => (a.1, toJson a.2))).filter (fun f => !f.2.isNone) = toFields vals := by
  induction vals with
  | nil => rfl
  | cons a vals ih =>
    obtain ⟨k, v⟩ := a
    rw [List.map_cons, toFields]
    cases v with
    | none =>
      rw [toField]
      exact ih
    | str s =>
      show (k, toJson (.str s)) :: (List.filter _ _) = _
      rw [ih]
      rfl
    | obj n =>
      show (k, toJson (.obj n)) :: (List.filter _ _) = _
      rw [ih]
      rfl
    | list vs =>
      show (k, toJson (.list vs)) :: (List.filter _ _) = _
      rw [ih]
      rfl
    | fact c as =>
      show (k, toJson (.fact c as)) :: (List.filter _ _) = _
      rw [ih]
      rfl

theorem jsonFields_ok {js : List (Str × Json)} (hn : (js.map Prod.fst).Nodup) :
    jsonFields js (js.map Prod.fst) = .ok js := by
  have key : ∀ (sub : List (Str × Json)), (∀ a ∈ sub, a ∈ js) →
      jsonFields js (sub.map Prod.fst) = .ok sub := by
    intro sub
    induction sub with
    | nil => intro _; rfl
    | cons a sub ih =>
      intro hs
      rw [List.map_cons, jsonFields, ih (fun b hb => hs b (List.mem_cons_of_mem _ hb))]
      have ha := hs a List.mem_cons_self
      have : js.find? (fun b => b.1 == a.1) = some a := by
        clear ih hs
        induction js with
        | nil => cases ha
        | cons b js ih =>
          rw [List.map_cons, List.nodup_cons] at hn
          rw [List.find?_cons]
          rcases List.mem_cons.1 ha with e | ha
          · subst e
            simp
          · have : (b.1 == a.1) = false := by
              rw [beq_eq_false_iff_ne]
              intro e
              exact hn.1 (List.mem_map.2 ⟨a, ha, e.symm⟩)
            rw [this]
            exact ih hn.2 ha
      rw [this]
      rfl
  exact key js (fun _ h => h)

theorem jsonAttrs_ok {cls modified} : ∀ {attrs : List (Str × Slot)},
    (∀ a ∈ attrs, ∃ v j, normalizedAttr F cls modified a = .ok v ∧
      jsonAttr F cls modified a = .ok j ∧ cleanJson j = toJson v) →
    ∃ vals js, normalizedAttrs F cls modified attrs = .ok vals ∧
      vals.map Prod.fst = attrs.map Prod.fst ∧ js.map Prod.fst = attrs.map Prod.fst ∧
      jsonAttrs F cls modified attrs = .ok js ∧
      cleanFields js = vals.map (fun a => (a.1, toJson a.2)) := by
  intro attrs
  induction attrs with
  | nil => intro _; exact ⟨[], [], rfl, rfl, rfl, rfl, rfl⟩
  | cons a attrs ih =>
    intro h
    obtain ⟨v, j, h1, h2, h2'⟩ := h a List.mem_cons_self
    obtain ⟨vals, js, h3, h4, h4', h5, h6⟩ := ih (fun b hb => h b (List.mem_cons_of_mem _ hb))
    refine ⟨(a.1, v) :: vals, (a.1, j) :: js, ?_, ?_, ?_, ?_, ?_⟩
    · rw [normalizedAttrs, h1, h3]; rfl
    · rw [List.map_cons, List.map_cons, h4]
    · rw [List.map_cons, List.map_cons, h4']
    · rw [jsonAttrs, h2, h5]; rfl
    · rw [cleanFields, h6, h2', List.map_cons]

theorem jsonAll_ok {rs : List Result}
    (h : ∀ r ∈ rs, ∃ v j, r.normalized F = .ok v ∧ r.asJson F = .ok j ∧ cleanJson j = toJson v) :
    ∃ vs js, normalizedAll F rs = .ok vs ∧ jsonAll F rs = .ok js ∧ cleanJsons js = toJsons vs := by
  induction rs with
  | nil => exact ⟨[], [], rfl, rfl, rfl⟩
  | cons r rs ih =>
    obtain ⟨v, j, h1, h2, h2'⟩ := h r List.mem_cons_self
    obtain ⟨vs, js, h3, h4, h5⟩ := ih (fun r' h' => h r' (List.mem_cons_of_mem _ h'))
    refine ⟨v :: vs, j :: js, ?_, ?_, ?_⟩
    · rw [normalizedAll, h1, h3]; rfl
    · rw [jsonAll, h2, h4]; rfl
    · rw [cleanJsons, toJsons, h2', h5]

theorem good_json (hF : SaneFacts F) (hd : PlainDefaults F) {r : Result}
    (h : Good F C (fun v _ => Plain v) r) :
    ∃ v j, r.normalized F = .ok v ∧ r.asJson F = .ok j ∧ cleanJson j = toJson v := by
  induction h with
  | chain _ => exact ⟨_, _, rfl, rfl, rfl⟩
  | attr _ _ ih => exact ih
  | @const v hv => exact ⟨v, _, rfl, rfl, by rw [toJson_plain hv, cleanJson]⟩
  | @norm v r hv _ _ => exact ⟨v, _, rfl, rfl, by rw [toJson_plain hv, cleanJson]⟩
  | @fact cls attrs modified hmod hk hsing hrep hone hmany ih1 ih2 =>
    have hall : ∀ a ∈ attrs, ∃ v j, normalizedAttr F cls modified a = .ok v ∧
        jsonAttr F cls modified a = .ok j ∧ cleanJson j = toJson v := by
      rintro ⟨key, slot⟩ ha
      have hkey : key ∈ names F cls := hk ▸ List.mem_map.2 ⟨_, ha, rfl⟩
      obtain ⟨kind, hkind⟩ := kind_of_name hkey
      have hri := repeatable_iff hF hkind
      rw [normalizedAttr, jsonAttr]
      cases kind with
      | repeatable =>
        obtain ⟨rs, e⟩ := hrep key slot hkind ha
        subst e
        rw [hri.2 rfl, normalizedSlot, if_pos rfl, jsonSlot, if_pos rfl]
        obtain ⟨vs, js, h1, h2, h3⟩ := jsonAll_ok (F := F) (fun r hr => ih2 key rs r ha hr)
        rw [h1, h2]
        exact ⟨_, _, rfl, rfl, by rw [cleanJson, toJson, h3]⟩
      | single d =>
        have hr : F.repeatable cls key = false := by
          cases hc : F.repeatable cls key with
          | false => rfl
          | true => have := hri.1 hc; cases this
        rw [hr]
        rcases hsing key d slot hkind ha with ⟨h1, h2⟩ | ⟨h1, r, h2⟩
        · subst h2
          have : modified.contains key = false := by simpa using h1
          rw [this, normalizedSlot, jsonSlot]
          exact ⟨d, _, rfl, rfl, by rw [toJson_plain (hd cls key d hkind), cleanJson]⟩
        · subst h2
          have : modified.contains key = true := by simpa using h1
          rw [this, normalizedSlot, jsonSlot]
          obtain ⟨v, j, hv, hj, hc⟩ := ih1 key r ha
          exact ⟨v, j, hv, hj, hc⟩
    obtain ⟨vals, js, h1, h2, h2', h3, h4⟩ := jsonAttrs_ok hall
    have hjk : js.map Prod.fst = names F cls := h2'.trans hk
    have hjf := jsonFields_ok (js := js) (hjk ▸ hF.nodup cls)
    refine ⟨.fact cls vals, .obj (js.filter (fun f => !f.2.isNone)), ?_, ?_, ?_⟩
    · rw [Result.normalized, h1]
      exact makeFact_ok hF (h2.trans hk)
    · rw [Result.asJson, h3]
      show (jsonFields js (names F cls) >>= _) = _
      rw [← hjk, hjf]
      rfl
    · rw [cleanJson, toJson, cleanFields_filter, h4, toFields_filter]

/-! ### Spans -/

theorem tokensSpan_bounds {ts : List Token} (h : ts ≠ []) :
    ∃ a ∈ ts, ∃ b ∈ ts, tokensSpan ts = .ok (a.span.1, b.span.2) := by
  unfold tokensSpan
  cases ts with
  | nil => exact absurd rfl h
  | cons t ts =>
    refine ⟨t, List.mem_cons_self, (t :: ts).getLast (by simp), List.getLast_mem _, ?_⟩
    rw [List.getLast?_eq_some_getLast (by simp)]
    rfl

/-- A span made of the boundaries of tokens of `S`. -/
def TokenSpan (S : List Token) (s : Nat × Nat) : Prop :=
  ∃ a ∈ S, ∃ b ∈ S, s = (a.span.1, b.span.2)

theorem spansAll_ok {S : List Token} {rs : List Result}
    (h : ∀ r ∈ rs, ∃ l, r.spans F = .ok l ∧ ∀ s ∈ l, TokenSpan S s) :
    ∃ l, spansAll F rs = .ok l ∧ ∀ s ∈ l, TokenSpan S s := by
  induction rs with
  | nil => exact ⟨[], rfl, fun s hs => by cases hs⟩
  | cons r rs ih =>
    obtain ⟨l, h1, h2⟩ := h r List.mem_cons_self
    obtain ⟨l', h3, h4⟩ := ih (fun r' h' => h r' (List.mem_cons_of_mem _ h'))
    refine ⟨l ++ l', by rw [spansAll, h1, h3]; rfl, ?_⟩
    intro s hs
    rcases List.mem_append.1 hs with hs | hs
    · exact h2 s hs
    · exact h4 s hs

theorem spansAttrs_ok {cls modified} {S : List Token} {attrs : List (Str × Slot)}
    (h : ∀ a ∈ attrs, ∃ l, spansAttr F cls modified a = .ok l ∧ ∀ s ∈ l, TokenSpan S s) :
    ∃ l, spansAttrs F cls modified attrs = .ok l ∧ ∀ s ∈ l, TokenSpan S s := by
  induction attrs with
  | nil => exact ⟨[], rfl, fun s hs => by cases hs⟩
  | cons a attrs ih =>
    obtain ⟨l, h1, h2⟩ := h a List.mem_cons_self
    obtain ⟨l', h3, h4⟩ := ih (fun r' h' => h r' (List.mem_cons_of_mem _ h'))
    refine ⟨l ++ l', by rw [spansAttrs, h1, h3]; rfl, ?_⟩
    intro s hs
    rcases List.mem_append.1 hs with hs | hs
    · exact h2 s hs
    · exact h4 s hs

theorem good_spans (hF : SaneFacts F) {S : List Token} {r : Result}
    (h : Good F (fun ts => ts ≠ [] ∧ ∀ t ∈ ts, t ∈ S) (fun _ b => b = true) r) :
    ∃ l, r.spans F = .ok l ∧ ∀ s ∈ l, TokenSpan S s := by
  induction h with
  | @chain ts k hc =>
    obtain ⟨a, ha, b, hb, e⟩ := tokensSpan_bounds hc.1
    refine ⟨[(a.span.1, b.span.2)], by rw [Result.spans, e]; rfl, ?_⟩
    intro s hs
    rw [List.mem_singleton.1 hs]
    exact ⟨a, hc.2 a ha, b, hc.2 b hb, rfl⟩
  | attr _ _ ih => exact ih
  | const hv => cases hv
  | norm _ _ ih => exact ih
  | @fact cls attrs modified hmod hk hsing hrep hone hmany ih1 ih2 =>
    rw [Result.spans]
    refine spansAttrs_ok ?_
    rintro ⟨key, slot⟩ ha
    have hkey : key ∈ names F cls := hk ▸ List.mem_map.2 ⟨_, ha, rfl⟩
    obtain ⟨kind, hkind⟩ := kind_of_name hkey
    have hri := repeatable_iff hF hkind
    rw [spansAttr]
    cases kind with
    | repeatable =>
      obtain ⟨rs, e⟩ := hrep key slot hkind ha
      subst e
      rw [hri.2 rfl, spansSlot, if_pos rfl]
      exact spansAll_ok (fun r hr => ih2 key rs r ha hr)
    | single d =>
      have hr : F.repeatable cls key = false := by
        cases hc : F.repeatable cls key with
        | false => rfl
        | true => have := hri.1 hc; cases this
      rw [hr]
      rcases hsing key d slot hkind ha with ⟨h1, h2⟩ | ⟨h1, r, h2⟩
      · subst h2
        have : modified.contains key = false := by simpa using h1
        rw [this, spansSlot]
        exact ⟨[], rfl, fun s hs => by cases hs⟩
      · subst h2
        have : modified.contains key = true := by simpa using h1
        rw [this, spansSlot]
        exact ih1 key r ha

theorem mem_insertSpan {s x : Nat × Nat} {l} : x ∈ insertSpan s l ↔ x = s ∨ x ∈ l := by
  induction l with
  | nil => simp [insertSpan]
  | cons y l ih =>
    rw [insertSpan]
    split
    · simp
    · rw [List.mem_cons, ih, List.mem_cons]
      constructor
      · rintro (h | h | h)
        · exact .inr (.inl h)
        · exact .inl h
        · exact .inr (.inr h)
      · rintro (h | h | h)
        · exact .inr (.inl h)
        · exact .inl h
        · exact .inr (.inr h)

theorem mem_sortSpans {x : Nat × Nat} {l} : x ∈ sortSpans l ↔ x ∈ l := by
  induction l with
  | nil => simp [sortSpans]
  | cons s l ih => rw [sortSpans, mem_insertSpan, ih, List.mem_cons]

theorem insertSpan_perm (s : Nat × Nat) (l) : (insertSpan s l).Perm (s :: l) := by
  induction l with
  | nil => exact .refl _
  | cons y l ih =>
    rw [insertSpan]
    split
    · exact .refl _
    · exact (List.Perm.cons y ih).trans (.swap _ _ _)

theorem sortSpans_perm (l) : (sortSpans l).Perm l := by
  induction l with
  | nil => exact .refl _
  | cons s l ih => exact (insertSpan_perm s _).trans (.cons s ih)

theorem sortSpans_sorted (l) : (sortSpans l).Pairwise (fun a b => a.1 ≤ b.1) := by
  induction l with
  | nil => exact .nil
  | cons s l ih =>
    rw [sortSpans]
    generalize sortSpans l = m at ih
    induction m with
    | nil => simp [insertSpan]
    | cons y m ihm =>
      rw [List.pairwise_cons] at ih
      rw [insertSpan]
      split
      · rename_i h
        rw [List.pairwise_cons, List.pairwise_cons]
        refine ⟨?_, ih⟩
        intro b hb
        rcases List.mem_cons.1 hb with hb | hb
        · rw [hb]; exact h
        · exact Nat.le_trans h (ih.1 b hb)
      · rename_i h
        rw [List.pairwise_cons]
        refine ⟨?_, ihm ih.2⟩
        intro b hb
        rcases mem_insertSpan.1 hb with hb | hb
        · rw [hb]; omega
        · exact ih.1 b hb

/-! ### Pruned trees -/

theorem prune_bushy {T : Type} : ∀ {t t' : PTree P T}, t.prune = some t' → Bushy t' := by
  intro t
  refine ptree_induct (M := fun t => ∀ {t'}, t.prune = some t' → Bushy t') ?_ ?_ t
  · intro l p t t' h
    cases h
    trivial
  · intro n r p k cs ih t' h
    rw [prune_node] at h
    split at h
    · cases h
    · cases h
      rename_i hne
      refine ⟨hne, (bushyAll_iff _).2 ?_⟩
      intro c hc
      obtain ⟨c0, h1, h2⟩ := List.mem_filterMap.1 hc
      exact ih c0 h1 h2

theorem load_bushy (σ : Store) {t : TTree P} (h : Bushy t) : Bushy (t.load σ) := by
  revert h
  refine ptree_induct (M := fun t => Bushy t → Bushy (t.load σ)) ?_ ?_ t
  · intro l p t _
    trivial
  · intro n r p k cs ih h
    rw [PTree.load, loadAll_eq]
    refine ⟨?_, (bushyAll_iff _).2 ?_⟩
    · intro e
      exact h.1 (List.map_eq_nil_iff.1 e)
    · intro c hc
      obtain ⟨c0, h1, h2⟩ := List.mem_map.1 hc
      subst h2
      exact ih c0 h1 ((bushyAll_iff _).1 h.2 c0 h1)

end Yargy
