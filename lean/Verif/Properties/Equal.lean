import Verif.Spec.Equal
import Verif.Properties.Interpretation
/-!
C64: facts compare by value. C65: equal facts have equal hashes.
-/
namespace Yargy
open Spec Equal

namespace Equal

variable {F : Facts} {e : Nat → Nat → Bool}

theorem lookup_mem {k : Str} {v : Val} : ∀ {as : List (Str × Val)}, lookupVal k as = some v → (k, v) ∈ as
  | [], h => by cases h
  | (k', w) :: as, h => by
    unfold lookupVal at h
    split at h
    · rename_i he
      cases h
      rw [he]
      exact List.mem_cons_self
    · exact List.mem_cons_of_mem _ (lookup_mem h)

theorem lookup_none {k : Str} : ∀ {as : List (Str × Val)}, lookupVal k as = none → k ∉ as.map Prod.fst
  | [], _ => by simp
  | (k', w) :: as, h => by
    unfold lookupVal at h
    split at h
    · cases h
    · rename_i he
      simp only [List.map_cons, List.mem_cons, not_or]
      exact ⟨fun x => he x.symm, lookup_none h⟩

theorem mem_lookup {k : Str} {v : Val} : ∀ {as : List (Str × Val)}, (as.map Prod.fst).Nodup → (k, v) ∈ as →
    lookupVal k as = some v
  | [], _, h => by cases h
  | (k', w) :: as, hn, h => by
    simp only [List.map_cons, List.nodup_cons] at hn
    unfold lookupVal
    rcases List.mem_cons.1 h with h | h
    · cases h
      rw [if_pos rfl]
    · rw [if_neg]
      · exact mem_lookup hn.2 h
      · intro he
        subst he
        exact hn.1 (List.mem_map.2 ⟨_, h, rfl⟩)

/-- Attributes that are looked up under names that are not the first one. -/
theorem aeq_skip {k : Str} {w : Val} {bs : List (Str × Val)} : ∀ {as : List (Str × Val)},
    k ∉ as.map Prod.fst → aeq e as ((k, w) :: bs) = aeq e as bs
  | [], _ => by simp [aeq]
  | (k', v) :: as, h => by
    simp only [List.map_cons, List.mem_cons, not_or] at h
    have hl : lookupVal k' ((k, w) :: bs) = lookupVal k' bs := by
      rw [lookupVal, if_neg h.1]
    simp only [aeq, aeq1, hl, aeq_skip h.2]

theorem sameObj_iff {v w : Val} : sameObj v w = true ↔ ∃ n, v = .obj n ∧ w = .obj n := by
  constructor
  · intro h
    unfold sameObj at h
    split at h
    · rename_i a b
      have : a = b := by simpa using h
      exact ⟨a, rfl, by rw [this]⟩
    · cases h
  · rintro ⟨n, rfl, rfl⟩
    simp [sameObj]

mutual
theorem veq_iff (hF : ∀ c, (names F c).Nodup) : ∀ (v w : Val), Framed F v → Framed F w →
    (veq e v w = true ↔ EqualVal e v w)
  | .none, w, _, _ => by
    cases w <;> simp only [veq] <;> constructor <;> intro h <;> first | exact .none | (cases h; done) | trivial
  | .str s, w, _, _ => by
    cases w <;> simp only [veq] <;> constructor <;> intro h <;>
      first | (cases h; done) | (cases h; simp) | (rw [beq_iff_eq] at h; subst h; exact .str _)
  | .obj a, w, _, _ => by
    cases w <;> simp only [veq] <;> constructor <;> intro h <;>
      first | (cases h; done) | (exact .obj h) | (cases h with | obj h => exact h)
  | .list vs, w, hv, hw => by
    cases w with
    | list ws =>
      simp only [veq]
      rw [leq_iff hF vs ws (by simpa [Framed] using hv) (by simpa [Framed] using hw)]
      exact ⟨.list, fun h => by cases h with | list h => exact h⟩
    | _ => simp only [veq]; constructor <;> intro h <;> cases h
  | .fact c as, w, hv, hw => by
    cases w with
    | fact d bs =>
      simp only [Framed] at hv hw
      simp only [veq, Bool.and_eq_true, beq_iff_eq]
      constructor
      · rintro ⟨rfl, h⟩
        refine .fact _ ((aeq_iff hF as bs hv.2 hw.2 ?_ (hv.1.trans hw.1.symm)).1 h)
        rw [hv.1]; exact hF c
      · intro h
        cases h with
        | fact _ h =>
          refine ⟨rfl, (aeq_iff hF as bs hv.2 hw.2 ?_ (hv.1.trans hw.1.symm)).2 h⟩
          rw [hv.1]; exact hF c
    | _ => simp only [veq]; constructor <;> intro h <;> cases h
theorem leq_iff (hF : ∀ c, (names F c).Nodup) : ∀ (vs ws : List Val), FramedAll F vs → FramedAll F ws →
    (leq e vs ws = true ↔ EqualVals e vs ws)
  | [], ws, _, _ => by
    cases ws <;> simp only [leq] <;> constructor <;> intro h <;> first | exact .nil | (cases h; done) | trivial
  | v :: vs, [], _, _ => by
    simp only [leq]; constructor <;> intro h <;> cases h
  | v :: vs, w :: ws, hv, hw => by
    simp only [FramedAll] at hv hw
    simp only [leq, Bool.and_eq_true, Bool.or_eq_true]
    rw [leq_iff hF vs ws hv.2 hw.2, veq_iff hF v w hv.1 hw.1, sameObj_iff]
    constructor
    · rintro ⟨⟨n, rfl, rfl⟩ | h, h'⟩
      · exact .same n h'
      · exact .cons h h'
    · intro h
      cases h with
      | cons h h' => exact ⟨.inr h, h'⟩
      | same n h' => exact ⟨.inl ⟨n, rfl, rfl⟩, h'⟩
theorem aeq_iff (hF : ∀ c, (names F c).Nodup) : ∀ (as bs : List (Str × Val)), FramedAttrs F as → FramedAttrs F bs →
    (as.map Prod.fst).Nodup → as.map Prod.fst = bs.map Prod.fst →
    (aeq e as bs = true ↔ EqualAttrs e as bs)
  | [], bs, _, _, _, hk => by
    cases bs with
    | nil => simp only [aeq]; exact ⟨fun _ => .nil, fun _ => trivial⟩
    | cons b bs => cases hk
  | (k, v) :: as, bs, hv, hw, hn, hk => by
    cases bs with
    | nil => cases hk
    | cons b bs =>
      obtain ⟨k', w⟩ := b
      simp only [List.map_cons, List.cons.injEq] at hk
      obtain ⟨rfl, hk⟩ := hk
      simp only [List.map_cons, List.nodup_cons] at hn
      simp only [FramedAttrs, FramedAttr] at hv hw
      have hl : lookupVal k ((k, w) :: bs) = some w := by rw [lookupVal, if_pos rfl]
      simp only [aeq, aeq1, Bool.and_eq_true, hl]
      rw [aeq_skip hn.1, aeq_iff hF as bs hv.2 hw.2 hn.2 hk, veq_iff hF v w hv.1 hw.1]
      constructor
      · rintro ⟨h, h'⟩; exact .cons k h h'
      · intro h
        cases h with
        | cons _ h h' => exact ⟨h, h'⟩
end

mutual
theorem alike_refl (he : ∀ a, e a a = true) : ∀ v, EqualVal e v v
  | .none => .none
  | .str s => .str s
  | .obj a => .obj (he a)
  | .list vs => .list (alikeAll_refl he vs)
  | .fact c as => .fact c (alikeAttrs_refl he as)
theorem alikeAll_refl (he : ∀ a, e a a = true) : ∀ vs, EqualVals e vs vs
  | [] => .nil
  | v :: vs => .cons (alike_refl he v) (alikeAll_refl he vs)
theorem alikeAttrs_refl (he : ∀ a, e a a = true) : ∀ as, EqualAttrs e as as
  | [] => .nil
  | (k, v) :: as => .cons k (alike_refl he v) (alikeAttrs_refl he as)
end

mutual
theorem alike_symm (he : ∀ a b, e a b = true → e b a = true) : ∀ {v w}, EqualVal e v w → EqualVal e w v
  | _, _, .none => .none
  | _, _, .str s => .str s
  | _, _, .obj h => .obj (he _ _ h)
  | _, _, .list h => .list (alikeAll_symm he h)
  | _, _, .fact c h => .fact c (alikeAttrs_symm he h)
theorem alikeAll_symm (he : ∀ a b, e a b = true → e b a = true) : ∀ {v w}, EqualVals e v w → EqualVals e w v
  | _, _, .nil => .nil
  | _, _, .cons h h' => .cons (alike_symm he h) (alikeAll_symm he h')
  | _, _, .same n h' => .same n (alikeAll_symm he h')
theorem alikeAttrs_symm (he : ∀ a b, e a b = true → e b a = true) : ∀ {v w}, EqualAttrs e v w → EqualAttrs e w v
  | _, _, .nil => .nil
  | _, _, .cons k h h' => .cons k (alike_symm he h) (alikeAttrs_symm he h')
end

mutual
theorem alike_trans (he : ∀ a b c, e a b = true → e b c = true → e a c = true) :
    ∀ {u v w}, EqualVal e u v → EqualVal e v w → EqualVal e u w
  | _, _, _, .none, h => h
  | _, _, _, .str s, h => h
  | _, _, _, .obj h, .obj h' => .obj (he _ _ _ h h')
  | _, _, _, .list h, .list h' => .list (alikeAll_trans he h h')
  | _, _, _, .fact c h, .fact _ h' => .fact c (alikeAttrs_trans he h h')
theorem alikeAll_trans (he : ∀ a b c, e a b = true → e b c = true → e a c = true) :
    ∀ {u v w}, EqualVals e u v → EqualVals e v w → EqualVals e u w
  | _, _, _, .nil, h => h
  | _, _, _, .cons h t, .cons h' t' => .cons (alike_trans he h h') (alikeAll_trans he t t')
  | _, _, _, .cons h t, .same _ t' => .cons h (alikeAll_trans he t t')
  | _, _, _, .same _ t, .cons h' t' => .cons h' (alikeAll_trans he t t')
  | _, _, _, .same n t, .same _ t' => .same n (alikeAll_trans he t t')
theorem alikeAttrs_trans (he : ∀ a b c, e a b = true → e b c = true → e a c = true) :
    ∀ {u v w}, EqualAttrs e u v → EqualAttrs e v w → EqualAttrs e u w
  | _, _, _, .nil, h => h
  | _, _, _, .cons k h t, .cons _ h' t' => .cons k (alike_trans he h h') (alikeAttrs_trans he t t')
end

mutual
theorem alike_eq (he : ∀ a b, e a b = true → a = b) : ∀ {v w}, EqualVal e v w → v = w
  | _, _, .none => rfl
  | _, _, .str s => rfl
  | _, _, .obj h => by rw [he _ _ h]
  | _, _, .list h => by rw [alikeAll_eq he h]
  | _, _, .fact c h => by rw [alikeAttrs_eq he h]
theorem alikeAll_eq (he : ∀ a b, e a b = true → a = b) : ∀ {v w}, EqualVals e v w → v = w
  | _, _, .nil => rfl
  | _, _, .cons h t => by rw [alike_eq he h, alikeAll_eq he t]
  | _, _, .same n t => by rw [alikeAll_eq he t]
theorem alikeAttrs_eq (he : ∀ a b, e a b = true → a = b) : ∀ {v w}, EqualAttrs e v w → v = w
  | _, _, .nil => rfl
  | _, _, .cons k h t => by rw [alike_eq he h, alikeAttrs_eq he t]
end

section
variable {H : Type} {hnone : H} {hstr : Str → H} {hobj : Nat → Option H} {htuple : List H → H}

mutual
theorem alike_hash (he : ∀ a b, e a b = true → hobj a = hobj b) : ∀ {v w}, EqualVal e v w →
    vhash hnone hstr hobj htuple v = vhash hnone hstr hobj htuple w
  | _, _, .none => rfl
  | _, _, .str s => rfl
  | _, _, .obj h => by simp only [vhash]; exact he _ _ h
  | _, _, .list h => by simp only [vhash]
  | _, _, .fact c h => by simp only [vhash]; rw [alikeAttrs_hash he h]
theorem alikeAttrs_hash (he : ∀ a b, e a b = true → hobj a = hobj b) : ∀ {v w}, EqualAttrs e v w →
    ahash hnone hstr hobj htuple v = ahash hnone hstr hobj htuple w
  | _, _, .nil => rfl
  | _, _, .cons k h t => by simp only [ahash, ahash1]; rw [alike_hash he h, alikeAttrs_hash he t]
end

mutual
theorem hashed_iff : ∀ v, (∃ x, vhash hnone hstr hobj htuple v = some x) ↔
    Hashed (fun n => ∃ x, hobj n = some x) v
  | .none => by simp [vhash, Hashed]
  | .str s => by simp [vhash, Hashed]
  | .obj a => by simp [vhash, Hashed]
  | .list vs => by simp [vhash, Hashed]
  | .fact c as => by
    simp only [vhash, Hashed]
    rw [← hashedAttrs_iff as]
    cases ahash hnone hstr hobj htuple as <;> simp
theorem hashedAttrs_iff : ∀ as, (∃ x, ahash hnone hstr hobj htuple as = some x) ↔
    HashedAttrs (fun n => ∃ x, hobj n = some x) as
  | [] => by simp [ahash, HashedAttrs]
  | (k, v) :: as => by
    simp only [ahash, ahash1, HashedAttrs, HashedAttr]
    rw [← hashedAttrs_iff as, ← hashed_iff v]
    cases vhash hnone hstr hobj htuple v <;> cases ahash hnone hstr hobj htuple as <;> simp
end

end

/-- What `Cls(**kwargs)` holds. -/
theorem called_fact {c : Nat} {kwargs : List (Str × Val)} {f : Val} (hn : (names F c).Nodup)
    (hk : (kwargs.map Prod.fst).Nodup) (h : makeFact F c kwargs = .ok f) :
    (∀ k v, (k, v) ∈ kwargs → k ∈ names F c) ∧ ∃ as, f = .fact c as ∧ as.map Prod.fst = names F c ∧
      ∀ k v, k ∈ names F c → (lookupVal k as = some v ↔ Expected F c kwargs k v) := by
  unfold makeFact at h
  split at h
  · rename_i ha
    cases h
    refine ⟨?_, _, rfl, ?_, ?_⟩
    · intro k v hm
      have := List.all_eq_true.1 ha _ hm
      obtain ⟨x, hx, hxe⟩ := List.any_eq_true.1 this
      have : x.1 = k := by simpa using hxe
      exact List.mem_map.2 ⟨x, hx, this⟩
    · simp [names]
    · intro k v hkn
      obtain ⟨⟨k', kind⟩, hx, rfl⟩ := List.mem_map.1 hkn
      have hu : ∀ kd, (k', kd) ∈ F.attrs c → kd = kind := by
        intro kd hkd
        exact (pair_unique hn hkd hx)
      rw [mem_lookup_map (k := k') (kind := kind) hn hx]
      simp only
      cases hl : lookupVal k' kwargs with
      | some w =>
        simp only [Option.some.injEq]
        constructor
        · rintro rfl
          exact .given (lookup_mem hl)
        · intro hx
          cases hx with
          | given hm => rw [mem_lookup hk hm] at hl; cases hl; rfl
          | repeatable hno _ => exact absurd (List.mem_map.2 ⟨_, lookup_mem hl, rfl⟩) hno
          | default hno _ => exact absurd (List.mem_map.2 ⟨_, lookup_mem hl, rfl⟩) hno
      | none =>
        have hno := lookup_none hl
        cases kind with
        | repeatable =>
          simp only [Option.some.injEq]
          constructor
          · rintro rfl
            exact .repeatable hno hx
          · intro hx
            cases hx with
            | given hm => exact absurd (List.mem_map.2 ⟨_, hm, rfl⟩) hno
            | repeatable _ _ => rfl
            | default _ hd => cases hu _ hd
        | single d =>
          simp only [Option.some.injEq]
          constructor
          · rintro rfl
            exact .default hno hx
          · intro hx
            cases hx with
            | given hm => exact absurd (List.mem_map.2 ⟨_, hm, rfl⟩) hno
            | repeatable _ hd => cases hu _ hd
            | default _ hd => cases hu _ hd; rfl
  · cases h
where
  pair_unique {c : Nat} {k : Str} {a b : AttrKind} (hn : (names F c).Nodup) (ha : (k, a) ∈ F.attrs c)
      (hb : (k, b) ∈ F.attrs c) : a = b := by
    unfold names at hn
    generalize F.attrs c = l at hn ha hb
    induction l with
    | nil => cases ha
    | cons x l ih =>
      simp only [List.map_cons, List.nodup_cons] at hn
      rcases List.mem_cons.1 ha with p | p <;> rcases List.mem_cons.1 hb with q | q
      · rw [← q] at p; cases p; rfl
      · subst p; exact absurd (List.mem_map_of_mem (f := Prod.fst) q) hn.1
      · subst q; exact absurd (List.mem_map_of_mem (f := Prod.fst) p) hn.1
      · exact ih hn.2 p q
  mem_lookup_map {c : Nat} {k : Str} {kind : AttrKind} {g : Str × AttrKind → Val} (hn : (names F c).Nodup)
      (hx : (k, kind) ∈ F.attrs c) :
      lookupVal k ((F.attrs c).map (fun a => (a.1, g a))) = some (g (k, kind)) := by
    apply mem_lookup
    · rw [List.map_map]; exact hn
    · exact List.mem_map.2 ⟨_, hx, rfl⟩

theorem framedAll_iff : ∀ {vs : List Val}, FramedAll F vs ↔ ∀ v ∈ vs, Framed F v
  | [] => by simp [FramedAll]
  | v :: vs => by simp [FramedAll, framedAll_iff (vs := vs)]

theorem framedAttrs_iff : ∀ {as : List (Str × Val)}, FramedAttrs F as ↔ ∀ a ∈ as, Framed F a.2
  | [] => by simp [FramedAttrs]
  | (k, v) :: as => by
    simp only [FramedAttrs, FramedAttr, framedAttrs_iff (as := as), List.mem_cons]
    constructor
    · rintro ⟨h, h'⟩ a (rfl | ha)
      · exact h
      · exact h' a ha
    · intro h
      exact ⟨h (k, v) (.inl rfl), fun a ha => h a (.inr ha)⟩

theorem normalizedAll_mem : ∀ {rs : List Result} {vs : List Val}, normalizedAll F rs = .ok vs →
    ∀ v ∈ vs, ∃ r ∈ rs, r.normalized F = .ok v
  | [], vs, h, v, hv => by
    cases h
    cases hv
  | r :: rs, vs, h, v, hv => by
    rw [normalizedAll] at h
    obtain ⟨w, h1, h⟩ := except_bind_ok h
    obtain ⟨ws, h2, h⟩ := except_bind_ok h
    cases h
    rcases List.mem_cons.1 hv with rfl | hv
    · exact ⟨r, List.mem_cons_self, h1⟩
    · obtain ⟨r', h3, h4⟩ := normalizedAll_mem h2 v hv
      exact ⟨r', List.mem_cons_of_mem _ h3, h4⟩

theorem normalizedAttrs_mem {c : Nat} {m : List Str} : ∀ {as : List (Str × Slot)} {vs : List (Str × Val)},
    normalizedAttrs F c m as = .ok vs →
    ∀ x ∈ vs, ∃ slot, (x.1, slot) ∈ as ∧ normalizedAttr F c m (x.1, slot) = .ok x.2
  | [], vs, h, x, hx => by
    rw [normalizedAttrs] at h
    cases h
    cases hx
  | a :: as, vs, h, x, hx => by
    rw [normalizedAttrs] at h
    obtain ⟨w, h1, h⟩ := except_bind_ok h
    obtain ⟨ws, h2, h⟩ := except_bind_ok h
    cases h
    rcases List.mem_cons.1 hx with rfl | hx
    · exact ⟨a.2, List.mem_cons_self, h1⟩
    · obtain ⟨s, h3, h4⟩ := normalizedAttrs_mem h2 x hx
      exact ⟨s, List.mem_cons_of_mem _ h3, h4⟩

/-- The attributes of what `Cls(**kwargs)` makes: the values given, empty lists and defaults. -/
theorem makeFact_mem {c : Nat} {kwargs : List (Str × Val)} {f : Val} (h : makeFact F c kwargs = .ok f) :
    ∃ as, f = .fact c as ∧ as.map Prod.fst = names F c ∧
      ∀ a ∈ as, a ∈ kwargs ∨ ((a.1, AttrKind.repeatable) ∈ F.attrs c ∧ a.2 = .list []) ∨
        (a.1, AttrKind.single a.2) ∈ F.attrs c := by
  unfold makeFact at h
  split at h
  · cases h
    refine ⟨_, rfl, by simp [names], ?_⟩
    intro a ha
    obtain ⟨⟨k, kind⟩, hb, rfl⟩ := List.mem_map.1 ha
    dsimp only
    cases hl : lookupVal k kwargs with
    | some v => exact .inl (lookup_mem hl)
    | none =>
      cases kind with
      | repeatable => exact .inr (.inl ⟨hb, rfl⟩)
      | single d => exact .inr (.inr hb)
  · cases h

theorem good_framed {C : List Token → Prop} (hd : FramedDefaults F) {r : Result}
    (h : Good F C (fun v _ => Framed F v) r) : ∀ v, r.normalized F = .ok v → Framed F v := by
  induction h with
  | chain _ =>
    intro v hv
    rw [Result.normalized] at hv
    cases hv
    rw [Framed]
    trivial
  | attr _ _ ih =>
    intro v hv
    rw [Result.normalized] at hv
    exact ih v hv
  | const hw =>
    intro v hv
    rw [Result.normalized] at hv
    cases hv
    exact hw
  | norm hw _ _ =>
    intro v hv
    rw [Result.normalized] at hv
    cases hv
    exact hw
  | @fact cls attrs modified hmod hk hsing hrep hone hmany ih1 ih2 =>
    intro v hv
    rw [Result.normalized] at hv
    obtain ⟨kw, h1, h2⟩ := except_bind_ok hv
    obtain ⟨as, rfl, h3, h4⟩ := makeFact_mem h2
    rw [Framed, framedAttrs_iff]
    refine ⟨h3, fun a ha => ?_⟩
    rcases h4 a ha with h5 | ⟨_, h5⟩ | h5
    · obtain ⟨slot, h6, h7⟩ := normalizedAttrs_mem h1 a h5
      rw [normalizedAttr] at h7
      cases slot with
      | default d =>
        rw [normalizedSlot] at h7
        split at h7
        · cases h7
        · split at h7
          · cases h7
          · cases h7
            have hkey : a.1 ∈ names F cls := hk ▸ List.mem_map.2 ⟨_, h6, rfl⟩
            obtain ⟨kind, hkind⟩ := kind_of_name hkey
            cases kind with
            | repeatable =>
              obtain ⟨rs, e⟩ := hrep _ _ hkind h6
              cases e
            | single d =>
              rcases hsing _ _ _ hkind h6 with ⟨_, e⟩ | ⟨_, r, e⟩
              · cases e
                exact hd _ _ _ hkind
              · cases e
      | one r =>
        rw [normalizedSlot] at h7
        split at h7
        · cases h7
        · split at h7
          · exact ih1 _ _ h6 _ h7
          · cases h7
      | many rs =>
        rw [normalizedSlot] at h7
        split at h7
        · obtain ⟨vs, h8, h9⟩ := except_map_ok h7
          rw [← h9, Framed, framedAll_iff]
          intro w hw
          obtain ⟨r, h10, h11⟩ := normalizedAll_mem h8 w hw
          exact ih2 _ _ r h6 h10 w h11
        · cases h7
    · rw [h5, Framed]
      trivial
    · exact hd _ _ _ h5

theorem normOk_framed {i : Interpretator} (h : FramedInterpretator F i) :
    NormOk F (fun v _ => Framed F v) i := by
  have key : ∀ n : Normalizer, FramedNormalizer F n → (∀ v, n = .const v → Framed F v) ∧
      ((∀ v, n ≠ .const v) → ∀ input v, n.call F input = .ok v → Framed F v) := by
    intro n hn
    have hmorph : ∀ (m : Morphing) (input : Result) v, m.call F input = .ok v → Framed F v := by
      intro m input v hv
      unfold Morphing.call at hv
      cases input with
      | chain ts k =>
        cases m with
        | normalized =>
          dsimp only at hv
          split at hv
          · cases hv
            rw [Framed]
            trivial
          · obtain ⟨s, _, h2⟩ := except_map_ok hv
            subst h2
            rw [Framed]
            trivial
        | inflected g =>
          obtain ⟨s, _, h2⟩ := except_map_ok hv
          subst h2
          rw [Framed]
          trivial
      | fact _ _ _ => cases hv
      | attr _ _ _ => cases hv
      | norm _ _ => cases hv
    constructor
    · intro v e
      subst e
      exact hn
    · intro hc input v hv
      cases n with
      | const w => exact absurd rfl (hc w)
      | morph m => exact hmorph m input v hv
      | fn f =>
        obtain ⟨w, _, h2⟩ := except_bind_ok hv
        exact hn w v h2
      | fnfn f g =>
        obtain ⟨w, _, h2⟩ := except_bind_ok hv
        exact hn w v h2
      | morphFn m f =>
        obtain ⟨w, _, h2⟩ := except_bind_ok hv
        exact hn w v h2
  cases i with
  | fact c => trivial
  | attr c n => trivial
  | norm n => exact key n h
  | attrNorm c k n => exact key n h

end Equal

variable {F : Facts} {e : Nat → Nat → Bool} {P : Type} {I : Nat → Option Interpretator}

/-- The facts of matches are well made, if the constants, the defaults and the results of the user's functions
are. -/
theorem match_facts_framed (hF : SaneFacts F) (ho : ∀ r i, I r = some i → OwnAttribute F i)
    (hp : ∀ r i, I r = some i → FramedInterpretator F i) (hd : FramedDefaults F) {root : TTree P} {v : Val}
    (h : matchFact F I root = .ok v) : Framed F v := by
  unfold matchFact at h
  obtain ⟨res, h1, h2⟩ := except_bind_ok h
  exact good_framed hd (interpretTree_good (B := False) (T := fun _ => True) (C := fun _ => True) hF
    (fun _ _ _ => trivial) ho (fun r i hr => normOk_framed (hp r i hr)) (fun _ _ => trivial) (fun b => b.elim) h1)
    v h2

/-- C64: `==` says whether two values are alike: facts are compared by their class and by their attributes,
at any depth, whatever text they come from. -/
theorem facts_compare_by_value (hF : SaneFacts F) {v w : Val} (hv : Framed F v) (hw : Framed F w) :
    veq e v w = true ↔ EqualVal e v w :=
  veq_iff hF.nodup v w hv hw

/-- C64: `==` of facts is an equivalence if that of the objects they hold is. -/
theorem facts_equality (hF : SaneFacts F) (h1 : ∀ a, e a a = true) (h2 : ∀ a b, e a b = true → e b a = true)
    (h3 : ∀ a b c, e a b = true → e b c = true → e a c = true) :
    (∀ v, Framed F v → veq e v v = true) ∧
    (∀ v w, Framed F v → Framed F w → veq e v w = veq e w v) ∧
    ∀ u v w, Framed F u → Framed F v → Framed F w → veq e u v = true → veq e v w = true → veq e u w = true := by
  refine ⟨fun v hv => (veq_iff hF.nodup v v hv hv).2 (alike_refl h1 v), ?_, ?_⟩
  · intro v w hv hw
    rw [Bool.eq_iff_iff, veq_iff hF.nodup v w hv hw, veq_iff hF.nodup w v hw hv]
    exact ⟨alike_symm h2, alike_symm h2⟩
  · intro u v w hu hv hw h h'
    rw [veq_iff hF.nodup _ _ hu hv] at h
    rw [veq_iff hF.nodup _ _ hv hw] at h'
    exact (veq_iff hF.nodup _ _ hu hw).2 (alike_trans h3 h h')

/-- C64: if objects are equal only to themselves, equal facts are the same in every part. -/
theorem equal_facts_same (hF : SaneFacts F) (he : ∀ a b, e a b = true ↔ a = b) {v w : Val} (hv : Framed F v)
    (hw : Framed F w) : veq e v w = true ↔ v = w := by
  rw [veq_iff hF.nodup v w hv hw]
  constructor
  · exact alike_eq (fun a b h => (he a b).1 h)
  · rintro rfl
    exact alike_refl (fun a => (he a a).2 rfl) v

/-- C64: a fact that was found equals `Cls(**kwargs)` exactly if its class is `Cls` and every attribute is
equal to what was given for it, or to what an attribute that nothing was given for has (an empty list, the
default). -/
theorem match_fact_equals (hF : SaneFacts F) {root : TTree P} {c c' : Nat} {attrs : List (Str × Slot)}
    {modified : List Str} (hres : interpretTree F I root = .ok (.fact c attrs modified)) {v f : Val}
    (hv : matchFact F I root = .ok v) {kwargs : List (Str × Val)} (hk : (kwargs.map Prod.fst).Nodup)
    (hf : makeFact F c' kwargs = .ok f) :
    ∃ as, v = .fact c as ∧ as.map Prod.fst = names F c ∧
      (veq e v f = true ↔ c = c' ∧ ∀ key x y, (key, x) ∈ as → Expected F c kwargs key y → veq e x y = true) := by
  unfold matchFact at hv
  rw [hres] at hv
  replace hv : Result.normalized F (.fact c attrs modified) = .ok v := hv
  rw [Result.normalized] at hv
  obtain ⟨kw, _, hmk⟩ := except_bind_ok hv
  clear hv
  obtain ⟨as, rfl, h1, hmem⟩ := makeFact_mem hmk
  clear hmem
  refine ⟨as, rfl, h1, ?_⟩
  obtain ⟨_, bs, rfl, h2, h3⟩ := called_fact (hF.nodup c') hk hf
  simp only [veq, Bool.and_eq_true, beq_iff_eq]
  constructor
  · rintro ⟨rfl, h⟩
    refine ⟨rfl, ?_⟩
    intro key x y hm hy
    have hkey : key ∈ names F c := h1 ▸ List.mem_map.2 ⟨_, hm, rfl⟩
    have hl := (h3 key y hkey).2 hy
    clear h1 hmk h3
    induction as with
    | nil => cases hm
    | cons a as ih =>
      simp only [aeq, Bool.and_eq_true] at h
      rcases List.mem_cons.1 hm with rfl | hm
      · have h := h.1
        simp only [aeq1, hl] at h
        exact h
      · exact ih h.2 hm
  · rintro ⟨rfl, h⟩
    refine ⟨rfl, ?_⟩
    have hsub : ∀ a ∈ as, a.1 ∈ names F c := fun a ha => h1 ▸ List.mem_map.2 ⟨_, ha, rfl⟩
    clear h1 hmk
    induction as with
    | nil => simp [aeq]
    | cons a as ih =>
      obtain ⟨key, x⟩ := a
      simp only [aeq, aeq1, Bool.and_eq_true]
      refine ⟨?_, ih (fun k x y hm hy => h k x y (List.mem_cons_of_mem _ hm) hy)
        (fun a ha => hsub a (List.mem_cons_of_mem _ ha))⟩
      have hkey := hsub _ List.mem_cons_self
      cases hl : lookupVal key bs with
      | none =>
        have := lookup_none hl
        rw [h2] at this
        exact absurd hkey this
      | some y => exact h key x y List.mem_cons_self ((h3 key y hkey).1 hl)

/-- C64: the order of the keyword arguments makes no difference. -/
theorem call_order {c : Nat} {kwargs kwargs' : List (Str × Val)} (hk : (kwargs.map Prod.fst).Nodup)
    (hp : kwargs.Perm kwargs') : makeFact F c kwargs = makeFact F c kwargs' := by
  have hk' : (kwargs'.map Prod.fst).Nodup := (hp.map Prod.fst).nodup_iff.1 hk
  have hl : ∀ key, lookupVal key kwargs = lookupVal key kwargs' := by
    intro key
    cases h : lookupVal key kwargs with
    | some v => rw [mem_lookup hk' (hp.mem_iff.1 (lookup_mem h))]
    | none =>
      cases h' : lookupVal key kwargs' with
      | none => rfl
      | some v => rw [mem_lookup hk (hp.mem_iff.2 (lookup_mem h'))] at h; cases h
  have ha : kwargs.all (fun a => (F.attrs c).any (fun b => b.1 == a.1)) =
      kwargs'.all (fun a => (F.attrs c).any (fun b => b.1 == a.1)) := by
    rw [Bool.eq_iff_iff, List.all_eq_true, List.all_eq_true]
    exact ⟨fun h x hx => h x (hp.mem_iff.2 hx), fun h x hx => h x (hp.mem_iff.1 hx)⟩
  unfold makeFact
  rw [ha]
  simp only [hl]

/-- C64: calling the class raises exactly if an argument is not an attribute, and then `KeyError`. -/
theorem call_refused {c : Nat} {kwargs : List (Str × Val)} {x : Err} :
    makeFact F c kwargs = .error x ↔ x = .keyError ∧ ∃ a ∈ kwargs, a.1 ∉ names F c := by
  have hmem : ∀ a : Str × Val, (F.attrs c).any (fun b => b.1 == a.1) = true ↔ a.1 ∈ names F c := by
    intro a
    rw [List.any_eq_true]
    constructor
    · rintro ⟨y, hy, hye⟩
      exact List.mem_map.2 ⟨y, hy, by simpa using hye⟩
    · intro h
      obtain ⟨y, hy, hye⟩ := List.mem_map.1 h
      exact ⟨y, hy, by simpa using hye⟩
  unfold makeFact
  split
  · rename_i ha
    constructor
    · intro h
      cases h
    · rintro ⟨_, a, ha', hn⟩
      exact absurd ((hmem a).1 (List.all_eq_true.1 ha a ha')) hn
  · rename_i ha
    constructor
    · intro h
      cases h
      refine ⟨rfl, ?_⟩
      have ha : kwargs.all (fun a => (F.attrs c).any (fun b => b.1 == a.1)) = false := by simpa using ha
      obtain ⟨a, h1, h2⟩ := List.all_eq_false.1 ha
      exact ⟨a, h1, fun h => h2 ((hmem a).2 h)⟩
    · rintro ⟨rfl, _⟩
      rfl

/-- C64: equal facts of matches have the same JSON (lists made by user functions apart), if what the grammar
puts in contains no facts. -/
theorem equal_facts_same_json (hF : SaneFacts F) (ho : ∀ r i, I r = some i → OwnAttribute F i)
    (hp : ∀ r i, I r = some i → PlainInterpretator i) (hd : PlainDefaults F)
    (hp' : ∀ r i, I r = some i → FramedInterpretator F i) (hd' : FramedDefaults F)
    (he : ∀ a b, e a b = true ↔ a = b) {root root' : TTree P} {raw raw' : Result} {v v' : Val}
    (h1 : interpretTree F I root = .ok raw) (h2 : interpretTree F I root' = .ok raw')
    (h3 : matchFact F I root = .ok v) (h4 : matchFact F I root' = .ok v') (heq : veq e v v' = true) :
    ∃ j j', factJson F (some raw) = .ok j ∧ factJson F (some raw') = .ok j' ∧ cleanJson j = cleanJson j' := by
  obtain ⟨w, j, a1, a2, a3⟩ := json_agrees_partial hF ho hp hd h1
  obtain ⟨w', j', b1, b2, b3⟩ := json_agrees_partial hF ho hp hd h2
  rw [h3] at a1
  rw [h4] at b1
  cases a1
  cases b1
  rw [equal_facts_same hF he (match_facts_framed hF ho hp' hd' h3) (match_facts_framed hF ho hp' hd' h4)] at heq
  subst heq
  exact ⟨j, j', a2, b2, a3.trans b3.symm⟩

section
variable {H : Type} {hnone : H} {hstr : Str → H} {hobj : Nat → Option H} {htuple : List H → H}

/-- C65: equal facts have equal hashes (or neither has one), if the objects they hold keep to this. -/
theorem equal_facts_equal_hashes (hF : SaneFacts F) (he : ∀ a b, e a b = true → hobj a = hobj b) {v w : Val}
    (hv : Framed F v) (hw : Framed F w) (h : veq e v w = true) :
    vhash hnone hstr hobj htuple v = vhash hnone hstr hobj htuple w :=
  alike_hash he ((veq_iff hF.nodup v w hv hw).1 h)

/-- C65, partial: a fact can be put in a set exactly if there is no list in it and all objects in it can be
hashed. (A repeatable attribute is always a list: `repeatable_fact_unhashable`.) -/
theorem facts_hashable_partial (v : Val) :
    (∃ x, vhash hnone hstr hobj htuple v = some x) ↔ Hashed (fun n => ∃ x, hobj n = some x) v :=
  hashed_iff v

/-- C65 is false for classes with a repeatable attribute: no fact of such a class that was found can be
hashed. -/
theorem repeatable_fact_unhashable (hF : SaneFacts F) {root : TTree P} {c : Nat} {attrs : List (Str × Slot)}
    {modified : List Str} (hres : interpretTree F I root = .ok (.fact c attrs modified)) {v : Val}
    (hv : matchFact F I root = .ok v) {key : Str} (hr : (key, AttrKind.repeatable) ∈ F.attrs c) :
    vhash hnone hstr hobj htuple v = none := by
  have hrep : F.repeatable c key = true := (repeatable_iff hF hr).2 rfl
  unfold matchFact at hv
  rw [hres] at hv
  replace hv : Result.normalized F (.fact c attrs modified) = .ok v := hv
  rw [Result.normalized] at hv
  obtain ⟨kw, hkw, hv⟩ := except_bind_ok hv
  obtain ⟨as, rfl, h1, h2⟩ := makeFact_mem hv
  have hkey : key ∈ as.map Prod.fst := h1 ▸ List.mem_map.2 ⟨_, hr, rfl⟩
  obtain ⟨⟨k, x⟩, hx, rfl⟩ := List.mem_map.1 hkey
  have hlist : ∃ vs, x = .list vs := by
    rcases h2 _ hx with h3 | ⟨_, h3⟩ | h3
    · obtain ⟨slot, _, h4⟩ := normalizedAttrs_mem hkw _ h3
      rw [normalizedAttr] at h4
      have hrep : F.repeatable c k = true := hrep
      simp only [hrep] at h4
      cases slot with
      | default d => rw [normalizedSlot] at h4; cases h4
      | one r => rw [normalizedSlot] at h4; cases h4
      | many rs =>
        rw [normalizedSlot, if_pos rfl] at h4
        obtain ⟨vs, _, h5⟩ := except_map_ok h4
        exact ⟨vs, h5.symm⟩
    · exact ⟨[], h3⟩
    · cases called_fact.pair_unique (hF.nodup c) hr h3
  obtain ⟨vs, rfl⟩ := hlist
  have : ∀ as : List (Str × Val), (k, Val.list vs) ∈ as → ahash hnone hstr hobj htuple as = none := by
    intro as hm
    induction as with
    | nil => cases hm
    | cons a as ih =>
      rw [ahash]
      rcases List.mem_cons.1 hm with rfl | hm
      · simp only [ahash1, vhash]
      · rw [ih hm]
        cases ahash1 hnone hstr hobj htuple a <;> rfl
  rw [vhash, this as hx]
  rfl

end

/-! ### Cases -/

/-- Objects are equal only to themselves. -/
def plainEq (a b : Nat) : Bool := a == b

/-- The same words somewhere else in the text. -/
def laterTree : TTree String :=
  nodeOf 1 [nodeOf 2 [leafOf (sampleWord "ann" 30)], nodeOf 3 [leafOf (sampleWord "x" 34)]]

def earlierTree : TTree String :=
  nodeOf 1 [nodeOf 2 [leafOf (sampleWord "ann" 0)], nodeOf 3 [leafOf (sampleWord "x" 4)]]

/-- The hypotheses of the theorems on matches are met: the facts are equal, and equal to
`Name(tags=['x'], first='ann')`; not to `Name(first='ann')`, where `tags` is empty. -/
example : ∃ v w f g attrs modified, matchFact sampleFacts sampleI earlierTree = .ok v ∧
    matchFact sampleFacts sampleI laterTree = .ok w ∧
    interpretTree sampleFacts sampleI earlierTree = .ok (.fact 0 attrs modified) ∧
    makeFact sampleFacts 0 [(str "tags", .list [.str (str "x")]), (str "first", .str (str "ann"))] = .ok f ∧
    makeFact sampleFacts 0 [(str "first", .str (str "ann"))] = .ok g ∧
    veq plainEq v w = true ∧ veq plainEq v f = true ∧ veq plainEq v g = false ∧
    (str "tags", AttrKind.repeatable) ∈ sampleFacts.attrs 0 :=
  ⟨_, _, _, _, _, _, rfl, rfl, rfl, rfl, rfl, by decide +kernel, by decide +kernel, by decide +kernel,
    .tail _ (.tail _ (.head _))⟩

/-- They are well made, and the interpretations of the sample are as the theorems ask. -/
example : (∀ r i, sampleI r = some i → FramedInterpretator sampleFacts i) ∧ FramedDefaults sampleFacts := by
  refine ⟨?_, ?_⟩
  · intro r i h
    match r, h with
    | 0, h => cases h; trivial
    | 1, h => cases h; trivial
    | 2, h => cases h; trivial
    | 3, h => cases h; trivial
    | 4, h => cases h; trivial
    | 5, h =>
      cases h
      intro v w e
      cases e
      rw [Framed]
      trivial
    | 6, h => cases h; trivial
    | _ + 7, h => cases h
  · intro cls key d h
    match cls, h with
    | 0, h =>
      simp only [sampleFacts, List.mem_cons, Prod.mk.injEq, List.not_mem_nil, or_false] at h
      rcases h with ⟨_, h⟩ | ⟨_, h⟩ | ⟨_, h⟩ <;> cases h <;> rw [Framed] <;> trivial
    | 1, h =>
      simp only [sampleFacts, List.mem_cons, Prod.mk.injEq, List.not_mem_nil, or_false] at h
      rcases h with ⟨_, h⟩ | ⟨_, h⟩ <;> cases h <;> rw [Framed] <;> trivial
    | _ + 2, h => cases h

/-- C64: equal facts may differ in JSON, when one of them was made by calling the class: such a fact has
none, asking for it raises. -/
theorem called_fact_has_no_json : ∃ raw v f j, interpretTree sampleFacts sampleI earlierTree = .ok raw ∧
    matchFact sampleFacts sampleI earlierTree = .ok v ∧
    makeFact sampleFacts 0 [(str "first", .str (str "ann")), (str "tags", .list [.str (str "x")])] = .ok f ∧
    veq plainEq v f = true ∧ factJson sampleFacts (some raw) = .ok j ∧
    factJson sampleFacts none = .error .attributeError :=
  ⟨_, _, _, _, rfl, rfl, rfl, by decide +kernel, rfl, rfl⟩

/-- C64: a fact that holds an object which is not equal to itself (`float('nan')`) is not equal to itself,
unless it holds it in a list. -/
theorem nan_fact_differs : ∃ e : Nat → Nat → Bool,
    (∀ v w as, veq e (.fact 1 ((str "name", .obj 0) :: as)) (.fact v ((str "name", .obj 0) :: w)) = false) ∧
    veq e (.fact 1 [(str "name", .list [.obj 0])]) (.fact 1 [(str "name", .list [.obj 0])]) = true := by
  refine ⟨fun a b => a == b && a != 0, ?_, by decide +kernel⟩
  intro v w as
  simp [veq, aeq, aeq1, lookupVal]

/-- Facts of two classes with the same name and attributes are not equal. -/
theorem classes_differ (c d : Nat) (h : c ≠ d) (as bs : List (Str × Val)) :
    veq e (.fact c as) (.fact d bs) = false := by
  simp [veq, h]

/-- A fact that can be hashed. -/
example : Hashed (fun _ => True) (.fact 1 [(str "name", .none), (str "age", .obj 3)]) := by
  simp [Hashed, HashedAttrs, HashedAttr]

end Yargy
