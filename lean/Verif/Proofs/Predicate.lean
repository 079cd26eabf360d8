import Verif.Spec.Predicate
import Verif.Spec.Match
/-! Evaluation and activation of predicates. -/
namespace Yargy
open Spec

theorem intRequired_iff (L : Lang) (t : Token) (m : Int → Bool) (b : Bool)
    (h : intRequired L t m = .ok b) : b = true ↔ Numeric L t (fun v => m v = true) := by
  unfold intRequired at h
  unfold Numeric
  split at h
  · rename_i ht
    split at h
    · rename_i v hv
      cases h
      constructor
      · intro hm; exact ⟨ht, v, hv, hm⟩
      · rintro ⟨_, v', hv', hm⟩
        rw [hv] at hv'; cases hv'; exact hm
    · cases h
  · rename_i ht
    cases h
    constructor
    · intro h; cases h
    · rintro ⟨h, _⟩; exact absurd h ht

theorem morphRequired_iff (t : Token) (m : Form → Bool) (b : Bool)
    (h : morphRequired t m = .ok b) : b = true ↔ SomeForm t (fun f => m f = true) := by
  unfold morphRequired at h
  unfold SomeForm
  split at h
  · rename_i hn
    cases h
    simp [hn]
  · rename_i fs hn
    cases h
    simp [hn]

theorem dict_iff (L : Lang) (t : Token) (vs : List Str) (b : Bool)
    (h : Pred.call L t (.dict vs) = .ok b) : b = true ↔ ∃ n ∈ vs, NormalForm L t n := by
  unfold Pred.call at h
  unfold NormalForm
  split at h
  · rename_i fs hn
    cases h
    rw [hn]
    simp only [List.any_eq_true, List.contains_iff_mem]
    constructor
    · rintro ⟨f, hf, hm⟩; exact ⟨_, hm, f, hf, rfl⟩
    · rintro ⟨n, hm, f, hf, rfl⟩; exact ⟨f, hf, hm⟩
  · rename_i hn
    cases h
    rw [hn]
    simp

theorem except_bind_ok {ε α β : Type} {x : Except ε α} {f : α → Except ε β} {b : β}
    (h : (x >>= f) = .ok b) : ∃ a, x = .ok a ∧ f a = .ok b := by
  cases x with
  | error e => cases h
  | ok a => exact ⟨a, rfl, h⟩

theorem except_map_ok {ε α β : Type} {x : Except ε α} {f : α → β} {b : β}
    (h : x.map f = .ok b) : ∃ a, x = .ok a ∧ f a = b := by
  cases x with
  | error e => cases h
  | ok a => exact ⟨a, rfl, by cases h; rfl⟩

theorem getMorph_ok {c : Context} {m : Morph} (h : c.getMorph = .ok m) : c.morph = some m := by
  unfold Context.getMorph at h
  split at h
  · cases h; assumption
  · cases h

theorem checkType_ok {c : Context} {v : Str} {u : Unit} (h : c.checkType v = .ok u) :
    v ∈ c.types := by
  unfold Context.checkType at h
  split at h
  · rename_i hc; exact List.contains_iff_mem.1 hc
  · cases h

theorem customP_iff (L : Lang) (t : Token) (f : Nat) (types : List Str) (b : Bool)
    (h : Pred.call L t (.customP f types) = .ok b) :
    b = true ↔ (types = [] ∨ t.type ∈ types) ∧ L.fn f t.value = .ok true := by
  unfold Pred.call at h
  split at h
  · rename_i hc
    cases h
    simp only [Bool.and_eq_true, Bool.not_eq_true', List.isEmpty_eq_false_iff] at hc
    constructor
    · intro h; cases h
    · rintro ⟨h | h, _⟩
      · exact absurd h hc.1
      · simp [h] at hc
  · rename_i hc
    rw [h]
    constructor
    · intro hb
      subst hb
      refine ⟨?_, rfl⟩
      by_cases he : types = []
      · exact Or.inl he
      · refine Or.inr ?_
        simpa [he] using hc
    · rintro ⟨_, h⟩; cases h; rfl

mutual
theorem call_means (L : Lang) (c : Context) (t : Token) : ∀ (p q : Pred) (b : Bool),
    p.activate c = .ok q → q.call L t = .ok b → (b = true ↔ Means L c t p)
  | .true, q, b, ha, hc => by
    simp only [Pred.activate] at ha; cases ha
    simp only [Pred.call] at hc; cases hc; simp [Means]
  | .isLower, q, b, ha, hc => by
    simp only [Pred.activate] at ha; cases ha
    simp only [Pred.call] at hc; cases hc; simp [Means]
  | .isUpper, q, b, ha, hc => by
    simp only [Pred.activate] at ha; cases ha
    simp only [Pred.call] at hc; cases hc; simp [Means]
  | .isTitle, q, b, ha, hc => by
    simp only [Pred.activate] at ha; cases ha
    simp only [Pred.call] at hc; cases hc; simp [Means]
  | .isCapitalized, q, b, ha, hc => by
    simp only [Pred.activate] at ha; cases ha
    simp only [Pred.call] at hc
    simp only [Means]
    split at hc
    · cases hc
    · rename_i ch rest hv
      cases hc
      constructor
      · intro h; exact ⟨_, _, hv, h⟩
      · rintro ⟨ch', rest', hv', h⟩
        rw [hv] at hv'; cases hv'; exact h
  | .eq v, q, b, ha, hc => by
    simp only [Pred.activate] at ha; cases ha
    simp only [Pred.call] at hc; cases hc; simp [Means]
  | .lengthEq v, q, b, ha, hc => by
    simp only [Pred.activate] at ha; cases ha
    simp only [Pred.call] at hc; cases hc; simp [Means]
  | .gte v, q, b, ha, hc => by
    simp only [Pred.activate] at ha; cases ha
    simp only [Pred.call] at hc
    simpa [Means] using intRequired_iff L t _ b hc
  | .lte v, q, b, ha, hc => by
    simp only [Pred.activate] at ha; cases ha
    simp only [Pred.call] at hc
    simpa [Means] using intRequired_iff L t _ b hc
  | .caseless v, q, b, ha, hc => by
    simp only [Pred.activate] at ha; cases ha
    simp only [Pred.call] at hc; cases hc; simp [Means]
  | .in_ v, q, b, ha, hc => by
    simp only [Pred.activate] at ha; cases ha
    simp only [Pred.call] at hc; cases hc; simp [Means]
  | .inCaseless v, q, b, ha, hc => by
    simp only [Pred.activate] at ha; cases ha
    simp only [Pred.call] at hc; cases hc; simp [Means]
  | .normalized v, q, b, ha, hc => by
    simp only [Pred.activate] at ha
    obtain ⟨m, hm, h⟩ := except_bind_ok ha
    cases h
    have := getMorph_ok hm
    rw [dict_iff L t _ b hc]
    simp only [Means, this]
    constructor
    · rintro ⟨n, hn, hf⟩; exact ⟨m, n, rfl, hn, hf⟩
    · rintro ⟨m', n, h, hn, hf⟩; cases h; exact ⟨n, hn, hf⟩
  | .dictionary [], q, b, ha, hc => by
    simp only [Pred.activate] at ha; cases ha
    rw [dict_iff L t _ b hc]
    simp [Means]
  | .dictionary (v :: vs), q, b, ha, hc => by
    simp only [Pred.activate] at ha
    obtain ⟨m, hm, h⟩ := except_bind_ok ha
    cases h
    have := getMorph_ok hm
    rw [dict_iff L t _ b hc]
    simp only [Means, this, List.mem_flatMap]
    constructor
    · rintro ⟨n, ⟨v', hv, hn⟩, hf⟩; exact ⟨m, v', n, rfl, hv, hn, hf⟩
    · rintro ⟨m', v', n, h, hv, hn, hf⟩; cases h; exact ⟨n, ⟨v', hv, hn⟩, hf⟩
  | .dict vs, q, b, ha, hc => by
    simp only [Pred.activate] at ha; cases ha
    simpa [Means] using dict_iff L t _ b hc
  | .gram g, q, b, ha, hc => by
    simp only [Pred.activate] at ha
    obtain ⟨m, hm, h⟩ := except_bind_ok ha
    split at h
    · cases h
      simp only [Pred.call] at hc
      simpa [Means] using morphRequired_iff t _ b hc
    · cases h
  | .gramP g, q, b, ha, hc => by
    simp only [Pred.activate] at ha; cases ha
    simp only [Pred.call] at hc
    simpa [Means] using morphRequired_iff t _ b hc
  | .type v, q, b, ha, hc => by
    simp only [Pred.activate] at ha
    obtain ⟨m, hm, h⟩ := except_bind_ok ha
    cases h
    simp only [Pred.call] at hc; cases hc; simp [Means]
  | .typeP v, q, b, ha, hc => by
    simp only [Pred.activate] at ha; cases ha
    simp only [Pred.call] at hc; cases hc; simp [Means]
  | .tag v, q, b, ha, hc => by
    simp only [Pred.activate] at ha; cases ha
    simp only [Pred.call] at hc
    simp only [Means]
    split at hc
    · rename_i hv; cases hc; simp [hv]
    · rename_i hv; cases hc; simp [hv]
  | .tagP v, q, b, ha, hc => by
    simp only [Pred.activate] at ha; cases ha
    simp only [Pred.call] at hc
    simp only [Means]
    split at hc
    · rename_i hv; cases hc; simp [hv]
    · rename_i hv; cases hc; simp [hv]
  | .isSingle, q, b, ha, hc => by
    simp only [Pred.activate] at ha; cases ha
    simp only [Pred.call] at hc
    simpa [Means, Form.isSingle] using morphRequired_iff t _ b hc
  | .custom f types, q, b, ha, hc => by
    simp only [Pred.activate] at ha
    obtain ⟨m, hm, h⟩ := except_bind_ok ha
    cases h
    simpa [Means] using customP_iff L t f types b hc
  | .customP f types, q, b, ha, hc => by
    simp only [Pred.activate] at ha; cases ha
    simpa [Means] using customP_iff L t f types b hc
  | .and_ ps, q, b, ha, hc => by
    simp only [Pred.activate] at ha
    obtain ⟨qs, hq, h⟩ := except_bind_ok ha
    cases h
    simp only [Pred.call] at hc
    simpa [Means] using callAnd_means L c t ps qs b hq hc
  | .or_ ps, q, b, ha, hc => by
    simp only [Pred.activate] at ha
    obtain ⟨qs, hq, h⟩ := except_bind_ok ha
    cases h
    simp only [Pred.call] at hc
    simpa [Means] using callOr_means L c t ps qs b hq hc
  | .not_ p, q, b, ha, hc => by
    simp only [Pred.activate] at ha
    obtain ⟨q', hq, h⟩ := except_bind_ok ha
    cases h
    simp only [Pred.call] at hc
    obtain ⟨b', hb, h⟩ := except_map_ok hc
    have := call_means L c t p q' b' hq hb
    subst h
    simp only [Means, ← this]
    cases b' <;> simp
theorem callAnd_means (L : Lang) (c : Context) (t : Token) : ∀ (ps qs : List Pred) (b : Bool),
    activateAll c ps = .ok qs → callAnd L t qs = .ok b → (b = true ↔ MeansAll L c t ps)
  | [], qs, b, ha, hc => by
    simp only [activateAll] at ha; cases ha
    simp only [callAnd] at hc; cases hc; simp [MeansAll]
  | p :: ps, qs, b, ha, hc => by
    simp only [activateAll] at ha
    obtain ⟨q, hq, h⟩ := except_bind_ok ha
    obtain ⟨qs', hqs, h⟩ := except_bind_ok h
    cases h
    simp only [callAnd] at hc
    simp only [MeansAll]
    split at hc
    · cases hc
    · rename_i hb
      cases hc
      have := call_means L c t p q _ hq hb
      simp [← this]
    · rename_i hb
      have := call_means L c t p q _ hq hb
      rw [callAnd_means L c t ps qs' b hqs hc]
      simp [← this]
theorem callOr_means (L : Lang) (c : Context) (t : Token) : ∀ (ps qs : List Pred) (b : Bool),
    activateAll c ps = .ok qs → callOr L t qs = .ok b → (b = true ↔ MeansAny L c t ps)
  | [], qs, b, ha, hc => by
    simp only [activateAll] at ha; cases ha
    simp only [callOr] at hc; cases hc; simp [MeansAny]
  | p :: ps, qs, b, ha, hc => by
    simp only [activateAll] at ha
    obtain ⟨q, hq, h⟩ := except_bind_ok ha
    obtain ⟨qs', hqs, h⟩ := except_bind_ok h
    cases h
    simp only [callOr] at hc
    simp only [MeansAny]
    split at hc
    · cases hc
    · rename_i hb
      cases hc
      have := call_means L c t p q _ hq hb
      simp [← this]
    · rename_i hb
      have := call_means L c t p q _ hq hb
      rw [callOr_means L c t ps qs' b hqs hc]
      simp [← this]
end

theorem meansAll_iff (L : Lang) (c : Context) (t : Token) (ps : List Pred) :
    MeansAll L c t ps ↔ ∀ p ∈ ps, Means L c t p := by
  induction ps with
  | nil => simp [MeansAll]
  | cons p ps ih => simp [MeansAll, ih]

theorem meansAny_iff (L : Lang) (c : Context) (t : Token) (ps : List Pred) :
    MeansAny L c t ps ↔ ∃ p ∈ ps, Means L c t p := by
  induction ps with
  | nil => simp [MeansAny]
  | cons p ps ih => simp [MeansAny, ih]

theorem forM_check (c : Context) (types : List Str) :
    (∃ u, types.forM c.checkType = .ok u) ↔ ∀ v ∈ types, v ∈ c.types := by
  induction types with
  | nil => simp [pure, Except.pure]
  | cons v vs ih =>
    show (∃ u, (c.checkType v >>= fun _ => vs.forM c.checkType) = .ok u) ↔ _
    simp only [List.mem_cons, forall_eq_or_imp, ← ih]
    constructor
    · rintro ⟨u, h⟩
      obtain ⟨a, ha, hb⟩ := except_bind_ok h
      exact ⟨checkType_ok ha, u, hb⟩
    · rintro ⟨hv, u, h⟩
      refine ⟨u, ?_⟩
      have : c.checkType v = .ok () := by simp [Context.checkType, hv]
      rw [this]
      exact h

mutual
theorem activate_iff (c : Context) : ∀ (p : Pred),
    (∃ q, p.activate c = .ok q) ↔ ∀ q, PredPart q p → Known c q
  | .and_ ps => by
    simp only [Pred.activate]
    constructor
    · rintro ⟨q, h⟩
      obtain ⟨qs, hq, h⟩ := except_bind_ok h
      intro r hr
      cases hr with
      | refl => exact trivial
      | and_ hm hr => exact (activateAll_iff c ps).1 ⟨qs, hq⟩ _ hm _ hr
    · intro h
      obtain ⟨qs, hq⟩ := (activateAll_iff c ps).2 (fun p hp r hr => h r (.and_ hp hr))
      exact ⟨.and_ qs, by rw [hq]; rfl⟩
  | .or_ ps => by
    simp only [Pred.activate]
    constructor
    · rintro ⟨q, h⟩
      obtain ⟨qs, hq, h⟩ := except_bind_ok h
      intro r hr
      cases hr with
      | refl => exact trivial
      | or_ hm hr => exact (activateAll_iff c ps).1 ⟨qs, hq⟩ _ hm _ hr
    · intro h
      obtain ⟨qs, hq⟩ := (activateAll_iff c ps).2 (fun p hp r hr => h r (.or_ hp hr))
      exact ⟨.or_ qs, by rw [hq]; rfl⟩
  | .not_ p => by
    simp only [Pred.activate]
    constructor
    · rintro ⟨q, h⟩
      obtain ⟨qs, hq, h⟩ := except_bind_ok h
      intro r hr
      cases hr with
      | refl => exact trivial
      | not_ hr => exact (activate_iff c p).1 ⟨qs, hq⟩ _ hr
    · intro h
      obtain ⟨q, hq⟩ := (activate_iff c p).2 (fun r hr => h r (.not_ hr))
      exact ⟨.not_ q, by rw [hq]; rfl⟩
  | .normalized v => by
    constructor
    · rintro ⟨q, h⟩ r hr
      cases hr
      simp only [Pred.activate] at h
      obtain ⟨m, hm, _⟩ := except_bind_ok h
      exact ⟨m, getMorph_ok hm⟩
    · intro h
      obtain ⟨m, hm⟩ := h _ .refl
      simp [Pred.activate, Context.getMorph, hm, Bind.bind, Except.bind, pure, Except.pure]
  | .dictionary [] => by
    constructor
    · rintro ⟨q, h⟩ r hr
      cases hr
      exact Or.inl rfl
    · intro h
      exact ⟨_, rfl⟩
  | .dictionary (v :: vs) => by
    constructor
    · rintro ⟨q, h⟩ r hr
      cases hr
      simp only [Pred.activate] at h
      obtain ⟨m, hm, _⟩ := except_bind_ok h
      exact Or.inr ⟨m, getMorph_ok hm⟩
    · intro h
      rcases h _ .refl with h | ⟨m, hm⟩
      · cases h
      · simp [Pred.activate, Context.getMorph, hm, Bind.bind, Except.bind, pure, Except.pure]
  | .gram g => by
    constructor
    · rintro ⟨q, h⟩ r hr
      cases hr
      simp only [Pred.activate] at h
      obtain ⟨m, hm, h⟩ := except_bind_ok h
      refine ⟨m, getMorph_ok hm, ?_⟩
      split at h
      · assumption
      · cases h
    · intro h
      obtain ⟨m, hm, hk⟩ := h _ .refl
      simp [Pred.activate, Context.getMorph, hm, hk, Bind.bind, Except.bind, pure, Except.pure]
  | .type v => by
    constructor
    · rintro ⟨q, h⟩ r hr
      cases hr
      simp only [Pred.activate] at h
      obtain ⟨m, hm, h⟩ := except_bind_ok h
      exact checkType_ok hm
    · intro h
      have : v ∈ c.types := h _ .refl
      simp [Pred.activate, Context.checkType, this, Bind.bind, Except.bind, pure, Except.pure]
  | .custom f types => by
    constructor
    · rintro ⟨q, h⟩ r hr
      cases hr
      simp only [Pred.activate] at h
      obtain ⟨m, hm, h⟩ := except_bind_ok h
      exact (forM_check c types).1 ⟨m, hm⟩
    · intro h
      obtain ⟨u, hu⟩ := (forM_check c types).2 (h _ .refl)
      exact ⟨.customP f types, by simp only [Pred.activate, hu]; rfl⟩
  | .tag v => ⟨fun _ r hr => by cases hr; trivial, fun _ => ⟨_, rfl⟩⟩
  | .true => ⟨fun _ r hr => by cases hr; trivial, fun _ => ⟨_, rfl⟩⟩
  | .isLower => ⟨fun _ r hr => by cases hr; trivial, fun _ => ⟨_, rfl⟩⟩
  | .isUpper => ⟨fun _ r hr => by cases hr; trivial, fun _ => ⟨_, rfl⟩⟩
  | .isTitle => ⟨fun _ r hr => by cases hr; trivial, fun _ => ⟨_, rfl⟩⟩
  | .isCapitalized => ⟨fun _ r hr => by cases hr; trivial, fun _ => ⟨_, rfl⟩⟩
  | .eq _ => ⟨fun _ r hr => by cases hr; trivial, fun _ => ⟨_, rfl⟩⟩
  | .lengthEq _ => ⟨fun _ r hr => by cases hr; trivial, fun _ => ⟨_, rfl⟩⟩
  | .gte _ => ⟨fun _ r hr => by cases hr; trivial, fun _ => ⟨_, rfl⟩⟩
  | .lte _ => ⟨fun _ r hr => by cases hr; trivial, fun _ => ⟨_, rfl⟩⟩
  | .caseless _ => ⟨fun _ r hr => by cases hr; trivial, fun _ => ⟨_, rfl⟩⟩
  | .in_ _ => ⟨fun _ r hr => by cases hr; trivial, fun _ => ⟨_, rfl⟩⟩
  | .inCaseless _ => ⟨fun _ r hr => by cases hr; trivial, fun _ => ⟨_, rfl⟩⟩
  | .dict _ => ⟨fun _ r hr => by cases hr; trivial, fun _ => ⟨_, rfl⟩⟩
  | .gramP _ => ⟨fun _ r hr => by cases hr; trivial, fun _ => ⟨_, rfl⟩⟩
  | .typeP _ => ⟨fun _ r hr => by cases hr; trivial, fun _ => ⟨_, rfl⟩⟩
  | .tagP _ => ⟨fun _ r hr => by cases hr; trivial, fun _ => ⟨_, rfl⟩⟩
  | .isSingle => ⟨fun _ r hr => by cases hr; trivial, fun _ => ⟨_, rfl⟩⟩
  | .customP _ _ => ⟨fun _ r hr => by cases hr; trivial, fun _ => ⟨_, rfl⟩⟩
theorem activateAll_iff (c : Context) : ∀ (ps : List Pred),
    (∃ qs, activateAll c ps = .ok qs) ↔ ∀ p ∈ ps, ∀ q, PredPart q p → Known c q
  | [] => ⟨fun _ p hp => (by cases hp), fun _ => ⟨[], rfl⟩⟩
  | p :: ps => by
    simp only [activateAll, List.mem_cons, forall_eq_or_imp]
    rw [← activate_iff c p, ← activateAll_iff c ps]
    constructor
    · rintro ⟨r, h⟩
      obtain ⟨q, hq, h⟩ := except_bind_ok h
      obtain ⟨qs, hqs, h⟩ := except_bind_ok h
      exact ⟨⟨q, hq⟩, qs, hqs⟩
    · rintro ⟨⟨q, hq⟩, qs, hqs⟩
      exact ⟨q :: qs, by rw [hq, hqs]; rfl⟩
end

mutual
theorem activate_runnable (c : Context) : ∀ (p q : Pred), p.activate c = .ok q →
    ∀ r, PredPart r q → ¬ Scheme r
  | .and_ ps, q, h => by
    simp only [Pred.activate] at h
    obtain ⟨qs, hq, h⟩ := except_bind_ok h
    cases h
    intro r hr
    cases hr with
    | refl => exact id
    | and_ hm hr => exact activateAll_runnable c ps qs hq _ hm _ hr
  | .or_ ps, q, h => by
    simp only [Pred.activate] at h
    obtain ⟨qs, hq, h⟩ := except_bind_ok h
    cases h
    intro r hr
    cases hr with
    | refl => exact id
    | or_ hm hr => exact activateAll_runnable c ps qs hq _ hm _ hr
  | .not_ p, q, h => by
    simp only [Pred.activate] at h
    obtain ⟨q', hq, h⟩ := except_bind_ok h
    cases h
    intro r hr
    cases hr with
    | refl => exact id
    | not_ hr => exact activate_runnable c p q' hq _ hr
  | .normalized v, q, h => by
    simp only [Pred.activate] at h
    obtain ⟨q', hq, h⟩ := except_bind_ok h
    cases h
    intro r hr; cases hr; exact id
  | .dictionary [], q, h => by cases h; intro r hr; cases hr; exact id
  | .dictionary (v :: vs), q, h => by
    simp only [Pred.activate] at h
    obtain ⟨q', hq, h⟩ := except_bind_ok h
    cases h
    intro r hr; cases hr; exact id
  | .gram g, q, h => by
    simp only [Pred.activate] at h
    obtain ⟨q', hq, h⟩ := except_bind_ok h
    split at h
    · cases h
      intro r hr; cases hr; exact id
    · cases h
  | .type v, q, h => by
    simp only [Pred.activate] at h
    obtain ⟨q', hq, h⟩ := except_bind_ok h
    cases h
    intro r hr; cases hr; exact id
  | .custom f types, q, h => by
    simp only [Pred.activate] at h
    obtain ⟨q', hq, h⟩ := except_bind_ok h
    cases h
    intro r hr; cases hr; exact id
  | .tag v, q, h => by cases h; intro r hr; cases hr; exact id
  | .true, q, h => by cases h; intro r hr; cases hr; exact id
  | .isLower, q, h => by cases h; intro r hr; cases hr; exact id
  | .isUpper, q, h => by cases h; intro r hr; cases hr; exact id
  | .isTitle, q, h => by cases h; intro r hr; cases hr; exact id
  | .isCapitalized, q, h => by cases h; intro r hr; cases hr; exact id
  | .eq _, q, h => by cases h; intro r hr; cases hr; exact id
  | .lengthEq _, q, h => by cases h; intro r hr; cases hr; exact id
  | .gte _, q, h => by cases h; intro r hr; cases hr; exact id
  | .lte _, q, h => by cases h; intro r hr; cases hr; exact id
  | .caseless _, q, h => by cases h; intro r hr; cases hr; exact id
  | .in_ _, q, h => by cases h; intro r hr; cases hr; exact id
  | .inCaseless _, q, h => by cases h; intro r hr; cases hr; exact id
  | .dict _, q, h => by cases h; intro r hr; cases hr; exact id
  | .gramP _, q, h => by cases h; intro r hr; cases hr; exact id
  | .typeP _, q, h => by cases h; intro r hr; cases hr; exact id
  | .tagP _, q, h => by cases h; intro r hr; cases hr; exact id
  | .isSingle, q, h => by cases h; intro r hr; cases hr; exact id
  | .customP _ _, q, h => by cases h; intro r hr; cases hr; exact id
theorem activateAll_runnable (c : Context) : ∀ (ps qs : List Pred), activateAll c ps = .ok qs →
    ∀ q ∈ qs, ∀ r, PredPart r q → ¬ Scheme r
  | [], qs, h => by
    cases h
    intro q hq; cases hq
  | p :: ps, qs, h => by
    simp only [activateAll] at h
    obtain ⟨q, hq, h⟩ := except_bind_ok h
    obtain ⟨qs', hqs, h⟩ := except_bind_ok h
    cases h
    intro r hr
    rcases List.mem_cons.1 hr with h | h
    · subst h; exact activate_runnable c p _ hq
    · exact activateAll_runnable c ps qs' hqs r h
end

/-- `constrain` of an accepting predicate answers, and only narrows. -/
theorem constrain_narrows (L : Lang) (p : Pred) (t : Token) (h : p.call L t = .ok true) :
    ∃ t', p.constrain t = .ok t' ∧ Narrowed t t' := by
  have same : Narrowed t t := ⟨rfl, rfl, rfl, rfl, id, fun fs hf => ⟨fs, hf, fun _ h => h, id⟩⟩
  have narrow : ∀ (test : Form → Bool), morphRequired t test = .ok true →
      ∃ fs, t.forms = some fs ∧ ∃ t', t.constrained (fs.filter test) = .ok t' ∧ Narrowed t t' := by
    intro test h
    unfold morphRequired at h
    split at h
    · cases h
    · rename_i fs hf
      refine ⟨fs, hf, { t with forms := some (fs.filter test) }, by simp [Token.constrained, hf],
        ⟨rfl, rfl, rfl, rfl, fun h => (by rw [hf] at h; cases h), ?_⟩⟩
      intro fs' hf'
      rw [hf] at hf'; cases hf'
      refine ⟨_, rfl, fun f h => (List.mem_filter.1 h).1, fun _ hn => ?_⟩
      injection h with h
      obtain ⟨f, hfm, hft⟩ := List.any_eq_true.1 h
      have : f ∈ fs.filter test := List.mem_filter.2 ⟨hfm, hft⟩
      rw [hn] at this; cases this
  cases p with
  | gramP g =>
    simp only [Pred.call] at h
    obtain ⟨fs, hf, t', ht, hn⟩ := narrow _ h
    exact ⟨t', by simp only [Pred.constrain, hf]; exact ht, hn⟩
  | isSingle =>
    simp only [Pred.call] at h
    obtain ⟨fs, hf, t', ht, hn⟩ := narrow _ h
    exact ⟨t', by simp only [Pred.constrain, hf]; exact ht, hn⟩
  | _ => exact ⟨t, rfl, same⟩

end Yargy
