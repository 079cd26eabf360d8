import Verif.Spec.Tokenizer
/-! Lemmas about tokenizers. -/
namespace Yargy
open Spec

/-! ### Patterns -/

theorem repEnds_sound {body : Str → List Nat} {M : Str → Prop}
    (h : ∀ s, ∀ k ∈ body s, k ≤ s.length ∧ M (s.take k)) :
    ∀ max min s k, k ∈ repEnds body min max s →
      k ≤ s.length ∧ ∃ n, min ≤ n ∧ n ≤ max ∧ Copies M n (s.take k) := by
  intro max
  induction max with
  | zero =>
    intro min s k hk
    rw [repEnds] at hk
    split at hk
    · have hk0 : k = 0 := by simpa using hk
      subst hk0
      exact ⟨Nat.zero_le _, 0, by omega, Nat.le_refl _, by simpa using Copies.zero⟩
    · cases hk
  | succ max ih =>
    intro min s k hk
    rw [repEnds, List.mem_append] at hk
    rcases hk with hk | hk
    · obtain ⟨j, hj, hk⟩ := List.mem_flatMap.1 hk
      obtain ⟨i, hi, rfl⟩ := List.mem_map.1 hk
      obtain ⟨h1, h2⟩ := h s j hj
      obtain ⟨h3, n, h4, h5, h6⟩ := ih _ _ _ hi
      rw [List.length_drop] at h3
      refine ⟨by omega, n + 1, by omega, by omega, ?_⟩
      have e : s.take (j + i) = s.take j ++ (s.drop j).take i := List.take_add
      rw [e]
      exact .succ h2 h6
    · split at hk
      · have hk0 : k = 0 := by simpa using hk
        subst hk0
        exact ⟨Nat.zero_le _, 0, by omega, Nat.zero_le _, by simpa using Copies.zero⟩
      · cases hk

theorem ends_sound (r : Re) : ∀ s, ∀ k ∈ r.ends s, k ≤ s.length ∧ ReMatches r (s.take k) := by
  induction r with
  | cls p =>
    intro s k hk
    cases s with
    | nil => cases hk
    | cons c s =>
      rw [Re.ends] at hk
      split at hk
      · next hc =>
        have hk1 : k = 1 := by simpa using hk
        subst hk1
        exact ⟨by simp, c, hc, by simp⟩
      · cases hk
  | seq a b iha ihb =>
    intro s k hk
    rw [Re.ends] at hk
    obtain ⟨j, hj, hk⟩ := List.mem_flatMap.1 hk
    obtain ⟨i, hi, rfl⟩ := List.mem_map.1 hk
    obtain ⟨h1, h2⟩ := iha s j hj
    obtain ⟨h3, h4⟩ := ihb _ i hi
    rw [List.length_drop] at h3
    exact ⟨by omega, _, _, List.take_add, h2, h4⟩
  | opt a iha =>
    intro s k hk
    rw [Re.ends, List.mem_append] at hk
    rcases hk with hk | hk
    · obtain ⟨h1, h2⟩ := iha s k hk
      exact ⟨h1, .inr h2⟩
    · have hk0 : k = 0 := by simpa using hk
      subst hk0
      exact ⟨Nat.zero_le _, .inl (by simp)⟩
  | rep a min max iha =>
    intro s k hk
    rw [Re.ends] at hk
    obtain ⟨h1, n, h2, h3, h4⟩ := repEnds_sound (M := ReMatches a) iha _ _ _ _ hk
    refine ⟨h1, n, h2, ?_, h4⟩
    intro m hm
    subst hm
    exact h3

theorem repEnds_complete {body : Str → List Nat} {M : Str → Prop}
    (h : ∀ u v, M u → u.length ∈ body (u ++ v)) {n w} (hc : Copies M n w) :
    ∀ min max v, min ≤ n → n ≤ max → w.length ∈ repEnds body min max (w ++ v) := by
  induction hc with
  | zero =>
    intro min max v h1 h2
    have h0 : min = 0 := by omega
    subst h0
    cases max <;> simp [repEnds]
  | @succ n u v' hu _ ih =>
    intro min max v h1 h2
    obtain ⟨max, rfl⟩ : ∃ m, max = m + 1 := ⟨max - 1, by omega⟩
    rw [repEnds, List.mem_append]
    refine .inl (List.mem_flatMap.2 ⟨u.length, ?_, List.mem_map.2 ⟨v'.length, ?_, ?_⟩⟩)
    · rw [List.append_assoc]
      exact h _ _ hu
    · rw [List.append_assoc, List.drop_left]
      exact ih _ _ _ (by omega) (by omega)
    · rw [List.length_append]

theorem copies_length {M : Str → Prop} (h : ¬ M []) {n w} (hc : Copies M n w) : n ≤ w.length := by
  induction hc with
  | zero => exact Nat.le_refl _
  | @succ n u v hu _ ih =>
    rw [List.length_append]
    have : u.length ≠ 0 := fun h0 => h (List.length_eq_zero_iff.1 h0 ▸ hu)
    omega

theorem ends_complete (r : Re) (hp : ReProper r) :
    ∀ u v, ReMatches r u → u.length ∈ r.ends (u ++ v) := by
  induction r with
  | cls p =>
    intro u v ⟨c, hc, hu⟩
    subst hu
    simp [Re.ends, hc]
  | seq a b iha ihb =>
    intro w v ⟨x, y, hw, hx, hy⟩
    subst hw
    rw [Re.ends]
    refine List.mem_flatMap.2 ⟨x.length, ?_, List.mem_map.2 ⟨y.length, ?_, ?_⟩⟩
    · rw [List.append_assoc]
      exact iha hp.1 _ _ hx
    · rw [List.append_assoc, List.drop_left]
      exact ihb hp.2 _ _ hy
    · rw [List.length_append]
  | opt a iha =>
    intro u v hu
    rw [Re.ends, List.mem_append]
    rcases hu with hu | hu
    · subst hu
      exact .inr (by simp)
    · exact .inl (iha hp _ _ hu)
  | rep a min max iha =>
    intro u v ⟨n, h1, h2, h3⟩
    rw [Re.ends]
    refine repEnds_complete (iha hp.1) h3 _ _ _ h1 ?_
    cases max with
    | some m => exact h2 m rfl
    | none =>
      have := copies_length (hp.2 rfl) h3
      rw [Option.getD_none, List.length_append]
      omega

theorem re_inside (r : Re) (id type) : Inside (r.rule id type) := by
  intro text i hi k hk
  have := (ends_sound r _ k hk).1
  rw [List.length_drop] at this
  omega

/-! ### Choosing by priority -/

variable {rules : List TokenRule} {text : Str}

theorem matchAt_some {adv : Bool} {i f} (h : matchAt rules text adv i = some f) :
    Chooses rules text (adv = true) i f := by
  unfold matchAt candidates at h
  induction rules with
  | nil => cases h
  | cons r rest ih =>
    rw [List.flatMap_cons, List.find?_append] at h
    cases hr : ((r.ends text i).map (fun k => (⟨r.type, i, k⟩ : Found))).find?
        (fun f => !(adv && f.len == 0)) with
    | some g =>
      rw [hr] at h
      have hg : g = f := by simpa using h
      subst hg
      rw [List.find?_map] at hr
      obtain ⟨k, hk, hg⟩ := Option.map_eq_some_iff.1 hr
      obtain ⟨h1, as, bs, h2, h3⟩ := List.find?_eq_some_iff_append.1 hk
      refine ⟨[], r, rest, as, k, bs, rfl, fun q hq => (by cases hq), h2, ?_, ?_, hg.symm⟩
      · intro j hj
        have := h3 j hj
        simpa using this
      · intro hn
        simp [hn.1, hn.2] at h1
    | none =>
      rw [hr, Option.none_or] at h
      obtain ⟨pre, r', post, b, k, w, h1, h2, h3, h4, h5, h6⟩ := ih h
      refine ⟨r :: pre, r', post, b, k, w, by rw [h1]; rfl, ?_, h3, h4, h5, h6⟩
      intro q hq j hj
      rcases List.mem_cons.1 hq with hq | hq
      · subst hq
        have := List.find?_eq_none.1 hr _ (List.mem_map.2 ⟨j, hj, rfl⟩)
        simpa using this
      · exact h2 q hq j hj

theorem matchAt_none {adv : Bool} {i} (h : matchAt rules text adv i = none) :
    Skips rules text (adv = true) i := by
  intro r hr j hj
  have := List.find?_eq_none.1 h ⟨r.type, i, j⟩
    (List.mem_flatMap.2 ⟨r, hr, List.mem_map.2 ⟨j, hj, rfl⟩⟩)
  simpa using this

theorem skips_congr {a b : Prop} {i} (hab : a ↔ b) (h : Skips rules text a i) :
    Skips rules text b i := fun r hr j hj => ⟨hab.1 (h r hr j hj).1, (h r hr j hj).2⟩

theorem chooses_congr {a b : Prop} {i f} (hab : a ↔ b) (h : Chooses rules text a i f) :
    Chooses rules text b i f := by
  rwa [propext hab] at h

theorem chooses_not_skips {a : Prop} {i f} (h : Chooses rules text a i f)
    (hs : Skips rules text a i) : False := by
  obtain ⟨pre, r, post, b, k, w, h1, _, h3, _, h5, _⟩ := h
  exact h5 (hs r (by rw [h1]; simp) k (by rw [h3]; simp))

theorem first_unique {α : Type} {good : α → Prop} {l pre post pre' post' : List α} {x y : α}
    (h : l = pre ++ x :: post) (h' : l = pre' ++ y :: post')
    (hp : ∀ a ∈ pre, ¬ good a) (hp' : ∀ a ∈ pre', ¬ good a) (hx : good x) (hy : good y) :
    x = y := by
  rw [h] at h'
  clear h
  revert h' hp hp'
  induction pre generalizing pre' with
  | nil =>
    intro h' hp hp'
    cases pre' with
    | nil => exact (List.cons.inj h').1
    | cons a pre' =>
      have e : x = a := (List.cons.inj h').1
      exact absurd (e ▸ hx) (hp' a List.mem_cons_self)
  | cons a pre ih =>
    intro h' hp hp'
    cases pre' with
    | nil =>
      have e : a = y := (List.cons.inj h').1
      exact absurd (e ▸ hy) (hp a List.mem_cons_self)
    | cons b pre' =>
      exact ih (List.cons.inj h').2 (fun c hc => hp c (List.mem_cons_of_mem _ hc))
        (fun c hc => hp' c (List.mem_cons_of_mem _ hc))

theorem chooses_unique {a : Prop} {i f g} (h : Chooses rules text a i f)
    (h' : Chooses rules text a i g) : f = g := by
  obtain ⟨pre, r, post, b, k, w, h1, h2, h3, h4, h5, h6⟩ := h
  obtain ⟨pre', r', post', b', k', w', h1', h2', h3', h4', h5', h6'⟩ := h'
  have hr : r = r' := first_unique (good := fun q => ∃ j ∈ q.ends text i, ¬ (a ∧ j = 0)) h1 h1'
    (fun q hq ⟨j, hj, hn⟩ => hn (h2 q hq j hj)) (fun q hq ⟨j, hj, hn⟩ => hn (h2' q hq j hj))
    ⟨k, by rw [h3]; simp, h5⟩ ⟨k', by rw [h3']; simp, h5'⟩
  subst hr
  have hk : k = k' := first_unique (good := fun j => ¬ (a ∧ j = 0)) h3 h3'
    (fun j hj hn => hn (h4 j hj)) (fun j hj hn => hn (h4' j hj)) h5 h5'
  subst hk
  rw [h6, h6']

theorem chooses_start {a : Prop} {i f} (h : Chooses rules text a i f) : f.start = i := by
  obtain ⟨pre, r, post, b, k, w, _, _, _, _, _, h6⟩ := h
  rw [h6]

theorem chooses_inside (hin : ∀ r ∈ rules, Inside r) {a : Prop} {i f} (hi : i ≤ text.length)
    (h : Chooses rules text a i f) : i + f.len ≤ text.length := by
  obtain ⟨pre, r, post, b, k, w, h1, _, h3, _, _, h6⟩ := h
  rw [h6]
  exact hin r (by rw [h1]; simp) _ _ hi k (by rw [h3]; simp)

theorem chooses_len {a : Prop} {i f} (h : Chooses rules text a i f) : ¬ (a ∧ f.len = 0) := by
  obtain ⟨pre, r, post, b, k, w, _, _, _, _, h5, h6⟩ := h
  rw [h6]
  exact h5

theorem search_some : ∀ n {adv : Bool} {i f}, search rules text adv i n = some f →
    ∃ p, i ≤ p ∧ p < i + n ∧ (∀ q, i ≤ q → q < p → Skips rules text (adv = true ∧ q = i) q) ∧
      Chooses rules text (adv = true ∧ p = i) p f := by
  intro n
  induction n with
  | zero => intro adv i f h; cases h
  | succ n ih =>
    intro adv i f h
    rw [search] at h
    split at h
    · next g hg =>
      have e : g = f := by simpa using h
      subst e
      exact ⟨i, Nat.le_refl _, by omega, fun q h1 h2 => by omega,
        chooses_congr (by simp) (matchAt_some hg)⟩
    · next hg =>
      obtain ⟨p, h1, h2, h3, h4⟩ := ih h
      refine ⟨p, by omega, by omega, ?_, chooses_congr ?_ h4⟩
      · intro q hq1 hq2
        by_cases hqi : q = i
        · subst hqi
          exact skips_congr (by simp) (matchAt_none hg)
        · exact skips_congr (by simp [hqi]) (h3 q (by omega) hq2)
      · have : p ≠ i := by omega
        simp [this]

theorem search_none : ∀ n {adv : Bool} {i}, search rules text adv i n = none →
    ∀ p, i ≤ p → p < i + n → Skips rules text (adv = true ∧ p = i) p := by
  intro n
  induction n with
  | zero => intro adv i _ p h1 h2; omega
  | succ n ih =>
    intro adv i h p h1 h2
    rw [search] at h
    split at h
    · cases h
    · next hg =>
      by_cases hpi : p = i
      · subst hpi
        exact skips_congr (by simp) (matchAt_none hg)
      · exact skips_congr (by simp [hpi]) (ih h p (by omega) (by omega))

theorem finditer_cut (hin : ∀ r ∈ rules, Inside r) : ∀ fuel (adv : Bool) i, i ≤ text.length →
    2 * (text.length - i) + (if adv = true then 0 else 1) < fuel →
    Cut rules text (adv = true) i (finditer rules text fuel adv i) := by
  intro fuel
  induction fuel with
  | zero => intro adv i _ h; omega
  | succ fuel ih =>
    intro adv i hi hf
    rw [finditer]
    split
    · next hs =>
      refine .done (fun p h1 h2 => ?_)
      exact search_none _ hs p h1 (by omega)
    · next f hs =>
      obtain ⟨p, h1, h2, h3, h4⟩ := search_some _ hs
      have h5 : p ≤ text.length := by omega
      have h6 := chooses_inside hin h5 h4
      have h7 := chooses_start h4
      have h8 := chooses_len h4
      refine .next h1 h5 h3 h4 ?_
      have key := ih (f.len == 0) (p + f.len) h6 (by
        by_cases h0 : f.len = 0
        · have e : (f.len == 0) = true := by simpa using h0
          rw [e, if_pos rfl]
          by_cases hpi : p = i
          · subst hpi
            have hadv : ¬ adv = true := fun ha => h8 ⟨⟨ha, rfl⟩, h0⟩
            rw [if_neg hadv] at hf
            omega
          · omega
        · have e : ¬ (f.len == 0) = true := by simpa using h0
          rw [if_neg e]
          omega)
      rw [h7]
      have e : ((f.len == 0) = true) = (f.len = 0) := by simp
      rw [← e]
      exact key

theorem cut_unique {adv i fs} (h : Cut rules text adv i fs) :
    ∀ {gs}, Cut rules text adv i gs → fs = gs := by
  induction h with
  | done hs =>
    intro gs h'
    cases h' with
    | done _ => rfl
    | next h1 h2 _ h4 _ => exact absurd (hs _ h1 h2) (fun hh => chooses_not_skips h4 hh)
  | @next adv i p f rest h1 h2 h3 h4 _ ih =>
    intro gs h'
    cases h' with
    | done hs => exact absurd (hs _ h1 h2) (fun hh => chooses_not_skips h4 hh)
    | @next _ _ p' f' rest' h1' h2' h3' h4' h5' =>
      have hp : p = p' := by
        rcases Nat.lt_trichotomy p p' with hl | hl | hl
        · exact absurd (h3' p h1 hl) (fun hh => chooses_not_skips h4 hh)
        · exact hl
        · exact absurd (h3 p' h1' hl) (fun hh => chooses_not_skips h4' hh)
      subst hp
      have hf := chooses_unique h4 h4'
      subst hf
      rw [ih h5']

theorem call_cut {t : Tokenizer} (hne : t.compiled ≠ []) (hin : ∀ r ∈ t.compiled, Inside r)
    (text : Str) : ∃ fs, t.call text = .ok (fs.map (Found.token text)) ∧
      Cut t.compiled text False 0 fs := by
  refine ⟨finditer t.compiled text (2 * text.length + 2) false 0, ?_, ?_⟩
  · unfold Tokenizer.call
    rw [if_neg (by cases h : t.compiled <;> simp_all)]
  · have := finditer_cut (text := text) hin (2 * text.length + 2) false 0 (Nat.zero_le _) (by simp)
    rwa [show (False : Prop) = (false = true) by simp]

/-- Properties of all matches of a cut. -/
theorem cut_all (hin : ∀ r ∈ rules, Inside r) {adv i fs} (h : Cut rules text adv i fs) :
    (∀ f ∈ fs, i ≤ f.start ∧ f.start + f.len ≤ text.length ∧
      ∃ a : Prop, Chooses rules text a f.start f) ∧
    fs.Pairwise (fun f g => f.start + f.len ≤ g.start) := by
  induction h with
  | done _ => exact ⟨fun f hf => (by cases hf), .nil⟩
  | @next adv i p f rest h1 h2 h3 h4 _ ih =>
    have hs := chooses_start h4
    have hl := chooses_inside hin h2 h4
    constructor
    · intro g hg
      rcases List.mem_cons.1 hg with hg | hg
      · subst hg
        exact ⟨by omega, by omega, _, hs ▸ h4⟩
      · obtain ⟨h5, h6, h7⟩ := ih.1 g hg
        exact ⟨by omega, h6, h7⟩
    · refine List.pairwise_cons.2 ⟨fun g hg => ?_, ih.2⟩
      have := (ih.1 g hg).1
      omega

/-- Positions outside all matches of a cut are skipped by every rule that never matches the empty
text. -/
theorem cut_rest {adv i fs} (h : Cut rules text adv i fs) :
    ∀ p, i ≤ p → p ≤ text.length → (∀ f ∈ fs, ¬ (f.start ≤ p ∧ p < f.start + f.len)) →
      ∀ r ∈ rules, ∀ j ∈ r.ends text p, j = 0 := by
  induction h with
  | done hs =>
    intro p h1 h2 _ r hr j hj
    exact (hs p h1 h2 r hr j hj).2
  | @next adv i p' f rest h1' h2' h3 h4 _ ih =>
    intro p h1 h2 hout r hr j hj
    have hs := chooses_start h4
    have hf := hout f List.mem_cons_self
    by_cases hp : p < p'
    · exact (h3 p h1 hp r hr j hj).2
    · exact ih p (by omega) h2 (fun g hg => hout g (List.mem_cons_of_mem _ hg)) r hr j hj

/-! ### The default rules -/

theorem repEnds_cls_head (p : Char → Bool) : ∀ max s, (s : Str).length ≤ max →
    (repEnds (Re.cls p).ends 0 max s).head? = some (s.takeWhile p).length := by
  intro max
  induction max with
  | zero =>
    intro s hs
    have : s = [] := List.length_eq_zero_iff.1 (by omega)
    subst this
    rfl
  | succ max ih =>
    intro s hs
    cases s with
    | nil => rfl
    | cons c s =>
      rw [repEnds, Re.ends]
      by_cases hc : p c = true
      · have := ih s (by simpa using hs)
        rw [if_pos hc]
        simp only [List.flatMap_cons, List.flatMap_nil, List.append_nil, List.drop_one,
          List.tail_cons, List.takeWhile_cons, hc, if_pos, List.length_cons]
        rw [List.head?_append, List.head?_map, this]
        simp [Nat.add_comm]
      · simp [hc]

theorem plus_head (p : Char → Bool) (s : Str) :
    ((Re.plus p).ends s).head? =
      if (s.takeWhile p).length = 0 then none else some (s.takeWhile p).length := by
  unfold Re.plus
  rw [Re.ends, Option.getD_none]
  cases s with
  | nil => rfl
  | cons c s =>
    rw [List.length_cons, repEnds, Re.ends]
    by_cases hc : p c = true
    · rw [if_pos hc]
      have := repEnds_cls_head p s.length s (Nat.le_refl _)
      simp only [List.flatMap_cons, List.flatMap_nil, List.append_nil, List.drop_one,
        List.tail_cons, List.takeWhile_cons, hc, if_pos, List.length_cons]
      rw [List.head?_append, List.head?_map, this]
      simp [Nat.add_comm]
    · simp [hc]

theorem cls_nonempty (p : Char → Bool) (id type) : NonEmpty ((Re.cls p).rule id type) := by
  intro text i k hk
  have h := (ends_sound (Re.cls p) _ k hk).2
  obtain ⟨c, _, hc⟩ := h
  intro h0
  subst h0
  simp at hc

theorem plus_nonempty (p : Char → Bool) (id type) : NonEmpty ((Re.plus p).rule id type) := by
  intro text i k hk
  obtain ⟨n, h1, _, h3⟩ := (ends_sound (Re.plus p) _ k hk).2
  intro h0
  subst h0
  have := copies_length (M := ReMatches (Re.cls p))
    (by intro ⟨c, _, hc⟩; cases hc) h3
  simp at this
  omega

theorem default_inside (C : Classes) : ∀ r ∈ defaultRules C, Inside r := by
  intro r hr
  simp only [defaultRules, List.mem_cons, List.not_mem_nil, or_false] at hr
  rcases hr with rfl | rfl | rfl | rfl | rfl | rfl <;> exact re_inside _ _ _

theorem default_nonempty (C : Classes) : ∀ r ∈ defaultRules C, NonEmpty r := by
  intro r hr
  simp only [defaultRules, List.mem_cons, List.not_mem_nil, or_false] at hr
  rcases hr with rfl | rfl | rfl | rfl | rfl | rfl
  · exact plus_nonempty _ _ _
  · exact plus_nonempty _ _ _
  · exact plus_nonempty _ _ _
  · exact cls_nonempty _ _ _
  · exact plus_nonempty _ _ _
  · exact cls_nonempty _ _ _

/-- The chosen match when no rule can match the empty text. -/
theorem chooses_plain (hne : ∀ r ∈ rules, NonEmpty r) {a : Prop} {i f}
    (h : Chooses rules text a i f) : ∃ pre r post, rules = pre ++ r :: post ∧
      (∀ q ∈ pre, q.ends text i = []) ∧ (r.ends text i).head? = some f.len ∧ f.type = r.type ∧
      f.start = i := by
  obtain ⟨pre, r, post, b, k, w, h1, h2, h3, h4, h5, h6⟩ := h
  refine ⟨pre, r, post, h1, ?_, ?_, by rw [h6], by rw [h6]⟩
  · intro q hq
    refine List.eq_nil_iff_forall_not_mem.2 (fun j hj => ?_)
    exact hne q (by rw [h1]; simp [hq]) _ _ j hj (h2 q hq j hj).2
  · rw [h3, h6]
    cases b with
    | nil => rfl
    | cons x b =>
      refine absurd (h4 x List.mem_cons_self).2 ?_
      exact hne r (by rw [h1]; simp) text i x (by rw [h3]; simp)

theorem cls_ends_nil {p : Char → Bool} {s : Str} (h : (Re.cls p).ends s = []) :
    ∀ c, s.head? = some c → p c = false := by
  intro c hc
  cases s with
  | nil => cases hc
  | cons d s =>
    have e : d = c := by simpa using hc
    subst e
    rw [Re.ends] at h
    split at h
    · cases h
    · next hn => simpa using hn

theorem plus_ends_nil {p : Char → Bool} {s : Str} (h : (Re.plus p).ends s = []) :
    ∀ c, s.head? = some c → p c = false := by
  intro c hc
  have hh := plus_head p s
  rw [h] at hh
  cases s with
  | nil => cases hc
  | cons d s =>
    have e : d = c := by simpa using hc
    subst e
    cases hp : p d with
    | false => rfl
    | true => simp [List.takeWhile_cons, hp] at hh

theorem plus_run {p : Char → Bool} {s : Str} {k} (h : ((Re.plus p).ends s).head? = some k) :
    MaximalRun p (s.take k) (s.drop k).head? := by
  rw [plus_head] at h
  split at h
  · cases h
  · next hn =>
    have hk : (s.takeWhile p).length = k := by simpa using h
    have hs := List.takeWhile_append_dropWhile (p := p) (l := s)
    have e : s.take k = s.takeWhile p := by
      have : (s.takeWhile p ++ s.dropWhile p).take (s.takeWhile p).length = s.takeWhile p :=
        List.take_left
      rwa [hs, hk] at this
    have e' : s.drop k = s.dropWhile p := by
      have : (s.takeWhile p ++ s.dropWhile p).drop (s.takeWhile p).length = s.dropWhile p :=
        List.drop_left
      rwa [hs, hk] at this
    rw [e, e']
    refine ⟨fun h0 => hn (by rw [h0]; rfl), fun c hc => ?_, fun c hc => ?_⟩
    · exact List.all_eq_true.1 (List.all_takeWhile (p := p) (l := s)) c hc
    · have := List.head?_dropWhile_not p s
      rw [hc] at this
      simpa using this

theorem cls_one {p : Char → Bool} {s : Str} {k} (h : ((Re.cls p).ends s).head? = some k) :
    ∃ c, s.head? = some c ∧ p c = true ∧ k = 1 ∧ s.take k = [c] := by
  cases s with
  | nil => cases h
  | cons d s =>
    rw [Re.ends] at h
    split at h
    · next hd =>
      have e : 1 = k := by simpa using h
      subst e
      exact ⟨d, rfl, hd, rfl, by simp⟩
    · cases h

end Yargy
