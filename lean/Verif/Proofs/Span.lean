import Verif.Spec.Span
import Verif.Proofs.Util
/-! Helper lemmas for `resolve_spans`. -/
namespace Yargy
open Spec

namespace SpanProof

/-- sum of sizes of the spans at the given positions -/
def cov (spans : List Range) (idx : List Nat) : Int :=
  (idx.map (fun i => spanSize (spans.getD i (0, 0)))).sum

/-- increasing in-range positions with ordered, touching-at-most spans -/
def Valid (spans : List Range) (idx : List Nat) : Prop :=
  idx.Pairwise (fun i j => i < j ∧ (spans.getD i (0, 0)).2 ≤ (spans.getD j (0, 0)).1) ∧
    ∀ i ∈ idx, i < spans.length

theorem cov_cons (spans i l) : cov spans (i :: l) = spanSize (spans.getD i (0, 0)) + cov spans l := by
  simp [cov]

theorem cov_nil (spans) : cov spans [] = 0 := rfl

/-- everything the arrays promise at position `k` -/
structure Good (spans : List Range) (k : Nat) (c : Int) (I : List Nat) : Prop where
  valid : Valid spans I
  ge : ∀ i ∈ I, k ≤ i
  cov_eq : cov spans I = c
  best : ∀ J, Valid spans J → (∀ i ∈ J, k ≤ i) → cov spans J ≤ c
  first : ∀ J, Valid spans J → (∀ i ∈ J, k ≤ i) → cov spans J = c → FirstInOrder I J

variable {spans : List Range}

theorem start_mono (h : Candidates spans) {i j : Nat} (hij : i ≤ j) (hj : j < spans.length) :
    (spans.getD i (0, 0)).1 ≤ (spans.getD j (0, 0)).1 := by
  have hi : i < spans.length := by omega
  rw [getD_eq_getElem _ _ hi, getD_eq_getElem _ _ hj]
  rcases Nat.lt_or_eq_of_le hij with h1 | h1
  · exact (List.pairwise_iff_getElem.1 h.1) i j hi hj h1
  · subst h1; exact Nat.le_refl _

theorem pos_size (h : Candidates spans) {i : Nat} (hi : i < spans.length) :
    (spans.getD i (0, 0)).1 < (spans.getD i (0, 0)).2 := by
  rw [getD_eq_getElem _ _ hi]; exact h.2 _ (List.getElem_mem hi)

theorem size_pos (h : Candidates spans) {i : Nat} (hi : i < spans.length) :
    0 < spanSize (spans.getD i (0, 0)) := by
  have := pos_size h hi; unfold spanSize; omega

theorem nexts_getD {k : Nat} (hk : k < spans.length) :
    (getNexts spans).getD k none = getNext spans (spans.getD k (0, 0)).2 := by
  unfold getNexts
  rw [getD_eq_getElem _ _ (by simpa using hk), getD_eq_getElem _ _ hk]; simp

theorem getNext_some {stop n : Nat} (h : getNext spans stop = some n) :
    n < spans.length ∧ stop ≤ (spans.getD n (0, 0)).1 ∧
      ∀ j, j < n → ¬ stop ≤ (spans.getD j (0, 0)).1 := by
  unfold getNext at h
  rw [List.findIdx?_eq_some_iff_getElem] at h
  obtain ⟨h1, h2, h3⟩ := h
  refine ⟨h1, ?_, ?_⟩
  · rw [getD_eq_getElem _ _ h1]; simpa using h2
  · intro j hj
    rw [getD_eq_getElem _ _ (by omega)]
    simpa using h3 j hj

theorem getNext_none {stop : Nat} (h : getNext spans stop = none) :
    ∀ j, j < spans.length → ¬ stop ≤ (spans.getD j (0, 0)).1 := by
  unfold getNext at h
  rw [List.findIdx?_eq_none_iff] at h
  intro j hj
  rw [getD_eq_getElem _ _ hj]
  simpa using h _ (List.getElem_mem hj)

theorem valid_cons {i : Nat} {l : List Nat} (h : Valid spans (i :: l)) :
    Valid spans l ∧ i < spans.length ∧
      ∀ j ∈ l, i < j ∧ (spans.getD i (0, 0)).2 ≤ (spans.getD j (0, 0)).1 := by
  obtain ⟨h1, h2⟩ := h
  rw [List.pairwise_cons] at h1
  exact ⟨⟨h1.2, fun j hj => h2 j (List.mem_cons_of_mem _ hj)⟩, h2 i (List.mem_cons_self), h1.1⟩

theorem valid_cons_mk {i : Nat} {l : List Nat} (hl : Valid spans l) (hi : i < spans.length)
    (h : ∀ j ∈ l, i < j ∧ (spans.getD i (0, 0)).2 ≤ (spans.getD j (0, 0)).1) :
    Valid spans (i :: l) := by
  refine ⟨List.pairwise_cons.2 ⟨h, hl.1⟩, ?_⟩
  intro j hj
  rcases List.mem_cons.1 hj with rfl | hj
  · exact hi
  · exact hl.2 j hj

theorem valid_nil : Valid spans [] := ⟨List.Pairwise.nil, by simp⟩

theorem cov_nonneg (h : Candidates spans) : ∀ {l : List Nat}, Valid spans l → 0 ≤ cov spans l
  | [], _ => by simp [cov]
  | i :: l, hv => by
      obtain ⟨h1, h2, _⟩ := valid_cons hv
      have := cov_nonneg h h1
      have := size_pos h h2
      rw [cov_cons]; omega

theorem first_cons {i : Nat} {a b : List Nat} (h : FirstInOrder a b) :
    FirstInOrder (i :: a) (i :: b) := by
  rcases h with rfl | h
  · exact Or.inl rfl
  · exact Or.inr (List.Lex.cons h)

/-- positions all `≥ k`: either they start with `k` or they are all `≥ k+1` -/
theorem split_head {k : Nat} {J : List Nat} (hJ : Valid spans J) (hk : ∀ i ∈ J, k ≤ i) :
    (∃ l, J = k :: l) ∨ ∀ i ∈ J, k + 1 ≤ i := by
  cases J with
  | nil => right; simp
  | cons j l =>
    by_cases h : j = k
    · left; exact ⟨l, by rw [h]⟩
    · right
      intro i hi
      have hj := hk j List.mem_cons_self
      rcases List.mem_cons.1 hi with rfl | hi
      · omega
      · have := ((valid_cons hJ).2.2 i hi).1; omega

/-- the tail of a selection starting at `k` -/
theorem Good.last (h : Candidates spans) {k : Nat} (hk : k + 1 = spans.length) :
    Good spans k (spanSize (spans.getD k (0, 0))) [k] := by
  have hlt : k < spans.length := by omega
  have hpos := size_pos h hlt
  have cases : ∀ J, Valid spans J → (∀ i ∈ J, k ≤ i) → J = [k] ∨ J = [] := by
    intro J hJ hge
    rcases split_head hJ hge with ⟨l, rfl⟩ | h1
    · left
      have : l = [] := by
        cases l with
        | nil => rfl
        | cons a l =>
          have h2 := ((valid_cons hJ).2.2 a List.mem_cons_self).1
          have h3 := hJ.2 a (by simp)
          omega
      rw [this]
    · right
      cases J with
      | nil => rfl
      | cons a l =>
        have h2 := h1 a List.mem_cons_self
        have h3 := hJ.2 a List.mem_cons_self
        omega
  refine ⟨valid_cons_mk valid_nil hlt (by simp), by simp, by simp [cov], ?_, ?_⟩
  · intro J hJ hge
    rcases cases J hJ hge with rfl | rfl
    · simp [cov]
    · rw [cov_nil]; omega
  · intro J hJ hge he
    rcases cases J hJ hge with rfl | rfl
    · exact Or.inl rfl
    · rw [cov_nil] at he; omega

/-- candidates after `k` that start at or after the end of span `k` -/
theorem tail_ge {k : Nat} {l : List Nat} (hJ : Valid spans (k :: l)) :
    match getNext spans (spans.getD k (0, 0)).2 with
    | none => l = []
    | some n => ∀ i ∈ l, n ≤ i := by
  obtain ⟨h1, h2, h3⟩ := valid_cons hJ
  cases hn : getNext spans (spans.getD k (0, 0)).2 with
  | none =>
    cases l with
    | nil => rfl
    | cons a l =>
      exact absurd (h3 a List.mem_cons_self).2 (getNext_none hn a (h1.2 a List.mem_cons_self))
  | some n =>
    intro i hi
    rcases Nat.lt_or_ge i n with h4 | h4
    · exact absurd (h3 i hi).2 ((getNext_some hn).2.2 i h4)
    · exact h4

/-- best selection that starts with span `k` -/
structure Take (spans : List Range) (k : Nat) (c : Int) (I : List Nat) : Prop where
  valid : Valid spans I
  head : ∃ l, I = k :: l
  cov_eq : cov spans I = c
  best : ∀ l, Valid spans (k :: l) → cov spans (k :: l) ≤ c
  first : ∀ l, Valid spans (k :: l) → cov spans (k :: l) = c → FirstInOrder I (k :: l)

theorem next_gt (h : Candidates spans) {k n : Nat} (hk : k < spans.length)
    (hn : getNext spans (spans.getD k (0, 0)).2 = some n) : k < n := by
  obtain ⟨h1, h2, _⟩ := getNext_some hn
  rcases Nat.lt_or_ge k n with h4 | h4
  · exact h4
  · have := start_mono h h4 hk
    have := pos_size h hk
    omega

theorem take_none (h : Candidates spans) {k : Nat} (hk : k < spans.length)
    (hn : getNext spans (spans.getD k (0, 0)).2 = none) :
    Take spans k (spanSize (spans.getD k (0, 0))) [k] := by
  have key : ∀ l, Valid spans (k :: l) → l = [] := by
    intro l hl
    have := tail_ge hl
    rw [hn] at this
    exact this
  refine ⟨valid_cons_mk valid_nil hk (by simp), ⟨[], rfl⟩, by simp [cov], ?_, ?_⟩
  · intro l hl; rw [key l hl]; simp [cov]
  · intro l hl _; rw [key l hl]; exact Or.inl rfl

theorem take_some (h : Candidates spans) {k n : Nat} (hk : k < spans.length) {c : Int} {I : List Nat}
    (hn : getNext spans (spans.getD k (0, 0)).2 = some n) (hg : Good spans n c I) :
    Take spans k (spanSize (spans.getD k (0, 0)) + c) (k :: I) := by
  have hkn := next_gt h hk hn
  obtain ⟨h1, h2, h3⟩ := getNext_some hn
  have key : ∀ l, Valid spans (k :: l) → ∀ i ∈ l, n ≤ i := by
    intro l hl
    have := tail_ge hl
    rw [hn] at this
    exact this
  refine ⟨valid_cons_mk hg.valid hk ?_, ⟨I, rfl⟩, by rw [cov_cons, hg.cov_eq], ?_, ?_⟩
  · intro j hj
    have h4 := hg.ge j hj
    refine ⟨by omega, ?_⟩
    have := start_mono h h4 (hg.valid.2 j hj)
    omega
  · intro l hl
    have := hg.best l (valid_cons hl).1 (key l hl)
    rw [cov_cons]; omega
  · intro l hl he
    rw [cov_cons] at he
    exact first_cons (hg.first l (valid_cons hl).1 (key l hl) (by omega))

theorem Good.step (h : Candidates spans) {k : Nat} {c p : Int} {I P : List Nat}
    (ht : Take spans k c I) (hp : Good spans (k + 1) p P) :
    Good spans k (if c < p then p else c) (if c < p then P else I) := by
  by_cases hc : c < p
  · simp only [hc, if_true]
    refine ⟨hp.valid, fun i hi => by have := hp.ge i hi; omega, hp.cov_eq, ?_, ?_⟩
    · intro J hJ hge
      rcases split_head hJ hge with ⟨l, rfl⟩ | h1
      · have := ht.best l hJ; omega
      · exact hp.best J hJ h1
    · intro J hJ hge he
      rcases split_head hJ hge with ⟨l, rfl⟩ | h1
      · have := ht.best l hJ; omega
      · exact hp.first J hJ h1 he
  · simp only [hc, if_false]
    obtain ⟨l0, hl0⟩ := ht.head
    refine ⟨ht.valid, ?_, ht.cov_eq, ?_, ?_⟩
    · intro i hi
      rw [hl0] at hi
      have hv := ht.valid
      rw [hl0] at hv
      rcases List.mem_cons.1 hi with rfl | hi
      · omega
      · have := ((valid_cons hv).2.2 i hi).1; omega
    · intro J hJ hge
      rcases split_head hJ hge with ⟨l, rfl⟩ | h1
      · exact ht.best l hJ
      · have := hp.best J hJ h1; omega
    · intro J hJ hge he
      rcases split_head hJ hge with ⟨l, rfl⟩ | h1
      · exact ht.first l hJ he
      · rw [hl0]
        cases J with
        | nil =>
          rw [cov_nil] at he
          have hv := ht.valid
          rw [hl0] at hv
          have h5 := cov_nonneg h (valid_cons hv).1
          have h6 := size_pos h (valid_cons hv).2.1
          have h7 := ht.cov_eq
          rw [hl0, cov_cons] at h7
          omega
        | cons a J =>
          have := h1 a List.mem_cons_self
          exact Or.inr (List.Lex.rel (by omega))

theorem setUnion_of_gt {k : Nat} {I : List Nat} (h : ∀ i ∈ I, k < i) :
    setUnion [k] I = k :: I := by
  unfold setUnion
  have : I.filter (fun x => !([k] : List Nat).contains x) = I := by
    rw [List.filter_eq_self]
    intro a ha
    have := h a ha
    simp
    omega
  rw [this]; rfl

/-- array invariant: positions `≥ k` are filled -/
structure Filled (spans : List Range) (k : Nat) (st : ResolveState) : Prop where
  lc : st.covers.length = spans.length
  lp : st.pointers.length = spans.length
  good : ∀ j, k ≤ j → j < spans.length →
    Good spans j (st.covers.getD j 0) (st.pointers.getD j [])

theorem getD_set_self {α} (l : List α) (i : Nat) (a d : α) (h : i < l.length) :
    (l.set i a).getD i d = a := by
  simp [List.getD_eq_getElem?_getD, h]

theorem getD_set_ne {α} (l : List α) (i j : Nat) (a d : α) (h : i ≠ j) :
    (l.set i a).getD j d = l.getD j d := by
  simp [List.getD_eq_getElem?_getD, h]

theorem filled_set {k : Nat} {st : ResolveState} (hf : Filled spans (k + 1) st)
    (hk : k < spans.length) {c : Int} {I : List Nat} (hg : Good spans k c I) :
    Filled spans k { covers := st.covers.set k c, pointers := st.pointers.set k I } := by
  refine ⟨by simpa using hf.lc, by simpa using hf.lp, ?_⟩
  intro j hj hlt
  by_cases h : k = j
  · subst h
    show Good spans k ((st.covers.set k c).getD k 0) ((st.pointers.set k I).getD k [])
    rw [getD_set_self _ _ _ _ (by rw [hf.lc]; exact hk), getD_set_self _ _ _ _ (by rw [hf.lp]; exact hk)]
    exact hg
  · show Good spans j ((st.covers.set k c).getD j 0) ((st.pointers.set k I).getD j [])
    rw [getD_set_ne _ _ _ _ _ h, getD_set_ne _ _ _ _ _ h]
    exact hf.good j (by omega) hlt

theorem filled_step (h : Candidates spans) {k : Nat} {st : ResolveState}
    (hf : Filled spans (k + 1) st) (hk : k < spans.length) :
    Filled spans k (resolveStep spans (getNexts spans) st k) := by
  unfold resolveStep
  simp only
  split
  · rename_i he
    exact filled_set hf hk (Good.last h (by omega))
  · rename_i he
    have hp := hf.good (k + 1) (Nat.le_refl _) (by omega)
    rw [nexts_getD hk]
    cases hn : getNext spans (spans.getD k (0, 0)).2 with
    | none =>
      simp only
      have := Good.step h (take_none h hk hn) hp
      split
      · rename_i hc; simp only [hc, if_true] at this; exact filled_set hf hk this
      · rename_i hc; simp only [hc, if_false] at this; exact filled_set hf hk this
    | some n =>
      have hkn := next_gt h hk hn
      have hgn := hf.good n (by omega) (getNext_some hn).1
      have h0 : ¬ n = 0 := by omega
      simp only [h0, if_false]
      have hu : setUnion [k] (st.pointers.getD n []) = k :: st.pointers.getD n [] :=
        setUnion_of_gt (fun i hi => by have := hgn.ge i hi; omega)
      rw [hu]
      have := Good.step h (take_some h hk hn hgn) hp
      split
      · rename_i hc; simp only [hc, if_true] at this; exact filled_set hf hk this
      · rename_i hc; simp only [hc, if_false] at this; exact filled_set hf hk this

theorem filled_loop (h : Candidates spans) (m : Nat) (hm : m ≤ spans.length) :
    ∀ st, Filled spans m st →
      Filled spans 0 ((List.range m).reverse.foldl (resolveStep spans (getNexts spans)) st) := by
  induction m with
  | zero => intro st hst; simpa using hst
  | succ m ih =>
    intro st hst
    rw [List.range_succ, List.reverse_append, List.reverse_cons, List.reverse_nil, List.nil_append,
      List.foldl_append]
    exact ih (by omega) _ (filled_step h hst (by omega))

theorem filled_final (h : Candidates spans) : Filled spans 0 (resolveLoop spans) := by
  unfold resolveLoop
  refine filled_loop h _ (Nat.le_refl _) _ ⟨by simp, by simp, ?_⟩
  intro j h1 h2; omega

theorem insertNat_of_le {x : Nat} {l : List Nat} (h : ∀ y ∈ l, x ≤ y) : insertNat x l = x :: l := by
  cases l with
  | nil => rfl
  | cons a l => simp [insertNat, h a List.mem_cons_self]

theorem sortNat_of_sorted : ∀ {l : List Nat}, l.Pairwise (· < ·) → sortNat l = l
  | [], _ => rfl
  | a :: l, h => by
      rw [List.pairwise_cons] at h
      have ih := sortNat_of_sorted h.2
      show insertNat a (sortNat l) = _
      rw [ih]
      exact insertNat_of_le (fun y hy => Nat.le_of_lt (h.1 y hy))

/-- everything needed about the result -/
theorem resolve_good (h : Candidates spans) (hne : spans ≠ []) :
    ∃ c, Good spans 0 c (resolveIndexes spans) := by
  have hf := filled_final h
  have hlen : 0 < spans.length := List.length_pos_iff.2 hne
  have hg := hf.good 0 (Nat.le_refl _) hlen
  have hs : sortNat ((resolveLoop spans).pointers.getD 0 []) = (resolveLoop spans).pointers.getD 0 [] :=
    sortNat_of_sorted (hg.valid.1.imp (fun h => h.1))
  refine ⟨(resolveLoop spans).covers.getD 0 0, ?_⟩
  unfold resolveIndexes
  have : spans.isEmpty = false := by simpa using hne
  rw [this]
  simp only [Bool.false_eq_true, if_false]
  rw [hs]; exact hg

theorem resolve_valid (h : Candidates spans) : Valid spans (resolveIndexes spans) := by
  by_cases hne : spans = []
  · subst hne; exact valid_nil
  · exact (resolve_good h hne).choose_spec.valid

theorem map_sublist : ∀ (spans : List Range) (idx : List Nat), idx.Pairwise (· < ·) →
    (∀ i ∈ idx, i < spans.length) → (idx.map (fun i => spans.getD i (0, 0))).Sublist spans := by
  intro spans
  induction spans with
  | nil =>
    intro idx _ h2
    cases idx with
    | nil => exact List.Sublist.slnil
    | cons a l => have := h2 a List.mem_cons_self; simp at this
  | cons s spans ih =>
    intro idx h1 h2
    have shift : ∀ l : List Nat, l.Pairwise (· < ·) → (∀ i ∈ l, i < (s :: spans).length) → (∀ i ∈ l, 0 < i) →
        (l.map (fun i => (s :: spans).getD i (0, 0))).Sublist spans := by
      intro l hl1 hl2 hl3
      have := ih (l.map (· - 1)) (by
        rw [List.pairwise_map]
        refine hl1.imp_of_mem ?_
        intro a b ha hb hab
        have := hl3 a ha
        omega) (by
        intro i hi
        obtain ⟨j, hj, rfl⟩ := List.mem_map.1 hi
        have := hl2 j hj
        have := hl3 j hj
        simp only [List.length_cons] at *
        omega)
      rw [List.map_map] at this
      refine (List.Sublist.trans (Eq.subst (motive := fun x => (l.map (fun i => (s :: spans).getD i (0, 0))).Sublist x) ?_ (List.Sublist.refl _)) this)
      apply List.map_congr_left
      intro i hi
      obtain ⟨j, rfl⟩ : ∃ j, i = j + 1 := ⟨i - 1, by have := hl3 i hi; omega⟩
      simp [Function.comp]
    cases idx with
    | nil => exact List.nil_sublist _
    | cons a l =>
      rw [List.pairwise_cons] at h1
      by_cases ha : a = 0
      · subst ha
        simp only [List.map_cons, List.getD_cons_zero]
        exact List.Sublist.cons_cons _ (shift l h1.2 (fun i hi => h2 i (List.mem_cons_of_mem _ hi)) (fun i hi => h1.1 i hi))
      · refine List.Sublist.cons _ (shift (a :: l) (List.pairwise_cons.2 h1) h2 ?_)
        intro i hi
        rcases List.mem_cons.1 hi with rfl | hi
        · omega
        · have := h1.1 i hi; omega

/-- a sublist is given by increasing positions -/
theorem sublist_positions {spans sel : List Range} (h : sel.Sublist spans) :
    ∃ idx : List Nat, idx.Pairwise (· < ·) ∧ (∀ i ∈ idx, i < spans.length) ∧
      sel = idx.map (fun i => spans.getD i (0, 0)) := by
  induction h with
  | slnil => exact ⟨[], List.Pairwise.nil, by simp, rfl⟩
  | @cons l1 l2 a _ ih =>
    obtain ⟨idx, h1, h2, h3⟩ := ih
    refine ⟨idx.map (· + 1), ?_, ?_, ?_⟩
    · rw [List.pairwise_map]; exact h1.imp (by omega)
    · intro i hi; obtain ⟨j, hj, rfl⟩ := List.mem_map.1 hi; have := h2 j hj; simp; omega
    · rw [h3, List.map_map]; apply List.map_congr_left; intro i _; simp [Function.comp]
  | @cons_cons l1 l2 a _ ih =>
    obtain ⟨idx, h1, h2, h3⟩ := ih
    refine ⟨0 :: idx.map (· + 1), ?_, ?_, ?_⟩
    · rw [List.pairwise_cons, List.pairwise_map]
      exact ⟨by simp, h1.imp (by omega)⟩
    · intro i hi
      rcases List.mem_cons.1 hi with rfl | hi
      · simp
      · obtain ⟨j, hj, rfl⟩ := List.mem_map.1 hi; have := h2 j hj; simp; omega
    · rw [h3, List.map_cons, List.map_map]
      simp only [List.getD_cons_zero, List.cons.injEq, true_and]
      apply List.map_congr_left; intro i _; simp [Function.comp]

/-- disjoint positions are valid in a candidate list -/
theorem valid_of_apart (h : Candidates spans) {idx : List Nat} (h1 : idx.Pairwise (· < ·))
    (h2 : ∀ i ∈ idx, i < spans.length)
    (h3 : (idx.map (fun i => spans.getD i (0, 0))).Pairwise Apart) : Valid spans idx := by
  refine ⟨?_, h2⟩
  rw [List.pairwise_map] at h3
  refine (h1.and h3).imp_of_mem ?_
  intro a b ha hb hab
  refine ⟨hab.1, ?_⟩
  rcases hab.2 with h4 | h4
  · exact h4
  · have := start_mono h (Nat.le_of_lt hab.1) (h2 b hb)
    have := pos_size h (h2 b hb)
    omega

theorem cov_eq_coverage (idx : List Nat) :
    cov spans idx = coverage (idx.map (fun i => spans.getD i (0, 0))) := by
  simp [cov, coverage, List.map_map, Function.comp_def, spanSize]

theorem coverage_cons (s : Range) (l : List Range) :
    coverage (s :: l) = ((s.2 : Int) - s.1) + coverage l := by simp [coverage]

theorem coverage_perm {a b : List Range} (h : a.Perm b) : coverage a = coverage b := by
  induction h with
  | nil => rfl
  | cons x _ ih => rw [coverage_cons, coverage_cons, ih]
  | swap x y l => simp only [coverage_cons]; omega
  | trans _ _ ih1 ih2 => rw [ih1, ih2]

theorem sublist_insert {sel spans : List Range} {s : Range} (h : sel.Sublist spans)
    (hs : s ∈ spans) (hn : s ∉ sel) : ∃ sel' : List Range, sel'.Sublist spans ∧ sel'.Perm (s :: sel) := by
  induction h with
  | slnil => simp at hs
  | @cons l1 l2 a hsub ih =>
    by_cases ha : s = a
    · subst ha; exact ⟨s :: l1, List.Sublist.cons_cons _ hsub, List.Perm.refl _⟩
    · have : s ∈ l2 := by
        rcases List.mem_cons.1 hs with h | h
        · exact absurd h ha
        · exact h
      obtain ⟨l', h1, h2⟩ := ih this hn
      exact ⟨l', List.Sublist.cons _ h1, h2⟩
  | @cons_cons l1 l2 a hsub ih =>
    have ha : s ≠ a := fun h => hn (h ▸ List.mem_cons_self)
    have hmem : s ∈ l2 := by
      rcases List.mem_cons.1 hs with h | h
      · exact absurd h ha
      · exact h
    obtain ⟨l', h1, h2⟩ := ih hmem (fun h => hn (List.mem_cons_of_mem _ h))
    exact ⟨a :: l', List.Sublist.cons_cons _ h1, (h2.cons a).trans (List.Perm.swap _ _ _)⟩

theorem coverage_sublist_le {sel spans : List Range} (h : sel.Sublist spans)
    (hp : ∀ s ∈ spans, s.1 < s.2) : coverage sel ≤ coverage spans := by
  induction h with
  | slnil => exact Int.le_refl _
  | @cons l1 l2 a _ ih =>
    have := ih (fun s hs => hp s (List.mem_cons_of_mem _ hs))
    have := hp a List.mem_cons_self
    rw [coverage_cons]; omega
  | @cons_cons l1 l2 a _ ih =>
    have := ih (fun s hs => hp s (List.mem_cons_of_mem _ hs))
    rw [coverage_cons, coverage_cons]; omega

theorem sublist_full {sel spans : List Range} (h : sel.Sublist spans)
    (hp : ∀ s ∈ spans, s.1 < s.2) (hc : coverage spans ≤ coverage sel) : sel = spans := by
  induction h with
  | slnil => rfl
  | @cons l1 l2 a hsub ih =>
    have := coverage_sublist_le hsub (fun s hs => hp s (List.mem_cons_of_mem _ hs))
    have := hp a List.mem_cons_self
    rw [coverage_cons] at hc; omega
  | @cons_cons l1 l2 a _ ih =>
    rw [coverage_cons, coverage_cons] at hc
    rw [ih (fun s hs => hp s (List.mem_cons_of_mem _ hs)) (by omega)]

end SpanProof
end Yargy
