import Verif.Spec.Cache
/-!
C41: the morphology cache.
-/
namespace Yargy
open Spec

variable {K V : Type} [DecidableEq K]

/-- Every stored answer is an answer of `f`. -/
def Faithful (f : K → Except Err V) (c : Cache K V) : Prop := ∀ e ∈ c, f e.1 = .ok e.2

theorem get_mem {c : Cache K V} {k : K} {v : V} (h : c.get k = some v) : (k, v) ∈ c := by
  unfold Cache.get at h
  cases hf : c.find? (fun e => decide (e.1 = k)) with
  | none => rw [hf] at h; cases h
  | some e =>
    rw [hf] at h
    cases h
    have h1 := List.find?_some hf
    have : e.1 = k := by simpa using h1
    rw [← this]
    exact List.mem_of_find?_eq_some hf

theorem get_none {c : Cache K V} {k : K} : c.get k = none ↔ k ∉ c.map Prod.fst := by
  unfold Cache.get
  rw [Option.map_eq_none_iff, List.find?_eq_none]
  simp only [decide_eq_true_eq, List.mem_map, not_exists, not_and]

theorem lruCall_faithful {size : Nat} {f : K → Except Err V} {c : Cache K V} (h : Faithful f c) (k : K) :
    (lruCall size f c k).1 = f k ∧ Faithful f (lruCall size f c k).2 := by
  unfold lruCall
  cases hg : c.get k with
  | some v =>
    have hv := h _ (get_mem hg)
    refine ⟨hv.symm, ?_⟩
    intro e he
    rcases List.mem_cons.1 he with rfl | he
    · exact hv
    · exact h e (List.mem_filter.1 he).1
  | none =>
    dsimp only
    cases hf : f k with
    | error e => exact ⟨rfl, h⟩
    | ok v =>
      refine ⟨rfl, ?_⟩
      intro e he
      rcases List.mem_cons.1 he with rfl | he
      · exact hf
      · split at he
        · exact h e he
        · exact h e (List.dropLast_subset c he)

/-- C41: for every history of lookups, every answer is the one the analyzer itself gives (an exception
included), and stays so whatever was looked up before. -/
theorem cache_transparent (size : Nat) (f : K → Except Err V) (ks : List K) :
    (lruCalls size f [] ks).1 = ks.map f := by
  have : ∀ (c : Cache K V), Faithful f c → (lruCalls size f c ks).1 = ks.map f := by
    induction ks with
    | nil => intro c _; rfl
    | cons k ks ih =>
      intro c hc
      obtain ⟨h1, h2⟩ := lruCall_faithful (size := size) hc k
      show (lruCall size f c k).1 :: (lruCalls size f (lruCall size f c k).2 ks).1 = _
      rw [h1, ih _ h2]
      rfl
  exact this [] (fun e he => by cases he)

theorem drop_keys (c : Cache K V) (k : K) :
    (c.drop k).map Prod.fst = (c.map Prod.fst).filter (fun k' => !decide (k' = k)) := by
  unfold Cache.drop
  induction c with
  | nil => rfl
  | cons e c ih =>
    by_cases h : e.1 = k
    · simp [h, ih]
    · simp [h, ih]

/-- The different keys of a history, most recent first, one call after another. -/
theorem recent_snoc (ks : List K) (k : K) :
    recent (ks ++ [k]) = k :: (recent ks).filter (fun k' => !decide (k' = k)) := by
  unfold recent
  rw [List.reverse_append, List.reverse_singleton, List.singleton_append, List.eraseDups_cons]
  congr 1
  have comm : ∀ (n : Nat) (l : List K), l.length ≤ n →
      (l.filter (fun b => !b == k)).eraseDups = l.eraseDups.filter (fun k' => !decide (k' = k)) := by
    intro n
    induction n with
    | zero =>
      intro l hl
      cases l with
      | nil => rfl
      | cons _ _ => simp at hl
    | succ n ih =>
      intro l hl
      cases l with
      | nil => rfl
      | cons a l =>
        rw [List.eraseDups_cons]
        have hl' : (l.filter (fun b => !b == a)).length ≤ n :=
          Nat.le_trans (List.length_filter_le _ _) (by simpa using hl)
        by_cases ha : a = k
        · subst ha
          rw [List.filter_cons_of_neg (by simp), List.filter_cons_of_neg (by simp), ← ih _ hl',
            List.filter_filter]
          congr 1
          apply List.filter_congr
          intro x _
          simp
        · rw [List.filter_cons_of_pos (by simp [ha]), List.filter_cons_of_pos (by simp [ha]),
            List.eraseDups_cons, ← ih _ hl', List.filter_filter, List.filter_filter]
          congr 2
          apply List.filter_congr
          intro x _
          rw [Bool.and_comm]
  exact comm _ _ (Nat.le_refl _)

/-- Induction on a history, by its last call. -/
theorem history_induct {M : List K → Prop} (nil : M []) (snoc : ∀ ks k, M ks → M (ks ++ [k]))
    (ks : List K) : M ks := by
  have : ∀ l : List K, M l.reverse := by
    intro l
    induction l with
    | nil => exact nil
    | cons a l ih =>
      rw [List.reverse_cons]
      exact snoc _ _ ih
  rw [← List.reverse_reverse ks]
  exact this _

theorem nodup_recent (ks : List K) : (recent ks).Nodup := by
  induction ks using history_induct with
  | nil => exact .nil
  | snoc ks k ih =>
    rw [recent_snoc]
    refine List.nodup_cons.2 ⟨?_, ih.filter _⟩
    intro h
    simp at h

theorem lruCalls_snoc (size : Nat) (f : K → Except Err V) (k : K) : ∀ (ks : List K) (c : Cache K V),
    (lruCalls size f c (ks ++ [k])).2 = (lruCall size f (lruCalls size f c ks).2 k).2 := by
  intro ks
  induction ks with
  | nil => intro c; rfl
  | cons a ks ih =>
    intro c
    exact ih _

theorem filter_absent {l : List K} {k : K} (h : k ∉ l) :
    l.filter (fun k' => !decide (k' = k)) = l := by
  rw [List.filter_eq_self]
  intro a ha
  have : a ≠ k := fun e => h (e ▸ ha)
  simp [this]

theorem take_filter_absent {l : List K} {k : K} {n m : Nat} (hm : m ≤ n) (h : k ∉ l.take n) :
    (l.filter (fun k' => !decide (k' = k))).take m = l.take m := by
  induction l generalizing n m with
  | nil => rfl
  | cons a l ih =>
    cases m with
    | zero => rfl
    | succ m =>
      cases n with
      | zero => omega
      | succ n =>
        rw [List.take_succ_cons] at h
        have ha : a ≠ k := fun e => h (e ▸ List.mem_cons_self)
        rw [List.filter_cons_of_pos (by simp [ha]), List.take_succ_cons, List.take_succ_cons,
          ih (n := n) (by omega) (fun hk => h (List.mem_cons_of_mem _ hk))]

theorem filter_take_present {l : List K} {k : K} {n : Nat} (hl : l.Nodup) (h : k ∈ l.take n) :
    (l.take n).filter (fun k' => !decide (k' = k)) =
      (l.filter (fun k' => !decide (k' = k))).take (n - 1) := by
  induction l generalizing n with
  | nil => simp
  | cons a l ih =>
    cases n with
    | zero => simp at h
    | succ n =>
      rw [List.take_succ_cons] at h ⊢
      have hn := List.nodup_cons.1 hl
      by_cases ha : a = k
      · subst ha
        rw [List.filter_cons_of_neg (by simp), List.filter_cons_of_neg (by simp), filter_absent hn.1,
          filter_absent (fun hk => hn.1 (List.mem_of_mem_take hk))]
        rfl
      · have hk : k ∈ l.take n := by
          rcases List.mem_cons.1 h with e | e
          · exact absurd e.symm ha
          · exact e
        rw [List.filter_cons_of_pos (by simp [ha]), List.filter_cons_of_pos (by simp [ha]), ih hn.2 hk]
        cases n with
        | zero => simp at hk
        | succ n => rfl

/-- C41: after any history of lookups, the cache holds exactly the answers to the `size` last different
words looked up (those for which the analyzer raised nothing), the most recent first. -/
theorem cache_holds {size : Nat} (hsize : 0 < size) (f : K → Except Err V) (ks : List K) :
    (lruCalls size f [] ks).2.map Prod.fst =
      (recent (ks.filter (fun k => match f k with | .ok _ => true | .error _ => false))).take size := by
  have hfaith : ∀ ks, Faithful f (lruCalls size f ([] : Cache K V) ks).2 := by
    intro ks
    induction ks using history_induct with
    | nil => intro e he; cases he
    | snoc ks k ih =>
      rw [lruCalls_snoc]
      exact (lruCall_faithful ih k).2
  induction ks using history_induct with
  | nil => simp [lruCalls, recent]
  | snoc ks k ih =>
    have hf := hfaith ks
    rw [lruCalls_snoc, List.filter_append]
    generalize (lruCalls size f ([] : Cache K V) ks).2 = c at ih hf
    generalize ks.filter (fun k => match f k with | .ok _ => true | .error _ => false) = us at ih
    unfold lruCall
    cases hg : c.get k with
    | some v =>
      have hm := get_mem hg
      have hok := hf _ hm
      dsimp only at hok
      have e1 : [k].filter (fun k => match f k with | .ok _ => true | .error _ => false) = [k] := by
        simp [hok]
      rw [e1, recent_snoc]
      have hk : k ∈ (recent us).take size := by
        rw [← ih]
        exact List.mem_map.2 ⟨_, hm, rfl⟩
      show k :: (c.drop k).map Prod.fst = _
      rw [drop_keys, ih, filter_take_present (nodup_recent us) hk]
      cases size with
      | zero => omega
      | succ n => rfl
    | none =>
      have hk := get_none.1 hg
      rw [ih] at hk
      dsimp only
      cases hfk : f k with
      | error e =>
        have e1 : [k].filter (fun k => match f k with | .ok _ => true | .error _ => false) = [] := by
          simp [hfk]
        rw [e1, List.append_nil]
        exact ih
      | ok v =>
        have e1 : [k].filter (fun k => match f k with | .ok _ => true | .error _ => false) = [k] := by
          simp [hfk]
        rw [e1, recent_snoc]
        have hlen : c.length = ((recent us).take size).length := by rw [← ih, List.length_map]
        cases size with
        | zero => omega
        | succ n =>
          rw [List.take_succ_cons, take_filter_absent (by omega) hk]
          dsimp only
          split
          · rename_i hlt
            rw [List.map_cons, ih]
            congr 1
            rw [hlen, List.length_take] at hlt
            rw [List.take_of_length_le (by omega), List.take_of_length_le (by omega)]
          · rename_i hlt
            rw [List.map_cons]
            congr 1
            rw [hlen, List.length_take] at hlt
            have : (c.dropLast).map Prod.fst = (c.map Prod.fst).dropLast := by simp
            rw [this, ih, List.dropLast_eq_take, List.length_take, List.take_take]
            congr 1
            omega

/-- C41: the cache never holds more than `CACHE_SIZE` answers. -/
theorem cache_bounded (f : K → Except Err V) (ks : List K) :
    (lruCalls cacheSize f [] ks).2.length ≤ 10000 := by
  have h := congrArg List.length (cache_holds (size := cacheSize) (by decide) f ks)
  rw [List.length_map, List.length_take] at h
  have : cacheSize = 10000 := rfl
  omega

/-- A cache for two words, and a word that raises. -/
example : (lruCalls 2 (fun k : Nat => if k = 9 then .error .keyError else .ok (k * k)) []
    [1, 2, 1, 3, 9, 1]).2 = [(1, 1), (3, 9)] := by decide +kernel

end Yargy
