import Verif.Spec.Pipeline
import Verif.Proofs.Predicate
/-! The index of a pipeline rule. -/
namespace Yargy
open Spec

theorem indexGet_append (index : PipeIndex) (v w : Str) (p : Production Pred) :
    indexGet (indexAppend index v p) w =
      indexGet index w ++ (if v = w then [p] else []) := by
  induction index with
  | nil =>
    by_cases h : v = w <;> simp [indexAppend, indexGet, h]
  | cons e rest ih =>
    obtain ⟨v', ps⟩ := e
    unfold indexAppend
    split
    · rename_i h
      subst h
      by_cases h : v' = w <;> simp [indexGet, h]
    · rename_i h
      by_cases h2 : v' = w
      · have : ¬ v = w := fun h3 => h (h2.trans h3.symm)
        simp [indexGet, h2, this]
      · unfold indexGet at ih ⊢
        simp only [List.find?_cons, h2, decide_false]
        exact ih

theorem indexGet_foldl (vs : List Str) (index : PipeIndex) (w : Str) (p : Production Pred) :
    indexGet (vs.foldl (fun i v => indexAppend i v p) index) w =
      indexGet index w ++ List.replicate (vs.count w) p := by
  induction vs generalizing index with
  | nil => simp
  | cons v vs ih =>
    rw [List.foldl_cons, ih, indexGet_append]
    by_cases h : v = w
    · subst h; simp [List.replicate_succ]
    · rw [List.count_cons_of_ne (by simpa using h)]
      simp [h]

/-- How often a production is filed under a value. -/
def filed (kind : PipeKind) (w : Str) (p : Production Pred) : Nat :=
  match indexValues kind p with
  | .ok vs => vs.count w
  | .error _ => 0

theorem buildIndex_get (kind : PipeKind) : ∀ (ps : List (Production Pred)) (index index' : PipeIndex),
    buildIndex kind index ps = .ok index' → ∀ w,
      indexGet index' w = indexGet index w ++ ps.flatMap (fun p => List.replicate (filed kind w p) p)
  | [], index, index', h, w => by
    simp only [buildIndex] at h; cases h; simp
  | p :: ps, index, index', h, w => by
    unfold buildIndex at h
    split at h
    · cases h
    · rename_i vs hv
      rw [buildIndex_get kind ps _ _ h w, indexGet_foldl]
      simp [filed, hv]

theorem buildIndex_ok_iff (kind : PipeKind) : ∀ (ps : List (Production Pred)) (index : PipeIndex),
    (∃ index', buildIndex kind index ps = .ok index') ↔ ∀ p ∈ ps, ∃ vs, indexValues kind p = .ok vs
  | [], index => by simp [buildIndex]
  | p :: ps, index => by
    unfold buildIndex
    simp only [List.mem_cons, forall_eq_or_imp]
    split
    · rename_i e he
      simp [he]
    · rename_i vs hv
      rw [buildIndex_ok_iff kind ps]
      simp [hv]

theorem mem_indexGet {kind : PipeKind} {ps : List (Production Pred)} {index : PipeIndex}
    (h : buildIndex kind [] ps = .ok index) (w : Str) (p : Production Pred) :
    p ∈ indexGet index w ↔ p ∈ ps ∧ ∃ vs, indexValues kind p = .ok vs ∧ w ∈ vs := by
  rw [buildIndex_get kind ps _ _ h w]
  have : indexGet [] w = [] := rfl
  rw [this, List.nil_append, List.mem_flatMap]
  constructor
  · rintro ⟨q, hq, hm⟩
    rw [List.mem_replicate] at hm
    obtain ⟨h1, rfl⟩ := hm
    refine ⟨hq, ?_⟩
    unfold filed at h1
    split at h1
    · rename_i vs hv
      exact ⟨vs, hv, List.count_pos_iff.1 (Nat.pos_of_ne_zero h1)⟩
    · exact absurd rfl h1
  · rintro ⟨hp, vs, hv, hw⟩
    refine ⟨p, hp, ?_⟩
    rw [List.mem_replicate]
    refine ⟨?_, rfl⟩
    simp only [filed, hv]
    exact Nat.pos_iff_ne_zero.1 (List.count_pos_iff.2 hw)

/-- The first term of the production is a predicate that accepts the token. -/
def FirstAccepts (L : Lang) (t : Token) (p : Production Pred) : Prop :=
  ∃ q rest, p.terms = .pred q :: rest ∧ q.accepts L t = true

theorem accepts_dict (L : Lang) (t : Token) (vs : List Str) :
    (Pred.dict vs).accepts L t = true ↔ ∃ n ∈ vs, NormalForm L t n := by
  have h : ∃ b, (Pred.dict vs).call L t = .ok b := by
    simp only [Pred.call]; split <;> exact ⟨_, rfl⟩
  obtain ⟨b, hb⟩ := h
  rw [← dict_iff L t vs b hb]
  simp [Pred.accepts, hb]

theorem indexValues_ok {kind : PipeKind} {p : Production Pred} {vs : List Str}
    (h : indexValues kind p = .ok vs) :
    (∃ v rest, kind = .exact ∧ p.terms = .pred (.eq v) :: rest ∧ vs = [v]) ∨
    (∃ v rest, kind = .caseless ∧ p.terms = .pred (.caseless v) :: rest ∧ vs = [v]) ∨
    (∃ rest, kind = .morph ∧ p.terms = .pred (.dict vs) :: rest) := by
  unfold indexValues at h
  split at h
  · cases h
  · rename_i v rest hp; injection h with h; exact Or.inl ⟨v, rest, rfl, hp, h.symm⟩
  · rename_i v rest hp; injection h with h; exact Or.inr (Or.inl ⟨v, rest, rfl, hp, h.symm⟩)
  · rename_i v rest hp; injection h with h; subst h; exact Or.inr (Or.inr ⟨rest, rfl, hp⟩)
  · cases h

theorem firstAccepts_iff (L : Lang) (t : Token) {p : Production Pred} {q : Pred}
    {rest : List (Term Pred)} (h : p.terms = .pred q :: rest) :
    FirstAccepts L t p ↔ q.accepts L t = true := by
  unfold FirstAccepts
  rw [h]
  constructor
  · rintro ⟨q', rest', h1, h2⟩
    injection h1 with h3 h4
    injection h3 with h3
    subst h3; exact h2
  · intro h; exact ⟨q, rest, rfl, h⟩

theorem mem_pipePredict (L : Lang) {setOrder : List Str → List Str} (hs : SetOrder setOrder)
    {kind : PipeKind} {ps : List (Production Pred)} {index : PipeIndex}
    (h : buildIndex kind [] ps = .ok index) (t : Token) (p : Production Pred) :
    p ∈ pipePredict L setOrder kind index t ↔ p ∈ ps ∧ FirstAccepts L t p := by
  have hv := (buildIndex_ok_iff kind ps []).1 ⟨index, h⟩
  cases kind with
  | exact =>
    simp only [pipePredict]
    rw [mem_indexGet h]
    refine and_congr_right fun hp => ?_
    obtain ⟨vs, hvs⟩ := hv p hp
    rcases indexValues_ok hvs with ⟨v, rest, _, hpt, rfl⟩ | ⟨v, rest, hk, _⟩ | ⟨rest, hk, _⟩
    · rw [firstAccepts_iff L t hpt, hvs]
      simp [Pred.accepts, Pred.call]
    · cases hk
    · cases hk
  | caseless =>
    simp only [pipePredict]
    rw [mem_indexGet h]
    refine and_congr_right fun hp => ?_
    obtain ⟨vs, hvs⟩ := hv p hp
    rcases indexValues_ok hvs with ⟨v, rest, hk, _⟩ | ⟨v, rest, _, hpt, rfl⟩ | ⟨rest, hk, _⟩
    · cases hk
    · rw [firstAccepts_iff L t hpt, hvs]
      simp [Pred.accepts, Pred.call]
    · cases hk
  | morph =>
    have key : p ∈ pipePredict L setOrder .morph index t ↔
        ∃ n, NormalForm L t n ∧ p ∈ indexGet index n := by
      simp only [pipePredict, NormalForm]
      cases hf : t.forms with
      | some fs => simp only [List.mem_flatMap, (hs _).2, List.mem_map]
      | none => simp
    rw [key]
    have h2 : (∃ n, NormalForm L t n ∧ p ∈ indexGet index n) ↔
        p ∈ ps ∧ ∃ n vs, NormalForm L t n ∧ indexValues .morph p = .ok vs ∧ n ∈ vs := by
      constructor
      · rintro ⟨n, hn, hm⟩
        obtain ⟨hp, vs, hvs, hm⟩ := (mem_indexGet h n p).1 hm
        exact ⟨hp, n, vs, hn, hvs, hm⟩
      · rintro ⟨hp, n, vs, hn, hvs, hm⟩
        exact ⟨n, hn, (mem_indexGet h n p).2 ⟨hp, vs, hvs, hm⟩⟩
    rw [h2]
    refine and_congr_right fun hp => ?_
    obtain ⟨vs, hvs⟩ := hv p hp
    rcases indexValues_ok hvs with ⟨v, rest, hk, _⟩ | ⟨v, rest, hk, _⟩ | ⟨rest, _, hpt⟩
    · cases hk
    · cases hk
    · rw [firstAccepts_iff L t hpt, hvs, accepts_dict]
      constructor
      · rintro ⟨n, vs', hn, h3, hm⟩; cases h3; exact ⟨n, hm, hn⟩
      · rintro ⟨n, hm, hn⟩; exact ⟨n, vs, hn, rfl, hm⟩

theorem pipeProductions_mem (L : Lang) (nf : Str → List Str) (split : Str → List Str)
    (kind : PipeKind) : ∀ (lines : List Str) (base : Nat) (p : Production Pred),
    p ∈ pipeProductions L nf split kind base lines ↔ ∃ k line, lines[k]? = some line ∧
      p = { id := base + k, terms := (split line).map (fun w => .pred (pipeTerm L nf kind w)),
            main := 0, key := some line }
  | [], base, p => by simp [pipeProductions]
  | line :: lines, base, p => by
    simp only [pipeProductions, List.mem_cons, pipeProductions_mem L nf split kind lines]
    constructor
    · rintro (h | ⟨k, l, h1, h2⟩)
      · exact ⟨0, line, rfl, h⟩
      · refine ⟨k + 1, l, h1, ?_⟩
        rw [h2, Nat.add_assoc, Nat.add_comm 1 k]
    · rintro ⟨k, l, h1, h2⟩
      cases k with
      | zero => cases h1; exact Or.inl h2
      | succ k =>
        refine Or.inr ⟨k, l, h1, ?_⟩
        rw [h2, Nat.add_assoc, Nat.add_comm 1 k]

theorem indexValues_pipe (L : Lang) (nf : Str → List Str) (kind : PipeKind) (ws : List Str)
    (i m : Nat) (key : Option Str) :
    (∃ vs, indexValues kind ⟨i, ws.map (fun w => .pred (pipeTerm L nf kind w)), m, key⟩ = .ok vs) ↔
      ws ≠ [] := by
  cases ws with
  | nil => cases kind <;> simp [indexValues]
  | cons w ws => cases kind <;> simp [indexValues, pipeTerm, mkCaseless]

theorem accepts_pipeTerm (L : Lang) (nf : Str → List Str) (kind : PipeKind) (w : Str) (t : Token) :
    (pipeTerm L nf kind w).accepts L t = true ↔ WordMatches L nf kind w t := by
  cases kind with
  | exact => simp [pipeTerm, Pred.accepts, Pred.call, WordMatches]
  | caseless => simp [pipeTerm, mkCaseless, Pred.accepts, Pred.call, WordMatches]
  | morph => simp only [pipeTerm, accepts_dict, WordMatches]

theorem derivesAll_words {L : Lang} {nf : Str → List Str} {kind : PipeKind}
    {rules : List (ChartRule Pred Token)} {start : Nat} {toks : List Token} :
    ∀ (ws : List Str) (i j : Nat),
    (∃ cs, DerivesAll (predGrammar L rules start) toks
        (ws.map (fun w => .pred (pipeTerm L nf kind w))) i j cs) ↔
      j = i + ws.length ∧ WordsMatch L nf kind toks i ws
  | [], i, j => by
    constructor
    · rintro ⟨cs, h⟩
      cases h; exact ⟨rfl, trivial⟩
    · rintro ⟨rfl, _⟩; exact ⟨[], .nil⟩
  | w :: ws, i, j => by
    constructor
    · rintro ⟨cs, h⟩
      cases h with
      | cons h1 h2 =>
        cases h1 with
        | leaf ht ha =>
          obtain ⟨h3, h4⟩ := (derivesAll_words ws _ _).1 ⟨_, h2⟩
          refine ⟨by simp only [List.length_cons]; omega, ⟨_, ht, ?_⟩, h4⟩
          exact (accepts_pipeTerm L nf kind w _).1 ha
    · rintro ⟨hj, ⟨t, ht, hw⟩, h⟩
      obtain ⟨cs, hc⟩ := (derivesAll_words (L := L) (nf := nf) (kind := kind) (rules := rules)
        (start := start) (toks := toks) ws (i + 1) j).2
        ⟨by simp only [List.length_cons] at hj; omega, h⟩
      exact ⟨_, .cons (.leaf ht ((accepts_pipeTerm L nf kind w t).2 hw)) hc⟩

end Yargy
