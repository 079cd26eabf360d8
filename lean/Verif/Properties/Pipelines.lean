import Verif.Proofs.Pipeline
import Verif.Properties.Predicates
import Verif.Properties.Match
/-!
C14, C15: gazetteers.
-/
namespace Yargy
open Spec

variable {L : Lang} {setOrder : List Str → List Str} {nf split : Str → List Str}

/-- A sample: the order of a list without repetitions, splitting at spaces, words with themselves as
normal form. -/
def sampleOrder (l : List Str) : List Str := l.eraseDups

theorem sampleOrder_ok : SetOrder sampleOrder := by
  have key : ∀ (n : Nat) (l : List Str), l.length ≤ n →
      (sampleOrder l).Nodup ∧ ∀ x, x ∈ sampleOrder l ↔ x ∈ l := by
    intro n
    induction n with
    | zero =>
      intro l hl
      have : l = [] := List.length_eq_zero_iff.1 (Nat.le_zero.1 hl)
      subst this
      simp [sampleOrder]
    | succ n ih =>
      intro l hl
      cases l with
      | nil => simp [sampleOrder]
      | cons a l =>
        have hf : (l.filter (fun b => !b == a)).length ≤ n :=
          Nat.le_trans (List.length_filter_le _ _) (by simpa using hl)
        obtain ⟨h1, h2⟩ := ih _ hf
        unfold sampleOrder at h1 h2 ⊢
        rw [List.eraseDups_cons]
        constructor
        · rw [List.nodup_cons]
          refine ⟨?_, h1⟩
          rw [h2]; simp
        · intro x
          rw [List.mem_cons, h2, List.mem_filter, List.mem_cons]
          by_cases h : x = a <;> simp [h]
  intro l
  exact key l.length l (Nat.le_refl _)

def sampleSplit (l : Str) : List Str :=
  (l.splitBy (fun a b => a != ' ' && b != ' ')).filter (fun w => w != [' '])

/-! ### C14 -/

/-- C14: looking the next token up in the index of a gazetteer selects exactly the dictionary lines
whose first word matches the token. -/
theorem pipeline_predict_iff (hs : SetOrder setOrder) {kind : PipeKind} {base : Nat}
    {lines : List Str} {r : ChartRule Pred Token}
    (h : pipeline L setOrder nf split kind base lines = .ok r) (t : Token) (p : Production Pred) :
    p ∈ r.predict t ↔ p ∈ r.productions ∧
      ∃ line w ws, p.key = some line ∧ split line = w :: ws ∧ WordMatches L nf kind w t := by
  unfold pipeline pipeRule at h
  obtain ⟨index, h1, h2⟩ := except_map_ok h
  subst h2
  show p ∈ pipePredict L setOrder kind index t ↔ p ∈ pipeProductions L nf split kind base lines ∧ _
  rw [mem_pipePredict L hs h1]
  refine and_congr_right fun hp => ?_
  obtain ⟨k, line, _, rfl⟩ := (pipeProductions_mem L nf split kind lines base p).1 hp
  unfold FirstAccepts
  dsimp only
  constructor
  · rintro ⟨q, rest, h3, h4⟩
    cases hw : split line with
    | nil => rw [hw] at h3; cases h3
    | cons w ws =>
      rw [hw] at h3
      simp only [List.map_cons, List.cons.injEq, Term.pred.injEq] at h3
      obtain ⟨rfl, rfl⟩ := h3
      exact ⟨line, w, ws, rfl, hw, (accepts_pipeTerm L nf kind w t).1 h4⟩
  · rintro ⟨line', w, ws, h3, h4, h5⟩
    cases h3
    rw [h4]
    exact ⟨_, _, rfl, (accepts_pipeTerm L nf kind w t).2 h5⟩

example : ∃ r, pipeline sampleLang sampleOrder (fun w => [w]) sampleSplit .caseless 0
      ["New York".toList, "York".toList] = .ok r ∧
    (r.predict { value := "NEW".toList, span := (0, 3), type := [] }).map (·.key) =
      [some "New York".toList] := by
  refine ⟨_, rfl, ?_⟩
  decide +kernel

/-- C14: the lines are selected in dictionary order, each once (`pipeline` and
`caseless_pipeline`). -/
theorem pipeline_predict_order {kind : PipeKind} (hk : kind ≠ .morph) {base : Nat}
    {lines : List Str} {r : ChartRule Pred Token}
    (h : pipeline L setOrder nf split kind base lines = .ok r) (t : Token) :
    (r.predict t).Sublist r.productions := by
  unfold pipeline pipeRule at h
  obtain ⟨index, h1, h2⟩ := except_map_ok h
  subst h2
  show (pipePredict L setOrder kind index t).Sublist (pipeProductions L nf split kind base lines)
  have hv := (buildIndex_ok_iff kind _ []).1 ⟨index, h1⟩
  have key : ∀ (w : Str) (ps : List (Production Pred)),
      (∀ p ∈ ps, ∃ vs, indexValues kind p = .ok vs) →
      (ps.flatMap (fun p => List.replicate (filed kind w p) p)).Sublist ps := by
    intro w ps
    induction ps with
    | nil => intro _; simp
    | cons p ps ih =>
      intro hps
      rw [List.flatMap_cons]
      have h3 := ih (fun q hq => hps q (List.mem_cons_of_mem _ hq))
      obtain ⟨vs, hvs⟩ := hps p (List.mem_cons_self ..)
      have : filed kind w p ≤ 1 := by
        simp only [filed, hvs]
        rcases indexValues_ok hvs with ⟨v, rest, _, _, rfl⟩ | ⟨v, rest, _, _, rfl⟩ | ⟨rest, h4, _⟩
        · exact List.count_le_length
        · exact List.count_le_length
        · exact absurd h4 hk
      rcases Nat.le_one_iff_eq_zero_or_eq_one.1 this with h4 | h4
      · rw [h4]; exact h3.trans (List.sublist_cons_self p ps)
      · rw [h4]; exact h3.cons_cons p
  have hget : ∀ w, (indexGet index w).Sublist (pipeProductions L nf split kind base lines) := by
    intro w
    rw [buildIndex_get kind _ _ _ h1 w]
    exact key w _ hv
  cases kind with
  | exact => exact hget _
  | caseless => exact hget _
  | morph => exact absurd rfl hk

/-- C14: a grammar made of ordinary rules and gazetteers: no look-up offers a production that is not
there or hides one that could match. -/
theorem library_predict (hs : SetOrder setOrder) {rules : List (ChartRule Pred Token)} {start : Nat}
    (h : LibraryRules L setOrder rules) :
    PredictSound (predGrammar L rules start) ∧ PredictLossless (predGrammar L rules start) := by
  have key : ∀ rule ∈ rules, ∀ t prod,
      (prod ∈ rule.predict t → prod ∈ rule.productions) ∧
      (prod ∈ rule.productions →
        (∀ p, prod.terms.head? = some (.pred p) → p.accepts L t = true) → prod ∈ rule.predict t) := by
    intro rule hr t prod
    rcases h rule hr with ⟨ps, rfl⟩ | ⟨kind, ps, hp⟩
    · exact ⟨id, fun h _ => h⟩
    · unfold pipeRule at hp
      obtain ⟨index, h1, h2⟩ := except_map_ok hp
      subst h2
      dsimp only
      rw [mem_pipePredict L hs h1]
      refine ⟨fun h => h.1, fun h3 h4 => ⟨h3, ?_⟩⟩
      obtain ⟨vs, hvs⟩ := (buildIndex_ok_iff kind ps []).1 ⟨index, h1⟩ prod h3
      rcases indexValues_ok hvs with ⟨v, rest, _, hpt, _⟩ | ⟨v, rest, _, hpt, _⟩ | ⟨rest, _, hpt⟩ <;>
        exact ⟨_, _, hpt, h4 _ (by rw [hpt]; rfl)⟩
  constructor
  · intro r t prod hp
    unfold Grammar.predict at hp
    unfold Grammar.productions
    split at hp
    · rename_i rule hr
      exact (key rule (List.mem_of_getElem? hr) t prod).1 hp
    · cases hp
  · intro r t prod hp ha
    unfold Grammar.productions at hp
    unfold Grammar.predict
    split at hp
    · rename_i rule hr
      exact (key rule (List.mem_of_getElem? hr) t prod).2 hp ha
    · cases hp

example : ∃ r, pipeline sampleLang sampleOrder (fun w => [w]) sampleSplit .morph 1
      ["New York".toList, "York".toList] = .ok r ∧
    LibraryRules sampleLang sampleOrder [ordinaryRule [⟨0, [.rule 1], 0, none⟩], r] := by
  have : ∃ r, pipeline sampleLang sampleOrder (fun w => [w]) sampleSplit .morph 1
      ["New York".toList, "York".toList] = .ok r := ⟨_, rfl⟩
  obtain ⟨r, h0⟩ := this
  refine ⟨r, h0, ?_⟩
  intro r' hr
  rcases List.mem_cons.1 hr with h | h
  · exact Or.inl ⟨_, h⟩
  · rw [List.mem_singleton.1 h]; exact Or.inr ⟨_, _, h0⟩

/-! ### C15 -/

/-- C15: a gazetteer can be compiled iff no line tokenizes to nothing; otherwise compiling raises
`IndexError`. -/
theorem pipeline_ok_iff (kind : PipeKind) (base : Nat) (lines : List Str) :
    (∃ r, pipeline L setOrder nf split kind base lines = .ok r) ↔ ∀ line ∈ lines, split line ≠ [] := by
  have : (∃ r, pipeline L setOrder nf split kind base lines = .ok r) ↔
      ∃ index, buildIndex kind [] (pipeProductions L nf split kind base lines) = .ok index := by
    unfold pipeline pipeRule
    constructor
    · rintro ⟨r, h⟩
      obtain ⟨i, h1, _⟩ := except_map_ok h
      exact ⟨i, h1⟩
    · rintro ⟨i, h⟩
      rw [h]; exact ⟨_, rfl⟩
  rw [this, buildIndex_ok_iff]
  constructor
  · intro h line hl
    obtain ⟨k, hk⟩ := List.mem_iff_getElem?.1 hl
    have := h _ ((pipeProductions_mem L nf split kind lines base _).2 ⟨k, line, hk, rfl⟩)
    exact (indexValues_pipe L nf kind (split line) _ _ _).1 this
  · intro h p hp
    obtain ⟨k, line, h1, rfl⟩ := (pipeProductions_mem L nf split kind lines base p).1 hp
    exact (indexValues_pipe L nf kind (split line) _ _ _).2 (h line (List.mem_of_getElem? h1))

theorem pipeline_error (kind : PipeKind) (base : Nat) (lines : List Str) (e : Err)
    (h : pipeline L setOrder nf split kind base lines = .error e) : e = .indexError := by
  unfold pipeline pipeRule at h
  have key : ∀ (ps : List (Production Pred)) (index : PipeIndex),
      (∀ p ∈ ps, (∃ vs, indexValues kind p = .ok vs) ∨ indexValues kind p = .error .indexError) →
      ∀ e, buildIndex kind index ps = .error e → e = .indexError := by
    intro ps
    induction ps with
    | nil => intro index _ e h; cases h
    | cons p ps ih =>
      intro index hps e h
      unfold buildIndex at h
      rcases hps p (List.mem_cons_self ..) with ⟨vs, hv⟩ | hv
      · rw [hv] at h
        exact ih _ (fun q hq => hps q (List.mem_cons_of_mem _ hq)) e h
      · rw [hv] at h; cases h; rfl
  cases hb : buildIndex kind [] (pipeProductions L nf split kind base lines) with
  | ok i => rw [hb] at h; cases h
  | error e' =>
    rw [hb] at h
    cases h
    refine key _ _ ?_ _ hb
    intro p hp
    obtain ⟨k, line, h1, rfl⟩ := (pipeProductions_mem L nf split kind lines base p).1 hp
    by_cases hl : split line = []
    · right; rw [hl]; cases kind <;> rfl
    · left; exact (indexValues_pipe L nf kind (split line) _ _ _).2 hl

example : (pipeline sampleLang sampleOrder (fun w => [w]) sampleSplit .exact 0
    ["York".toList, " ".toList] matches .error .indexError) = true := by decide +kernel

/-- C15: a gazetteer rule derives a piece of the text iff the piece consists of the words of one of
its lines. -/
theorem pipeline_derives_iff {kind : PipeKind} {base : Nat} {lines : List Str}
    {rules : List (ChartRule Pred Token)} {start n : Nat} {r : ChartRule Pred Token}
    (h : pipeline L setOrder nf split kind base lines = .ok r) (hr : rules[n]? = some r)
    (toks : List Token) (i j : Nat) :
    (∃ d, Derives (predGrammar L rules start) toks (.rule n) i j d) ↔
      ∃ line ∈ lines, j = i + (split line).length ∧ WordsMatch L nf kind toks i (split line) := by
  have hp : (predGrammar L rules start).productions n = pipeProductions L nf split kind base lines := by
    unfold pipeline pipeRule at h
    obtain ⟨index, h1, h2⟩ := except_map_ok h
    unfold Grammar.productions predGrammar
    dsimp only
    rw [hr, ← h2]
  constructor
  · rintro ⟨d, hd⟩
    cases hd with
    | node hm hc =>
      rw [hp] at hm
      obtain ⟨k, line, h1, rfl⟩ := (pipeProductions_mem L nf split kind lines base _).1 hm
      exact ⟨line, List.mem_of_getElem? h1, (derivesAll_words _ _ _).1 ⟨_, hc⟩⟩
  · rintro ⟨line, hl, hw⟩
    obtain ⟨k, hk⟩ := List.mem_iff_getElem?.1 hl
    obtain ⟨cs, hc⟩ := (derivesAll_words (rules := rules) (start := start) _ _ _).2 hw
    refine ⟨_, .node (prod := ⟨base + k, (split line).map (fun w => .pred (pipeTerm L nf kind w)), 0,
      some line⟩) ?_ hc⟩
    rw [hp]
    exact (pipeProductions_mem L nf split kind lines base _).2 ⟨k, line, hk, rfl⟩

/-- Without agreement relations no tree is ever rejected. -/
theorem not_rejected {P : Type} {A : Agreement} (hA : ∀ r, A.relationOf r = none) (t : Tree P Token) :
    ¬ RejectedAfter A t := by
  rintro ⟨σ, σ', _, h⟩
  unfold prepareMatch at h
  split at h
  · cases h
  · rename_i root _
    have hg : treeRelations A root = .ok RelGraph.empty := by
      unfold treeRelations
      have key : ∀ (l : List (TTree P)) (g : RelGraph), l.foldlM (visitRelation A) g = .ok g := by
        intro l
        induction l with
        | nil => intro g; rfl
        | cons x l ih =>
          intro g
          have hx : visitRelation A g x = .ok g := by
            cases x with
            | leaf => rfl
            | node => simp only [visitRelation, hA]
          rw [List.foldlM_cons, hx]
          exact ih g
      exact key _ _
    rw [hg] at h
    obtain ⟨g, h1, h⟩ := except_bind_ok h
    cases h1
    have hv : (RelGraph.empty.validate A.relation).2 = true := rfl
    simp only [hv, if_true] at h
    obtain ⟨_, _, h⟩ := except_bind_ok h
    obtain ⟨_, _, h⟩ := except_bind_ok h
    cases h

/-- Without agreement relations every tree with a word can be checked. -/
theorem checkable_of_no_relations {P : Type} {A : Agreement} (hA : ∀ r, A.relationOf r = none)
    {t : Tree P Token} (h : t.root.prune ≠ none) : Checkable A t := by
  cases hp : t.root.prune with
  | none => exact absurd hp h
  | some r0 =>
    refine ⟨r0, hp, ?_⟩
    intro n r prod rank cs _ hr
    exact absurd (hA r) hr

theorem reported_derives {P H : Type} [DecidableEq H] {G : Grammar P Token} {hash : Key → H}
    {toks : List Token} {all : Bool} (hG : PredictSound G) {fuel : Nat} {t : Tree P Token}
    (ht : Reported G hash toks all fuel t) :
    Derives G toks (.rule G.start) t.range.1 t.range.2 t.root.erase := by
  obtain ⟨ss, h1, h2⟩ := ht
  obtain ⟨cols, h3, rfl⟩ := Option.map_eq_some_iff.1 h1
  obtain ⟨s, hs, rfl⟩ := List.mem_map.1 h2
  exact chart_matches_sound hG h3 s hs

theorem reported_prune {P H : Type} [DecidableEq H] {G : Grammar P Token} {hash : Key → H}
    {toks : List Token} {all : Bool} (hG : PredictSound G) {fuel : Nat} {t : Tree P Token}
    (ht : Reported G hash toks all fuel t) (hr : t.range.1 < t.range.2) : t.root.prune ≠ none := by
  obtain ⟨ss, h1, h2⟩ := ht
  obtain ⟨cols, h3, rfl⟩ := Option.map_eq_some_iff.1 h1
  obtain ⟨home, n, hl⟩ := chart_laid hG h3
  obtain ⟨q1, q2, _⟩ := layout_leaves (hl t h2)
  rw [Ne, prune_none_iff]
  intro hn
  rw [hn] at q2
  simp at q2
  omega

theorem derivesAllSafe_preds {P T : Type} {G : Grammar P T} {toks : List T} {b : Before P} :
    ∀ {xs : List (Term P)} {i j : Nat} {cs : List (DTree P T)}, (∀ x ∈ xs, ∃ p, x = .pred p) →
      DerivesAll G toks xs i j cs → DerivesAllSafe G toks b xs i j cs := by
  intro xs
  induction xs generalizing b with
  | nil => intro i j cs _ h; cases h; exact .nil
  | cons x xs ih =>
    intro i j cs hx h
    cases h with
    | cons h1 h2 =>
      obtain ⟨p, rfl⟩ := hx x (List.mem_cons_self ..)
      cases h1 with
      | leaf ht ha =>
        exact .consLeaf (.leaf ht ha) (ih (fun y hy => hx y (List.mem_cons_of_mem _ hy)) h2)

section
variable {H : Type} [DecidableEq H] {hash : Key → H} {A : Agreement} {kind : PipeKind} {base : Nat}
  {lines : List Str} {r : ChartRule Pred Token}

theorem pipeline_productions (h : pipeline L setOrder nf split kind base lines = .ok r) (n : Nat)
    (p : Production Pred) (hp : p ∈ (predGrammar L [r] 0).productions n) : n = 0 ∧
    ∃ k line, lines[k]? = some line ∧ p = ⟨base + k,
      (split line).map (fun w => .pred (pipeTerm L nf kind w)), 0, some line⟩ := by
  unfold pipeline pipeRule at h
  obtain ⟨index, h1, h2⟩ := except_map_ok h
  cases n with
  | succ n => cases hp
  | zero =>
    refine ⟨rfl, ?_⟩
    subst h2
    exact (pipeProductions_mem L nf split kind lines base p).1 hp

theorem pipeline_library (h : pipeline L setOrder nf split kind base lines = .ok r) :
    LibraryRules L setOrder [r] := by
  intro r' hr
  rw [List.mem_singleton.1 hr]
  exact Or.inr ⟨_, _, h⟩

theorem pipeline_distinct (h : pipeline L setOrder nf split kind base lines = .ok r) :
    DistinctProductions (predGrammar L [r] 0) := by
  intro n n' p p' hp hp' he
  obtain ⟨_, k, line, hk, rfl⟩ := pipeline_productions h n p hp
  obtain ⟨_, k', line', hk', rfl⟩ := pipeline_productions h n' p' hp'
  have : k = k' := by dsimp only at he; omega
  subst this
  rw [hk] at hk'; cases hk'; rfl

/-- C15, end to end: with a gazetteer as the whole grammar, `extract` reports exactly the pieces of
the text that consist of the words of a line. -/
theorem pipeline_extract_iff (hs : SetOrder setOrder) (hh : ∀ a b, hash a = hash b → a = b)
    (hA : ∀ r, A.relationOf r = none)
    (h : pipeline L setOrder nf split kind base lines = .ok r) {toks : List Token} {fuel : Nat}
    {ms : List (Match Pred)} {σ : Store} {e : Option Err}
    (hx : extract (predGrammar L [r] 0) A hash toks true fuel = some (ms, σ, e)) (i j : Nat) :
    e = none ∧ ((∃ m ∈ ms, m.tree.range = (i, j)) ↔
      ∃ line ∈ lines, j = i + (split line).length ∧ WordsMatch L nf kind toks i (split line)) := by
  obtain ⟨hG, hL⟩ := library_predict (start := 0) hs (pipeline_library h)
  have hD := pipeline_distinct h
  have hne := (pipeline_ok_iff kind base lines).1 ⟨r, h⟩
  have he : e = none := by
    rw [extract_raises_iff hG hx]
    intro t ht
    refine checkable_of_no_relations hA (reported_prune hG ht ?_)
    obtain ⟨line, hl, hj, _⟩ := (pipeline_derives_iff (rules := [r]) (start := 0) (n := 0) h rfl
      toks _ _).1 ⟨_, reported_derives hG ht⟩
    have := List.length_pos_iff.2 (hne line hl)
    omega
  refine ⟨he, ?_⟩
  subst he
  rw [← pipeline_derives_iff (rules := [r]) (start := 0) (n := 0) h rfl]
  constructor
  · rintro ⟨m, hm, hr⟩
    obtain ⟨d, hd, _⟩ := (extract_matches hG (pred_narrows L [r] 0) hx m hm).derives
    rw [hr] at hd
    exact ⟨d, hd⟩
  · rintro ⟨d, hd⟩
    have hsafe : DerivesSafe (predGrammar L [r] 0) toks (.rule 0) i j d := by
      cases hd with
      | node hm hc =>
        refine .node hm (derivesAllSafe_preds ?_ hc)
        obtain ⟨_, k, line, _, rfl⟩ := pipeline_productions h _ _ hm
        intro x hx
        obtain ⟨w, _, rfl⟩ := List.mem_map.1 hx
        exact ⟨_, rfl⟩
    have hil : i ≤ toks.length := by
      obtain ⟨line, hl, _, hw⟩ := (pipeline_derives_iff (rules := [r]) (start := 0) (n := 0) h rfl
        toks i j).1 ⟨d, hd⟩
      cases hsp : split line with
      | nil => exact absurd hsp (hne line hl)
      | cons w ws =>
        rw [hsp] at hw
        obtain ⟨⟨t, ht, _⟩, _⟩ := hw
        rcases Nat.lt_or_ge i toks.length with h | h
        · omega
        · rw [List.getElem?_eq_none h] at ht; cases ht
    obtain ⟨n, hrounds⟩ := hsafe.rounds (fun _ => 0) 0
    rcases extract_complete_partial hG hL hD hh (waits_zero _) hx i j n d (Or.inr rfl) hil (Or.inl rfl)
        hrounds with
      ⟨m, hm, hr, _⟩ | ⟨t, _, _, _, hrej⟩
    · exact ⟨m, hm, hr⟩
    · exact absurd hrej (not_rejected hA t)

/-- C15: a gazetteer parser always comes to an end. -/
theorem pipeline_terminates (hs : SetOrder setOrder)
    (h : pipeline L setOrder nf split kind base lines = .ok r) (toks : List Token) :
    ∃ fuel x, extract (predGrammar L [r] 0) A hash toks true fuel = some x := by
  obtain ⟨hG, _⟩ := library_predict (start := 0) hs (pipeline_library h)
  refine extract_terminates hG ?_
  intro i j n hc
  have key : ∀ a b, ¬ Above (predGrammar L [r] 0) toks i j a b := by
    rintro a b ⟨prod, hp, pre, post, ht, _⟩
    obtain ⟨_, k, line, _, rfl⟩ := pipeline_productions h _ _ hp
    have : Term.rule b ∈ (split line).map (fun w => Term.pred (pipeTerm L nf kind w)) := by
      dsimp only at ht; rw [ht]; simp
    obtain ⟨w, _, hw⟩ := List.mem_map.1 this
    cases hw
  cases hc with
  | single h => exact key _ _ h
  | tail _ h => exact key _ _ h

end

/-- The lines `x` and `y`, for words with two normal forms. -/
def twoLines (setOrder : List Str → List Str) : Grammar Pred Token :=
  match pipeline sampleLang setOrder (fun w => [w]) sampleSplit .morph 0 ["x".toList, "y".toList] with
  | .ok r => predGrammar sampleLang [r] 0
  | .error _ => predGrammar sampleLang [] 0

/-- A word that may be a form of `x` or of `y`. -/
def ambiguousToken : Token where
  value := "z".toList
  span := (0, 1)
  type := "RU".toList
  forms := some [⟨"x".toList, [], 0⟩, ⟨"y".toList, [], 1⟩]

/-- The dictionary lines of the matches `findall` finds. -/
def foundLines (r : Option (Except Err (List (Match Pred) × Store))) : List (Option Str) :=
  match r with
  | some (.ok (ms, _)) => ms.map (fun m => match m.tree.root with
    | .node _ _ prod _ _ => prod.key
    | .leaf _ _ _ => none)
  | _ => []

/-- C46 is false for `morph_pipeline`: when several lines match the same words, the one reported by
`findall` depends on the order in which Python iterates over a set of strings, which changes from run
to run. -/
theorem gazetteer_order_matters : ∃ o1 o2, SetOrder o1 ∧ SetOrder o2 ∧
    foundLines (findall (twoLines o1) noAgreement (id : Key → Key) [ambiguousToken] 100) =
      [some "x".toList] ∧
    foundLines (findall (twoLines o2) noAgreement (id : Key → Key) [ambiguousToken] 100) =
      [some "y".toList] := by
  refine ⟨sampleOrder, fun l => (sampleOrder l).reverse, sampleOrder_ok, ?_, ?_, ?_⟩
  · intro l
    obtain ⟨h1, h2⟩ := sampleOrder_ok l
    exact ⟨List.pairwise_reverse.2 (h1.imp Ne.symm), fun x => by rw [List.mem_reverse, h2]⟩
  · decide +kernel
  · decide +kernel

end Yargy
