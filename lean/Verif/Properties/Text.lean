import Verif.Properties.Optionals
import Verif.Spec.Text
import Verif.Properties.EndToEnd
import Verif.Properties.Tokenizers
/-!
C66, C67: from the text to the result.
-/
namespace Yargy
open Spec

variable {L : Lang} {setOrder : List Str → List Str} {relation : Nat → Relation} {pid : Nat → Nat} {limit root : Nat}
  {h h' : Heap Pred} {H : Type} [DecidableEq H] {hash : Key → H} {r : Reader} {p : TextParser}

/-! ### Tokens of a text -/

/-- What the analyzer adds to a token. -/
def readToken (a : Option Analyzer) (t : Token) : Token :=
  match a with
  | none => t
  | some a => if t.type = ruType then t.morphed (a.parse t.value) else t

theorem readToken_keeps (a : Option Analyzer) (t : Token) :
    (readToken a t).value = t.value ∧ (readToken a t).span = t.span ∧ (readToken a t).type = t.type := by
  unfold readToken
  split
  · exact ⟨rfl, rfl, rfl⟩
  · split <;> exact ⟨rfl, rfl, rfl⟩

theorem tokenize_eq (r : Reader) (text : Str) :
    r.tokenize text = (r.tokenizer.call text).map (fun ts => ts.map (readToken r.analyzer)) := by
  unfold Reader.tokenize readToken
  cases ha : r.analyzer with
  | none =>
    cases r.tokenizer.call text with
    | error e => rfl
    | ok ts => show _ = Except.ok _; simp
  | some a => rfl

theorem call_ok {t : Tokenizer} (hne : t.compiled ≠ []) (text : Str) : ∃ ts, t.call text = .ok ts := by
  unfold Tokenizer.call
  split
  · next e => exact absurd (List.isEmpty_iff.1 e) hne
  · exact ⟨_, rfl⟩

theorem same_values {as bs : List Token} (h : SameTexts as bs) : as.map (·.value) = bs.map (·.value) := by
  induction h with
  | nil => rfl
  | cons h1 _ _ _ _ ih => rw [List.map_cons, List.map_cons, h1, ih]

/-- A reader that answers gives tokens for every text: those of the tokenizer, with forms and tags added. -/
theorem reader_tokens (hr : Answers r) (text : Str) : ∃ ts toks, r.tokenizer.call text = .ok ts ∧
    r.tokens text = .ok toks ∧ SameTexts (ts.map (readToken r.analyzer)) toks ∧
    r.split text = ts.map (·.value) ∧ toks.map (·.value) = r.split text := by
  obtain ⟨ts, h1⟩ := call_ok hr.rules text
  have h2 := tokenize_eq r text
  rw [h1] at h2
  obtain ⟨us, h3, h4⟩ := hr.tags (ts.map (readToken r.analyzer))
  have h5 : r.split text = ts.map (·.value) := by
    unfold Reader.split
    rw [h2]
    show (ts.map (readToken r.analyzer)).map (·.value) = _
    rw [List.map_map]
    exact List.map_congr_left (fun t _ => (readToken_keeps r.analyzer t).1)
  refine ⟨ts, us, h1, ?_, h4, h5, ?_⟩
  · unfold Reader.tokens
    rw [h2]
    exact h3
  · rw [← same_values h4, h5, List.map_map]
    exact List.map_congr_left (fun t _ => (readToken_keeps r.analyzer t).1)

/-! ### C61 on texts -/

/-- `tokenizer.split(line)` of the tokenizer of the parser, with an analyzer or without, are the words the parser
sees. -/
theorem split_words (hr : Answers r) (line : Str) : r.tokenizer.split line = .ok (r.split line) ∧
    ∀ toks, r.tokens line = .ok toks → toks.map (·.value) = r.split line := by
  obtain ⟨ts, toks, h1, h2, _, h4, h5⟩ := reader_tokens hr line
  refine ⟨?_, fun toks' e => ?_⟩
  · unfold Tokenizer.split
    rw [h1, h4]
    rfl
  · rw [h2] at e
    cases e
    exact h5

theorem newParser_parts (hb : newParser L setOrder r relation pid limit root h = .ok (p, h')) :
    p.reader = r ∧ buildParser L setOrder r.context r.split relation pid limit root h = .ok (p.built, h') := by
  unfold newParser at hb
  obtain ⟨x, h1, h2⟩ := except_map_ok hb
  cases h2
  exact ⟨rfl, h1⟩

/-- C61 (partial), on texts: for a rule without agreement relations whose
optional parts stand directly after tokens `Parser(rule, …)` succeeds, and
the methods of the parser end on every text without raising: `extract` reports exactly the ranges of tokens that the
rule accepts, `findall` the best choice among them, and `match` finds the whole text if the rule accepts it. -/
theorem text_correct_optionals_partial (hrun : Fresh L setOrder h) (hroot : RuleAt h root) (hp : ∀ a b, pid a = pid b → a = b)
    (hs : SetOrder setOrder) (hh : ∀ a b, hash a = hash b → a = b) (hr : Answers r)
    (hc : Complete r.context r.split h root ∨ CompleteOptionals r.context r.split h root) :
    ∃ N p h', (∀ limit, N ≤ limit → newParser L setOrder r relation pid limit root h = .ok (p, h')) ∧
      ∀ text, ∃ toks, r.tokens text = .ok toks ∧ toks.map (·.value) = r.split text ∧
        (∃ fuel ms σ, p.extract hash text true fuel = some (ms, σ, none) ∧
          ∀ i j, (∃ m ∈ ms, m.tree.range = (i, j)) ↔ Accepts L (r.context.activation L r.split) h root toks i j) ∧
        (∃ fuel ms σ, p.findall hash text fuel = some (.ok (ms, σ)) ∧
          Chosen (Accepts L (r.context.activation L r.split) h root toks) (ms.map (fun m => m.tree.range))) ∧
        ∃ fuel x σ, p.match hash text fuel = some (.ok (x, σ)) ∧
          (Accepts L (r.context.activation L r.split) h root toks 0 toks.length →
            ∃ m, x = some m ∧ m.tree.range = (0, toks.length)) ∧
          ∀ m, x = some m → m.tree.range.2 = toks.length ∧
            Accepts L (r.context.activation L r.split) h root toks m.tree.range.1 m.tree.range.2 := by
  have key : ∃ N b h', (∀ limit, N ≤ limit →
      buildParser L setOrder r.context r.split relation pid limit root h = .ok (b, h')) ∧
      ∀ toks : List Token,
        (∃ fuel ms σ, Yargy.extract b.grammar b.agreement hash toks true fuel = some (ms, σ, none) ∧
          ∀ i j, (∃ m ∈ ms, m.tree.range = (i, j)) ↔ Accepts L (r.context.activation L r.split) h root toks i j) ∧
        (∃ fuel ms σ, Yargy.findall b.grammar b.agreement hash toks fuel = some (.ok (ms, σ)) ∧
          Chosen (Accepts L (r.context.activation L r.split) h root toks) (ms.map (fun m => m.tree.range))) ∧
        ∃ fuel x σ, matchText b.grammar b.agreement hash toks fuel = some (.ok (x, σ)) ∧
          (Accepts L (r.context.activation L r.split) h root toks 0 toks.length →
            ∃ m, x = some m ∧ m.tree.range = (0, toks.length)) ∧
          ∀ m, x = some m → m.tree.range.2 = toks.length ∧
            Accepts L (r.context.activation L r.split) h root toks m.tree.range.1 m.tree.range.2 := by
    rcases hc with hc | hc
    · exact fresh_correct_partial (relation := relation) hrun hroot hp hs hh hc
    · exact fresh_correct_optionals_partial (relation := relation) hrun hroot hp hs hh hc
  obtain ⟨N, b, h', h1, h2⟩ := key
  refine ⟨N, ⟨r, b⟩, h', fun limit hl => ?_, fun text => ?_⟩
  · unfold newParser
    rw [h1 limit hl]
    rfl
  · obtain ⟨ts, toks, _, k2, _, _, k5⟩ := reader_tokens hr text
    obtain ⟨e1, e2, e3⟩ := h2 toks
    refine ⟨toks, k2, k5, ?_, ?_, ?_⟩
    · obtain ⟨fuel, ms, σ, g⟩ := e1
      refine ⟨fuel, ms, σ, ?_⟩
      unfold TextParser.extract
      dsimp only
      rw [k2]
      exact g
    · obtain ⟨fuel, ms, σ, g⟩ := e2
      refine ⟨fuel, ms, σ, ?_⟩
      unfold TextParser.findall
      dsimp only
      rw [k2]
      exact g
    · obtain ⟨fuel, x, σ, g⟩ := e3
      refine ⟨fuel, x, σ, ?_⟩
      unfold TextParser.match
      dsimp only
      rw [k2]
      exact g

/-- The same for a rule without optional parts. -/
theorem text_correct_partial (hrun : Fresh L setOrder h) (hroot : RuleAt h root) (hp : ∀ a b, pid a = pid b → a = b)
    (hs : SetOrder setOrder) (hh : ∀ a b, hash a = hash b → a = b) (hr : Answers r)
    (hc : Complete r.context r.split h root) :
    ∃ N p h', (∀ limit, N ≤ limit → newParser L setOrder r relation pid limit root h = .ok (p, h')) ∧
      ∀ text, ∃ toks, r.tokens text = .ok toks ∧ toks.map (·.value) = r.split text ∧
        (∃ fuel ms σ, p.extract hash text true fuel = some (ms, σ, none) ∧
          ∀ i j, (∃ m ∈ ms, m.tree.range = (i, j)) ↔ Accepts L (r.context.activation L r.split) h root toks i j) ∧
        (∃ fuel ms σ, p.findall hash text fuel = some (.ok (ms, σ)) ∧
          Chosen (Accepts L (r.context.activation L r.split) h root toks) (ms.map (fun m => m.tree.range))) ∧
        ∃ fuel x σ, p.match hash text fuel = some (.ok (x, σ)) ∧
          (Accepts L (r.context.activation L r.split) h root toks 0 toks.length →
            ∃ m, x = some m ∧ m.tree.range = (0, toks.length)) ∧
          ∀ m, x = some m → m.tree.range.2 = toks.length ∧
            Accepts L (r.context.activation L r.split) h root toks m.tree.range.1 m.tree.range.2 :=
  text_correct_optionals_partial hrun hroot hp hs hh hr (.inl hc)

/-- What a built parser needs for its results to be what they should. -/
theorem program_uses {c : Context} {split : Str → List Str} {b : Built} (hrun : Run L setOrder [] h)
    (hroot : RuleAt h root) (hp : ∀ a b, pid a = pid b → a = b) (hs : SetOrder setOrder)
    (hb : buildParser L setOrder c split relation pid limit root h = .ok (b, h')) :
    PredictSound b.grammar ∧ PredictLossless b.grammar ∧ ConstrainNarrows b.grammar := by
  obtain ⟨k1, k2, k3, k4, k5, k6, rules, k7, k8⟩ := program_parts hrun hroot hp hb
  obtain ⟨q1, q3⟩ := program_predict hrun hroot hp hs hb
  refine ⟨q1, ?_, q3⟩
  rw [k7]
  exact (library_predict (start := b.grammar.start) hs k8).2

/-! ### C66 -/

/-- The normal forms of the analyzer, if there is one. -/
def Reader.normalized (r : Reader) (w : Str) : List Str :=
  match r.analyzer with
  | some a => a.normalized w
  | none => []

theorem reader_key (r : Reader) {k : PipeKind} (hm : k = .morph → r.analyzer ≠ none) (l : Str) :
    pipeKey L r.context r.split k l = .ok ((r.split l).map (pipeTerm L r.normalized k)) := by
  cases k with
  | exact => rfl
  | caseless => rfl
  | morph =>
    cases ha : r.analyzer with
    | none => exact absurd ha (hm rfl)
    | some a =>
      have e : ∀ w, (r.context.getMorph.map (fun m => Pred.dict (m.normalized w))) =
          .ok (pipeTerm L r.normalized .morph w) := by
        intro w
        unfold Context.getMorph Reader.context Reader.normalized pipeTerm
        rw [ha]
        rfl
      show (r.split l).mapM _ = _
      generalize r.split l = ws
      induction ws with
      | nil => rfl
      | cons w ws ih =>
        rw [List.mapM_cons, e, ih]
        rfl

theorem fits_words {nf : Str → List Str} {k : PipeKind} {toks : List Token} : ∀ (ws : List Str) (i j : Nat),
    Fits (Pred.accepts L) toks (ws.map (fun w => .pred (pipeTerm L nf k w))) i j ↔
      j = i + ws.length ∧ WordsMatch L nf k toks i ws
  | [], i, j => by
    constructor
    · intro h
      cases h
      exact ⟨rfl, trivial⟩
    · rintro ⟨rfl, _⟩
      exact .nil
  | w :: ws, i, j => by
    constructor
    · intro h
      cases h with
      | pred h1 h2 h3 =>
        obtain ⟨h4, h5⟩ := (fits_words ws _ _).1 h3
        refine ⟨by simp only [List.length_cons]; omega, ⟨_, h1, (accepts_pipeTerm L nf k w _).1 h2⟩, h5⟩
    · rintro ⟨h1, ⟨t, h2, h3⟩, h4⟩
      refine .pred h2 ((accepts_pipeTerm L nf k w t).2 h3) ((fits_words ws _ _).2 ⟨?_, h4⟩)
      simp only [List.length_cons] at h1
      omega

/-- What a gazetteer accepts: the words of one of its lines. -/
theorem accepts_gazetteer (r : Reader) {k : PipeKind} {ls : List Str} (ho : h[root]? = some (.pipe (.scheme k ls)))
    (hm : k = .morph → r.analyzer ≠ none) (toks : List Token) (i j : Nat) :
    Accepts L (r.context.activation L r.split) h root toks i j ↔
      ∃ l ∈ ls, j = i + (r.split l).length ∧ WordsMatch L r.normalized k toks i (r.split l) := by
  have reads : ∀ (ps : List Pred) w, Reads (r.context.activation L r.split) .plain h (ps.map .pred) w ↔
      w = ps.map .pred := by
    intro ps
    induction ps with
    | nil =>
      intro w
      constructor
      · intro h; cases h; rfl
      · rintro rfl; exact .nil
    | cons p ps ih =>
      intro w
      constructor
      · intro h
        cases h with
        | pred h => rw [(ih _).1 h]; rfl
      · rintro rfl
        exact .pred ((ih _).2 rfl)
  constructor
  · rintro ⟨w, hw, hf⟩
    cases hw with
    | @rule a o us ts w v ha hopen hu hv =>
      rw [ho] at ha
      cases ha
      cases hv
      cases hopen with
      | other _ hsp => cases hsp
      | @line _ _ l ps hl hkey =>
        have hkey' : pipeKey L r.context r.split k l = .ok ps := hkey
        rw [reader_key r hm] at hkey'
        cases hkey'
        rw [(reads _ _).1 hu] at hf
        refine ⟨l, hl, (fits_words (L := L) (nf := r.normalized) (k := k) (r.split l) i j).1 ?_⟩
        simpa [Obj.label, wrap, List.map_map, Function.comp_def] using hf
  · rintro ⟨l, hl, hj⟩
    have := (fits_words (L := L) (nf := r.normalized) (k := k) (r.split l) i j).2 hj
    refine ⟨_, .rule ho (.line hl (reader_key r hm l)) ((reads _ _).2 rfl) .nil, ?_⟩
    simpa [Obj.label, wrap, List.map_map, Function.comp_def] using this

/-- A gazetteer on its own is a rule for which everything works. -/
theorem gazetteer_complete {k : PipeKind} {ls : List Str} (ho : h[root]? = some (.pipe (.scheme k ls)))
    (hm : k = .morph → r.analyzer ≠ none) (hl : ∀ l ∈ ls, r.split l ≠ []) :
    Complete r.context r.split h root := by
  have only : ∀ x, Reach h root x → x = root := by
    intro x hx
    induction hx with
    | root => rfl
    | step _ h1 h2 ih =>
      subst ih
      rw [ho] at h1
      cases h1
      cases h2
  have at_ : ∀ {x o}, Reach h root x → h[x]? = some o → o = .pipe (.scheme k ls) := by
    intro x o hx hox
    rw [only x hx, ho] at hox
    exact (Option.some.inj hox).symm
  refine ⟨?_, ?_, ?_, ?_, ⟨?_, ?_, ?_⟩, ?_, ?_, ?_⟩
  · intro a d ha hd; cases at_ ha hd
  · intro a ts m ha hd; cases at_ ha hd
  · intro a k' ls' ha hd; cases at_ ha hd; exact hl
  · intro a ls' ha hd _
    cases at_ ha hd
    cases hx : r.analyzer with
    | none => exact absurd hx (hm rfl)
    | some a => exact ⟨a.morph, by unfold Reader.context; rw [hx]; rfl⟩
  · intro x o hx hox; cases at_ hx hox; trivial
  · intro x o hx hox; cases at_ hx hox; trivial
  · intro x o hx hox; cases at_ hx hox; intro _ _ _ _ _ e; cases e
  · intro a x ha hd; cases at_ ha hd
  · intro x o hx hox; cases at_ hx hox; trivial
  · intro x o hx hox; cases at_ hx hox; trivial

/-- C66: for a parser of a gazetteer, on every text, `match` returns the whole text iff its words are those of one of
the lines. -/
theorem gazetteer_match (hrun : Fresh L setOrder h) {k : PipeKind} {ls : List Str}
    (ho : h[root]? = some (.pipe (.scheme k ls))) (hp : ∀ a b, pid a = pid b → a = b)
    (hs : SetOrder setOrder) (hh : ∀ a b, hash a = hash b → a = b) (hr : Answers r)
    (hm : k = .morph → r.analyzer ≠ none) (hl : ∀ l ∈ ls, r.split l ≠ []) :
    ∃ N p h', (∀ limit, N ≤ limit → newParser L setOrder r relation pid limit root h = .ok (p, h')) ∧
      ∀ text, ∃ toks fuel x σ, r.tokens text = .ok toks ∧ toks.map (·.value) = r.split text ∧
        p.match hash text fuel = some (.ok (x, σ)) ∧
        ((∃ l ∈ ls, SameLine L r.normalized k (r.split l) toks) ↔
          ∃ m, x = some m ∧ m.tree.range = (0, toks.length)) := by
  obtain ⟨N, p, h', h1, h2⟩ := text_correct_partial (relation := relation) hrun ⟨_, ho, rfl⟩ hp hs hh hr
    (gazetteer_complete ho hm hl)
  refine ⟨N, p, h', h1, fun text => ?_⟩
  obtain ⟨toks, k1, k2, _, _, fuel, x, σ, k3, k4, k5⟩ := h2 text
  refine ⟨toks, fuel, x, σ, k1, k2, k3, ?_, ?_⟩
  · rintro ⟨l, hl1, hl2, hl3⟩
    exact k4 ((accepts_gazetteer r ho hm toks 0 toks.length).2 ⟨l, hl1, by omega, hl3⟩)
  · rintro ⟨m, rfl, hm'⟩
    have := (k5 m rfl).2
    rw [hm'] at this
    obtain ⟨l, hl1, hl2, hl3⟩ := (accepts_gazetteer r ho hm toks 0 toks.length).1 this
    exact ⟨l, hl1, by omega, hl3⟩

theorem wordsMatch_self {nf : Str → List Str} {k : PipeKind} (toks : List Token)
    (hw : ∀ t ∈ toks, WordMatches L nf k t.value t) :
    ∀ (pre post : List Token), toks = pre ++ post → WordsMatch L nf k toks pre.length (post.map (·.value)) := by
  intro pre post
  induction post generalizing pre with
  | nil => intro _; trivial
  | cons t ts ih =>
    intro e
    refine ⟨⟨t, ?_, hw t (by rw [e]; simp)⟩, ?_⟩
    · rw [e]; simp
    · have := ih (pre ++ [t]) (by rw [e]; simp)
      simpa using this

/-- A match of all tokens has the words of all tokens. -/
theorem match_values {G : Grammar Pred Token} {toks : List Token} {σ : Store} {m : Match Pred} (hok : MatchOK G toks σ m)
    (he : m.tree.range = (0, toks.length)) : m.tokens.map (·.value) = toks.map (·.value) := by
  have hlen := hok.length
  rw [he] at hlen
  refine List.ext_getElem? (fun k => ?_)
  rw [List.getElem?_map, List.getElem?_map]
  by_cases hk : k < toks.length
  · obtain ⟨t, t', h1, h2, h3⟩ := hok.tokens k (by rw [he]; exact hk)
    rw [he, Nat.zero_add] at h1
    rw [h1, h2]
    exact congrArg some h3.value
  · rw [List.getElem?_eq_none (by dsimp only at hlen; omega), List.getElem?_eq_none (by omega)]

/-- The words of a line of a gazetteer are matched by themselves. -/
theorem own_words {k : PipeKind} {ls : List Str}
    (hm : k = .morph → ∃ a, r.analyzer = some a ∧ Reliable L r.tokenizer a ls) {l : Str} (hl1 : l ∈ ls)
    {ts toks : List Token} (e1 : r.tokenizer.call l = .ok ts) (e3 : SameTexts (ts.map (readToken r.analyzer)) toks) :
    ∀ t ∈ toks, WordMatches L r.normalized k t.value t := by
  cases k with
  | exact => intro t _; rfl
  | caseless => intro t _; rfl
  | morph =>
    obtain ⟨a, ha, hrel⟩ := hm rfl
    have key : ∀ {as bs : List Token}, SameTexts (as.map (readToken r.analyzer)) bs →
        (∀ x ∈ as, a.parse x.value ≠ [] ∧
          (x.type ≠ "RU".toList → ∃ f ∈ a.parse x.value, f.normalized = L.lower x.value) ∧ x.forms = none) →
        ∀ t ∈ bs, WordMatches L r.normalized .morph t.value t := by
      intro as
      induction as with
      | nil => intro bs h _ t ht; cases h; cases ht
      | cons x as ih =>
        intro bs h hall t ht
        rw [List.map_cons] at h
        cases h with
        | @cons _ b _ bs g1 g2 g3 g4 g5 =>
          rcases List.mem_cons.1 ht with e | ht
          · rw [e]
            obtain ⟨q1, q2, q3⟩ := hall x List.mem_cons_self
            obtain ⟨v1, v2, v3⟩ := readToken_keeps r.analyzer x
            rw [v1] at g1
            show ∃ n ∈ r.normalized b.value, NormalForm L b n
            unfold Reader.normalized Analyzer.normalized NormalForm
            rw [ha, ← g4, ← g1]
            dsimp only
            by_cases hx : x.type = ruType
            · have : (readToken r.analyzer x).forms = some (a.parse x.value) := by
                unfold readToken; rw [ha]; dsimp only; rw [if_pos hx]; rfl
              rw [this]
              obtain ⟨f, hf⟩ := List.exists_mem_of_ne_nil _ q1
              exact ⟨f.normalized, List.mem_map.2 ⟨f, hf, rfl⟩, f, hf, rfl⟩
            · have : (readToken r.analyzer x).forms = none := by
                unfold readToken; rw [ha]; dsimp only; rw [if_neg hx]; exact q3
              rw [this]
              obtain ⟨f, hf, hf2⟩ := q2 hx
              exact ⟨f.normalized, List.mem_map.2 ⟨f, hf, rfl⟩, hf2⟩
          · exact ih g5 (fun y hy => hall y (List.mem_cons_of_mem _ hy)) t ht
    refine key e3 (fun y hy => ?_)
    obtain ⟨q1, q2⟩ := hrel l hl1 ts e1 y hy
    refine ⟨q1, q2, ?_⟩
    unfold Tokenizer.call at e1
    split at e1
    · cases e1
    · cases e1
      obtain ⟨f, _, rfl⟩ := List.mem_map.1 hy
      rfl

/-- C66: a gazetteer recognises its own lines: `match(line)` is the whole line. -/
theorem gazetteer_own_lines (hrun : Fresh L setOrder h) {k : PipeKind} {ls : List Str}
    (ho : h[root]? = some (.pipe (.scheme k ls))) (hp : ∀ a b, pid a = pid b → a = b)
    (hs : SetOrder setOrder) (hh : ∀ a b, hash a = hash b → a = b) (hr : Answers r)
    (hm : k = .morph → ∃ a, r.analyzer = some a ∧ Reliable L r.tokenizer a ls) (hl : ∀ l ∈ ls, r.split l ≠ []) :
    ∃ N p h', (∀ limit, N ≤ limit → newParser L setOrder r relation pid limit root h = .ok (p, h')) ∧
      ∀ l ∈ ls, ∃ fuel m σ, p.match hash l fuel = some (.ok (some m, σ)) ∧ m.tokens.map (·.value) = r.split l := by
  have hm' : k = .morph → r.analyzer ≠ none := by
    intro e
    obtain ⟨a, ha, _⟩ := hm e
    rw [ha]
    exact fun h => nomatch h
  obtain ⟨N, p, h', h1, h2⟩ := gazetteer_match (relation := relation) hrun ho hp hs hh hr hm' hl
  refine ⟨N, p, h', h1, fun l hl1 => ?_⟩
  obtain ⟨toks, fuel, x, σ, k1, k2, k3, k4⟩ := h2 l
  obtain ⟨ts, toks', e1, e2, e3, e4, e5⟩ := reader_tokens hr l
  rw [k1] at e2
  cases e2
  have hw := own_words (k := k) hm hl1 e1 e3
  obtain ⟨m, rfl, hm2⟩ := k4.1 ⟨l, hl1, by rw [← k2, List.length_map], by
    rw [← k2]; exact wordsMatch_self toks hw [] toks rfl⟩
  refine ⟨fuel, m, σ, k3, ?_⟩
  obtain ⟨b1, b2⟩ := newParser_parts (h1 N (Nat.le_refl N))
  obtain ⟨q1, q2, q3⟩ := program_uses (fresh_run hrun) ⟨_, ho, rfl⟩ hp hs b2
  unfold TextParser.match at k3
  rw [b1, k1] at k3
  rw [← k2]
  exact match_values (match_matches q1 q2 q3 k3) hm2

/-! ### C67 -/

theorem covers_same {space : Char → Bool} {text : Str} {as bs : List Token}
    (hc : Spec.Covers space text as) (hm : Pointwise (fun a b => a.value = b.value ∧ a.span = b.span) as bs) :
    Spec.Covers space text bs := by
  have back : ∀ {as bs : List Token}, Pointwise (fun a b => a.value = b.value ∧ a.span = b.span) as bs →
      (∀ b ∈ bs, ∃ a ∈ as, a.value = b.value ∧ a.span = b.span) ∧
      (∀ a ∈ as, ∃ b ∈ bs, a.value = b.value ∧ a.span = b.span) ∧
      (as.Pairwise (fun a b => a.span.2 ≤ b.span.1) → bs.Pairwise (fun a b => a.span.2 ≤ b.span.1)) := by
    intro as bs h
    induction h with
    | nil => exact ⟨fun _ h => (nomatch h), fun _ h => (nomatch h), fun _ => .nil⟩
    | @cons a b as bs h1 _ ih =>
      obtain ⟨i1, i2, i3⟩ := ih
      refine ⟨?_, ?_, ?_⟩
      · intro x hx
        rcases List.mem_cons.1 hx with rfl | hx
        · exact ⟨a, List.mem_cons_self, h1⟩
        · obtain ⟨y, hy, e⟩ := i1 x hx
          exact ⟨y, List.mem_cons_of_mem _ hy, e⟩
      · intro x hx
        rcases List.mem_cons.1 hx with rfl | hx
        · exact ⟨b, List.mem_cons_self, h1⟩
        · obtain ⟨y, hy, e⟩ := i2 x hx
          exact ⟨y, List.mem_cons_of_mem _ hy, e⟩
      · intro hpw
        obtain ⟨p1, p2⟩ := List.pairwise_cons.1 hpw
        refine List.pairwise_cons.2 ⟨fun x hx => ?_, i3 p2⟩
        obtain ⟨y, hy, e1, e2⟩ := i1 x hx
        rw [← h1.2, ← e2]
        exact p1 y hy
  obtain ⟨b1, b2, b3⟩ := back hm
  refine ⟨?_, ?_, b3 hc.ordered, ?_⟩
  · intro t ht
    obtain ⟨a, ha, _, e⟩ := b1 t ht
    rw [← e]
    exact hc.inside a ha
  · intro t ht
    obtain ⟨a, ha, e1, e2⟩ := b1 t ht
    rw [← e1, ← e2]
    exact hc.value a ha
  · intro i c hi hall
    refine hc.rest i c hi (fun a ha => ?_)
    obtain ⟨b, hb, _, e⟩ := b2 a ha
    rw [e]
    exact hall b hb

theorem same_pointwise (a : Option Analyzer) : ∀ {ts us : List Token}, SameTexts (ts.map (readToken a)) us →
    Pointwise (fun x y => x.value = y.value ∧ x.span = y.span) ts us := by
  intro ts
  induction ts with
  | nil => intro us h; cases h; exact .nil
  | cons t ts ih =>
    intro us h
    rw [List.map_cons] at h
    cases h with
    | cons h1 h2 _ _ h5 =>
      obtain ⟨v1, v2, _⟩ := readToken_keeps a t
      exact .cons ⟨v1 ▸ h1, v2 ▸ h2⟩ (ih h5)

/-- The tokens of a parser with the default rules of tokenization cover the text. -/
theorem reader_covers {C : Classes} (ht : Tokenizer.new (defaultRules C) = .ok r.tokenizer) (hr : Answers r)
    {text : Str} {toks : List Token} (hk : r.tokens text = .ok toks) : Spec.Covers C.space text toks := by
  obtain ⟨ts, toks', h1, h2, h3, _, _⟩ := reader_tokens hr text
  rw [hk] at h2
  cases h2
  obtain ⟨ts', g1, g2, _⟩ := default_tokens_cover C ht text
  rw [h1] at g1
  cases g1
  exact covers_same g2 (same_pointwise r.analyzer h3)

theorem piece_of {G : Grammar Pred Token} {space : Char → Bool} {text : Str} {toks : List Token} {σ : Store}
    {m : Match Pred} (hc : Spec.Covers space text toks) (hok : MatchOK G toks σ m) : PieceOf space text m := by
  obtain ⟨a, b, ha, hb, hspan⟩ := hok.span
  have hlen := hok.length
  have hne := hok.nonempty
  have hpw := List.pairwise_iff_getElem.1 hc.ordered
  have ham := List.mem_of_getElem? ha
  have hbm := List.mem_of_getElem? hb
  -- tokens of the range, by position
  have tok : ∀ k x, m.tokens[k]? = some x → ∃ t, toks[m.tree.range.1 + k]? = some t ∧ k < m.tree.range.2 - m.tree.range.1 ∧
      x.value = t.value ∧ x.span = t.span := by
    intro k x hx
    have hk : k < m.tree.range.2 - m.tree.range.1 := by
      rw [← hlen]
      exact (List.getElem?_eq_some_iff.1 hx).1
    obtain ⟨t, t', h1, h2, h3⟩ := hok.tokens k hk
    rw [hx] at h2
    cases h2
    exact ⟨t, h1, hk, h3.value, h3.span⟩
  have before : ∀ (i j : Nat) (s t : Token), toks[i]? = some s → toks[j]? = some t → i < j → s.span.2 ≤ t.span.1 := by
    intro i j s t hi hj hij
    obtain ⟨l1, rfl⟩ := List.getElem?_eq_some_iff.1 hi
    obtain ⟨l2, rfl⟩ := List.getElem?_eq_some_iff.1 hj
    exact hpw i j l1 l2 hij
  have lo : ∀ (j : Nat) (t : Token), toks[j]? = some t → m.tree.range.1 ≤ j → a.span.1 ≤ t.span.1 := by
    intro j t hj h1
    rcases Nat.lt_or_eq_of_le h1 with h1 | h1
    · have := before _ _ _ _ ha hj h1
      have := (hc.inside a ham).1
      omega
    · rw [← h1, ha] at hj
      cases hj
      exact Nat.le_refl _
  have hi : ∀ (j : Nat) (t : Token), toks[j]? = some t → j ≤ m.tree.range.2 - 1 → t.span.2 ≤ b.span.2 := by
    intro j t hj h1
    rcases Nat.lt_or_eq_of_le h1 with h1 | h1
    · have := before _ _ _ _ hj hb h1
      have := (hc.inside b hbm).1
      omega
    · rw [h1, hb] at hj
      cases hj
      exact Nat.le_refl _
  refine ⟨?_, ?_, ?_, ?_, ?_, ?_⟩
  · rw [hspan]
    have h1 := (hc.inside a ham).1
    have h2 := hi _ _ ha (by omega)
    exact ⟨by dsimp only; omega, (hc.inside b hbm).2⟩
  · obtain ⟨t, t', h1, h2, h3⟩ := hok.tokens 0 (by omega)
    rw [Nat.add_zero, ha] at h1
    cases h1
    refine ⟨t', by rw [← h2, List.head?_eq_getElem?], ?_⟩
    rw [h3.span, hspan]
  · obtain ⟨t, t', h1, h2, h3⟩ := hok.tokens (m.tree.range.2 - m.tree.range.1 - 1) (by omega)
    rw [show m.tree.range.1 + (m.tree.range.2 - m.tree.range.1 - 1) = m.tree.range.2 - 1 by omega, hb] at h1
    cases h1
    refine ⟨t', by rw [List.getLast?_eq_getElem?, hlen, h2], ?_⟩
    rw [h3.span, hspan]
  · intro x hx
    obtain ⟨k, hk⟩ := List.mem_iff_getElem?.1 hx
    obtain ⟨t, h1, h2, h3, h4⟩ := tok k x hk
    have htm := List.mem_of_getElem? h1
    rw [h3, h4, hspan]
    exact ⟨lo _ _ h1 (by omega), (hc.inside t htm).1, hi _ _ h1 (by omega), hc.value t htm⟩
  · refine List.pairwise_iff_getElem.2 (fun i j l1 l2 hij => ?_)
    obtain ⟨s, h1, _, _, h4⟩ := tok i _ (List.getElem?_eq_getElem l1)
    obtain ⟨t, g1, _, _, g4⟩ := tok j _ (List.getElem?_eq_getElem l2)
    rw [h4, g4]
    exact before _ _ _ _ h1 g1 (by omega)
  · intro i c h1 h2 h3 h4
    rw [hspan] at h1 h2
    dsimp only at h1 h2
    refine hc.rest i c h3 (fun t ht => ?_)
    rintro ⟨t1, t2⟩
    obtain ⟨j, hj⟩ := List.mem_iff_getElem?.1 ht
    by_cases j1 : j < m.tree.range.1
    · have := before _ _ _ _ hj ha j1
      omega
    by_cases j2 : m.tree.range.2 - 1 < j
    · have := before _ _ _ _ hb hj j2
      omega
    obtain ⟨t0, t', e1, e2, e3⟩ := hok.tokens (j - m.tree.range.1) (by omega)
    rw [show m.tree.range.1 + (j - m.tree.range.1) = j by omega, hj] at e1
    cases e1
    exact h4 t' (List.mem_of_getElem? e2) (by rw [e3.span]; exact ⟨t1, t2⟩)

/-- C67, `findall`: for every rule and every text, each match is a piece of the text, and the pieces come one after
another. -/
theorem findall_pieces {C : Classes} (ht : Tokenizer.new (defaultRules C) = .ok r.tokenizer) (hr : Answers r)
    (hrun : Run L setOrder [] h) (hroot : RuleAt h root) (hp : ∀ a b, pid a = pid b → a = b) (hs : SetOrder setOrder)
    (hb : newParser L setOrder r relation pid limit root h = .ok (p, h')) {text : Str} {fuel : Nat}
    {ms : List (Match Pred)} {σ : Store} (hx : p.findall hash text fuel = some (.ok (ms, σ))) :
    (∀ m ∈ ms, PieceOf C.space text m) ∧ ms.Pairwise (fun a b => a.span.2 ≤ b.span.1) := by
  obtain ⟨b1, b2⟩ := newParser_parts hb
  obtain ⟨q1, q2, q3⟩ := program_uses hrun hroot hp hs b2
  obtain ⟨ts, toks, _, k2, _⟩ := reader_tokens hr text
  have hc := reader_covers ht hr k2
  unfold TextParser.findall at hx
  rw [b1, k2] at hx
  dsimp only at hx
  have hall := findall_matches q1 q2 q3 hx
  refine ⟨fun m hm => piece_of hc (hall m hm), ?_⟩
  have hord := findall_ordered q1 q2 hx
  refine List.Pairwise.imp_of_mem (fun {m n} hm hn hmn => ?_) hord
  obtain ⟨a, b, _, hb1, e1⟩ := (hall m hm).span
  obtain ⟨a', b', ha2, _, e2⟩ := (hall n hn).span
  rw [e1, e2]
  dsimp only
  have hpw := List.pairwise_iff_getElem.1 hc.ordered
  obtain ⟨l1, rfl⟩ := List.getElem?_eq_some_iff.1 hb1
  obtain ⟨l2, rfl⟩ := List.getElem?_eq_some_iff.1 ha2
  refine hpw _ _ l1 l2 ?_
  have := (hall m hm).nonempty
  omega

/-- C67, `extract`. -/
theorem extract_pieces {C : Classes} (ht : Tokenizer.new (defaultRules C) = .ok r.tokenizer) (hr : Answers r)
    (hrun : Run L setOrder [] h) (hroot : RuleAt h root) (hp : ∀ a b, pid a = pid b → a = b) (hs : SetOrder setOrder)
    (hb : newParser L setOrder r relation pid limit root h = .ok (p, h')) {text : Str} {all : Bool} {fuel : Nat}
    {ms : List (Match Pred)} {σ : Store} {e : Option Err} (hx : p.extract hash text all fuel = some (ms, σ, e)) :
    ∀ m ∈ ms, PieceOf C.space text m := by
  obtain ⟨b1, b2⟩ := newParser_parts hb
  obtain ⟨q1, q2, q3⟩ := program_uses hrun hroot hp hs b2
  obtain ⟨ts, toks, _, k2, _⟩ := reader_tokens hr text
  unfold TextParser.extract at hx
  rw [b1, k2] at hx
  exact fun m hm => piece_of (reader_covers ht hr k2) (extract_matches q1 q3 hx m hm)

/-- C67, `match`: the piece ends with the last token of the text; after it there is white space only. -/
theorem match_piece {C : Classes} (ht : Tokenizer.new (defaultRules C) = .ok r.tokenizer) (hr : Answers r)
    (hrun : Run L setOrder [] h) (hroot : RuleAt h root) (hp : ∀ a b, pid a = pid b → a = b) (hs : SetOrder setOrder)
    (hb : newParser L setOrder r relation pid limit root h = .ok (p, h')) {text : Str} {fuel : Nat}
    {m : Match Pred} {σ : Store} (hx : p.match hash text fuel = some (.ok (some m, σ))) :
    PieceOf C.space text m ∧ ∀ i c, m.span.2 ≤ i → text[i]? = some c → C.space c = true ∧ c ≠ '\n' ∧ c ≠ '\r' := by
  obtain ⟨b1, b2⟩ := newParser_parts hb
  obtain ⟨q1, q2, q3⟩ := program_uses hrun hroot hp hs b2
  obtain ⟨ts, toks, _, k2, _⟩ := reader_tokens hr text
  have hc := reader_covers ht hr k2
  unfold TextParser.match at hx
  rw [b1, k2] at hx
  dsimp only at hx
  have hok := match_matches q1 q2 q3 hx
  refine ⟨piece_of hc hok, fun i c hi hic => hc.rest i c hic (fun t htm => ?_)⟩
  obtain ⟨u, u1, u2, _⟩ := match_from q1 q2 hx
  have hstop := reported_stop q1 u1
  rw [u2] at hstop
  obtain ⟨a, b, ha, hb, hspan⟩ := hok.span
  rw [hspan] at hi
  dsimp only at hi
  have hpw := List.pairwise_iff_getElem.1 hc.ordered
  obtain ⟨j, hj⟩ := List.mem_iff_getElem?.1 htm
  obtain ⟨l1, rfl⟩ := List.getElem?_eq_some_iff.1 hj
  obtain ⟨l2, rfl⟩ := List.getElem?_eq_some_iff.1 hb
  rintro ⟨_, t2⟩
  by_cases e : j = m.tree.range.2 - 1
  · subst e
    omega
  · have := hpw j _ l1 l2 (by omega)
    have := (hc.inside _ (List.getElem_mem l2)).1
    omega

/-! ### Examples -/

/-- A reader for the examples: the default tokenizer with an analyzer that knows that «коты» are «кот». -/
def sampleReader : Reader where
  tokenizer := ⟨defaultRules sampleClasses, defaultRules sampleClasses, (defaultRules sampleClasses).map (·.type)⟩
  analyzer := some ⟨fun _ => false, fun w => if w = "коты".toList then [⟨"кот".toList, [], 0⟩, ⟨"коты".toList, [], 1⟩]
    else [⟨sampleLang.lower w, [], 0⟩]⟩
  tagger := .pass

theorem sampleReader_new : Tokenizer.new (defaultRules sampleClasses) = .ok sampleReader.tokenizer := rfl

theorem sampleReader_answers : Answers sampleReader :=
  ⟨by simp [sampleReader, defaultRules], fun ts => ⟨ts, rfl, same_texts_refl ts⟩⟩

/-- `morph_pipeline(['рыжий кот', 'x'])`. -/
def catSource : Heap Pred := [.pipe (.scheme .morph ["рыжий кот".toList, "x".toList])]

theorem catSource_fresh : Fresh sampleLang sampleOrder catSource :=
  fresh_makes (g := []) (os := catSource) (by decide +kernel)

theorem catSource_words : ∀ l ∈ ["рыжий кот".toList, "x".toList], sampleReader.split l ≠ [] := by decide +kernel

theorem catSource_reliable : ∃ a, sampleReader.analyzer = some a ∧
    Reliable sampleLang sampleReader.tokenizer a ["рыжий кот".toList, "x".toList] := by
  refine ⟨_, rfl, fun l _ ts _ x _ => ?_⟩
  dsimp only
  constructor
  · split <;> exact List.cons_ne_nil _ _
  · intro _
    split
    · next e => exact ⟨_, List.mem_cons_of_mem _ List.mem_cons_self, by rw [e]; decide +kernel⟩
    · exact ⟨_, List.mem_singleton_self _, rfl⟩

/-- The places a parser reports in a text: by `extract`, by `findall` and by `match`. -/
def reportedSpans (r : Reader) (h : Heap Pred) (root : Nat) (text : Str) : Option (List (List (Nat × Nat))) :=
  match newParser sampleLang sampleOrder r (fun _ => .gender) id 60 root h with
  | .error _ => none
  | .ok (p, _) =>
    match p.extract (id : Key → Key) text true 2000, p.findall (id : Key → Key) text 2000,
      p.match (id : Key → Key) text 2000 with
    | some (ms, _, none), some (.ok (fs, _)), some (.ok (x, _)) =>
      some [ms.map (·.span), fs.map (·.span), x.toList.map (·.span)]
    | _, _, _ => none

/-- The same for given tokens. -/
def tokenSpans (r : Reader) (h : Heap Pred) (root : Nat) (toks : List Token) : Option (List (List (Nat × Nat))) :=
  match buildParser sampleLang sampleOrder r.context r.split (fun _ => .gender) id 60 root h with
  | .error _ => none
  | .ok (b, _) =>
    match extract b.grammar b.agreement (id : Key → Key) toks true 2000,
      findall b.grammar b.agreement (id : Key → Key) toks 2000,
      matchText b.grammar b.agreement (id : Key → Key) toks 2000 with
    | some (ms, _, none), some (.ok (fs, _)), some (.ok (x, _)) =>
      some [ms.map (·.span), fs.map (·.span), x.toList.map (·.span)]
    | _, _, _ => none

theorem reportedSpans_tokens {r : Reader} {text : Str} {toks : List Token} (ht : (r.tokens text).toOption = some toks)
    (h : Heap Pred) (root : Nat) : reportedSpans r h root text = tokenSpans r h root toks := by
  have e : r.tokens text = .ok toks := by
    cases hx : r.tokens text with
    | error e => rw [hx] at ht; cases ht
    | ok ts => rw [hx] at ht; cases ht; rfl
  unfold reportedSpans tokenSpans newParser
  cases buildParser sampleLang sampleOrder r.context r.split (fun _ => .gender) id 60 root h with
  | error e => rfl
  | ok x =>
    dsimp only [Except.map]
    unfold TextParser.extract TextParser.findall TextParser.match
    dsimp only
    rw [e]

/-- A Russian word of a text. -/
def ruWord (w : String) (start : Nat) : Token :=
  readToken sampleReader.analyzer { value := w.toList, span := (start, start + w.toList.length), type := ruType }

theorem catText_tokens : (sampleReader.tokens "рыжий  коты, x".toList).toOption =
    some [ruWord "рыжий" 0, ruWord "коты" 7, { value := ",".toList, span := (11, 12), type := "PUNCT".toList },
      { value := "x".toList, span := (13, 14), type := "LATIN".toList }] := by
  decide +kernel

theorem catLine_tokens : (sampleReader.tokens "рыжий кот".toList).toOption =
    some [ruWord "рыжий" 0, ruWord "кот" 6] := by
  decide +kernel

theorem catText_spans : reportedSpans sampleReader catSource 0 "рыжий  коты, x".toList =
    some [[(0, 11), (13, 14)], [(0, 11), (13, 14)], []] := by
  rw [reportedSpans_tokens catText_tokens]
  decide +kernel

theorem catLine_spans : reportedSpans sampleReader catSource 0 "рыжий кот".toList =
    some [[(0, 9)], [(0, 9)], [(0, 9)]] := by
  rw [reportedSpans_tokens catLine_tokens]
  decide +kernel

/-- The hypotheses of the theorems on texts hold for a gazetteer, and it finds its lines in other forms and with more
white space. -/
example : Fresh sampleLang sampleOrder catSource ∧ RuleAt catSource 0 ∧ Answers sampleReader ∧
    Complete sampleReader.context sampleReader.split catSource 0 ∧
    (∃ a, sampleReader.analyzer = some a ∧
      Reliable sampleLang sampleReader.tokenizer a ["рыжий кот".toList, "x".toList]) ∧
    reportedSpans sampleReader catSource 0 "рыжий  коты, x".toList =
      some [[(0, 11), (13, 14)], [(0, 11), (13, 14)], []] ∧
    reportedSpans sampleReader catSource 0 "рыжий кот".toList = some [[(0, 9)], [(0, 9)], [(0, 9)]] :=
  ⟨catSource_fresh, ⟨_, rfl, rfl⟩, sampleReader_answers,
    gazetteer_complete (k := .morph) rfl (fun _ h => nomatch h) catSource_words, catSource_reliable,
    catText_spans, catLine_spans⟩

end Yargy
