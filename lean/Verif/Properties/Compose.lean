import Verif.Spec.Compose
import Verif.Properties.Phrase
import Verif.Properties.Surroundings
/-!
C71: what a composite rule reports is composed of what its parts report.
-/
namespace Yargy
open Spec

variable {L : Lang} {setOrder : List Str → List Str} {relation : Nat → Relation} {pid : Nat → Nat} {limit root : Nat}
  {h h' : Heap Pred} {H : Type} [DecidableEq H] {hash : Key → H} {r : Reader}

/-- The parser ends on the text without raising, and `extract` reports exactly these ranges of tokens. -/
def Reports (hash : Key → H) (p : TextParser) (text : Str) (R : Nat → Nat → Prop) : Prop :=
  ∃ fuel ms σ, p.extract hash text true fuel = some (ms, σ, none) ∧ ∀ i j, (∃ m ∈ ms, m.tree.range = (i, j)) ↔ R i j

/-- What the parts of a complete rule reach is reached by the rule. -/
theorem part_complete {c : Context} {split : Str → List Str} (hc : Complete c split h root) {a : Nat}
    (ha : Reach h root a) : Complete c split h a := by
  have up : ∀ {x}, Reach h a x → Reach h root x := by
    intro x hx
    induction hx with
    | root => exact ha
    | step _ h1 h2 ih => exact .step ih h1 h2
  exact ⟨fun x d hx => hc.defined x d (up hx), fun x ts m hx => hc.known x ts m (up hx),
    fun x k ls hx => hc.words x k ls (up hx), fun x ls hx => hc.morph x ls (up hx),
    ⟨fun x o hx => hc.steady.bounds x o (up hx), fun x o hx => hc.steady.calm x o (up hx),
      fun x o hx => hc.steady.bare x o (up hx)⟩,
    fun x y hx => hc.guarded x y (up hx), fun x o hx => hc.solid x o (up hx), fun x o hx => hc.silent x o (up hx)⟩

/-- The same with optional parts directly after tokens; an optional part on its own matches the empty text. -/
theorem part_complete_optionals {c : Context} {split : Str → List Str} (hc : CompleteOptionals c split h root) {a : Nat}
    (ha : Reach h root a) (hn : ¬ IsOptional h a) : CompleteOptionals c split h a := by
  have up : ∀ {x}, Reach h a x → Reach h root x := by
    intro x hx
    induction hx with
    | root => exact ha
    | step _ h1 h2 ih => exact .step ih h1 h2
  exact ⟨fun x d hx => hc.defined x d (up hx), fun x ts m hx => hc.known x ts m (up hx),
    fun x k ls hx => hc.words x k ls (up hx), fun x ls hx => hc.morph x ls (up hx),
    ⟨fun x o hx => hc.steady.bounds x o (up hx), fun x o hx => hc.steady.calm x o (up hx),
      fun x o hx => hc.steady.bare x o (up hx)⟩,
    fun x y hx => hc.guarded x y (up hx),
    ⟨hn, fun x o hx => hc.optionals.kinds x o (up hx), fun x ts m hx => hc.optionals.sequences x ts m (up hx),
      fun x o hx => hc.optionals.only x o (up hx), fun x b v hx => hc.optionals.content x b v (up hx)⟩,
    fun x o hx => hc.silent x o (up hx)⟩

/-- The tokens `i, …, j-1` are what a sequence of terms says. -/
def AcceptsRow (L : Lang) (A : Activation Pred) (h : Heap Pred) (toks : List Token) (ts : List (Term Pred))
    (i j : Nat) : Prop :=
  ∃ w, Reads A .plain h ts w ∧ Fits (Pred.accepts L) toks w i j

section
variable {A : Activation Pred} {toks : List Token}

theorem row_nil (i j : Nat) : AcceptsRow L A h toks [] i j ↔ i = j := by
  constructor
  · rintro ⟨w, h1, h2⟩
    cases h1
    cases h2
    rfl
  · rintro rfl
    exact ⟨[], .nil, .nil⟩

theorem row_rule {b : Nat} {ts : List (Term Pred)} (i j : Nat) :
    AcceptsRow L A h toks (.rule b :: ts) i j ↔ ∃ k, Accepts L A h b toks i k ∧ AcceptsRow L A h toks ts k j := by
  constructor
  · rintro ⟨w, h1, h2⟩
    cases h1 with
    | rule g1 g2 g3 g4 =>
      obtain ⟨k, e1, e2⟩ := fits_append.1 h2
      refine ⟨k, ⟨_, .rule g1 g2 g3 .nil, by rw [List.append_nil]; exact e1⟩, _, g4, e2⟩
  · rintro ⟨k, ⟨w, h1, h2⟩, v, h3, h4⟩
    cases h1 with
    | rule g1 g2 g3 g4 =>
      cases g4
      rw [List.append_nil] at h2
      exact ⟨_, .rule g1 g2 g3 h3, fits_append.2 ⟨k, h2, h4⟩⟩

theorem row_pred {p : Pred} {ts : List (Term Pred)} (i j : Nat) : AcceptsRow L A h toks (.pred p :: ts) i j ↔
    (∃ t, toks[i]? = some t ∧ p.accepts L t = true) ∧ AcceptsRow L A h toks ts (i + 1) j := by
  constructor
  · rintro ⟨w, h1, h2⟩
    cases h1 with
    | pred g =>
      cases h2 with
      | pred e1 e2 e3 => exact ⟨⟨_, e1, e2⟩, _, g, e3⟩
  · rintro ⟨⟨t, h1, h2⟩, w, h3, h4⟩
    exact ⟨_, .pred h3, .pred h1 h2 h4⟩

theorem accepts_open {a : Nat} {o : Obj Pred} (ho : h[a]? = some o) (i j : Nat) :
    Accepts L A h a toks i j ↔ ∃ us, Opens A o us ∧ AcceptsRow L A h toks us i j := by
  constructor
  · rintro ⟨w, h1, h2⟩
    cases h1 with
    | rule g1 g2 g3 g4 =>
      rw [ho] at g1
      cases g1
      cases g4
      rw [List.append_nil] at h2
      exact ⟨_, g2, _, g3, fits_wrap.1 h2⟩
  · rintro ⟨us, h1, w, h2, h3⟩
    exact ⟨_, .rule ho h1 h2 .nil, by rw [List.append_nil]; exact fits_wrap.2 h3⟩

theorem row_one {b : Nat} (i j : Nat) : AcceptsRow L A h toks [.rule b] i j ↔ Accepts L A h b toks i j := by
  rw [row_rule]
  constructor
  · rintro ⟨k, h1, h2⟩
    rw [row_nil] at h2
    exact h2 ▸ h1
  · intro h1
    exact ⟨j, h1, (row_nil j j).2 rfl⟩

theorem row_times {b : Nat} (n : Nat) : ∀ i j, AcceptsRow L A h toks (List.replicate n (.rule b)) i j ↔
    Times (Accepts L A h b toks) n i j := by
  induction n with
  | zero =>
    intro i j
    rw [List.replicate_zero, row_nil]
    constructor
    · rintro rfl; exact .zero
    · intro h; cases h; rfl
  | succ n ih =>
    intro i j
    rw [List.replicate_succ, row_rule]
    constructor
    · rintro ⟨k, h1, h2⟩; exact .succ h1 ((ih _ _).1 h2)
    · intro h
      cases h with
      | succ h1 h2 => exact ⟨_, h1, (ih _ _).2 h2⟩

theorem accepts_spelled {a : Nat} {o : Obj Pred} (ho : h[a]? = some o) (hp : ∀ ts m, o ≠ .prod ts m)
    (hl : ∀ k ls, o ≠ .pipe (.scheme k ls)) (i j : Nat) :
    Accepts L A h a toks i j ↔ ∃ us, Spells o us ∧ AcceptsRow L A h toks us i j := by
  rw [accepts_open ho]
  constructor
  · rintro ⟨us, h1, h2⟩
    cases h1 with
    | prod _ => exact absurd rfl (hp _ _)
    | line _ _ => exact absurd rfl (hl _ _)
    | other _ hs => exact ⟨us, hs, h2⟩
  · rintro ⟨us, h1, h2⟩
    exact ⟨us, .other hp h1, h2⟩

end

theorem activated_row {c : Context} {split : Str → List Str} {toks : List Token} (hq : ∀ t ∈ toks, Quiet L t)
    (ts : List (Term Pred)) (hk : ∀ p, .pred p ∈ ts → ∀ q, PredPart q p → Known c q) : ∀ i j,
    (∃ us, ActivatedAll (c.activation L split) ts us ∧ AcceptsRow L (c.activation L split) h toks us i j) ↔
      InRow (fun p i => ∃ t, toks[i]? = some t ∧ Means L c t p)
        (fun b => Accepts L (c.activation L split) h b toks) ts i j := by
  induction ts with
  | nil =>
    intro i j
    constructor
    · rintro ⟨us, h1, h2⟩
      cases h1
      rw [row_nil] at h2
      subst h2
      exact .nil
    · intro h
      cases h
      exact ⟨[], .nil, (row_nil i i).2 rfl⟩
  | cons t ts ih =>
    intro i j
    have ih' := ih (fun p hp => hk p (List.mem_cons_of_mem _ hp))
    cases t with
    | rule b =>
      constructor
      · rintro ⟨us, h1, h2⟩
        cases h1 with
        | cons g1 g2 =>
          cases g1
          obtain ⟨k, e1, e2⟩ := (row_rule i j).1 h2
          exact .rule e1 ((ih' k j).1 ⟨_, g2, e2⟩)
      · intro h
        cases h with
        | rule e1 e2 =>
          obtain ⟨us, g1, g2⟩ := (ih' _ j).2 e2
          exact ⟨_, .cons (.rule b) g1, (row_rule i j).2 ⟨_, e1, g2⟩⟩
    | pred p =>
      obtain ⟨q, hpq⟩ := (activate_iff_known_partial c p).2 (hk p List.mem_cons_self)
      have acc : ∀ t, toks[i]? = some t → (q.accepts L t = true ↔ Means L c t p) := fun t ht =>
        accepts_means L c t (hq t (List.mem_of_getElem? ht)) p q hpq
      constructor
      · rintro ⟨us, h1, h2⟩
        cases h1 with
        | cons g1 g2 =>
          cases g1 with
          | pred g =>
            have g' : p.activate c = .ok _ := g
            rw [hpq] at g'
            cases g'
            obtain ⟨⟨t, e1, e2⟩, e3⟩ := (row_pred i j).1 h2
            exact .pred ⟨t, e1, (acc t e1).1 e2⟩ ((ih' _ j).1 ⟨_, g2, e3⟩)
      · intro h
        cases h with
        | pred e1 e2 =>
          obtain ⟨t, k1, k2⟩ := e1
          obtain ⟨us, g1, g2⟩ := (ih' _ j).2 e2
          exact ⟨_, .cons (.pred hpq) g1, (row_pred i j).2 ⟨⟨t, k1, (acc t k1).2 k2⟩, g2⟩⟩

/-- C71 on the side of rules. -/
theorem accepts_composed {c : Context} {split : Str → List Str} {toks : List Token} (hq : ∀ t ∈ toks, Quiet L t)
    (hk : ∀ a ts m, Reach h root a → h[a]? = some (.prod ts m) → ∀ p, .pred p ∈ ts → ∀ q, PredPart q p → Known c q) :
    Composed h root (fun p i => ∃ t, toks[i]? = some t ∧ Means L c t p)
      (fun b => Accepts L (c.activation L split) h b toks) where
  row a q ts m ha h1 h2 i j := by
    have hqr : Reach h root q := .step ha h1 (List.mem_singleton_self q)
    rw [← activated_row hq ts (hk q ts m hqr h2), accepts_spelled h1 (fun _ _ e => nomatch e) (fun _ _ e => nomatch e)]
    constructor
    · rintro ⟨us, g1, g2⟩
      cases g1 with
      | rule g =>
        cases List.mem_singleton.1 g
        rw [row_one, accepts_open h2] at g2
        obtain ⟨us, e1, e2⟩ := g2
        cases e1 with
        | prod e => exact ⟨us, e, e2⟩
        | other e _ => exact absurd rfl (e _ _)
    · rintro ⟨us, g1, g2⟩
      refine ⟨_, .rule (List.mem_singleton_self q), ?_⟩
      rw [row_one, accepts_open h2]
      exact ⟨us, .prod g1, g2⟩
  or_ a rs ha h1 i j := by
    rw [accepts_spelled h1 (fun _ _ e => nomatch e) (fun _ _ e => nomatch e)]
    constructor
    · rintro ⟨us, g1, g2⟩
      cases g1 with
      | or g => exact ⟨_, g, (row_one i j).1 g2⟩
    · rintro ⟨b, g1, g2⟩
      exact ⟨_, .or g1, (row_one i j).2 g2⟩
  optional a b v ha h1 i j := by
    rw [accepts_spelled h1 (fun _ _ e => nomatch e) (fun _ _ e => nomatch e)]
    constructor
    · rintro ⟨us, g1, g2⟩
      cases g1 with
      | none => exact .inl ((row_nil i j).1 g2)
      | one => exact .inr ((row_one i j).1 g2)
    · rintro (g | g)
      · exact ⟨_, .none, (row_nil i j).2 g⟩
      · exact ⟨_, .one, (row_one i j).2 g⟩
  repeatable a b v ha h1 i j := by
    rw [accepts_spelled h1 (fun _ _ e => nomatch e) (fun _ _ e => nomatch e)]
    constructor
    · rintro ⟨us, g1, g2⟩
      cases g1 with
      | repeatable g => exact ⟨_, g, (row_times _ i j).1 g2⟩
    · rintro ⟨n, g1, g2⟩
      exact ⟨_, .repeatable g1, (row_times _ i j).2 g2⟩
  min a b m v ha h1 i j := by
    rw [accepts_spelled h1 (fun _ _ e => nomatch e) (fun _ _ e => nomatch e)]
    constructor
    · rintro ⟨us, g1, g2⟩
      cases g1 with
      | minBounded g => exact ⟨_, g, (row_times _ i j).1 g2⟩
    · rintro ⟨n, g1, g2⟩
      exact ⟨_, .minBounded g1, (row_times _ i j).2 g2⟩
  max a b m v ha h1 i j := by
    rw [accepts_spelled h1 (fun _ _ e => nomatch e) (fun _ _ e => nomatch e)]
    constructor
    · rintro ⟨us, g1, g2⟩
      cases g1 with
      | maxBounded g g' => exact ⟨_, g, g', (row_times _ i j).1 g2⟩
    · rintro ⟨n, g1, g1', g2⟩
      exact ⟨_, .maxBounded g1 g1', (row_times _ i j).2 g2⟩
  minMax a b l m v ha h1 i j := by
    rw [accepts_spelled h1 (fun _ _ e => nomatch e) (fun _ _ e => nomatch e)]
    constructor
    · rintro ⟨us, g1, g2⟩
      cases g1 with
      | minMaxBounded g g' => exact ⟨_, g, g', (row_times _ i j).1 g2⟩
    · rintro ⟨n, g1, g1', g2⟩
      exact ⟨_, .minMaxBounded g1 g1', (row_times _ i j).2 g2⟩
  same a b ha h1 i j := by
    rcases h1 with h1 | ⟨n, h1⟩ | ⟨n, h1⟩ <;>
      rw [accepts_spelled h1 (fun _ _ e => nomatch e) (fun _ _ e => nomatch e)] <;>
      constructor <;> first
        | (rintro ⟨us, g1, g2⟩; cases g1; exact (row_one i j).1 g2)
        | skip
    · exact fun g => ⟨_, .forward, (row_one i j).2 g⟩
    · exact fun g => ⟨_, .named, (row_one i j).2 g⟩
    · exact fun g => ⟨_, .interp, (row_one i j).2 g⟩

/-- C71 (partial): every part of a rule that is not optional can be given to `Parser` as well, and on every text what
the parser of a composite rule reports is composed of what the parsers of its parts report: alternatives are united,
sequences put one after another, repetitions repeated, optional parts left out or not; names and interpretations change
nothing. Missing: rules with agreement relations, and optional parts that do not stand directly after a token; with
these it is false in general (`alternative_lost`). -/
theorem rules_compose_partial (hrun : Fresh L setOrder h) (hp : ∀ a b, pid a = pid b → a = b) (hs : SetOrder setOrder)
    (hh : ∀ a b, hash a = hash b → a = b) (hr : Answers r)
    (hc : Complete r.context r.split h root ∨ CompleteOptionals r.context r.split h root) :
    ∃ parser : Nat → TextParser, (∀ a, Reach h root a → RuleAt h a → ¬ IsOptional h a → ∃ N h', ∀ limit, N ≤ limit →
        newParser L setOrder r relation pid limit a h = .ok (parser a, h')) ∧
      ∀ text ts toks, r.tokenize text = .ok ts → r.tagger.call ts = .ok toks → (∀ t ∈ toks, Quiet L t) →
        ∃ R, (∀ a, Reach h root a → RuleAt h a → ¬ IsOptional h a → Reports hash (parser a) text (R a)) ∧
          Composed h root (fun p i => ∃ t, toks[i]? = some t ∧ Means L r.context t p) R := by
  have key : ∀ a, ∃ p : TextParser, Reach h root a → RuleAt h a → ¬ IsOptional h a →
      (∃ N h', ∀ limit, N ≤ limit → newParser L setOrder r relation pid limit a h = .ok (p, h')) ∧
      ∀ text, ∃ toks, r.tokens text = .ok toks ∧
        Reports hash p text (Accepts L (r.context.activation L r.split) h a toks) := by
    intro a
    by_cases ha : Reach h root a ∧ RuleAt h a ∧ ¬ IsOptional h a
    · obtain ⟨N, p, h', h1, h2⟩ := text_correct_optionals_partial (relation := relation) hrun ha.2.1 hp hs hh hr
        (hc.imp (fun hc => part_complete hc ha.1) (fun hc => part_complete_optionals hc ha.1 ha.2.2))
      refine ⟨p, fun _ _ _ => ⟨⟨N, h', h1⟩, fun text => ?_⟩⟩
      obtain ⟨toks, k1, _, k2, _⟩ := h2 text
      exact ⟨toks, k1, k2⟩
    · exact ⟨⟨r, ⟨⟨[], 0, fun _ _ => true, fun _ t => t⟩, ⟨fun _ => none, relation⟩⟩⟩,
        fun h1 h2 h3 => (ha ⟨h1, h2, h3⟩).elim⟩
  obtain ⟨parser, hparser⟩ := Classical.axiomOfChoice key
  refine ⟨parser, fun a h1 h2 h3 => (hparser a h1 h2 h3).1, fun text ts toks e1 e2 hq => ?_⟩
  refine ⟨fun a => Accepts L (r.context.activation L r.split) h a toks, fun a h1 h2 h3 => ?_,
    accepts_composed hq (hc.elim (fun hc => hc.known) (fun hc => hc.known))⟩
  obtain ⟨toks', k1, k2⟩ := (hparser a h1 h2 h3).2 text
  have e : toks' = toks := by
    unfold Reader.tokens at k1
    rw [e1] at k1
    have k1' : r.tagger.call ts = .ok toks' := k1
    rw [e2] at k1'
    exact (Except.ok.inj k1').symm
  rw [← e]
  exact k2

/-! ### Example -/

theorem chainText_tokens : (sampleReader.tokens "a b c a".toList).toOption =
    some [latinWord "a" 0, latinWord "b" 2, latinWord "c" 4, latinWord "a" 6] := by
  decide +kernel

set_option maxRecDepth 4000 in
theorem chainText_spans : reportedSpans sampleReader chainSource 0 "a b c a".toList =
    some [[(2, 5), (0, 5)], [(0, 5)], []] := by
  rw [reportedSpans_tokens chainText_tokens]
  decide +kernel

set_option maxRecDepth 4000 in
theorem chainPart_spans : reportedSpans sampleReader chainSource 6 "a b c a".toList =
    some [[(2, 5)], [(2, 5)], []] := by
  rw [reportedSpans_tokens chainText_tokens]
  decide +kernel

/-- `X = forward(); X.define(or_(rule(rule('a').repeatable(max=2), X), pipeline(['b c'])))` and its part
`pipeline(['b c'])`. -/
example : Fresh sampleLang sampleOrder chainSource ∧ Answers sampleReader ∧
    Complete sampleReader.context sampleReader.split chainSource 0 ∧
    (∀ t ∈ [latinWord "a" 0, latinWord "b" 2, latinWord "c" 4, latinWord "a" 6], Quiet sampleLang t) ∧
    (Reach chainSource 0 6 ∧ RuleAt chainSource 6) ∧
    reportedSpans sampleReader chainSource 0 "a b c a".toList = some [[(2, 5), (0, 5)], [(0, 5)], []] ∧
    reportedSpans sampleReader chainSource 6 "a b c a".toList = some [[(2, 5)], [(2, 5)], []] := by
  refine ⟨chainSource_fresh, sampleReader_answers, chainSource_complete_in (by decide +kernel), ?_, ⟨?_, ⟨_, rfl, rfl⟩⟩,
    chainText_spans, chainPart_spans⟩
  · simp only [List.mem_cons, List.not_mem_nil, or_false]
    rintro t (rfl | rfl | rfl | rfl) <;> exact ⟨by decide, fun e => absurd e (by decide), fun f => ⟨_, rfl⟩⟩
  · exact .step (a := 7) (o := .or [5, 6]) (.step (a := 0) (o := .forward (some 7)) .root rfl (by decide)) rfl (by decide)

theorem garlandPart_spans : reportedSpans sampleReader garlandSource 8 "a c b\tc d".toList =
    some [[(4, 9)], [(4, 9)], []] := by
  rw [reportedSpans_tokens garlandText_tokens]
  decide +kernel

/-- A rule with optional parts and its part `rule(NAME, TAIL, 'd')`. -/
example : Fresh sampleLang sampleOrder garlandSource ∧
    CompleteOptionals sampleReader.context sampleReader.split garlandSource 0 ∧
    (Reach garlandSource 0 8 ∧ RuleAt garlandSource 8 ∧ ¬ IsOptional garlandSource 8) ∧
    reportedSpans sampleReader garlandSource 0 "a c b\tc d".toList =
      some [[(4, 5), (0, 5), (4, 9), (0, 9)], [(0, 9)], [(0, 9)]] ∧
    reportedSpans sampleReader garlandSource 8 "a c b\tc d".toList = some [[(4, 9)], [(4, 9)], []] := by
  refine ⟨garlandSource_fresh, garlandSource_reader, ⟨?_, ⟨_, rfl, rfl⟩, ?_⟩, garlandText_spans, garlandPart_spans⟩
  · exact .step (a := 9) (o := .or [6, 8, 4]) (.step (a := 0) (o := .forward (some 9)) .root rfl (by decide)) rfl
      (by decide)
  · rintro ⟨x, v, e⟩
    cases e

theorem shadowPart_spans : reportedSpans sampleReader shadowSource 8 "x b".toList = some [[(2, 3)], [(2, 3)], []] := by
  rw [reportedSpans_tokens (toks := [latinWord "x" 0, latinWord "b" 2]) (by decide +kernel)]
  decide +kernel

/-- C71 is false in general: an alternative finds something on its own, and `or_` of it and another rule finds
nothing. -/
theorem alternative_lost : ∃ (h : Heap Pred) (root b : Nat) (text : Str), Fresh sampleLang sampleOrder h ∧
    RuleAt h root ∧ RuleAt h b ∧ (∃ rs, h[root]? = some (.or rs) ∧ b ∈ rs) ∧
    reportedSpans sampleReader h b text = some [[(2, 3)], [(2, 3)], []] ∧
    reportedSpans sampleReader h root text = some [[], [], []] :=
  ⟨shadowSource, 9, 8, "x b".toList, fresh_makes (g := []) (os := shadowSource) (by decide +kernel), ⟨_, rfl, rfl⟩,
    ⟨_, rfl, rfl⟩, ⟨[4, 8], rfl, by decide⟩, shadowPart_spans, shadowAfter_spans⟩

end Yargy
