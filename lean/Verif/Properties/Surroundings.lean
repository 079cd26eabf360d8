import Verif.Properties.Separate
import Verif.Properties.Optionals
/-!
C69: what is found in a piece of text does not depend on what else is in the text, on the other side of white space.
-/
namespace Yargy
open Spec Local

variable {L : Lang} {setOrder : List Str → List Str} {relation : Nat → Relation} {pid : Nat → Nat} {limit root : Nat}
  {h h' : Heap Pred} {H : Type} [DecidableEq H] {hash : Key → H} {r : Reader} {p : TextParser} {c : Char}

mutual
/-- Predicates do not look at the place of a token. -/
theorem call_moved (n : Nat) (t : Token) : ∀ p : Pred, p.call L (movedBy n t) = p.call L t
  | .and_ ps => by simp only [Pred.call]; exact callAnd_moved n t ps
  | .or_ ps => by simp only [Pred.call]; exact callOr_moved n t ps
  | .not_ q => by simp only [Pred.call]; rw [call_moved n t q]
  | .true | .isLower | .isUpper | .isTitle | .isCapitalized | .eq _ | .lengthEq _ | .gte _ | .lte _ | .caseless _
  | .in_ _ | .inCaseless _ | .normalized _ | .dictionary _ | .dict _ | .gram _ | .gramP _ | .type _ | .typeP _ | .tag _
  | .tagP _ | .isSingle | .custom _ _ | .customP _ _ => by simp only [Pred.call] <;> rfl
theorem callAnd_moved (n : Nat) (t : Token) : ∀ ps : List Pred, callAnd L (movedBy n t) ps = callAnd L t ps
  | [] => rfl
  | q :: ps => by simp only [callAnd]; rw [call_moved n t q, callAnd_moved n t ps]
theorem callOr_moved (n : Nat) (t : Token) : ∀ ps : List Pred, callOr L (movedBy n t) ps = callOr L t ps
  | [] => rfl
  | q :: ps => by simp only [callOr]; rw [call_moved n t q, callOr_moved n t ps]
end

theorem accepts_moved (n : Nat) (t : Token) (p : Pred) : p.accepts L (movedBy n t) = p.accepts L t := by
  unfold Pred.accepts
  rw [call_moved]

/-- Only the tokens of the range matter, and of them not the place. -/
theorem fits_within {toks toks' : List Token} {n : Nat} (hsame : ∀ (k : Nat) (t : Token), toks[k]? = some t →
      ∃ t', toks'[n + k]? = some t' ∧ ∀ p : Pred, p.accepts L t' = p.accepts L t) {w : List (Sym Pred)} {i j : Nat}
    (hf : Fits (Pred.accepts L) toks w i j) : Fits (Pred.accepts L) toks' w (n + i) (n + j) := by
  induction hf with
  | nil => exact .nil
  | pred h1 h2 _ ih =>
    obtain ⟨t', e1, e2⟩ := hsame _ _ h1
    exact .pred e1 (by rw [e2]; exact h2) ih
  | opn _ ih => exact .opn ih
  | cls _ ih => exact .cls ih

theorem fits_without {toks toks' : List Token} {n : Nat} (hsame : ∀ (k : Nat) (t : Token), toks[k]? = some t →
      ∃ t', toks'[n + k]? = some t' ∧ ∀ p : Pred, p.accepts L t' = p.accepts L t) {w : List (Sym Pred)} {i j : Nat}
    (hj : j ≤ toks.length) (hf : Fits (Pred.accepts L) toks' w (n + i) (n + j)) : Fits (Pred.accepts L) toks w i j := by
  generalize hx : n + i = x at hf
  generalize hy : n + j = y at hf
  induction hf generalizing i with
  | nil => rw [show i = j by omega]; exact .nil
  | @pred p w t x y h1 h2 h3 ih =>
    have hlt : ∀ {w : List (Sym Pred)} {x y : Nat}, Fits (Pred.accepts L) toks' w x y → x ≤ y := by
      intro w x y h
      induction h with
      | nil => exact Nat.le_refl _
      | pred _ _ _ ih => omega
      | opn _ ih => exact ih
      | cls _ ih => exact ih
    have := hlt h3
    have hk : i < toks.length := by omega
    obtain ⟨t', e1, e2⟩ := hsame i _ (List.getElem?_eq_getElem hk)
    rw [hx, h1] at e1
    cases e1
    exact .pred (List.getElem?_eq_getElem hk) (by rw [← e2]; exact h2) (ih (by omega) hy)
  | opn _ ih => exact .opn (ih hx hy)
  | cls _ ih => exact .cls (ih hx hy)

theorem accepts_within {A : Activation Pred} {toks toks' : List Token} {n : Nat}
    (hsame : ∀ (k : Nat) (t : Token), toks[k]? = some t →
      ∃ t', toks'[n + k]? = some t' ∧ ∀ p : Pred, p.accepts L t' = p.accepts L t) {i j : Nat} (hj : j ≤ toks.length) :
    Accepts L A h root toks' (n + i) (n + j) ↔ Accepts L A h root toks i j :=
  ⟨fun ⟨w, h1, h2⟩ => ⟨w, h1, fits_without hsame hj h2⟩, fun ⟨w, h1, h2⟩ => ⟨w, h1, fits_within hsame h2⟩⟩

/-- The parser reports, on every sequence of tokens, exactly what the rule accepts. -/
def Exact (L : Lang) (r : Reader) (hash : Key → H) (h : Heap Pred) (root : Nat) (b : Built) : Prop :=
  ∀ toks : List Token, ∃ fuel ms σ, extract b.grammar b.agreement hash toks true fuel = some (ms, σ, none) ∧
    ∀ i j, (∃ m ∈ ms, m.tree.range = (i, j)) ↔ Accepts L (r.context.activation L r.split) h root toks i j

/-- The tokens of a text read with the default tagger, on both sides of white space. -/
theorem pass_tokens {C : Classes} (hC : SaneClasses C) (hc : C.space c = true) (h1 : c ≠ '\n') (h2 : c ≠ '\r')
    (ht : Tokenizer.new (defaultRules C) = .ok r.tokenizer) (hpass : r.tagger = .pass) (a b : Str) :
    ∃ ta tb, r.tokens a = .ok ta ∧ r.tokens b = .ok tb ∧
      r.tokens (a ++ c :: b) = .ok (ta ++ tb.map (movedBy (a.length + 1))) := by
  obtain ⟨ts, k1, _⟩ := default_tokens_cover C ht a
  obtain ⟨us, k2, _⟩ := default_tokens_cover C ht b
  have k3 := default_tokens_split hC hc h1 h2 ht k1 k2
  have tok : ∀ text xs, r.tokenizer.call text = .ok xs → r.tokens text = .ok (xs.map (readToken r.analyzer)) := by
    intro text xs e
    unfold Reader.tokens
    rw [tokenize_eq, e, hpass]
    rfl
  refine ⟨_, _, tok a ts k1, tok b us k2, ?_⟩
  rw [tok _ _ k3, List.map_append, List.map_map, List.map_map]
  congr 2
  refine List.map_congr_left (fun t _ => ?_)
  show readToken r.analyzer (movedBy _ t) = movedBy _ (readToken r.analyzer t)
  unfold readToken
  split
  · rfl
  · split
    · next e => rw [if_pos (show t.type = ruType from e)]; rfl
    · next e => rw [if_neg (show ¬ t.type = ruType from e)]

theorem pass_answers {C : Classes} (ht : Tokenizer.new (defaultRules C) = .ok r.tokenizer) (hpass : r.tagger = .pass) :
    Answers r := by
  refine ⟨?_, fun ts => ⟨ts, by rw [hpass]; rfl, same_texts_refl ts⟩⟩
  obtain ⟨e, _⟩ := new_ok ht
  rw [e]
  simp [defaultRules]

/-- C69: for a parser that reports what its rule accepts, the matches of a text that lie before white space are those
of the text before it, and the matches that lie after it are those of the text after it. -/
theorem exact_surroundings {C : Classes} (hC : SaneClasses C) (hc : C.space c = true) (h1 : c ≠ '\n') (h2 : c ≠ '\r')
    (ht : Tokenizer.new (defaultRules C) = .ok r.tokenizer) (hpass : r.tagger = .pass)
    (hrun : Run L setOrder [] h) (hroot : RuleAt h root) (hp : ∀ a b, pid a = pid b → a = b) (hs : SetOrder setOrder)
    (hb : newParser L setOrder r relation pid limit root h = .ok (p, h'))
    (hex : Exact L r hash h root p.built) (a b : Str) :
    ∃ fa ma σa fb mb σb f ms σ, p.extract hash a true fa = some (ma, σa, none) ∧
      p.extract hash b true fb = some (mb, σb, none) ∧ p.extract hash (a ++ c :: b) true f = some (ms, σ, none) ∧
      (∀ x y, (∃ m ∈ ms, m.span = (x, y) ∧ y ≤ a.length) ↔ ∃ m ∈ ma, m.span = (x, y)) ∧
      ∀ x y, (∃ m ∈ ms, m.span = (a.length + 1 + x, a.length + 1 + y)) ↔ ∃ m ∈ mb, m.span = (x, y) := by
  obtain ⟨b1, b2⟩ := newParser_parts hb
  obtain ⟨q1, q2, q3⟩ := program_uses hrun hroot hp hs b2
  obtain ⟨ta, tb, k1, k2, k3⟩ := pass_tokens hC hc h1 h2 ht hpass a b
  have hans := pass_answers ht hpass
  have ca := reader_covers ht hans k1
  have cb := reader_covers ht hans k2
  obtain ⟨fa, ma, σa, ea, xa⟩ := hex ta
  obtain ⟨fb, mb, σb, eb, xb⟩ := hex tb
  obtain ⟨f, ms, σ, e, x⟩ := hex (ta ++ tb.map (movedBy (a.length + 1)))
  have oka := extract_matches q1 q3 ea
  have okb := extract_matches q1 q3 eb
  have ok := extract_matches q1 q3 e
  have left : ∀ (k : Nat) (t : Token), ta[k]? = some t →
      ∃ t', (ta ++ tb.map (movedBy (a.length + 1)))[0 + k]? = some t' ∧ ∀ p : Pred, p.accepts L t' = p.accepts L t := by
    intro k t hk
    refine ⟨t, ?_, fun _ => rfl⟩
    rw [Nat.zero_add, List.getElem?_append_left (List.getElem?_eq_some_iff.1 hk).1, hk]
  have right : ∀ (k : Nat) (t : Token), tb[k]? = some t →
      ∃ t', (ta ++ tb.map (movedBy (a.length + 1)))[ta.length + k]? = some t' ∧
        ∀ p : Pred, p.accepts L t' = p.accepts L t := by
    intro k t hk
    refine ⟨movedBy (a.length + 1) t, ?_, fun _ => accepts_moved _ _ _⟩
    rw [List.getElem?_append_right (by omega), Nat.add_sub_cancel_left, List.getElem?_map, hk]
    rfl
  -- which side a token is on
  have side : ∀ (k : Nat) (t : Token), (ta ++ tb.map (movedBy (a.length + 1)))[k]? = some t →
      (k < ta.length ∧ ta[k]? = some t ∧ t.span.1 < a.length ∧ t.span.2 ≤ a.length) ∨
      (ta.length ≤ k ∧ ∃ u, tb[k - ta.length]? = some u ∧ t = movedBy (a.length + 1) u) := by
    intro k t hk
    by_cases hl : k < ta.length
    · rw [List.getElem?_append_left hl] at hk
      have := ca.inside t (List.mem_of_getElem? hk)
      exact .inl ⟨hl, hk, by omega, this.2⟩
    · rw [List.getElem?_append_right (by omega), List.getElem?_map] at hk
      obtain ⟨u, hu, rfl⟩ := Option.map_eq_some_iff.1 hk
      exact .inr ⟨by omega, u, hu, rfl⟩
  have run : ∀ {text toks fuel res}, r.tokens text = .ok toks →
      extract p.built.grammar p.built.agreement hash toks true fuel = some res →
      p.extract hash text true fuel = some res := by
    intro text toks fuel res g1 g2
    unfold TextParser.extract
    rw [b1, g1]
    exact g2
  refine ⟨fa, ma, σa, fb, mb, σb, f, ms, σ, run k1 ea, run k2 eb, run k3 e, ?_, ?_⟩
  · intro u v
    constructor
    · rintro ⟨m, hm, hsp, hv⟩
      obtain ⟨s, t, s1, t1, sp⟩ := (ok m hm).span
      have hne := (ok m hm).nonempty
      rw [hsp] at sp
      rcases side _ _ t1 with ⟨l1, l2, l3, l4⟩ | ⟨l1, w, l2, rfl⟩
      · have hacc := (x m.tree.range.1 m.tree.range.2).1 ⟨m, hm, rfl⟩
        have hacc' := (accepts_within (A := r.context.activation L r.split) (h := h) (root := root) left
          (i := m.tree.range.1) (j := m.tree.range.2) (by omega)).1 (by rwa [Nat.zero_add, Nat.zero_add])
        obtain ⟨m', hm', hr'⟩ := (xa _ _).2 hacc'
        obtain ⟨s', t', s1', t1', sp'⟩ := (oka m' hm').span
        rw [hr'] at s1' t1'
        dsimp only at s1' t1'
        rw [List.getElem?_append_left (by omega), s1'] at s1
        cases s1
        rw [l2] at t1'
        cases t1'
        exact ⟨m', hm', by rw [sp', sp]⟩
      · exfalso
        have := (cb.inside w (List.mem_of_getElem? l2)).1
        have e2 : v = a.length + 1 + w.span.2 := congrArg Prod.snd sp
        omega
    · rintro ⟨m, hm, hsp⟩
      obtain ⟨s, t, s1, t1, sp⟩ := (oka m hm).span
      have hne := (oka m hm).nonempty
      have hin := (oka m hm).inside
      have hacc := (xa m.tree.range.1 m.tree.range.2).1 ⟨m, hm, rfl⟩
      have hacc' := (accepts_within (A := r.context.activation L r.split) (h := h) (root := root) left hin).2 hacc
      rw [Nat.zero_add, Nat.zero_add] at hacc'
      obtain ⟨m', hm', hr'⟩ := (x _ _).2 hacc'
      obtain ⟨s', t', s1', t1', sp'⟩ := (ok m' hm').span
      rw [hr'] at s1' t1'
      dsimp only at s1' t1'
      rw [List.getElem?_append_left (by omega), s1] at s1'
      rw [List.getElem?_append_left (by omega), t1] at t1'
      cases s1'
      cases t1'
      rw [hsp] at sp
      refine ⟨m', hm', by rw [sp', sp], ?_⟩
      have := (ca.inside t (List.mem_of_getElem? t1)).2
      have e2 : v = t.span.2 := congrArg Prod.snd sp
      omega
  · intro u v
    constructor
    · rintro ⟨m, hm, hsp⟩
      obtain ⟨s, t, s1, t1, sp⟩ := (ok m hm).span
      have hne := (ok m hm).nonempty
      have hin := (ok m hm).inside
      rw [List.length_append, List.length_map] at hin
      rw [hsp] at sp
      rcases side _ _ s1 with ⟨l1, l2, l3, l4⟩ | ⟨l1, w, l2, rfl⟩
      · exfalso
        have e2 : a.length + 1 + u = s.span.1 := congrArg Prod.fst sp
        omega
      · rcases side _ _ t1 with ⟨g1, _⟩ | ⟨g1, w', g2, rfl⟩
        · omega
        have hacc := (x m.tree.range.1 m.tree.range.2).1 ⟨m, hm, rfl⟩
        have hacc' := (accepts_within (A := r.context.activation L r.split) (h := h) (root := root) right
          (i := m.tree.range.1 - ta.length) (j := m.tree.range.2 - ta.length) (by omega)).1
            (by
              rw [show ta.length + (m.tree.range.1 - ta.length) = m.tree.range.1 by omega,
                show ta.length + (m.tree.range.2 - ta.length) = m.tree.range.2 by omega]
              exact hacc)
        obtain ⟨m', hm', hr'⟩ := (xb _ _).2 hacc'
        obtain ⟨s', t', s1', t1', sp'⟩ := (okb m' hm').span
        rw [hr'] at s1' t1'
        dsimp only at s1' t1'
        rw [l2] at s1'
        rw [show m.tree.range.2 - ta.length - 1 = m.tree.range.2 - 1 - ta.length by omega, g2] at t1'
        cases s1'
        cases t1'
        refine ⟨m', hm', ?_⟩
        rw [sp']
        have e1 : a.length + 1 + u = a.length + 1 + w.span.1 := congrArg Prod.fst sp
        have e2 : a.length + 1 + v = a.length + 1 + w'.span.2 := congrArg Prod.snd sp
        exact Prod.ext (by dsimp only; omega) (by dsimp only; omega)
    · rintro ⟨m, hm, hsp⟩
      obtain ⟨s, t, s1, t1, sp⟩ := (okb m hm).span
      have hne := (okb m hm).nonempty
      have hin := (okb m hm).inside
      have hacc := (xb m.tree.range.1 m.tree.range.2).1 ⟨m, hm, rfl⟩
      have hacc' := (accepts_within (A := r.context.activation L r.split) (h := h) (root := root) right hin).2 hacc
      obtain ⟨m', hm', hr'⟩ := (x _ _).2 hacc'
      obtain ⟨s', t', s1', t1', sp'⟩ := (ok m' hm').span
      rw [hr'] at s1' t1'
      dsimp only at s1' t1'
      rw [List.getElem?_append_right (by omega), Nat.add_sub_cancel_left, List.getElem?_map, s1] at s1'
      rw [List.getElem?_append_right (by omega),
        show ta.length + m.tree.range.2 - 1 - ta.length = m.tree.range.2 - 1 by omega, List.getElem?_map, t1] at t1'
      cases s1'
      cases t1'
      rw [hsp] at sp
      refine ⟨m', hm', ?_⟩
      rw [sp']
      have e1 : u = s.span.1 := congrArg Prod.fst sp
      have e2 : v = t.span.2 := congrArg Prod.snd sp
      rw [e1, e2]
      rfl

/-- C69 (partial): for a rule without agreement relations whose optional parts stand directly after a token. -/
theorem surroundings_partial {C : Classes} (hC : SaneClasses C) (hc : C.space c = true) (h1 : c ≠ '\n') (h2 : c ≠ '\r')
    (ht : Tokenizer.new (defaultRules C) = .ok r.tokenizer) (hpass : r.tagger = .pass)
    (hrun : Fresh L setOrder h) (hroot : RuleAt h root) (hp : ∀ a b, pid a = pid b → a = b) (hs : SetOrder setOrder)
    (hh : ∀ a b, hash a = hash b → a = b)
    (hc' : Complete r.context r.split h root ∨ CompleteOptionals r.context r.split h root) :
    ∃ N p h', (∀ limit, N ≤ limit → newParser L setOrder r relation pid limit root h = .ok (p, h')) ∧
      ∀ a b, ∃ fa ma σa fb mb σb f ms σ, p.extract hash a true fa = some (ma, σa, none) ∧
        p.extract hash b true fb = some (mb, σb, none) ∧ p.extract hash (a ++ c :: b) true f = some (ms, σ, none) ∧
        (∀ x y, (∃ m ∈ ms, m.span = (x, y) ∧ y ≤ a.length) ↔ ∃ m ∈ ma, m.span = (x, y)) ∧
        ∀ x y, (∃ m ∈ ms, m.span = (a.length + 1 + x, a.length + 1 + y)) ↔ ∃ m ∈ mb, m.span = (x, y) := by
  have key : ∃ N b h', (∀ limit, N ≤ limit →
      buildParser L setOrder r.context r.split relation pid limit root h = .ok (b, h')) ∧ Exact L r hash h root b := by
    rcases hc' with hc' | hc'
    · obtain ⟨N, b, h', e1, e2⟩ := fresh_correct_partial (relation := relation) hrun hroot hp hs hh hc'
      exact ⟨N, b, h', e1, fun toks => (e2 toks).1⟩
    · obtain ⟨N, b, h', e1, e2⟩ := fresh_correct_optionals_partial (relation := relation) hrun hroot hp hs hh hc'
      exact ⟨N, b, h', e1, fun toks => (e2 toks).1⟩
  obtain ⟨N, b, h', e1, e2⟩ := key
  have hb : ∀ limit, N ≤ limit → newParser L setOrder r relation pid limit root h = .ok (⟨r, b⟩, h') := by
    intro limit hl
    unfold newParser
    rw [e1 limit hl]
    rfl
  exact ⟨N, ⟨r, b⟩, h', hb, fun x y =>
    exact_surroundings hC hc h1 h2 ht hpass (fresh_run hrun) hroot hp hs (hb N (Nat.le_refl N)) e2 x y⟩

/-- A match has the words of its tokens. -/
theorem match_words {G : Grammar Pred Token} {toks pre mid post : List Token} {σ : Store} {m : Match Pred}
    (hok : MatchOK G toks σ m) (ht : toks = pre ++ mid ++ post)
    (he : m.tree.range = (pre.length, pre.length + mid.length)) : m.tokens.map (·.value) = mid.map (·.value) := by
  have hlen := hok.length
  rw [he] at hlen
  dsimp only at hlen
  refine List.ext_getElem? (fun k => ?_)
  rw [List.getElem?_map, List.getElem?_map]
  by_cases hk : k < mid.length
  · obtain ⟨t, t', h1, h2, h3⟩ := hok.tokens k (by rw [he]; dsimp only; omega)
    rw [he, ht] at h1
    dsimp only at h1
    rw [List.getElem?_append_left (by rw [List.length_append]; omega), List.getElem?_append_right (by omega),
      Nat.add_sub_cancel_left] at h1
    rw [h1, h2]
    exact congrArg some h3.value
  · rw [List.getElem?_eq_none (by omega), List.getElem?_eq_none (by omega)]

/-- C66, C69: a line of a gazetteer is found in every text, wherever it stands between white space. -/
theorem gazetteer_line_found {C : Classes} (hC : SaneClasses C) {d : Char} (hc : C.space c = true) (h1 : c ≠ '\n')
    (h2 : c ≠ '\r') (hd : C.space d = true) (h3 : d ≠ '\n') (h4 : d ≠ '\r')
    (ht : Tokenizer.new (defaultRules C) = .ok r.tokenizer) (hpass : r.tagger = .pass) (hrun : Fresh L setOrder h)
    {k : PipeKind} {ls : List Str} (ho : h[root]? = some (.pipe (.scheme k ls))) (hp : ∀ a b, pid a = pid b → a = b)
    (hs : SetOrder setOrder) (hh : ∀ a b, hash a = hash b → a = b)
    (hm : k = .morph → ∃ a, r.analyzer = some a ∧ Reliable L r.tokenizer a ls) (hl : ∀ l ∈ ls, r.split l ≠ []) :
    ∃ N p h', (∀ limit, N ≤ limit → newParser L setOrder r relation pid limit root h = .ok (p, h')) ∧
      ∀ l ∈ ls, ∀ a b, ∃ fuel ms σ m, p.extract hash (a ++ c :: (l ++ d :: b)) true fuel = some (ms, σ, none) ∧
        m ∈ ms ∧ m.tokens.map (·.value) = r.split l ∧ a.length < m.span.1 ∧
        m.span.2 ≤ a.length + 1 + l.length := by
  have hm' : k = .morph → r.analyzer ≠ none := by
    intro e
    obtain ⟨a, ha, _⟩ := hm e
    rw [ha]
    exact fun h => nomatch h
  have hans := pass_answers ht hpass
  obtain ⟨N, p, h', g1, g2⟩ := text_correct_partial (relation := relation) hrun ⟨_, ho, rfl⟩ hp hs hh hans
    (gazetteer_complete ho hm' hl)
  refine ⟨N, p, h', g1, fun l hl1 a b => ?_⟩
  obtain ⟨b1, b2⟩ := newParser_parts (g1 N (Nat.le_refl N))
  obtain ⟨q1, q2, q3⟩ := program_uses (fresh_run hrun) ⟨_, ho, rfl⟩ hp hs b2
  obtain ⟨toks, k1, _, ⟨fuel, ms, σ, k3, k4⟩, _⟩ := g2 (a ++ c :: (l ++ d :: b))
  obtain ⟨ts, tl, e1, e2, e3, e4, e5⟩ := reader_tokens hans l
  obtain ⟨ta, tlb, u1, u2, u3⟩ := pass_tokens hC hc h1 h2 ht hpass a (l ++ d :: b)
  obtain ⟨tl', tb, v1, v2, v3⟩ := pass_tokens hC hd h3 h4 ht hpass l b
  rw [e2] at v1
  cases v1
  rw [v3] at u2
  cases u2
  rw [k1] at u3
  cases u3
  have hw := own_words (k := k) hm hl1 e1 e3
  have hlc := reader_covers ht hans e2
  have same : ∀ (i : Nat) (t : Token), tl[i]? = some t → ∃ t',
      (ta ++ (tl ++ tb.map (movedBy (l.length + 1))).map (movedBy (a.length + 1)))[ta.length + i]? = some t' ∧
        ∀ p : Pred, p.accepts L t' = p.accepts L t := by
    intro i t hi
    refine ⟨movedBy (a.length + 1) t, ?_, fun _ => accepts_moved _ _ _⟩
    rw [List.getElem?_append_right (by omega), Nat.add_sub_cancel_left, List.getElem?_map,
      List.getElem?_append_left (List.getElem?_eq_some_iff.1 hi).1, hi]
    rfl
  have hacc : Accepts L (r.context.activation L r.split) h root tl 0 tl.length :=
    (accepts_gazetteer r ho hm' tl 0 tl.length).2
      ⟨l, hl1, by rw [← e5, List.length_map, Nat.zero_add], by rw [← e5]; exact wordsMatch_self tl hw [] tl rfl⟩
  have hacc' := (accepts_within same (Nat.le_refl _)).2 hacc
  obtain ⟨m, hm1, hm2⟩ := (k4 _ _).2 hacc'
  rw [Nat.add_zero] at hm2
  refine ⟨fuel, ms, σ, m, k3, hm1, ?_⟩
  unfold TextParser.extract at k3
  rw [b1, k1] at k3
  have hok := extract_matches q1 q3 k3 m hm1
  refine ⟨?_, ?_⟩
  · rw [match_words (pre := ta) (mid := tl.map (movedBy (a.length + 1))) (post := _) hok
      (by rw [List.map_append, List.append_assoc]) (by rw [List.length_map]; exact hm2), List.map_map, ← e5]
    rfl
  · have hne := hok.nonempty
    obtain ⟨s, t, s1, t1, sp⟩ := hok.span
    rw [hm2] at s1 t1 hne
    dsimp only at s1 t1 hne
    have hpos : 0 < tl.length := by omega
    obtain ⟨x, x1⟩ : ∃ x, tl[0]? = some x := ⟨_, List.getElem?_eq_getElem hpos⟩
    obtain ⟨y, y1⟩ : ∃ y, tl[tl.length - 1]? = some y := ⟨_, List.getElem?_eq_getElem (by omega)⟩
    rw [List.getElem?_append_right (by omega), Nat.sub_self, List.getElem?_map, List.getElem?_append_left hpos, x1] at s1
    rw [List.getElem?_append_right (by omega), show ta.length + tl.length - 1 - ta.length = tl.length - 1 by omega,
      List.getElem?_map, List.getElem?_append_left (by omega), y1] at t1
    cases s1
    cases t1
    have := (hlc.inside y (List.mem_of_getElem? y1)).2
    rw [sp]
    show a.length < a.length + 1 + x.span.1 ∧ a.length + 1 + y.span.2 ≤ a.length + 1 + l.length
    omega

/-! ### Examples -/

theorem sampleClasses_sane : SaneClasses sampleClasses := by
  have no : ∀ c : Char, (c = ' ' ∨ c = '\t' ∨ c = '\n' ∨ c = '\r' → False) → sampleClasses.space c = false := by
    intro c hc
    cases e : sampleClasses.space c with
    | false => rfl
    | true =>
      have : c ∈ " \t\n\r".toList := by simpa [sampleClasses] using e
      exact absurd (by simpa using this) hc
  refine ⟨fun c hc => no c ?_, fun c hc => no c ?_, fun c hc => no c ?_, by decide +kernel⟩ <;>
    · rintro (rfl | rfl | rfl | rfl) <;> revert hc <;> decide +kernel

/-- The sample grammar with optional parts, read from texts. -/
theorem garlandSource_reader : CompleteOptionals sampleReader.context sampleReader.split garlandSource 0 := by
  refine garlandSource_words (fun k ls l hm hl => ?_)
  simp only [garlandSource, List.mem_cons, List.not_mem_nil, reduceCtorEq, or_false, false_or,
    Obj.pipe.injEq, Pipe.scheme.injEq] at hm
  obtain ⟨_, rfl⟩ := hm
  simp only [List.mem_cons, List.not_mem_nil, or_false] at hl
  subst hl
  decide +kernel

/-- A Latin word of a text. -/
def latinWord (w : String) (start : Nat) : Token :=
  { value := w.toList, span := (start, start + w.toList.length), type := "LATIN".toList }

theorem garlandText_tokens : (sampleReader.tokens "a c b\tc d".toList).toOption =
    some [latinWord "a" 0, latinWord "c" 2, latinWord "b" 4, latinWord "c" 6, latinWord "d" 8] := by
  decide +kernel

theorem garlandBefore_tokens : (sampleReader.tokens "a c b".toList).toOption =
    some [latinWord "a" 0, latinWord "c" 2, latinWord "b" 4] := by
  decide +kernel

theorem garlandText_spans : reportedSpans sampleReader garlandSource 0 "a c b\tc d".toList =
    some [[(4, 5), (0, 5), (4, 9), (0, 9)], [(0, 9)], [(0, 9)]] := by
  rw [reportedSpans_tokens garlandText_tokens]
  decide +kernel

theorem garlandBefore_spans : reportedSpans sampleReader garlandSource 0 "a c b".toList =
    some [[(4, 5), (0, 5)], [(0, 5)], [(0, 5)]] := by
  rw [reportedSpans_tokens garlandBefore_tokens]
  decide +kernel

/-- The hypotheses hold for the default tokenizer, the default tagger and a rule with optional parts: before the tab
the same is found with and without the rest. -/
example : SaneClasses sampleClasses ∧ sampleClasses.space '\t' = true ∧
    Tokenizer.new (defaultRules sampleClasses) = .ok sampleReader.tokenizer ∧ sampleReader.tagger = .pass ∧
    Fresh sampleLang sampleOrder garlandSource ∧ RuleAt garlandSource 0 ∧
    CompleteOptionals sampleReader.context sampleReader.split garlandSource 0 ∧
    reportedSpans sampleReader garlandSource 0 "a c b\tc d".toList =
      some [[(4, 5), (0, 5), (4, 9), (0, 9)], [(0, 9)], [(0, 9)]] ∧
    reportedSpans sampleReader garlandSource 0 "a c b".toList = some [[(4, 5), (0, 5)], [(0, 5)], [(0, 5)]] :=
  ⟨sampleClasses_sane, by decide +kernel, rfl, rfl, garlandSource_fresh, ⟨_, rfl, rfl⟩, garlandSource_reader,
    garlandText_spans, garlandBefore_spans⟩

/-- Every text with one of the lines between white space. -/
example (a b : Str) : ∃ N p h', (∀ limit, N ≤ limit →
    newParser sampleLang sampleOrder sampleReader (fun _ => .gender) id limit 0 catSource = .ok (p, h')) ∧
    ∃ fuel ms σ m, p.extract (id : Key → Key) (a ++ ' ' :: ("рыжий кот".toList ++ ' ' :: b)) true fuel =
      some (ms, σ, none) ∧ m ∈ ms ∧ m.tokens.map (·.value) = ["рыжий".toList, "кот".toList] := by
  obtain ⟨N, p, h', h1, h2⟩ := gazetteer_line_found (c := ' ') (d := ' ') (r := sampleReader) (hash := (id : Key → Key))
    (relation := fun _ => .gender) (pid := id) (root := 0) sampleClasses_sane (by decide +kernel) (by decide)
    (by decide) (by decide +kernel) (by decide) (by decide) rfl rfl catSource_fresh rfl (fun _ _ e => e)
    sampleOrder_ok (fun _ _ e => e) (fun _ => catSource_reliable) catSource_words
  obtain ⟨fuel, ms, σ, m, k1, k2, k3, _⟩ := h2 "рыжий кот".toList (by decide +kernel) a b
  exact ⟨N, p, h', h1, fuel, ms, σ, m, k1, k2, k3.trans (by decide +kernel)⟩

/-- `A = rule('a').optional(); or_(rule('x', A, 'c'), rule(A, 'b').named('R').named('Q'))`. -/
def shadowSource : Heap Pred :=
  [.prod [.pred (.eq "a".toList)] 0, .rule [0], .optional 1 false,
   .prod [.pred (.eq "x".toList), .rule 2, .pred (.eq "c".toList)] 0, .rule [3],
   .prod [.rule 2, .pred (.eq "b".toList)] 0, .rule [5], .named 6 "R".toList, .named 7 "Q".toList, .or [4, 8]]

theorem shadowAlone_spans : reportedSpans sampleReader shadowSource 9 "b".toList =
    some [[(0, 1)], [(0, 1)], [(0, 1)]] := by
  rw [reportedSpans_tokens (toks := [latinWord "b" 0]) (by decide +kernel)]
  decide +kernel

theorem shadowAfter_spans : reportedSpans sampleReader shadowSource 9 "x b".toList = some [[], [], []] := by
  rw [reportedSpans_tokens (toks := [latinWord "x" 0, latinWord "b" 2]) (by decide +kernel)]
  decide +kernel

/-- C69 is false in general: `b` is found in the text `b`, and not in the text `x b`. After `x` the optional `a` is
predicted, and completed as empty, before `rule(A, 'b')` waits for it. -/
theorem surroundings_matter : ∃ (h : Heap Pred) (root : Nat) (a b : Str), Fresh sampleLang sampleOrder h ∧
    RuleAt h root ∧ Consumes h root ∧ reportedSpans sampleReader h root b = some [[(0, 1)], [(0, 1)], [(0, 1)]] ∧
    reportedSpans sampleReader h root (a ++ ' ' :: b) = some [[], [], []] := by
  refine ⟨shadowSource, 9, "x".toList, "b".toList, fresh_makes (g := []) (os := shadowSource) (by decide +kernel),
    ⟨_, rfl, rfl⟩, ?_, shadowAlone_spans, shadowAfter_spans⟩
  refine plain_consumes (fun a x _ h => ?_) (fun a o r _ h hr => ?_) <;> have hm := List.mem_of_getElem? h <;>
    simp only [shadowSource, List.mem_cons, List.not_mem_nil, reduceCtorEq, or_false] at hm
  rcases hm with rfl | rfl | rfl | rfl | rfl | rfl | rfl | rfl | rfl | rfl <;> cases hr

end Yargy
