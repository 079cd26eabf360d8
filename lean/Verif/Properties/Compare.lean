import Verif.Spec.Compare
import Verif.Properties.Surroundings
/-!
C73: spans, tokens and matches compare by value. C74: they cannot be put in sets.
-/
namespace Yargy.Compare
open Spec

/-! ### Spans -/

/-- C73: spans are equal if they have the same ends; a span is equal to the pair of its ends and to no other tuple,
whichever stands first. -/
theorem spans_compare (a b : Nat) (x : Item) :
    ((Item.span a b).eq x = true ↔ x = .span a b ∨ x = .tuple [a, b]) ∧ x.eq (.span a b) = (Item.span a b).eq x := by
  cases x with
  | span c d =>
    refine ⟨?_, ?_⟩
    · show (a == c && b == d) = true ↔ _
      simp only [Bool.and_eq_true, beq_iff_eq, Item.span.injEq, reduceCtorEq, or_false]
      exact ⟨fun h => ⟨h.1.symm, h.2.symm⟩, fun h => ⟨h.1.symm, h.2.symm⟩⟩
    · show (c == a && d == b) = (a == c && b == d)
      rw [Bool.beq_comm (a := c), Bool.beq_comm (a := d)]
  | tuple vs =>
    refine ⟨?_, rfl⟩
    show decide ([a, b] = vs) = true ↔ _
    simp only [decide_eq_true_eq, reduceCtorEq, Item.tuple.injEq, false_or]
    exact ⟨fun h => h.symm, fun h => h.symm⟩
  | other i =>
    refine ⟨?_, rfl⟩
    show false = true ↔ _
    simp

/-- C73: the order of spans is a strict total order that agrees with `==`: by start, then by stop. -/
theorem spans_order (s t u : Nat × Nat) :
    (spanLt s t = true ↔ s.1 < t.1 ∨ s.1 = t.1 ∧ s.2 < t.2) ∧
    (spanLt s t = true → spanLt t u = true → spanLt s u = true) ∧
    ((spanLt s t = true ∧ (Item.span s.1 s.2).eq (.span t.1 t.2) = false ∧ spanLt t s = false) ∨
     (spanLt s t = false ∧ (Item.span s.1 s.2).eq (.span t.1 t.2) = true ∧ spanLt t s = false) ∨
     (spanLt s t = false ∧ (Item.span s.1 s.2).eq (.span t.1 t.2) = false ∧ spanLt t s = true)) := by
  have key : ∀ s t : Nat × Nat, spanLt s t = true ↔ s.1 < t.1 ∨ s.1 = t.1 ∧ s.2 < t.2 := by
    intro s t
    unfold spanLt tupleLt
    split
    · next h =>
      unfold tupleLt
      split
      · unfold tupleLt
        simp
        omega
      · simp only [decide_eq_true_eq]
        omega
    · simp only [decide_eq_true_eq]
      omega
  have no : ∀ s t : Nat × Nat, spanLt s t = false ↔ ¬ (s.1 < t.1 ∨ s.1 = t.1 ∧ s.2 < t.2) := by
    intro s t
    rw [← key, Bool.not_eq_true]
  have eq : (Item.span s.1 s.2).eq (.span t.1 t.2) = true ↔ s.1 = t.1 ∧ s.2 = t.2 := by
    rw [(spans_compare _ _ _).1]
    simp only [Item.span.injEq, reduceCtorEq, or_false]
    omega
  have ne : (Item.span s.1 s.2).eq (.span t.1 t.2) = false ↔ ¬ (s.1 = t.1 ∧ s.2 = t.2) := by
    rw [← eq, Bool.not_eq_true]
  refine ⟨key s t, ?_, ?_⟩
  · rw [key, key, key]
    omega
  · rw [key, key, no, no, eq, ne]
    omega

/-! ### Tokens -/

theorem same_iff (f g : Form) : f.same g = true ↔ SameForm f g := by
  unfold Form.same
  rw [decide_eq_true_eq]
  exact ⟨fun h => ⟨h.1, h.2⟩, fun h => ⟨h.1, h.2⟩⟩

theorem formsEq_iff : ∀ (fs gs : List Form), formsEq fs gs = true ↔ SameForms (some fs) (some gs)
  | [], [] => ⟨fun _ => .nil, fun _ => rfl⟩
  | [], g :: gs => ⟨(fun h => nomatch h), (fun h => nomatch h)⟩
  | f :: fs, [] => ⟨(fun h => nomatch h), (fun h => nomatch h)⟩
  | f :: fs, g :: gs => by
    unfold formsEq
    rw [Bool.and_eq_true, same_iff, formsEq_iff fs gs]
    exact ⟨fun h => .cons h.1 h.2, fun h => by cases h with | cons a b => exact ⟨a, b⟩⟩

/-- C73: tokens are equal exactly if they are the same to the eye: text, place, type, tag, normal forms and
grammemes. -/
theorem tokens_compare (t u : Token) : tokenEq t u = true ↔ SameToken t u := by
  have hs : (Item.span t.span.1 t.span.2).eq (.span u.span.1 u.span.2) = true ↔ t.span = u.span := by
    rw [(spans_compare _ _ _).1]
    simp only [Item.span.injEq, reduceCtorEq, or_false]
    constructor
    · rintro ⟨h1, h2⟩
      exact Prod.ext h1.symm h2.symm
    · intro h
      rw [h]
      exact ⟨rfl, rfl⟩
  obtain ⟨v, s, y, g, f⟩ := t
  obtain ⟨v', s', y', g', f'⟩ := u
  unfold tokenEq
  simp only [Bool.and_eq_true, decide_eq_true_eq]
  rw [hs]
  constructor
  · rintro ⟨⟨⟨⟨⟨h1, h2⟩, h3⟩, h4⟩, h5⟩, h6⟩
    refine ⟨h2, h3, h4, ?_, ?_⟩
    · cases g <;> cases g' <;> cases f <;> cases f' <;> first | rfl | (cases h1; done) | skip
      all_goals (show some _ = some _; rw [of_decide_eq_true h5])
    · cases g <;> cases g' <;> cases f <;> cases f' <;> first | exact .none | (cases h1; done) | skip
      all_goals exact (formsEq_iff _ _).1 h6
  · rintro ⟨h1, h2, h3, h4, h5⟩
    dsimp only at h1 h2 h3 h4 h5
    subst h1 h2 h3 h4
    refine ⟨⟨⟨⟨⟨?_, rfl⟩, rfl⟩, rfl⟩, ?_⟩, ?_⟩
    · cases h5 <;> rfl
    · cases g <;> simp
    · cases h5 with
      | none => rfl
      | nil => rfl
      | cons a b => exact (formsEq_iff _ _).2 (.cons a b)

theorem forms_refl : ∀ (fs : List Form), SameForms (some fs) (some fs)
  | [] => .nil
  | _ :: fs => .cons ⟨rfl, rfl⟩ (forms_refl fs)

theorem forms_symm {a b : Option (List Form)} (h : SameForms a b) : SameForms b a := by
  induction h with
  | none => exact .none
  | nil => exact .nil
  | cons h _ ih => exact .cons ⟨h.normalized.symm, h.grams.symm⟩ ih

theorem forms_trans {a b c : Option (List Form)} (h : SameForms a b) (h' : SameForms b c) : SameForms a c := by
  induction h generalizing c with
  | none => exact h'
  | nil => exact h'
  | cons h _ ih =>
    cases h' with
    | cons k k' => exact .cons ⟨h.normalized.trans k.normalized, h.grams.trans k.grams⟩ (ih k')

/-- C73: equality of tokens is an equivalence. -/
theorem tokens_equality (t u v : Token) :
    tokenEq t t = true ∧ tokenEq u t = tokenEq t u ∧ (tokenEq t u = true → tokenEq u v = true → tokenEq t v = true) := by
  have symm : ∀ t u, tokenEq t u = true → tokenEq u t = true := by
    intro t u h
    rw [tokens_compare] at h ⊢
    exact ⟨h.value.symm, h.span.symm, h.type.symm, h.tag.symm, forms_symm h.forms⟩
  refine ⟨?_, ?_, ?_⟩
  · rw [tokens_compare]
    refine ⟨rfl, rfl, rfl, rfl, ?_⟩
    cases t.forms with
    | none => exact .none
    | some fs => exact forms_refl fs
  · rw [Bool.eq_iff_iff]
    exact ⟨symm u t, symm t u⟩
  · rw [tokens_compare, tokens_compare, tokens_compare]
    intro h k
    exact ⟨h.value.trans k.value, h.span.trans k.span, h.type.trans k.type, h.tag.trans k.tag,
      forms_trans h.forms k.forms⟩

theorem forms_any {test : Form → Bool} (ht : ∀ f g, SameForm f g → test f = test g) {fs gs : List Form}
    (h : SameForms (some fs) (some gs)) : fs.any test = gs.any test ∧
      SameForms (some (fs.filter test)) (some (gs.filter test)) := by
  induction fs generalizing gs with
  | nil => cases h; exact ⟨rfl, .nil⟩
  | cons f fs ih =>
    cases h with
    | cons a b =>
      obtain ⟨i1, i2⟩ := ih b
      rw [List.any_cons, List.any_cons, List.filter_cons, List.filter_cons, ht _ _ a, i1]
      refine ⟨rfl, ?_⟩
      split
      · exact .cons a i2
      · exact i2

theorem morph_same {test : Form → Bool} (ht : ∀ f g, SameForm f g → test f = test g) {t u : Token}
    (h : SameForms t.forms u.forms) : morphRequired t test = morphRequired u test := by
  unfold morphRequired
  cases hf : t.forms with
  | none =>
    rw [hf] at h
    generalize hu : u.forms = x at h
    cases h
    rfl
  | some fs =>
    rw [hf] at h
    cases hu : u.forms with
    | none => rw [hu] at h; cases h
    | some gs =>
      rw [hu] at h
      show Except.ok _ = Except.ok _
      rw [(forms_any ht h).1]

theorem gram_same (g : Str) (f f' : Form) (h : SameForm f f') : f.grams.contains g = f'.grams.contains g := by
  rw [h.grams]

theorem single_same (f f' : Form) (h : SameForm f f') : f.isSingle = f'.isSingle := by
  unfold Form.isSingle
  rw [h.grams]

theorem dict_same {L : Lang} (vs : List Str) {t u : Token} (h : SameToken t u) :
    (Pred.dict vs).call L t = (Pred.dict vs).call L u := by
  have hf := h.forms
  unfold Pred.call
  cases hx : t.forms with
  | none =>
    rw [hx] at hf
    cases hu : u.forms with
    | none => dsimp only; rw [h.value]
    | some gs => rw [hu] at hf; cases hf
  | some fs =>
    rw [hx] at hf
    cases hu : u.forms with
    | none => rw [hu] at hf; cases hf
    | some gs =>
      rw [hu] at hf
      dsimp only
      rw [(forms_any (fun f g h => by rw [h.normalized]) hf).1]

mutual
theorem call_same {L : Lang} {t u : Token} (h : SameToken t u) : ∀ p : Pred, p.call L t = p.call L u
  | .true => rfl
  | .isLower => by unfold Pred.call; rw [h.value]
  | .isUpper => by unfold Pred.call; rw [h.value]
  | .isTitle => by unfold Pred.call; rw [h.value]
  | .isCapitalized => by unfold Pred.call; rw [h.value]
  | .eq v => by unfold Pred.call; rw [h.value]
  | .lengthEq n => by unfold Pred.call; rw [h.value]
  | .gte n => by unfold Pred.call intRequired; rw [h.value, h.type]
  | .lte n => by unfold Pred.call intRequired; rw [h.value, h.type]
  | .caseless v => by unfold Pred.call; rw [h.value]
  | .in_ vs => by unfold Pred.call; rw [h.value]
  | .inCaseless vs => by unfold Pred.call; rw [h.value]
  | .dict vs => dict_same vs h
  | .gramP g => by unfold Pred.call; exact morph_same (gram_same g) h.forms
  | .typeP v => by unfold Pred.call; rw [h.type]
  | .tagP v => by unfold Pred.call; rw [h.tag]
  | .isSingle => by unfold Pred.call; exact morph_same single_same h.forms
  | .customP f types => by unfold Pred.call; rw [h.type, h.value]
  | .and_ ps => by unfold Pred.call; exact (calls_same h ps).1
  | .or_ ps => by unfold Pred.call; exact (calls_same h ps).2
  | .not_ p => by unfold Pred.call; rw [call_same h p]
  | .normalized _ => rfl
  | .dictionary _ => rfl
  | .gram _ => rfl
  | .type _ => rfl
  | .tag _ => rfl
  | .custom _ _ => rfl
theorem calls_same {L : Lang} {t u : Token} (h : SameToken t u) : ∀ ps : List Pred,
    callAnd L t ps = callAnd L u ps ∧ callOr L t ps = callOr L u ps
  | [] => ⟨rfl, rfl⟩
  | p :: ps => by
    obtain ⟨h1, h2⟩ := calls_same h ps
    refine ⟨?_, ?_⟩
    · unfold callAnd
      rw [call_same h p, h1]
    · unfold callOr
      rw [call_same h p, h2]
end

theorem narrow_same {test : Form → Bool} (ht : ∀ f g, SameForm f g → test f = test g) {t u : Token} (h : SameToken t u) :
    (∃ e, (match t.forms with | some fs => t.constrained (fs.filter test) | none => .error .attributeError) = .error e ∧
      (match u.forms with | some fs => u.constrained (fs.filter test) | none => .error .attributeError) = .error e) ∨
    ∃ t' u', (match t.forms with | some fs => t.constrained (fs.filter test) | none => .error .attributeError) = .ok t' ∧
      (match u.forms with | some fs => u.constrained (fs.filter test) | none => .error .attributeError) = .ok u' ∧
      SameToken t' u' := by
  have hf := h.forms
  cases hx : t.forms with
  | none =>
    rw [hx] at hf
    cases hu : u.forms with
    | none => exact .inl ⟨_, rfl, rfl⟩
    | some gs => rw [hu] at hf; cases hf
  | some fs =>
    rw [hx] at hf
    cases hu : u.forms with
    | none => rw [hu] at hf; cases hf
    | some gs =>
      rw [hu] at hf
      refine .inr ⟨{ t with forms := some (fs.filter test) }, { u with forms := some (gs.filter test) },
        by simp only [Token.constrained, hx], by simp only [Token.constrained, hu],
        ⟨h.value, h.span, h.type, h.tag, (forms_any ht hf).2⟩⟩

/-- C73: equal tokens get the same answers from all predicates, exceptions included, and are narrowed to equal
tokens. -/
theorem equal_tokens_same_answers (L : Lang) {t u : Token} (h : tokenEq t u = true) (p : Pred) :
    p.call L t = p.call L u ∧
      ((∃ e, p.constrain t = .error e ∧ p.constrain u = .error e) ∨
        ∃ t' u', p.constrain t = .ok t' ∧ p.constrain u = .ok u' ∧ tokenEq t' u' = true) := by
  have hs := (tokens_compare t u).1 h
  refine ⟨call_same hs p, ?_⟩
  cases p with
  | gramP g =>
    rcases narrow_same (gram_same g) hs with ⟨e, h1, h2⟩ | ⟨t', u', h1, h2, h3⟩
    · exact .inl ⟨e, h1, h2⟩
    · exact .inr ⟨t', u', h1, h2, (tokens_compare _ _).2 h3⟩
  | isSingle =>
    rcases narrow_same single_same hs with ⟨e, h1, h2⟩ | ⟨t', u', h1, h2, h3⟩
    · exact .inl ⟨e, h1, h2⟩
    · exact .inr ⟨t', u', h1, h2, (tokens_compare _ _).2 h3⟩
  | _ => exact .inr ⟨t, u, rfl, rfl, h⟩

/-- C73: equal tokens have the same normal form. -/
theorem equal_tokens_same_normal (lower : Str → Str) {t u : Token} (h : tokenEq t u = true) :
    t.normalized lower = u.normalized lower := by
  have hs := (tokens_compare t u).1 h
  have hf := hs.forms
  unfold Token.normalized
  cases hx : t.forms with
  | none =>
    rw [hx] at hf
    cases hu : u.forms with
    | none => dsimp only; rw [hs.value]
    | some gs => rw [hu] at hf; cases hf
  | some fs =>
    rw [hx] at hf
    cases hu : u.forms with
    | none => rw [hu] at hf; cases hf
    | some gs =>
      rw [hu] at hf
      cases hf with
      | nil => rfl
      | cons a _ => dsimp only; rw [a.normalized]

/-- Equal tokens need not be inflected alike: the record of the analyzer behind a form is not compared. -/
theorem equal_tokens_inflected_otherwise : ∃ (inflect : Form → List Str → Option Str) (t u : Token) (a b : Token),
    tokenEq t u = true ∧ inflectToken id inflect [] t = .ok a ∧ inflectToken id inflect [] u = .ok b ∧
      a.value ≠ b.value := by
  refine ⟨fun f _ => some (if f.raw = 0 then "a".toList else "b".toList),
    { value := "x".toList, span := (0, 1), type := ruType, forms := some [⟨"x".toList, [], 0⟩] },
    { value := "x".toList, span := (0, 1), type := ruType, forms := some [⟨"x".toList, [], 1⟩] }, _, _,
    by decide, rfl, rfl, by decide⟩

/-! ### Matches -/

theorem tokensEq_iff : ∀ (ts us : List Token), tokensEq ts us = true ↔
    ts.length = us.length ∧ ∀ (i : Nat) t u, ts[i]? = some t → us[i]? = some u → tokenEq t u = true
  | [], [] => ⟨fun _ => ⟨rfl, fun i t u h => by simp at h⟩, fun _ => rfl⟩
  | [], u :: us => ⟨(fun h => nomatch h), (fun h => nomatch h.1)⟩
  | t :: ts, [] => ⟨(fun h => nomatch h), (fun h => nomatch h.1)⟩
  | t :: ts, u :: us => by
    unfold tokensEq
    rw [Bool.and_eq_true, tokensEq_iff ts us]
    constructor
    · rintro ⟨h1, h2, h3⟩
      refine ⟨by simp [h2], fun i a b ha hb => ?_⟩
      cases i with
      | zero => cases ha; cases hb; exact h1
      | succ i => exact h3 i a b ha hb
    · rintro ⟨h1, h2⟩
      exact ⟨h2 0 t u rfl rfl, by simpa using h1, fun i a b ha hb => h2 (i + 1) a b ha hb⟩

/-- C73: matches are equal exactly if they have equal tokens, one by one, and the same span. Trees, rules and facts
are not compared. -/
theorem matches_compare {P : Type} (m n : Match P) : matchEq m n = true ↔
    (m.tokens.length = n.tokens.length ∧
      ∀ (i : Nat) t u, m.tokens[i]? = some t → n.tokens[i]? = some u → SameToken t u) ∧ m.span = n.span := by
  unfold matchEq
  rw [Bool.and_eq_true, tokensEq_iff, (spans_compare _ _ _).1]
  simp only [Item.span.injEq, reduceCtorEq, or_false, tokens_compare]
  exact and_congr_right (fun _ => ⟨fun h => Prod.ext h.1.symm h.2.symm, fun h => by rw [h]; exact ⟨rfl, rfl⟩⟩)

section
variable {L : Lang} {setOrder : List Str → List Str} {relation : Nat → Relation} {pid : Nat → Nat} {limit root : Nat}
  {h h' : Heap Pred} {H : Type} [DecidableEq H] {hash : Key → H} {r : Reader} {p : TextParser}

/-- C73: with the default tokenizer rules no two matches of `findall` are equal. -/
theorem findall_matches_differ {C : Classes} (ht : Tokenizer.new (defaultRules C) = .ok r.tokenizer) (hr : Answers r)
    (hrun : Run L setOrder [] h) (hroot : RuleAt h root) (hp : ∀ a b, pid a = pid b → a = b) (hs : SetOrder setOrder)
    (hb : newParser L setOrder r relation pid limit root h = .ok (p, h')) {text : Str} {fuel : Nat}
    {ms : List (Match Pred)} {σ : Store} (hx : p.findall hash text fuel = some (.ok (ms, σ))) :
    ms.Pairwise (fun m n => matchEq m n = false) := by
  obtain ⟨h1, h2⟩ := findall_pieces ht hr hrun hroot hp hs hb hx
  refine List.Pairwise.imp_of_mem (fun {m n} hm hn hmn => ?_) h2
  rw [← Bool.not_eq_true, matches_compare]
  rintro ⟨_, e⟩
  have g := (h1 m hm).inside.1
  rw [← e] at hmn
  omega

end

/-! ### Hashes -/

section
variable {H : Type} (hstr : Str → H) (hnum : Nat → H) (hset : List Str → H) (htuple : List H → H)

/-- C74: `hash` raises `TypeError` for every span, token and match. -/
theorem places_unhashable {P : Type} (s : Nat × Nat) (t : Token) (m : Match P) :
    (spanVal s).hash hstr hnum hset htuple = .error .typeError ∧
      (tokenVal t).hash hstr hnum hset htuple = .error .typeError ∧
      (matchVal m).hash hstr hnum hset htuple = .error .typeError := by
  have hs : ∀ s, (spanVal s).hash hstr hnum hset htuple = .error .typeError := by
    intro s
    unfold spanVal Val.hash
    rfl
  refine ⟨hs s, ?_, ?_⟩
  · have key : ∀ c v s rest, (Val.record c (.str v :: spanVal s :: rest)).hash hstr hnum hset htuple =
        .error .typeError := by
      intro c v s rest
      unfold Val.hash hashAll hashAll
      rw [hs]
      cases c.hashable <;> rfl
    obtain ⟨v, s, y, g, f⟩ := t
    cases g <;> cases f <;> exact key _ _ _ _
  · unfold matchVal Val.hash hashAll Val.hash
    rfl

/-- C74: forms have hashes, and equal forms have the same. -/
theorem forms_hashable (f g : Form) : ∃ x, (formVal f).hash hstr hnum hset htuple = .ok x ∧
    (f.same g = true → (formVal g).hash hstr hnum hset htuple = .ok x) := by
  have key : ∀ f, (formVal f).hash hstr hnum hset htuple =
      .ok (htuple [hstr f.normalized, htuple [hset f.grams]]) := by
    intro f
    simp only [formVal, Val.hash, hashAll]
    rfl
  refine ⟨_, key f, fun h => ?_⟩
  rw [key, ((same_iff f g).1 h).normalized, ((same_iff f g).1 h).grams]

end

/-! ### Examples -/

/-- A token with two forms, and its equal from another analysis. -/
def steelToken (raw : Nat) : Token :=
  { value := "стали".toList, span := (3, 8), type := ruType,
    forms := some [⟨"сталь".toList, ["NOUN".toList], raw⟩, ⟨"стать".toList, ["VERB".toList], raw + 1⟩] }

example : tokenEq (steelToken 0) (steelToken 5) = true ∧ steelToken 0 ≠ steelToken 5 ∧
    tokenEq (steelToken 0) { steelToken 0 with tag := some "B".toList } = false ∧
    tokenEq (steelToken 0) { steelToken 0 with span := (4, 9) } = false ∧
    tokenEq (steelToken 0) { steelToken 0 with forms := none } = false := by decide

example : (Item.span 3 8).eq (.tuple [3, 8]) = true ∧ (Item.tuple [3, 8]).eq (.span 3 8) = true ∧
    (Item.span 3 8).eq (.tuple [3, 8, 0]) = false ∧ spanLt (3, 8) (3, 9) = true := by decide

/-- `findall_matches_differ` is about lists with more than one match. -/
example : Tokenizer.new (defaultRules sampleClasses) = .ok sampleReader.tokenizer ∧ Answers sampleReader ∧
    Fresh sampleLang sampleOrder catSource ∧ RuleAt catSource 0 ∧
    reportedSpans sampleReader catSource 0 "рыжий  коты, x".toList =
      some [[(0, 11), (13, 14)], [(0, 11), (13, 14)], []] :=
  ⟨sampleReader_new, sampleReader_answers, catSource_fresh, ⟨_, rfl, rfl⟩, catText_spans⟩

/-- The number of the alternative at the root. -/
def rootRank {P T : Type} : PTree P T → Nat
  | .leaf _ _ _ => 0
  | .node _ _ _ r _ => r

/-- `rule(true()) | rule(eq('x'))`. -/
def twofoldSource : Heap Pred := [.prod [.pred .true] 0, .prod [.pred (.eq "x".toList)] 0, .rule [0, 1]]

/-- The word of the text `x`. -/
def xToken : Token := { value := "x".toList, span := (0, 1), type := "LATIN".toList }

/-- The matches of `extract` in the text `x`: alternative, and whether equal to the first. -/
def twofoldFound : Option (List (Nat × Bool)) :=
  match buildParser sampleLang sampleOrder sampleReader.context sampleReader.split (fun _ => .gender) id 60 2
      twofoldSource with
  | .error _ => none
  | .ok (b, _) =>
    match extract b.grammar b.agreement (id : Key → Key) [xToken] true 2000 with
    | some (m :: ms, _, none) => some ((m :: ms).map (fun n => (rootRank n.tree.root, matchEq m n)))
    | _ => none

/-- Matches of `extract` may be equal though they come from different alternatives. -/
theorem equal_matches_other_alternatives : twofoldFound = some [(0, true), (1, true)] := by decide +kernel

end Yargy.Compare
