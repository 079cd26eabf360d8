import Verif.Proofs.Predicate
import Verif.Properties.Findall
/-!
C33 predicates, C34 activation (of predicates), C28 narrowing.
-/
namespace Yargy
open Spec

/-- A sample of Python's string functions and one user function. -/
def sampleLang : Lang where
  lower s := s.map Char.toLower
  isLower s := s.all Char.isLower
  isUpper s := s.all Char.isUpper
  isTitle s := match s with
    | [] => false
    | c :: cs => c.isUpper && cs.all Char.isLower
  parseInt s := if s.all Char.isDigit then
    some (s.foldl (fun n c => 10 * n + ((c.toNat - 48 : Nat) : Int)) 0) else none
  fn _ s := .ok (s.length == 2)

/-- A sample analyzer: knows the grammemes NOUN and sing; words are their own normal forms. -/
def sampleMorph : Morph where
  known g := g == "NOUN".toList || g == "sing".toList
  normalized w := [w]

def sampleContext : Context where
  types := ["INT".toList, "RU".toList]
  morph := some sampleMorph
  hasTag := fun _ => false

/-- A noun with a singular and a plural form. -/
def sampleNoun : Token where
  value := "cat".toList
  span := (0, 3)
  type := "RU".toList
  forms := some [⟨"cat".toList, ["NOUN".toList, "sing".toList], 0⟩,
    ⟨"cat".toList, ["NOUN".toList, "plur".toList], 1⟩]

def sampleInt : Token := { value := "12".toList, span := (0, 2), type := intType }

/-! ### C33 -/

/-- C33: an activated predicate answers according to its documented meaning, whatever the nesting
of `and_`, `or_` and `not_` (see `Means`), unless it raises. -/
theorem predicate_means (L : Lang) (c : Context) (t : Token) (p q : Pred) (b : Bool)
    (ha : p.activate c = .ok q) (hc : q.call L t = .ok b) : b = true ↔ Means L c t p :=
  call_means L c t p q b ha hc

example : ∃ q, (Pred.and_ [.gram "NOUN".toList, .not_ (.or_ [.type "INT".toList, .gte 5])]).activate
      sampleContext = .ok q ∧ q.call sampleLang sampleNoun = .ok true := by
  refine ⟨.and_ [.gramP "NOUN".toList, .not_ (.or_ [.typeP "INT".toList, .gte 5])], rfl, ?_⟩
  simp [Pred.call, callAnd, callOr, morphRequired, intRequired, intType, sampleNoun, Except.map]

/-- C33: an activated conjunction accepts a token iff all of its parts do. -/
theorem and_means (L : Lang) (c : Context) (t : Token) (ps : List Pred) (q : Pred) (b : Bool)
    (ha : (Pred.and_ ps).activate c = .ok q) (hc : q.call L t = .ok b) :
    b = true ↔ ∀ p ∈ ps, Means L c t p := by
  rw [predicate_means L c t _ q b ha hc]
  simp only [Means]
  exact meansAll_iff L c t ps

/-- C33: an activated disjunction accepts a token iff one of its parts does. -/
theorem or_means (L : Lang) (c : Context) (t : Token) (ps : List Pred) (q : Pred) (b : Bool)
    (ha : (Pred.or_ ps).activate c = .ok q) (hc : q.call L t = .ok b) :
    b = true ↔ ∃ p ∈ ps, Means L c t p := by
  rw [predicate_means L c t _ q b ha hc]
  simp only [Means]
  exact meansAny_iff L c t ps

/-- C33: an activated negation accepts a token iff its part does not. -/
theorem not_means (L : Lang) (c : Context) (t : Token) (p q : Pred) (b : Bool)
    (ha : (Pred.not_ p).activate c = .ok q) (hc : q.call L t = .ok b) :
    b = true ↔ ¬ Means L c t p := by
  rw [predicate_means L c t _ q b ha hc]
  simp only [Means]

/-- Nothing a predicate does on the token can raise: the text is not empty, numbers can be read,
user functions answer. -/
structure Quiet (L : Lang) (t : Token) : Prop where
  text : t.value ≠ []
  int : t.type = intType → ∃ v, L.parseInt t.value = some v
  fn : ∀ f, ∃ b, L.fn f t.value = .ok b

mutual
theorem call_total_aux (L : Lang) (t : Token) (hq : Quiet L t) : ∀ (p : Pred),
    (∀ r, PredPart r p → ¬ Scheme r) → ∃ b, p.call L t = .ok b
  | .and_ ps, h => by
    simp only [Pred.call]
    exact callAnd_total L t hq ps (fun p hp r hr => h r (.and_ hp hr))
  | .or_ ps, h => by
    simp only [Pred.call]
    exact callOr_total L t hq ps (fun p hp r hr => h r (.or_ hp hr))
  | .not_ p, h => by
    obtain ⟨b, hb⟩ := call_total_aux L t hq p (fun r hr => h r (.not_ hr))
    exact ⟨!b, by simp only [Pred.call, hb]; rfl⟩
  | .normalized _, h => absurd trivial (h _ .refl)
  | .dictionary _, h => absurd trivial (h _ .refl)
  | .gram _, h => absurd trivial (h _ .refl)
  | .type _, h => absurd trivial (h _ .refl)
  | .tag _, h => absurd trivial (h _ .refl)
  | .custom _ _, h => absurd trivial (h _ .refl)
  | .true, _ => ⟨_, rfl⟩
  | .isLower, _ => ⟨_, rfl⟩
  | .isUpper, _ => ⟨_, rfl⟩
  | .isTitle, _ => ⟨_, rfl⟩
  | .isCapitalized, _ => by
    simp only [Pred.call]
    split
    · exact absurd ‹_› hq.text
    · exact ⟨_, rfl⟩
  | .eq _, _ => ⟨_, rfl⟩
  | .lengthEq _, _ => ⟨_, rfl⟩
  | .gte n, _ => by
    simp only [Pred.call, intRequired]
    split
    · rename_i ht
      obtain ⟨v, hv⟩ := hq.int ht
      rw [hv]; exact ⟨_, rfl⟩
    · exact ⟨_, rfl⟩
  | .lte n, _ => by
    simp only [Pred.call, intRequired]
    split
    · rename_i ht
      obtain ⟨v, hv⟩ := hq.int ht
      rw [hv]; exact ⟨_, rfl⟩
    · exact ⟨_, rfl⟩
  | .caseless _, _ => ⟨_, rfl⟩
  | .in_ _, _ => ⟨_, rfl⟩
  | .inCaseless _, _ => ⟨_, rfl⟩
  | .dict _, _ => by simp only [Pred.call]; split <;> exact ⟨_, rfl⟩
  | .gramP _, _ => by simp only [Pred.call, morphRequired]; split <;> exact ⟨_, rfl⟩
  | .typeP _, _ => ⟨_, rfl⟩
  | .tagP _, _ => by simp only [Pred.call]; split <;> exact ⟨_, rfl⟩
  | .isSingle, _ => by simp only [Pred.call, morphRequired]; split <;> exact ⟨_, rfl⟩
  | .customP f _, _ => by
    simp only [Pred.call]
    split
    · exact ⟨_, rfl⟩
    · exact hq.fn f
theorem callAnd_total (L : Lang) (t : Token) (hq : Quiet L t) : ∀ (ps : List Pred),
    (∀ p ∈ ps, ∀ r, PredPart r p → ¬ Scheme r) → ∃ b, callAnd L t ps = .ok b
  | [], _ => ⟨_, rfl⟩
  | p :: ps, h => by
    obtain ⟨b, hb⟩ := call_total_aux L t hq p (h p (List.mem_cons_self ..))
    simp only [callAnd, hb]
    cases b with
    | false => exact ⟨_, rfl⟩
    | true => exact callAnd_total L t hq ps (fun p hp => h p (List.mem_cons_of_mem _ hp))
theorem callOr_total (L : Lang) (t : Token) (hq : Quiet L t) : ∀ (ps : List Pred),
    (∀ p ∈ ps, ∀ r, PredPart r p → ¬ Scheme r) → ∃ b, callOr L t ps = .ok b
  | [], _ => ⟨_, rfl⟩
  | p :: ps, h => by
    obtain ⟨b, hb⟩ := call_total_aux L t hq p (h p (List.mem_cons_self ..))
    simp only [callOr, hb]
    cases b with
    | true => exact ⟨_, rfl⟩
    | false => exact callOr_total L t hq ps (fun p hp => h p (List.mem_cons_of_mem _ hp))
end

/-- C33: an activated predicate answers on every token with a readable text. -/
theorem predicate_answers (L : Lang) (c : Context) (t : Token) (hq : Quiet L t) (p q : Pred)
    (ha : p.activate c = .ok q) : ∃ b, q.call L t = .ok b :=
  call_total_aux L t hq q (activate_runnable c p q ha)

example : Quiet sampleLang sampleInt ∧ ∃ q, (Pred.custom 0 ["INT".toList]).activate sampleContext = .ok q := by
  refine ⟨⟨by decide, fun _ => ⟨12, ?_⟩, fun _ => ⟨_, rfl⟩⟩, _, rfl⟩
  decide +kernel

/-- C33: in a chart, a predicate accepts exactly the tokens its meaning covers. -/
theorem accepts_means (L : Lang) (c : Context) (t : Token) (hq : Quiet L t) (p q : Pred)
    (ha : p.activate c = .ok q) : q.accepts L t = true ↔ Means L c t p := by
  obtain ⟨b, hb⟩ := predicate_answers L c t hq p q ha
  rw [← predicate_means L c t p q b ha hb]
  simp [Pred.accepts, hb]

/-- C33: `caseless(v)` compares without regard to case, however `v` is written. -/
theorem caseless_means (L : Lang) (c : Context) (t : Token) (v : Str) :
    ∃ q, (mkCaseless L v).activate c = .ok q ∧ (q.accepts L t = true ↔ L.lower t.value = L.lower v) := by
  refine ⟨_, rfl, ?_⟩
  simp [mkCaseless, Pred.accepts, Pred.call]

/-- C33: `in_caseless(vs)` likewise. -/
theorem in_caseless_means (L : Lang) (c : Context) (t : Token) (vs : List Str) :
    ∃ q, (mkInCaseless L vs).activate c = .ok q ∧
      (q.accepts L t = true ↔ ∃ v ∈ vs, L.lower t.value = L.lower v) := by
  refine ⟨_, rfl, ?_⟩
  simp [mkInCaseless, Pred.accepts, Pred.call, eq_comm]

example : (mkCaseless sampleLang "CAT".toList).accepts sampleLang sampleNoun = true ∧
    (mkInCaseless sampleLang ["Dog".toList, "cAt".toList]).accepts sampleLang sampleNoun = true ∧
    (mkInCaseless sampleLang ["Dog".toList]).accepts sampleLang sampleNoun = false := by
  decide +kernel

/-- C33: comparisons are false on tokens that are not numbers. -/
theorem compare_not_int (L : Lang) (t : Token) (n : Int) (h : t.type ≠ intType) :
    (Pred.gte n).call L t = .ok false ∧ (Pred.lte n).call L t = .ok false := by
  simp [Pred.call, intRequired, h]

example : sampleNoun.type ≠ intType := by decide

/-- C33: grammeme predicates are false on tokens without forms. -/
theorem gram_no_forms (L : Lang) (t : Token) (g : Str) (h : t.forms = none) :
    (Pred.gramP g).call L t = .ok false ∧ Pred.isSingle.call L t = .ok false := by
  simp [Pred.call, morphRequired, h]

example : sampleInt.forms = none := rfl

/-- C33: a token accepted by `gram(g)` keeps, in order, exactly its forms with `g`, at least one. -/
theorem gram_keeps (L : Lang) (t : Token) (g : Str) (h : (Pred.gramP g).call L t = .ok true) :
    ∃ fs fs', t.forms = some fs ∧ (Pred.gramP g).constrain t = .ok { t with forms := some fs' } ∧
      fs' ≠ [] ∧ fs'.Sublist fs ∧ ∀ f, f ∈ fs' ↔ f ∈ fs ∧ g ∈ f.grams := by
  obtain ⟨t', h1, h2⟩ := constrain_narrows L _ t h
  simp only [Pred.call, morphRequired] at h
  split at h
  · cases h
  · rename_i fs hf
    refine ⟨fs, fs.filter (fun f => f.grams.contains g), hf, by simp [Pred.constrain, hf, Token.constrained],
      ?_, List.filter_sublist, ?_⟩
    · intro hn
      injection h with h
      obtain ⟨f, hf, hg⟩ := List.any_eq_true.1 h
      have : f ∈ fs.filter (fun f => f.grams.contains g) := List.mem_filter.2 ⟨hf, hg⟩
      rw [hn] at this; cases this
    · intro f; simp [List.mem_filter]

/-- C33: a token accepted by `is_single()` keeps, in order, exactly its singular forms, at least
one. -/
theorem single_keeps (L : Lang) (t : Token) (h : Pred.isSingle.call L t = .ok true) :
    ∃ fs fs', t.forms = some fs ∧ Pred.isSingle.constrain t = .ok { t with forms := some fs' } ∧
      fs' ≠ [] ∧ fs'.Sublist fs ∧
      ∀ f, f ∈ fs' ↔ f ∈ fs ∧ ("sing".toList ∈ f.grams ∨ "Sgtm".toList ∈ f.grams) := by
  simp only [Pred.call, morphRequired] at h
  split at h
  · cases h
  · rename_i fs hf
    refine ⟨fs, fs.filter Form.isSingle, hf, by simp [Pred.constrain, hf, Token.constrained],
      ?_, List.filter_sublist, ?_⟩
    · intro hn
      injection h with h
      obtain ⟨f, hf, hg⟩ := List.any_eq_true.1 h
      have : f ∈ fs.filter Form.isSingle := List.mem_filter.2 ⟨hf, hg⟩
      rw [hn] at this; cases this
    · intro f; simp [List.mem_filter, Form.isSingle]

example : (Pred.gramP "sing".toList).call sampleLang sampleNoun = .ok true ∧
    Pred.isSingle.call sampleLang sampleNoun = .ok true := by
  constructor <;> rfl

/-! ### C34 -/

/-- C34 (partial): activating a predicate succeeds iff every scheme anywhere inside it refers to
known grammemes and token types. Missing: tags, which are never rejected (`tag_not_checked`). -/
theorem activate_iff_known_partial (c : Context) (p : Pred) :
    (∃ q, p.activate c = .ok q) ↔ ∀ q, PredPart q p → Known c q := activate_iff c p

/-- C34: after activation no scheme is left. -/
theorem activated_runnable (c : Context) (p q : Pred) (h : p.activate c = .ok q) :
    ∀ r, PredPart r q → ¬ Scheme r := activate_runnable c p q h

example : Known sampleContext (.gram "NOUN".toList) ∧ ¬ Known sampleContext (.gram "XXX".toList) ∧
    ¬ Known sampleContext (.type "ZZZ".toList) := by
  refine ⟨⟨sampleMorph, rfl, rfl⟩, ?_, ?_⟩
  · rintro ⟨m, hm, hk⟩
    cases hm
    exact absurd hk (by decide)
  · show ¬ "ZZZ".toList ∈ sampleContext.types
    decide

/-- C34 is false for tags: a tag the tagger does not know is accepted, although `tag` asks. -/
theorem tag_not_checked : ∃ (c : Context) (v : Str), c.hasTag v = false ∧
    (Pred.tag v).activate c = .ok (.tagP v) :=
  ⟨sampleContext, "GEO".toList, rfl, rfl⟩

/-! ### C28 -/

theorem pred_narrows (L : Lang) (rules : List (ChartRule Pred Token)) (start : Nat) :
    ConstrainNarrows (predGrammar L rules start) := by
  intro p t h
  have h' : p.accepts L t = true := h
  show Narrowed t (p.narrow t)
  have hc : p.call L t = .ok true := by
    unfold Pred.accepts at h'
    split at h'
    · rename_i b hb; rw [hb, h']
    · cases h'
  obtain ⟨t', h1, h2⟩ := constrain_narrows L p t hc
  simp only [Pred.narrow, h1]
  exact h2

section
variable {H : Type} [DecidableEq H] {L : Lang} {rules : List (ChartRule Pred Token)} {start : Nat}
  {A : Agreement} {hash : Key → H} {toks : List Token}

/-- The tokens of the match are those of the text at its range, in order, with the same text, span,
type and tag, and with a non-empty part of their forms. -/
def KeepsTokens (toks : List Token) {P : Type} (m : Match P) : Prop :=
  m.tokens.length = m.tree.range.2 - m.tree.range.1 ∧
  ∀ (k : Nat) (t' : Token), m.tokens[k]? = some t' → ∃ t, toks[m.tree.range.1 + k]? = some t ∧
    t'.value = t.value ∧ t'.span = t.span ∧ t'.type = t.type ∧ t'.tag = t.tag ∧
    (t.forms = none → t'.forms = none) ∧
    (∀ fs, t.forms = some fs → ∃ fs', t'.forms = some fs' ∧ (∀ f ∈ fs', f ∈ fs) ∧ (fs ≠ [] → fs' ≠ []))

theorem MatchOK.keeps {P : Type} {G : Grammar P Token} {σ : Store} {m : Match P}
    (h : MatchOK G toks σ m) : KeepsTokens toks m := by
  refine ⟨h.length, ?_⟩
  intro k t' hk
  have hlt : k < m.tokens.length := by
    rcases Nat.lt_or_ge k m.tokens.length with h | h
    · exact h
    · rw [List.getElem?_eq_none h] at hk; cases hk
  obtain ⟨t, t'', h1, h2, h3⟩ := h.tokens k (by rw [h.length] at hlt; exact hlt)
  rw [hk] at h2; cases h2
  exact ⟨t, h1, h3.value, h3.span, h3.type, h3.tag, h3.plain, h3.morph⟩

/-- C28: for grammars over the library's predicates, the tokens of every match reported by
`findall` are the tokens of the text with nothing changed but their forms, of which a non-empty part
is kept. -/
theorem findall_keeps_tokens (hG : PredictSound (predGrammar L rules start))
    (hL : PredictLossless (predGrammar L rules start)) {fuel : Nat} {ms : List (Match Pred)} {σ : Store}
    (h : findall (predGrammar L rules start) A hash toks fuel = some (.ok (ms, σ))) :
    ∀ m ∈ ms, KeepsTokens toks m :=
  fun m hm => (findall_matches hG hL (pred_narrows L rules start) h m hm).keeps

/-- C28 for `match`. -/
theorem match_keeps_tokens (hG : PredictSound (predGrammar L rules start))
    (hL : PredictLossless (predGrammar L rules start)) {fuel : Nat} {m : Match Pred} {σ : Store}
    (h : matchText (predGrammar L rules start) A hash toks fuel = some (.ok (some m, σ))) :
    KeepsTokens toks m :=
  (match_matches hG hL (pred_narrows L rules start) h).keeps

/-- C28 for `extract`. -/
theorem extract_keeps_tokens {all : Bool} (hG : PredictSound (predGrammar L rules start))
    {fuel : Nat} {ms : List (Match Pred)} {σ : Store} {e : Option Err}
    (h : extract (predGrammar L rules start) A hash toks all fuel = some (ms, σ, e)) :
    ∀ m ∈ ms, KeepsTokens toks m :=
  fun m hm => (extract_matches hG (pred_narrows L rules start) h m hm).keeps

end

/-- A grammar with one rule: a word in the singular. -/
def singleRule : ChartRule Pred Token where
  productions := [⟨0, [.pred (.gramP "sing".toList)], 0, none⟩]
  predict := fun _ => [⟨0, [.pred (.gramP "sing".toList)], 0, none⟩]

def singleGrammar : Grammar Pred Token := predGrammar sampleLang [singleRule] 0

theorem single_predict (r : Nat) (t : Token) :
    singleGrammar.predict r t = singleGrammar.productions r := by
  cases r with
  | zero => rfl
  | succ n => rfl

example : PredictSound singleGrammar ∧ PredictLossless singleGrammar ∧
    ∃ ms σ, findall singleGrammar noAgreement (id : Key → Key) [sampleInt, sampleNoun] 200
        = some (.ok (ms, σ)) ∧
      ms.map (fun m => m.tokens.map (fun t => t.forms.map List.length)) = [[some 1]] := by
  refine ⟨?_, ?_, ?_⟩
  · intro r t p hp; rw [single_predict] at hp; exact hp
  · intro r t prod h _; rwa [single_predict]
  · have h : (findall singleGrammar noAgreement (id : Key → Key) [sampleInt, sampleNoun] 200).map
        (fun r => match r with
          | .ok (ms, _) => decide (ms.map (fun m => m.tokens.map (fun t => t.forms.map List.length))
              = [[some 1]])
          | .error _ => false) = some true := by decide +kernel
    obtain ⟨r, h1, h2⟩ := Option.map_eq_some_iff.1 h
    cases r with
    | error e => cases h2
    | ok x => exact ⟨x.1, x.2, h1, of_decide_eq_true h2⟩

end Yargy
