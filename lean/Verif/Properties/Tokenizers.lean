import Verif.Proofs.Tokenizer
/-! Properties of tokenizers, taggers and of joining tokens (C29–C32, C43). -/
namespace Yargy
open Spec

/-- Classes for the examples. -/
def sampleClasses : Classes where
  space c := " \t\n\r".toList.contains c
  digit := asciiDigit
  russian c := decide (1040 ≤ c.toNat ∧ c.toNat < 1104)
  latin c := decide (97 ≤ c.toNat ∧ c.toNat < 123)

def sampleText : Str := "Илья  42,x\n\n№".toList

/-! ### C29 -/

/-- The default tokenizer always answers; its tokens cover the text and are maximal runs of
letters, digits and line breaks, or single characters. -/
theorem default_tokens_cover (C : Classes) {t : Tokenizer}
    (ht : Tokenizer.new (defaultRules C) = .ok t) (text : Str) :
    ∃ ts, t.call text = .ok ts ∧ Covers C.space text ts ∧
      ∀ x ∈ ts, DefaultToken C x.type x.value text[x.span.2]? := by
  have hc : t.compiled = defaultRules C := by
    unfold Tokenizer.new at ht
    split at ht
    · next c ts hcomp =>
      unfold compileRules at hcomp
      split at hcomp
      · cases hcomp
        cases ht
        rfl
      · cases hcomp
    · cases ht
  obtain ⟨fs, h1, h2⟩ := call_cut (t := t) (by rw [hc]; exact fun h => by cases h)
    (by rw [hc]; exact default_inside C) text
  rw [hc] at h2
  have hall := cut_all (default_inside C) h2
  refine ⟨_, h1, ⟨?_, ?_, ?_, ?_⟩, ?_⟩
  · intro x hx
    obtain ⟨f, hf, rfl⟩ := List.mem_map.1 hx
    obtain ⟨_, h4, a, h5⟩ := hall.1 f hf
    obtain ⟨pre, r, post, h6, _, h8, _, _⟩ := chooses_plain (default_nonempty C) h5
    have h0 : f.len ≠ 0 := default_nonempty C r (by rw [h6]; simp) text f.start f.len
      (List.mem_of_mem_head? h8)
    simp only [Found.token]
    omega
  · intro x hx
    obtain ⟨f, hf, rfl⟩ := List.mem_map.1 hx
    simp only [Found.token]
    rw [List.drop_take]
    congr 1
    omega
  · rw [List.pairwise_map]
    exact hall.2.imp (fun h => h)
  · intro i c hi hout
    have hlt : i < text.length := (List.getElem?_eq_some_iff.1 hi).1
    have hr := cut_rest h2 i (Nat.zero_le _) (by omega) (fun f hf =>
      hout (f.token text) (List.mem_map.2 ⟨f, hf, rfl⟩))
    have hnil : ∀ r ∈ defaultRules C, r.ends text i = [] := fun r hrm =>
      List.eq_nil_iff_forall_not_mem.2 (fun j hj =>
        default_nonempty C r hrm _ _ j hj (hr r hrm j hj))
    have hhead : (text.drop i).head? = some c := by rw [List.head?_drop, hi]
    have e1 := cls_ends_nil (hnil _ (by simp [defaultRules] :
      (Re.cls (fun c => !C.space c)).rule 5 otherType ∈ defaultRules C)) c hhead
    have e2 := plus_ends_nil (hnil _ (by simp [defaultRules] :
      (Re.plus (fun c => c == '\n' || c == '\r')).rule 4 eolType ∈ defaultRules C)) c hhead
    simp at e1 e2
    exact ⟨e1, e2.1, e2.2⟩
  · intro x hx
    obtain ⟨f, hf, rfl⟩ := List.mem_map.1 hx
    obtain ⟨_, _, a, h5⟩ := hall.1 f hf
    obtain ⟨pre, r, post, h6, h7, h8, h9, _⟩ := chooses_plain (default_nonempty C) h5
    have hafter : text[(f.token text).span.2]? = ((text.drop f.start).drop f.len).head? := by
      rw [List.drop_drop, List.head?_drop]
      rfl
    rw [hafter]
    show DefaultToken C f.type ((text.drop f.start).take f.len) _
    rw [h9]
    have hr : ∀ q ∈ pre, q.ends text f.start = [] := h7
    unfold DefaultToken
    rcases pre with _ | ⟨q0, pre⟩
    · have e := (List.cons.inj h6).1
      subst e
      exact .inl ⟨rfl, plus_run h8⟩
    obtain ⟨e0, h6⟩ := List.cons.inj h6
    rcases pre with _ | ⟨q1, pre⟩
    · have e := (List.cons.inj h6).1
      subst e
      exact .inr (.inl ⟨rfl, plus_run h8⟩)
    obtain ⟨e1, h6⟩ := List.cons.inj h6
    rcases pre with _ | ⟨q2, pre⟩
    · have e := (List.cons.inj h6).1
      subst e
      exact .inr (.inr (.inl ⟨rfl, plus_run h8⟩))
    obtain ⟨e2, h6⟩ := List.cons.inj h6
    rcases pre with _ | ⟨q3, pre⟩
    · have e := (List.cons.inj h6).1
      subst e
      obtain ⟨c, _, h10, _, h12⟩ := cls_one h8
      exact .inr (.inr (.inr (.inr (.inl ⟨rfl, c, h12, by simpa using h10⟩))))
    obtain ⟨e3, h6⟩ := List.cons.inj h6
    rcases pre with _ | ⟨q4, pre⟩
    · have e := (List.cons.inj h6).1
      subst e
      exact .inr (.inr (.inr (.inl ⟨rfl, plus_run h8⟩)))
    obtain ⟨e4, h6⟩ := List.cons.inj h6
    rcases pre with _ | ⟨q5, pre⟩
    · have e := (List.cons.inj h6).1
      subst e
      obtain ⟨c, h11, h10, _, h12⟩ := cls_one h8
      have g0 := plus_ends_nil (e0 ▸ hr q0 (by simp)) c h11
      have g1 := plus_ends_nil (e1 ▸ hr q1 (by simp)) c h11
      have g2 := plus_ends_nil (e2 ▸ hr q2 (by simp)) c h11
      have g3 := cls_ends_nil (e3 ▸ hr q3 (by simp)) c h11
      refine .inr (.inr (.inr (.inr (.inr ⟨rfl, c, h12, by simpa using h10, ?_, g0, g1, g2⟩))))
      simpa using g3
    obtain ⟨_, h6⟩ := List.cons.inj h6
    cases pre <;> cases h6

/-- White space never gets into a token, except line breaks. -/
theorem default_tokens_no_space {C : Classes} (hC : SaneClasses C) {t : Tokenizer}
    (ht : Tokenizer.new (defaultRules C) = .ok t) {text : Str} {ts} (h : t.call text = .ok ts) :
    ∀ x ∈ ts, ∀ c ∈ x.value, C.space c = true → x.type = "EOL".toList ∧ (c = '\n' ∨ c = '\r') := by
  obtain ⟨ts', h1, _, h3⟩ := default_tokens_cover C ht text
  rw [h] at h1
  cases h1
  intro x hx c hc hs
  rcases h3 x hx with ⟨_, h4⟩ | ⟨_, h4⟩ | ⟨_, h4⟩ | ⟨h5, h4⟩ | ⟨_, d, h4, h5⟩ | ⟨_, d, h4, h5, _⟩
  · exact absurd hs (by rw [hC.russian c (h4.2.1 c hc)]; simp)
  · exact absurd hs (by rw [hC.latin c (h4.2.1 c hc)]; simp)
  · exact absurd hs (by rw [hC.digit c (h4.2.1 c hc)]; simp)
  · exact ⟨h5, by simpa using h4.2.1 c hc⟩
  · rw [h4] at hc
    have e : c = d := by simpa using hc
    subst e
    exact absurd hs (by rw [hC.punct c h5]; simp)
  · rw [h4] at hc
    have e : c = d := by simpa using hc
    subst e
    exact absurd hs (by rw [h5]; simp)

/-- The default tokenizer exists and cuts the sample text into seven tokens. -/
example : ∃ t, Tokenizer.new (defaultRules sampleClasses) = .ok t ∧
    (t.call sampleText).toOption.map (fun ts => ts.map (fun x => (x.type, x.value, x.span))) =
      some [("RU".toList, "Илья".toList, (0, 4)), ("INT".toList, "42".toList, (6, 8)),
        ("PUNCT".toList, ",".toList, (8, 9)), ("LATIN".toList, "x".toList, (9, 10)),
        ("EOL".toList, "\n\n".toList, (10, 12)), ("PUNCT".toList, "№".toList, (12, 13))] := by
  refine ⟨⟨_, _, _⟩, rfl, ?_⟩
  decide +kernel

/-! ### C30 -/

/-- The text is cut by the rules in force, by priority; there is only one way to do so. -/
theorem tokens_by_priority {t : Tokenizer} (hne : t.compiled ≠ [])
    (hin : ∀ r ∈ t.compiled, Inside r) (text : Str) :
    ∃ fs, Cut t.compiled text False 0 fs ∧ (∀ gs, Cut t.compiled text False 0 gs → gs = fs) ∧
      t.call text = .ok (fs.map (fun f =>
        { value := (text.take (f.start + f.len)).drop f.start
          span := (f.start, f.start + f.len), type := f.type })) := by
  obtain ⟨fs, h1, h2⟩ := call_cut hne hin text
  refine ⟨fs, h2, fun gs hg => cut_unique hg h2, ?_⟩
  rw [h1]
  congr 1
  refine List.map_congr_left (fun f _ => ?_)
  simp only [Found.token, Token.mk.injEq, and_true]
  rw [List.drop_take]
  congr 1
  omega

/-- When no rule matches the empty text, a token comes from the first rule matching at its start. -/
theorem token_first_rule {t : Tokenizer} (hne : t.compiled ≠ [])
    (hin : ∀ r ∈ t.compiled, Inside r) (hn : ∀ r ∈ t.compiled, NonEmpty r) {text ts}
    (h : t.call text = .ok ts) :
    ∀ x ∈ ts, ∃ pre r post, t.compiled = pre ++ r :: post ∧ x.type = r.type ∧
      (∀ q ∈ pre, q.ends text x.span.1 = []) ∧
      (r.ends text x.span.1).head? = some (x.span.2 - x.span.1) := by
  obtain ⟨fs, h1, h2⟩ := call_cut hne hin text
  rw [h] at h1
  cases h1
  intro x hx
  obtain ⟨f, hf, rfl⟩ := List.mem_map.1 hx
  obtain ⟨_, _, a, h5⟩ := (cut_all hin h2).1 f hf
  obtain ⟨pre, r, post, h6, h7, h8, h9, _⟩ := chooses_plain hn h5
  refine ⟨pre, r, post, h6, h9, h7, ?_⟩
  show (r.ends text f.start).head? = some (f.start + f.len - f.start)
  rw [h8]
  congr 1
  omega

/-- Without rules the tokenizer raises `KeyError`. -/
theorem no_rules_raises {t : Tokenizer} (h : t.compiled = []) (text : Str) :
    t.call text = .error .keyError := by
  unfold Tokenizer.call
  rw [h]
  rfl

/-- One successful operation. -/
def Tokenizer.applied (t : Tokenizer) : TokOp → Tokenizer × Except Err Unit
  | .add rules => t.addRules rules
  | .remove types => t.removeTypes types

/-- A history of operations none of which raises. -/
inductive History : Tokenizer → List TokOp → Tokenizer → Prop where
  | nil {t} : History t [] t
  | cons {t op ops t' t''} : t.applied op = (t', .ok ()) → History t' ops t'' →
      History t (op :: ops) t''

theorem compile_ok {rules c ts} (h : compileRules rules = .ok (c, ts)) :
    c = rules ∧ ts = rules.map (·.type) ∧ (rules.map (·.id)).Nodup := by
  unfold compileRules at h
  split at h
  · next hd =>
    cases h
    exact ⟨rfl, rfl, hd⟩
  · cases h

theorem reset_ok {t t' : Tokenizer} {rules} (h : t.reset rules = (t', .ok ())) :
    t' = ⟨rules, rules, rules.map (·.type)⟩ ∧ (rules.map (·.id)).Nodup := by
  unfold Tokenizer.reset at h
  split at h
  · next c ts hc =>
    obtain ⟨h1, h2, h3⟩ := compile_ok hc
    subst h1 h2
    exact ⟨(Prod.mk.inj h).1.symm, h3⟩
  · cases (Prod.mk.inj h).2

theorem new_ok {rules t} (h : Tokenizer.new rules = .ok t) :
    t = ⟨rules, rules, rules.map (·.type)⟩ ∧ (rules.map (·.id)).Nodup := by
  unfold Tokenizer.new at h
  split at h
  · next c ts hc =>
    obtain ⟨h1, h2, h3⟩ := compile_ok hc
    subst h1 h2
    cases h
    exact ⟨rfl, h3⟩
  · cases h

theorem forM_checkType {t : Tokenizer} : ∀ types : List Str,
    types.forM t.checkType = if ∀ ty ∈ types, ty ∈ t.types then .ok () else .error .valueError := by
  intro types
  induction types with
  | nil => simp; rfl
  | cons ty types ih =>
    show (t.checkType ty >>= fun _ => types.forM t.checkType) = _
    rw [ih]
    unfold Tokenizer.checkType
    by_cases h1 : ty ∈ t.types
    · rw [if_pos (by simpa using h1)]
      show (if _ then _ else _) = _
      simp [h1]
    · rw [if_neg (by simpa using h1)]
      show Except.error Err.valueError = _
      rw [if_neg (fun h => h1 (h ty List.mem_cons_self))]

/-- After any history of successful operations the tokenizer works with exactly the rules the
history leaves: added ones in front, removed types gone, the order of the others kept. -/
theorem rules_in_force {rules : List TokenRule} {t : Tokenizer} (ht : Tokenizer.new rules = .ok t)
    {ops t'} (h : History t ops t') :
    t'.compiled = rulesAfter rules ops ∧ t'.rules = rulesAfter rules ops ∧
      t'.types = (rulesAfter rules ops).map (·.type) := by
  have hgen : ∀ {t ops t'}, History t ops t' → ∀ rules : List TokenRule,
      t = ⟨rules, rules, rules.map (·.type)⟩ → t'.compiled = rulesAfter rules ops ∧
        t'.rules = rulesAfter rules ops ∧ t'.types = (rulesAfter rules ops).map (·.type) := by
    intro t ops t' h
    induction h with
    | nil => intro rules e; subst e; exact ⟨rfl, rfl, rfl⟩
    | @cons t op ops t' t'' h1 _ ih =>
      intro rules e
      subst e
      cases op with
      | add new =>
        obtain ⟨h2, _⟩ := reset_ok (t := ⟨rules, rules, rules.map (·.type)⟩)
          (rules := new ++ rules) h1
        exact ih _ h2
      | remove types =>
        have h1' : Tokenizer.removeTypes ⟨rules, rules, rules.map (·.type)⟩ types = (t', .ok ()) := h1
        unfold Tokenizer.removeTypes at h1'
        split at h1'
        · obtain ⟨h2, _⟩ := reset_ok h1'
          have e : rules.filter (fun r => !types.contains r.type) =
              rules.filter (fun r => decide (r.type ∉ types)) := by
            refine List.filter_congr (fun r _ => ?_)
            simp
          rw [e] at h2
          exact ih _ h2
        · cases (Prod.mk.inj h1').2
  exact hgen h rules (new_ok ht).1

/-- Rules added last win: where a new rule has a (non-empty) match at the start of a token, the
token is of a new rule. -/
theorem added_first {t t' : Tokenizer} {new : List TokenRule}
    (h : t.addRules new = (t', .ok ())) (hin : ∀ r ∈ new ++ t.rules, Inside r) {text ts}
    (hc : t'.call text = .ok ts) :
    ∀ x ∈ ts, ∀ q ∈ new, (∃ k ∈ q.ends text x.span.1, k ≠ 0) → ∃ r ∈ new, x.type = r.type := by
  obtain ⟨e, _⟩ := reset_ok h
  subst e
  intro x hx q hq hk
  have hne : new ++ t.rules ≠ [] := by
    cases new with
    | nil => cases hq
    | cons a l => simp
  obtain ⟨fs, h1, h2⟩ := call_cut (t := ⟨new ++ t.rules, new ++ t.rules, _⟩) hne hin text
  rw [hc] at h1
  cases h1
  obtain ⟨f, hf, rfl⟩ := List.mem_map.1 hx
  obtain ⟨_, _, a, pre, r, post, b, k, w, h6, h7, _, _, _, h11⟩ := (cut_all hin h2).1 f hf
  obtain ⟨k, hk, hk0⟩ := hk
  refine ⟨r, ?_, by rw [h11]; rfl⟩
  rcases List.append_eq_append_iff.1 h6 with ⟨l, h12, _⟩ | ⟨l, h12, h13⟩
  · exact absurd (h7 q (by rw [h12]; simp [hq]) k hk).2 hk0
  · cases l with
    | nil =>
      rw [List.append_nil] at h12
      exact absurd (h7 q (h12 ▸ hq) k hk).2 hk0
    | cons y l =>
      have e := (List.cons.inj h13).1
      rw [h12, e]
      simp

/-- Every token has the type of a rule in force; after `remove_types` there is none of a removed
type. -/
theorem token_types {t : Tokenizer} (hin : ∀ r ∈ t.compiled, Inside r) {text ts}
    (hc : t.call text = .ok ts) : ∀ x ∈ ts, ∃ r ∈ t.compiled, x.type = r.type := by
  by_cases hne : t.compiled = []
  · rw [no_rules_raises hne] at hc
    cases hc
  obtain ⟨fs, h1, h2⟩ := call_cut hne hin text
  rw [hc] at h1
  cases h1
  intro x hx
  obtain ⟨f, hf, rfl⟩ := List.mem_map.1 hx
  obtain ⟨_, _, a, pre, r, post, b, k, w, h6, _, _, _, _, h11⟩ := (cut_all hin h2).1 f hf
  exact ⟨r, by rw [h6]; simp, by rw [h11]; rfl⟩

theorem removed_absent {t t' : Tokenizer} {types : List Str}
    (h : t.removeTypes types = (t', .ok ())) (hin : ∀ r ∈ t.rules, Inside r) {text ts}
    (hc : t'.call text = .ok ts) : ∀ x ∈ ts, x.type ∉ types := by
  unfold Tokenizer.removeTypes at h
  split at h
  · obtain ⟨e, _⟩ := reset_ok h
    subst e
    intro x hx
    obtain ⟨r, hr, hx⟩ := token_types
      (t := ⟨_, t.rules.filter (fun r => !types.contains r.type), _⟩)
      (fun r hr => hin r (List.mem_filter.1 hr).1) hc x hx
    have := (List.mem_filter.1 hr).2
    rw [hx]
    simpa using this
  · cases (Prod.mk.inj h).2

/-- Removing types succeeds exactly when all of them are known; otherwise `ValueError` is raised and
the tokenizer stays as it was. (`t` is any tokenizer reached by successful operations.) -/
theorem remove_iff {rules : List TokenRule} {t0 t : Tokenizer} (h0 : Tokenizer.new rules = .ok t0)
    {ops} (hh : History t0 ops t) (types : List Str) :
    ((∀ ty ∈ types, ty ∈ t.types) → (t.removeTypes types).2 = .ok ()) ∧
    (¬ (∀ ty ∈ types, ty ∈ t.types) → t.removeTypes types = (t, .error .valueError)) := by
  have hnd : (t.rules.map (·.id)).Nodup := by
    have hgen : ∀ {t ops t'}, History t ops t' → (t.rules.map (·.id)).Nodup →
        (t'.rules.map (·.id)).Nodup := by
      intro t ops t' h
      induction h with
      | nil => exact id
      | @cons t op ops t' t'' h1 _ ih =>
        intro _
        refine ih ?_
        cases op with
        | add new =>
          obtain ⟨e, h2⟩ := reset_ok (t := t) (rules := new ++ t.rules) h1
          subst e
          exact h2
        | remove types =>
          have h1' : t.removeTypes types = (t', .ok ()) := h1
          unfold Tokenizer.removeTypes at h1'
          split at h1'
          · obtain ⟨e, h2⟩ := reset_ok h1'
            subst e
            exact h2
          · cases (Prod.mk.inj h1').2
    obtain ⟨e, h2⟩ := new_ok h0
    subst e
    exact hgen hh h2
  unfold Tokenizer.removeTypes
  rw [forM_checkType]
  constructor
  · intro hk
    rw [if_pos hk]
    have hnd' : ((t.rules.filter (fun r => !types.contains r.type)).map (·.id)).Nodup :=
      hnd.sublist (List.Sublist.map _ List.filter_sublist)
    show (t.reset _).2 = _
    unfold Tokenizer.reset compileRules
    rw [if_pos hnd']
  · intro hk
    rw [if_neg hk]

/-- Adding a rule that is already there raises an error, and yet changes `rules`: every later
`add_rules` fails too. -/
theorem failed_add_breaks : ∃ (t : Tokenizer) (r : TokenRule),
    Tokenizer.new (defaultRules sampleClasses) = .ok t ∧ r ∈ t.rules ∧
      (t.addRules [r]).2 = .error .reError ∧ (t.addRules [r]).1.rules ≠ t.rules ∧
      ∀ new, ((t.addRules [r]).1.addRules new).2 = .error .reError := by
  refine ⟨⟨defaultRules sampleClasses, _, _⟩, (Re.plus sampleClasses.russian).rule 0 ruType, rfl,
    by simp [defaultRules], rfl, ?_, ?_⟩
  · intro h
    have := congrArg List.length h
    revert this
    decide
  · intro new
    have h2 : ¬ ((new ++ ((Re.plus sampleClasses.russian).rule 0 ruType ::
        defaultRules sampleClasses)).map (·.id)).Nodup := by
      intro h
      rw [List.map_append, List.nodup_append] at h
      revert h
      intro h
      exact absurd h.2.1 (by decide)
    show (Tokenizer.reset _ (new ++ ((Re.plus sampleClasses.russian).rule 0 ruType ::
        defaultRules sampleClasses))).2 = _
    unfold Tokenizer.reset compileRules
    rw [if_neg h2]

/-- The hypotheses are met: a tokenizer with the e-mail rule added and punctuation removed. -/
def emailRule : TokenRule := (emailRe sampleClasses).rule 7 "EMAIL".toList

def sampleTokenizer : Tokenizer :=
  let rules := rulesAfter (defaultRules sampleClasses) [.add [emailRule], .remove ["PUNCT".toList]]
  ⟨rules, rules, rules.map (·.type)⟩

example : ∃ t, Tokenizer.new (defaultRules sampleClasses) = .ok t ∧
    History t [.add [emailRule], .remove ["PUNCT".toList]] sampleTokenizer ∧
    (∀ r ∈ sampleTokenizer.compiled, Inside r) ∧
    (sampleTokenizer.call "a.b@x.ru b.".toList).toOption.map
        (fun ts => ts.map (fun x => (x.type, x.value))) =
      some [("EMAIL".toList, "a.b@x.ru".toList), ("LATIN".toList, "b".toList),
        ("OTHER".toList, ".".toList)] := by
  refine ⟨⟨_, _, _⟩, rfl, .cons rfl (.cons rfl .nil), ?_, by decide +kernel⟩
  intro r hr
  have hr' : r ∈ rulesAfter (defaultRules sampleClasses)
    [.add [emailRule], .remove ["PUNCT".toList]] := hr
  simp only [rulesAfter] at hr'
  rcases List.mem_append.1 (List.mem_filter.1 hr').1 with h | h
  · rw [List.mem_singleton.1 h]
    exact re_inside _ _ _
  · exact default_inside _ r h

/-! ### Patterns -/

/-- A pattern finds exactly the prefixes that are in its language. -/
theorem pattern_exact (r : Re) (hp : ReProper r) (s : Str) (k : Nat) :
    k ∈ r.ends s ↔ k ≤ s.length ∧ ReMatches r (s.take k) := by
  constructor
  · exact ends_sound r s k
  · intro ⟨h1, h2⟩
    have := ends_complete r hp _ (s.drop k) h2
    rwa [List.take_append_drop, List.length_take, Nat.min_eq_left h1] at this

/-- An e-mail token has one `@`, with a name before it and a dotted domain after it. -/
theorem email_shape {C : Classes} (hC : C.latin '@' = false) (hd : C.latin '.' = false) {w : Str}
    (h : ReMatches (emailRe C) w) :
    ∃ a b c, w = a ++ "@".toList ++ b ++ ".".toList ++ c ∧ a ≠ [] ∧ b ≠ [] ∧ c ≠ [] ∧
      '@' ∉ a ∧ '@' ∉ b ∧ '@' ∉ c ∧ '.' ∉ b := by
  have plus_all : ∀ (p : Char → Bool) {n u}, Copies (ReMatches (Re.cls p)) n u →
      ∀ x ∈ u, p x = true := by
    intro p n u h
    induction h with
    | zero => intro x hx; cases hx
    | @succ n u v hu _ ih =>
      intro x hx
      obtain ⟨c, hc, e⟩ := hu
      subst e
      rcases List.mem_append.1 hx with hx | hx
      · rwa [List.mem_singleton.1 hx]
      · exact ih x hx
  have plus_ne : ∀ (p : Char → Bool) {n u}, 1 ≤ n → Copies (ReMatches (Re.cls p)) n u → u ≠ [] := by
    intro p n u hn h
    cases h with
    | zero => omega
    | succ hu _ =>
      obtain ⟨c, _, e⟩ := hu
      subst e
      simp
  unfold emailRe Re.plus at h
  obtain ⟨a, r1, e1, ⟨n1, hn1, _, ha⟩, ⟨x, r2, e2, ⟨c2, h2, e2'⟩,
    ⟨b, r3, e3, ⟨n3, hn3, _, hb⟩, ⟨y, c, e4, ⟨c4, h4, e4'⟩, ⟨n5, hn5, _, hc⟩⟩⟩⟩⟩ := h
  have h2' : c2 = '@' := by simpa using h2
  have h4' : c4 = '.' := by simpa using h4
  subst e1 e2 e3 e4 e2' e4' h2' h4'
  refine ⟨a, b, c, by simp, plus_ne _ hn1 ha, plus_ne _ hn3 hb, plus_ne _ hn5 hc, ?_, ?_, ?_, ?_⟩
  · intro hx
    have := plus_all _ ha _ hx
    rw [hC] at this
    revert this
    decide
  · intro hx
    have := plus_all _ hb _ hx
    rw [hC] at this
    revert this
    decide
  · intro hx
    have := plus_all _ hc _ hx
    rw [hC] at this
    revert this
    decide
  · intro hx
    have := plus_all _ hb _ hx
    rw [hd] at this
    revert this
    decide

theorem plus_matches (p : Char → Bool) (w : Str) :
    ReMatches (Re.plus p) w ↔ w ≠ [] ∧ ∀ x ∈ w, p x = true := by
  have copies : ∀ w : Str, (∃ n, Copies (ReMatches (Re.cls p)) n w ∧ n = w.length) ↔ ∀ x ∈ w, p x = true := by
    intro w
    constructor
    · rintro ⟨n, h, hn⟩
      clear hn
      induction h with
      | zero => intro x hx; cases hx
      | @succ n u v hu _ ih =>
        obtain ⟨c, hc, e⟩ := hu
        subst e
        intro x hx
        rcases List.mem_append.1 hx with hx | hx
        · rw [List.mem_singleton.1 hx]; exact hc
        · exact ih x hx
    · intro h
      induction w with
      | nil => exact ⟨0, .zero, rfl⟩
      | cons c w ih =>
        obtain ⟨n, h1, h2⟩ := ih (fun x hx => h x (List.mem_cons_of_mem _ hx))
        exact ⟨n + 1, .succ (u := [c]) ⟨c, h c List.mem_cons_self, rfl⟩ h1, by rw [h2]; rfl⟩
  have len : ∀ {n u}, Copies (ReMatches (Re.cls p)) n u → n = u.length := by
    intro n u h
    induction h with
    | zero => rfl
    | @succ n u v hu _ ih =>
      obtain ⟨c, _, e⟩ := hu
      subst e
      rw [ih]; simp
  unfold Re.plus ReMatches
  constructor
  · rintro ⟨n, h1, _, h2⟩
    refine ⟨?_, (copies w).1 ⟨n, h2, len h2⟩⟩
    intro e
    rw [e] at h2
    have := len h2
    simp at this
    omega
  · rintro ⟨h1, h2⟩
    obtain ⟨n, h3, h4⟩ := (copies w).2 h2
    refine ⟨n, ?_, (fun m e => by cases e), h3⟩
    cases w with
    | nil => exact absurd rfl h1
    | cons c w => rw [h4, List.length_cons]; omega

/-- The e-mail rule, exactly: a name of letters, digits and `_ . + -`, an `@`, a first part of the domain
of letters, digits and `-`, a dot, and the rest of letters, digits, `-` and `.`. -/
theorem email_iff {C : Classes} {w : Str} : ReMatches (emailRe C) w ↔
    ∃ a b c, w = a ++ ['@'] ++ b ++ ['.'] ++ c ∧ a ≠ [] ∧ b ≠ [] ∧ c ≠ [] ∧
      (∀ x ∈ a, C.latin x = true ∨ asciiDigit x = true ∨ x = '_' ∨ x = '.' ∨ x = '+' ∨ x = '-') ∧
      (∀ x ∈ b, C.latin x = true ∨ asciiDigit x = true ∨ x = '-') ∧
      (∀ x ∈ c, C.latin x = true ∨ asciiDigit x = true ∨ x = '-' ∨ x = '.') := by
  have one : ∀ (k : Char) (v : Str), ReMatches (.cls (· == k)) v ↔ v = [k] := by
    intro k v
    constructor
    · rintro ⟨c, h1, rfl⟩
      rw [eq_of_beq h1]
    · rintro rfl
      exact ⟨k, beq_self_eq_true k, rfl⟩
  unfold emailRe
  simp only [ReMatches.eq_2, one, plus_matches]
  constructor
  · rintro ⟨a, _, rfl, ⟨ha, ha'⟩, _, _, rfl, rfl, b, _, rfl, ⟨hb, hb'⟩, _, c, rfl, rfl, hc, hc'⟩
    refine ⟨a, b, c, by simp, ha, hb, hc, ?_, ?_, ?_⟩
    · intro x hx
      simpa [or_assoc] using ha' x hx
    · intro x hx
      simpa [or_assoc] using hb' x hx
    · intro x hx
      simpa [or_assoc] using hc' x hx
  · rintro ⟨a, b, c, rfl, ha, hb, hc, ha', hb', hc'⟩
    refine ⟨a, ['@'] ++ (b ++ (['.'] ++ c)), by simp, ⟨ha, ?_⟩, ['@'], b ++ (['.'] ++ c), rfl, rfl, b,
      ['.'] ++ c, rfl, ⟨hb, ?_⟩, ['.'], c, rfl, rfl, hc, ?_⟩
    · intro x hx
      simpa [or_assoc] using ha' x hx
    · intro x hx
      simpa [or_assoc] using hb' x hx
    · intro x hx
      simpa [or_assoc] using hc' x hx

/-- A phone token has ten to fourteen digits. -/
theorem phone_digits {C : Classes} (hplus : C.digit '+' = false)
    (hfill : ∀ c, phoneFiller C c = true → C.digit c = false) {w : Str}
    (h : ReMatches (phoneRe C) w) :
    10 ≤ (w.filter C.digit).length ∧ (w.filter C.digit).length ≤ 14 := by
  have hopt : ∀ u, ReMatches (.opt (.cls (phoneFiller C))) u → (u.filter C.digit).length = 0 := by
    intro u hu
    rcases hu with hu | ⟨c, hc, hu⟩
    · subst hu; rfl
    · subst hu
      simp [hfill c hc]
  have hrep : ∀ {n u}, Copies (ReMatches (.seq (.opt (.cls (phoneFiller C)))
      (.seq (.cls C.digit) (.opt (.cls (phoneFiller C)))))) n u →
      (u.filter C.digit).length = n := by
    intro n u h
    induction h with
    | zero => rfl
    | @succ n u v hu _ ih =>
      obtain ⟨x, y, e, hx, d, z, e', ⟨c, hc, e''⟩, hz⟩ := hu
      subst e e' e''
      have h1 := hopt _ hx
      have h2 := hopt _ hz
      simp only [List.filter_append, List.length_append, ih, h1, h2]
      simp [hc]
      omega
  obtain ⟨x, y, e, hx, n, h1, h2, h3⟩ := h
  subst e
  have hx0 : (x.filter C.digit).length = 0 := by
    rcases hx with hx | ⟨c, hc, hx⟩
    · subst hx; rfl
    · have : c = '+' := by simpa using hc
      subst hx this
      simp [hplus]
  have := hrep h3
  have := h2 14 rfl
  rw [List.filter_append, List.length_append]
  omega

/-- Both patterns are proper, and the texts of the examples are in their languages. -/
example : ReProper (emailRe sampleClasses) ∧ ReProper (phoneRe sampleClasses) ∧
    ReMatches (emailRe sampleClasses) "a.b@x.ru".toList ∧
    ReMatches (phoneRe sampleClasses) "+7 (495) 123-45-67".toList := by
  have he : ReProper (emailRe sampleClasses) := by
    refine ⟨⟨trivial, fun _ ⟨c, _, h⟩ => by cases h⟩, trivial, ⟨trivial, fun _ ⟨c, _, h⟩ => by cases h⟩,
      trivial, trivial, fun _ ⟨c, _, h⟩ => by cases h⟩
  have hp : ReProper (phoneRe sampleClasses) :=
    ⟨trivial, ⟨trivial, trivial, trivial⟩, fun h => by cases h⟩
  refine ⟨he, hp, ?_, ?_⟩
  · exact ((pattern_exact _ he "a.b@x.ru".toList 8).1 (by decide +kernel)).2
  · exact ((pattern_exact _ hp "+7 (495) 123-45-67".toList 18).1 (by decide +kernel)).2

/-! ### C31 -/

/-- The morphological tokenizer answers exactly when the plain one does, token by token with the
same text, span and type; Russian words, and only they, get the analyzer's forms. -/
theorem morph_tokens (morph : Str → List Form) (t : Tokenizer) (text : Str) :
    (∀ e, t.call text = .error e → t.morphCall morph text = .error e) ∧
    ∀ ts, t.call text = .ok ts → ∃ ms, t.morphCall morph text = .ok ms ∧ ms.length = ts.length ∧
      ∀ (i : Nat) (a b : Token), ts[i]? = some a → ms[i]? = some b →
        b.value = a.value ∧ b.span = a.span ∧ b.type = a.type ∧ b.tag = none ∧
        (a.type = "RU".toList → b.forms = some (morph a.value)) ∧
        (a.type ≠ "RU".toList → b.forms = none) := by
  constructor
  · intro e he
    unfold Tokenizer.morphCall
    rw [he]
    rfl
  · intro ts hts
    have hplain : ∀ a ∈ ts, a.forms = none ∧ a.tag = none := by
      unfold Tokenizer.call at hts
      split at hts
      · cases hts
      · cases hts
        intro a ha
        obtain ⟨f, _, rfl⟩ := List.mem_map.1 ha
        exact ⟨rfl, rfl⟩
    unfold Tokenizer.morphCall
    rw [hts]
    refine ⟨_, rfl, by rw [List.length_map], ?_⟩
    intro i a b ha hb
    rw [List.getElem?_map, ha] at hb
    have hb' : (if a.type = ruType then a.morphed (morph a.value) else a) = b := by simpa using hb
    obtain ⟨h1, h2⟩ := hplain a (List.mem_of_getElem? ha)
    subst hb'
    by_cases hr : a.type = ruType
    · rw [if_pos hr]
      exact ⟨rfl, rfl, rfl, rfl, fun _ => rfl, fun hn => absurd hr hn⟩
    · rw [if_neg hr]
      exact ⟨rfl, rfl, rfl, h2, fun hn => absurd hn hr, fun _ => h1⟩

/-! ### C32 -/

theorem formatTokens_some (stop : Nat) (t : Token) (ts : List Token) :
    (formatTokens (some stop) (t :: ts)).flatten =
      (if stop < t.span.1 then " ".toList else []) ++ (formatTokens none (t :: ts)).flatten := by
  simp only [formatTokens]
  by_cases h : t.span.1 > stop
  · rw [if_pos h, if_pos h]
    simp
  · rw [if_neg h, if_neg h]
    simp

theorem joinTokens_cons (t u : Token) (ts : List Token) :
    joinTokens (t :: u :: ts) =
      t.value ++ (if t.span.2 < u.span.1 then " ".toList else []) ++ joinTokens (u :: ts) := by
  unfold joinTokens
  have : formatTokens none (t :: u :: ts) = t.value :: formatTokens (some t.span.2) (u :: ts) := by
    simp [formatTokens]
  rw [this, List.flatten_cons, formatTokens_some, List.append_assoc]

/-- Joining gives the texts in order, one space exactly where there is a gap. -/
theorem join_exact (ts : List Token) (s : Str) : joinTokens ts = s ↔ Joined ts s := by
  have h1 : ∀ ts, Joined ts (joinTokens ts) := by
    intro ts
    induction ts with
    | nil => exact .nil
    | cons t ts ih =>
      cases ts with
      | nil =>
        have : joinTokens [t] = t.value := by simp [joinTokens, formatTokens]
        rw [this]
        exact .one t
      | cons u ts =>
        rw [joinTokens_cons]
        by_cases h : t.span.2 < u.span.1
        · rw [if_pos h]
          exact .gap h ih
        · rw [if_neg h, List.append_nil]
          exact .next (by omega) ih
  have h2 : ∀ {ts s}, Joined ts s → joinTokens ts = s := by
    intro ts s h
    induction h with
    | nil => rfl
    | one t => simp [joinTokens, formatTokens]
    | gap hg _ ih => rw [joinTokens_cons, if_pos hg, ih]
    | next hg _ ih => rw [joinTokens_cons, if_neg (by omega), ih, List.append_nil]
  exact ⟨fun h => h ▸ h1 ts, h2⟩

/-- Joining changes nothing but white space. -/
theorem join_keeps_text (ts : List Token) :
    (joinTokens ts).filter (· ≠ ' ') = (ts.flatMap (·.value)).filter (· ≠ ' ') := by
  induction ts with
  | nil => rfl
  | cons t ts ih =>
    cases ts with
    | nil => simp [joinTokens, formatTokens]
    | cons u ts =>
      rw [joinTokens_cons, List.flatMap_cons, List.filter_append, List.filter_append, ih,
        List.filter_append]
      congr 1
      split <;> simp

/-- When consecutive tokens of a text are separated by nothing or by one space, joining them gives
the text itself. -/
inductive Spaced (text : Str) : List Token → Prop where
  | one {t} : t.value = (text.take t.span.2).drop t.span.1 → t.span.1 ≤ t.span.2 →
      t.span.2 ≤ text.length → Spaced text [t]
  | cons {t u ts} : t.value = (text.take t.span.2).drop t.span.1 → t.span.1 ≤ t.span.2 →
      t.span.2 ≤ text.length →
      (u.span.1 = t.span.2 ∨ u.span.1 = t.span.2 + 1 ∧ text[t.span.2]? = some ' ') →
      Spaced text (u :: ts) → Spaced text (t :: u :: ts)

theorem join_roundtrip {text : Str} {ts : List Token} (h : Spaced text ts) :
    ∀ a b, ts.head? = some a → ts.getLast? = some b →
      joinTokens ts = (text.take b.span.2).drop a.span.1 := by
  have hle : ∀ {ts}, Spaced text ts → ∀ a b, ts.head? = some a → ts.getLast? = some b →
      a.span.1 ≤ b.span.2 := by
    intro ts h
    induction h with
    | one _ h2 _ =>
      intro a b ha hb
      cases ha; cases hb
      exact h2
    | @cons t u ts _ h2 _ h4 _ ih =>
      intro a b ha hb
      cases ha
      rw [List.getLast?_cons_cons] at hb
      have := ih u b rfl hb
      rcases h4 with h4 | h4 <;> omega
  have hsl : ∀ (i j k : Nat), i ≤ j → j ≤ k →
      (text.take j).drop i ++ (text.take k).drop j = (text.take k).drop i := by
    intro i j k h1 h2
    have e : text.take j = (text.take k).take j := by rw [List.take_take, Nat.min_eq_left h2]
    have := List.take_append_drop (j - i) ((text.take k).drop i)
    rw [List.drop_drop, show i + (j - i) = j by omega] at this
    rw [e, List.drop_take]
    exact this
  induction h with
  | @one t h1 _ _ =>
    intro a b ha hb
    cases ha
    have hb' : t = b := by simpa using hb
    subst hb'
    rw [← h1]
    simp [joinTokens, formatTokens]
  | @cons t u ts h1 h2 h3 h4 h5 ih =>
    intro a b ha hb
    cases ha
    rw [List.getLast?_cons_cons] at hb
    have hub := hle h5 u b rfl hb
    rw [joinTokens_cons, ih u b rfl hb, h1]
    rcases h4 with h4 | ⟨h4, h6⟩
    · rw [if_neg (by omega), List.append_nil, h4]
      exact hsl _ _ _ h2 (by omega)
    · have hlt : t.span.2 < text.length := (List.getElem?_eq_some_iff.1 h6).1
      rw [if_pos (by omega)]
      have e : (" ".toList : Str) = (text.take u.span.1).drop t.span.2 := by
        rw [h4, List.drop_take]
        have hd : text.drop t.span.2 = ' ' :: text.drop (t.span.2 + 1) := by
          have := List.getElem?_eq_some_iff.1 h6
          obtain ⟨hl, hv⟩ := this
          rw [← hv]
          exact List.drop_eq_getElem_cons hl
        rw [hd, show t.span.2 + 1 - t.span.2 = 1 by omega]
        rfl
      rw [e, hsl _ _ _ h2 (by omega), hsl _ _ _ (by omega) hub]

example : Spaced "ab, c".toList
    [⟨"ab".toList, (0, 2), [], none, none⟩, ⟨",".toList, (2, 3), [], none, none⟩,
      ⟨"c".toList, (4, 5), [], none, none⟩] := by
  refine .cons (by decide) (by decide) (by decide) (.inl rfl) (.cons (by decide) (by decide)
    (by decide) (.inr ⟨rfl, by decide⟩) (.one (by decide) (by decide) (by decide)))

example : Joined [⟨"ab".toList, (0, 2), [], none, none⟩, ⟨",".toList, (2, 3), [], none, none⟩,
      ⟨"c".toList, (7, 8), [], none, none⟩] "ab, c".toList := by
  rw [← join_exact]
  decide

/-! ### C43 -/

/-- A composition runs its parts from left to right, each on the answer of the previous one. -/
theorem compose_left_to_right (as bs : List Tagger) (ts : List Token) :
    (Tagger.compose (as ++ bs)).call ts =
      (Tagger.compose as).call ts >>= fun us => (Tagger.compose bs).call us := by
  simp only [Tagger.call]
  induction as generalizing ts with
  | nil => rfl
  | cons a as ih =>
    rw [List.cons_append, Tagger.callAll, Tagger.callAll]
    cases a.call ts with
    | error e => rfl
    | ok us => exact ih us

theorem compose_one (t : Tagger) (ts : List Token) : (Tagger.compose [t]).call ts = t.call ts := by
  rw [Tagger.call, Tagger.callAll]
  cases t.call ts <;> rfl

theorem compose_none (ts : List Token) : (Tagger.compose []).call ts = .ok ts := rfl

theorem pass_identity (ts : List Token) : Tagger.pass.call ts = .ok ts := rfl

/-- The tags known to a composition are those known to its parts. -/
theorem compose_tags (taggers : List Tagger) (tag : Str) :
    (Tagger.compose taggers).checkTag tag = true ↔ ∃ t ∈ taggers, t.checkTag tag = true := by
  rw [Tagger.checkTag]
  induction taggers with
  | nil => simp [Tagger.checkAny]
  | cons t rest ih =>
    rw [Tagger.checkAny, Bool.or_eq_true, ih]
    simp

theorem same_texts_refl (ts : List Token) : SameTexts ts ts := by
  induction ts with
  | nil => exact .nil
  | cons t ts ih => exact .cons rfl rfl rfl rfl ih

theorem same_texts_trans {as bs cs} (h : SameTexts as bs) (h' : SameTexts bs cs) :
    SameTexts as cs := by
  induction h generalizing cs with
  | nil => exact h'
  | cons h1 h2 h3 h4 _ ih =>
    cases h' with
    | cons g1 g2 g3 g4 g5 =>
      exact .cons (h1.trans g1) (h2.trans g2) (h3.trans g3) (h4.trans g4) (ih g5)

/-- Tagging a token keeps its text, span, type and forms. -/
theorem tagged_keeps (t : Token) (tag : Str) :
    (t.tagged tag).value = t.value ∧ (t.tagged tag).span = t.span ∧
      (t.tagged tag).type = t.type ∧ (t.tagged tag).forms = t.forms ∧
      (t.tagged tag).tag = some tag := ⟨rfl, rfl, rfl, rfl, rfl⟩

mutual
/-- Every user tagger inside keeps texts. -/
def UserTaggers (P : (List Token → Except Err (List Token)) → Prop) : Tagger → Prop
  | .base => True
  | .pass => True
  | .compose ts => AllUserTaggers P ts
  | .user _ f => P f
def AllUserTaggers (P : (List Token → Except Err (List Token)) → Prop) : List Tagger → Prop
  | [] => True
  | t :: ts => UserTaggers P t ∧ AllUserTaggers P ts
end

/-- A tagger that only tags. -/
def KeepsTexts (f : List Token → Except Err (List Token)) : Prop :=
  ∀ ts us, f ts = .ok us → SameTexts ts us

mutual
/-- If the user's taggers keep texts, spans, types and forms, so does every composition. -/
theorem tagger_keeps : ∀ t : Tagger, UserTaggers KeepsTexts t → KeepsTexts t.call
  | .base, _ => fun ts us h => by cases h
  | .pass, _ => fun ts us h => by cases h; exact same_texts_refl ts
  | .compose l, h => fun ts us hc => taggers_keep l h ts us (by rwa [Tagger.call] at hc)
  | .user _ f, h => fun ts us hc => h ts us (by rwa [Tagger.call] at hc)
theorem taggers_keep : ∀ l : List Tagger, AllUserTaggers KeepsTexts l →
    ∀ ts us, Tagger.callAll l ts = .ok us → SameTexts ts us
  | [], _ => fun ts us h => by cases h; exact same_texts_refl ts
  | t :: rest, h => fun ts us hc => by
    rw [Tagger.callAll] at hc
    cases ht : t.call ts with
    | error e => rw [ht] at hc; cases hc
    | ok vs =>
      rw [ht] at hc
      exact same_texts_trans (tagger_keeps t h.1 ts vs ht) (taggers_keep rest h.2 vs us hc)
end

/-- A tagger that tags every number, composed with the default one. -/
def sampleTagger : Tagger :=
  .compose [.pass, .user ["N".toList]
    (fun ts => .ok (ts.map (fun t => if t.type = "INT".toList then t.tagged "N".toList else t)))]

example : UserTaggers KeepsTexts sampleTagger ∧ sampleTagger.checkTag "N".toList = true ∧
    sampleTagger.checkTag "M".toList = false ∧
    (sampleTagger.call [⟨"ab".toList, (0, 2), "RU".toList, none, some []⟩,
      ⟨"7".toList, (2, 3), "INT".toList, none, none⟩]).toOption.map (fun ts => ts.map (·.tag)) =
      some [none, some "N".toList] := by
  refine ⟨⟨trivial, ?_, trivial⟩, by decide +kernel, by decide +kernel, by decide +kernel⟩
  intro ts us h
  cases h
  induction ts with
  | nil => exact .nil
  | cons t ts ih =>
    rw [List.map_cons]
    split
    · exact .cons rfl rfl rfl rfl ih
    · exact .cons rfl rfl rfl rfl ih

end Yargy
