import Verif.Spec.EndToEnd
import Verif.Proofs.ThinChart
import Verif.Properties.Builds
import Verif.Properties.Match
import Verif.Properties.Labels
/-!
C60: from the rule to the result. A parser is built, it ends on every text, and what it returns is said in terms of
the rule alone.
-/
namespace Yargy
open Spec

variable {L : Lang} {setOrder : List Str → List Str} {c : Context} {split : Str → List Str}
  {relation : Nat → Relation} {pid : Nat → Nat} {limit root : Nat} {h h' : Heap Pred} {b : Built}
  {H : Type} [DecidableEq H] {hash : Key → H} {toks : List Token}

/-! ### Termination -/

namespace Thin

variable {P : Type} {N : Nat → Prop} {lev : Nat → Nat}

theorem cutAway_open {h : Heap P} {root : Nat} (hc : ClosedHeap h) (hl : root < h.length) {ts : List (Term P)}
    {w : List Nat} (ho : Open N (cutAway h root) ts w) : Open N h ts w := by
  induction ho with
  | nil => exact .nil
  | letter ha _ ih =>
    exact .letter ((cutAway_back hc hl ha).resolve_left (fun h => nomatch h)).1 ih
  | skip ha hn _ ih =>
    exact .skip ((cutAway_back hc hl ha).resolve_left (fun h => nomatch h)).1 hn ih
  | rule ha hf hg _ _ ih1 ih2 =>
    rcases cutAway_back hc hl ha with rfl | ⟨k, _⟩
    · cases hg with | or h => cases h
    · exact .rule k hf hg ih1 ih2

theorem cutAway_tame {h : Heap P} {root : Nat} (hc : ClosedHeap h) (hl : root < h.length)
    (hy : ∀ (a : Nat) o, Reach h root a → h[a]? = some o → (∃ c, o = .forward c) ∨ ∀ c ∈ o.children, c < a)
    (hu : UsesTokens N lev h root) : Tame N (fun b a => lev b < lev a) (cutAway h root) where
  closed := by
    intro o ho d hd
    obtain ⟨a, ha⟩ := List.mem_iff_getElem?.1 ho
    rw [cutAway_length]
    rcases cutAway_back hc hl ha with rfl | ⟨k, _⟩
    · cases hd
    · exact hc o (List.mem_of_getElem? k) d hd
  young a o ha hf d hd := by
    rcases cutAway_back hc hl ha with rfl | ⟨k, hr⟩
    · cases hd
    · rcases hy a o hr k with ⟨x, rfl⟩ | hlt
      · exact absurd rfl (hf x)
      · exact hlt d hd
  down a d ha x hx := by
    obtain ⟨k, hr⟩ := (cutAway_back hc hl ha).resolve_left (fun h => nomatch h)
    exact hu.down a d hr k x (cutAway_open hc hl hx)
  null a d ha hx := by
    obtain ⟨k, hr⟩ := (cutAway_back hc hl ha).resolve_left (fun h => nomatch h)
    exact hu.null a d hr k (cutAway_open hc hl hx)
  firm a o r ha hr hx := by
    rcases cutAway_back hc hl ha with rfl | ⟨k, hrch⟩
    · cases hr
    · exact hu.firm a o r hrch k hr (cutAway_open hc hl hx)

end Thin

/-- The chart is complete after finitely many steps. -/
theorem program_charts (hrun : Run L setOrder [] h) (hr : RuleAt h root) (hp : ∀ a b, pid a = pid b → a = b)
    (hs : SetOrder setOrder)
    (hy : ∀ (a : Nat) o, Reach h root a → h[a]? = some o → (∃ c, o = .forward c) ∨ ∀ c ∈ o.children, c < a)
    (hl : ∀ (a : Nat) v, Reach h root a → h[a]? ≠ some (.pipeProd v []))
    (hu : Consumes h root)
    (hb : buildParser L setOrder c split relation pid limit root h = .ok (b, h')) (toks : List Token) (all : Bool) :
    ∃ fuel cols, chart b.grammar hash toks all fuel = some cols := by
  obtain ⟨k1, k2, k3, k4, k5, k6, rules, k7, k8⟩ := program_parts hrun hr hp hb
  obtain ⟨q1, q2⟩ := program_predict hrun hr hp hs hb
  obtain ⟨N, lev, hu⟩ := hu
  obtain ⟨g, e, hD, hget, hcl⟩ := compileRule_same hp k1 k2 k3 k4
  have hw := Thin.compileRule_edges hp (Thin.cutAway_tame k1.closed k2 hy hu) e
  have hline := compileRule_kept Thin.lined_stable hp k1 k2 k3 k4 (by
    intro x o hx ho
    unfold Thin.lined
    split
    · rename_i v ts
      rintro rfl
      exact hl x v hx ho
    · trivial)
  have hZ : ∀ a, Reach h' b.grammar.start a → g[a]? = h'[a]? := by
    intro a ha
    refine hget a ?_
    induction ha with
    | root => exact hD
    | step _ hu hc ih => exact hcl _ _ ih hu _ hc
  have hcl' := program_closed k5
  have hac := Thin.restrict_acyclic (toks := toks) k5 hline hcl' hZ hw
  have hsame := Thin.restrict_same q1 .root hcl'
  obtain ⟨fuel, cols, hch⟩ := chart_terminates (hash := hash) (all := all) (Thin.restrict_sound q1) hac
  rw [chart_sameOn hsame] at hch
  exact ⟨fuel, cols, hch⟩

/-- C60, termination, for every program: a parser of a rule that uses up tokens ends on every text, whichever
of its methods is called. What is asked of the rule besides: apart from what is inside of forward rules, its
parts were made before it. -/
theorem program_terminates (hrun : Run L setOrder [] h) (hr : RuleAt h root) (hp : ∀ a b, pid a = pid b → a = b)
    (hs : SetOrder setOrder)
    (hy : ∀ (a : Nat) o, Reach h root a → h[a]? = some o → (∃ c, o = .forward c) ∨ ∀ c ∈ o.children, c < a)
    (hl : ∀ (a : Nat) v, Reach h root a → h[a]? ≠ some (.pipeProd v []))
    (hu : Consumes h root)
    (hb : buildParser L setOrder c split relation pid limit root h = .ok (b, h')) (toks : List Token) :
    (∃ fuel r, findall b.grammar b.agreement hash toks fuel = some r) ∧
      (∃ fuel r, matchText b.grammar b.agreement hash toks fuel = some r) ∧
      ∀ all, ∃ fuel r, extract b.grammar b.agreement hash toks all fuel = some r := by
  have key := program_charts (hash := hash) hrun hr hp hs hy hl hu hb toks
  refine ⟨?_, ?_, fun all => ?_⟩
  · obtain ⟨fuel, cols, hc⟩ := key true
    exact ⟨fuel, _, by unfold findall matchStates; rw [hc]; rfl⟩
  · obtain ⟨fuel, cols, hc⟩ := key false
    exact ⟨fuel, _, by unfold matchText matchStates; rw [hc]; rfl⟩
  · obtain ⟨fuel, cols, hc⟩ := key all
    exact ⟨fuel, _, by unfold extract matchStates; rw [hc]; rfl⟩

theorem fresh_lines : ∀ {g h : Heap Pred}, RunWith L setOrder (fun _ _ => False) g h →
    (∀ (a : Nat) v ts, g[a]? ≠ some (.pipeProd v ts)) → ∀ (a : Nat) v ts, h[a]? ≠ some (.pipeProd v ts) := by
  intro g h hr
  induction hr with
  | nil => exact id
  | @cons g _ _ h1 _ ih =>
    intro hg
    apply ih
    cases h1 with
    | @make o hm =>
      intro a v ts ha
      rcases Nat.lt_or_ge a g.length with hl | hl
      · rw [List.getElem?_append_left hl] at ha
        exact hg a v ts ha
      · rw [List.getElem?_append_right hl] at ha
        cases hk : a - g.length with
        | zero => rw [hk] at ha; cases ha; exact hm.pipeProd _ _ rfl
        | succ n => rw [hk] at ha; cases ha
    | @define a d r h1 h2 =>
      intro x v ts hx
      by_cases e : a = x
      · subst e
        rw [List.getElem?_set_self (List.getElem?_eq_some_iff.1 h1).1] at hx
        cases hx
      · rw [List.getElem?_set_ne e] at hx
        exact hg x v ts hx
    | build _ _ h _ => exact h.elim
    | failed _ _ h _ => exact h.elim

/-- C60, termination: a parser of a rule that a program made and that uses up tokens ends on every text. -/
theorem fresh_terminates (hrun : Fresh L setOrder h) (hr : RuleAt h root) (hp : ∀ a b, pid a = pid b → a = b)
    (hs : SetOrder setOrder) (hu : Consumes h root)
    (hb : buildParser L setOrder c split relation pid limit root h = .ok (b, h')) (toks : List Token) :
    (∃ fuel r, findall b.grammar b.agreement hash toks fuel = some r) ∧
      (∃ fuel r, matchText b.grammar b.agreement hash toks fuel = some r) ∧
      ∀ all, ∃ fuel r, extract b.grammar b.agreement hash toks all fuel = some r :=
  program_terminates (fresh_run hrun) hr hp hs
    (fun a o _ ho => (fresh_raw hrun (by intro a o h; cases h) a o ho).2)
    (fun a v _ => fresh_lines hrun (by intro a v ts h; cases h) a v []) hu hb toks

/-! ### Rules that use up tokens -/

section
variable {P : Type} {h : Heap P} {root : Nat}

/-- Without parts that may be empty nothing is left out. -/
theorem solid_open (hsolid : ∀ (x : Nat) o, Reach h root x → h[x]? = some o → o.solid) {ts : List (Term P)}
    {w : List Nat} (ho : Thin.Open (fun _ => False) h ts w) : (∀ r, .rule r ∈ ts → Reach h root r) → ts ≠ [] → w ≠ [] := by
  induction ho with
  | nil => intro _ h; exact absurd rfl h
  | letter => intro _ _ e; cases e
  | skip _ hn => exact hn.elim
  | @rule a o us ts w v ha hf hg _ _ ih1 _ =>
    intro hr _ e
    have hra := hr a List.mem_cons_self
    have hs := hsolid a o hra ha
    have hw : w = [] := (List.append_eq_nil_iff.1 e).1
    have hch := Thin.gives_children hg
    refine ih1 (fun r hm => .step hra ha (hch r hm)) ?_ hw
    have rep : ∀ {n r : Nat}, 1 ≤ n → List.replicate n (Term.rule (P := P) r) ≠ [] := by
      intro n r hn e
      have := congrArg List.length e
      simp at this
      omega
    cases hg with
    | prod => exact hs
    | emptyProd => exact hs.elim
    | none => exact hs.elim
    | one => exact hs.elim
    | repOptional => exact hs.elim
    | empty => exact hs.elim
    | repeatable hn => exact rep hn
    | minBounded hn => exact rep hn
    | maxBounded hn => exact rep hn
    | minMaxBounded hn => exact rep hn
    | _ => exact fun e => nomatch e

/-- A rule without optional or empty parts uses up tokens, provided that no forward rule is, with no token beside
it, in the place of a forward rule. -/
theorem solid_consumes (hsolid : ∀ (x : Nat) o, Reach h root x → h[x]? = some o → o.solid)
    (hf : ∀ (a x : Nat), Reach h root a → h[a]? = some (.forward (some x)) →
      ∀ d, ¬ Thin.Open (fun _ => False) h [.rule x] [d]) : Consumes h root := by
  refine ⟨fun _ => False, fun _ => 0, ⟨fun a x ha ho d hd => (hf a x ha ho d hd).elim, fun a x ha ho hd => ?_,
    fun a o r ha ho hr hd => ?_⟩⟩
  · exact solid_open hsolid hd (by
      intro r hm; simp only [List.mem_singleton, Term.rule.injEq] at hm; subst hm
      exact .step ha ho (by simp [Obj.children])) (by simp) rfl
  · exact solid_open hsolid hd (by
      intro r' hm; simp only [List.mem_singleton, Term.rule.injEq] at hm; subst hm
      exact .step ha ho (Thin.repeated_child hr)) (by simp) rfl

theorem open_pred {N : Nat → Prop} {ts : List (Term P)} {w : List Nat} (ho : Thin.Open N h ts w) :
    ∀ p, .pred p ∉ ts := by
  induction ho with
  | nil => intro p h; cases h
  | letter _ _ ih => intro p h; cases h with | tail _ h => exact ih p h
  | skip _ _ _ ih => intro p h; cases h with | tail _ h => exact ih p h
  | rule _ _ _ _ _ _ ih => intro p h; cases h with | tail _ h => exact ih p h

theorem open_part {N : Nat → Prop} {ts : List (Term P)} {w : List Nat} (ho : Thin.Open N h ts w) {r : Nat}
    (hr : .rule r ∈ ts) : ∃ v, Thin.Open N h [.rule r] v := by
  induction ho with
  | nil => cases hr
  | letter ha _ ih =>
    cases hr with
    | head => exact ⟨_, .letter ha .nil⟩
    | tail _ h => exact ih h
  | skip ha hn _ ih =>
    cases hr with
    | head => exact ⟨_, .skip ha hn .nil⟩
    | tail _ h => exact ih h
  | rule ha hf hg hu _ _ ih =>
    cases hr with
    | head => exact ⟨_, .rule ha hf hg hu .nil⟩
    | tail _ h => exact ih h

/-- A rule that has a token is nothing without it. -/
theorem token_open {N : Nat → Prop} {a : Nat} (ht : HasToken h a) : ∀ w, ¬ Thin.Open N h [.rule a] w := by
  induction ht with
  | token ha hm =>
    intro w ho
    obtain ⟨us, hg, hu⟩ := (Thin.open_one ha (by intro c e; cases e)).1 ho
    cases hg
    exact open_pred hu _ hm
  | part ha hm _ ih =>
    intro w ho
    obtain ⟨us, hg, hu⟩ := (Thin.open_one ha (by intro c e; cases e)).1 ho
    cases hg
    obtain ⟨v, hv⟩ := open_part hu hm
    exact ih v hv
  | pipe ha =>
    intro w ho
    obtain ⟨us, hg, hu⟩ := (Thin.open_one ha (by intro c e; cases e)).1 ho
    cases hg
  | @parts a o ha hn _ ih =>
    intro w ho
    obtain ⟨us, hg, hu⟩ := (Thin.open_one ha (by rintro c rfl; cases hn)).1 ho
    have hm : ∃ r, Term.rule (P := P) r ∈ us := by
      have rep : ∀ {n r : Nat}, 1 ≤ n → ∃ x, Term.rule (P := P) x ∈ List.replicate n (.rule r) :=
        fun {n r} hn => ⟨r, List.mem_replicate.2 ⟨by omega, rfl⟩⟩
      cases hg with
      | rule | or | named | interp | relation => exact ⟨_, List.mem_singleton.2 rfl⟩
      | repeatable h1 => exact rep h1
      | minBounded h1 => exact rep h1
      | maxBounded h1 => exact rep h1
      | minMaxBounded h1 => exact rep h1
      | _ => cases hn
    obtain ⟨r, hm⟩ := hm
    obtain ⟨v, hv⟩ := open_part hu hm
    exact ih r (Thin.gives_children hg r hm) v hv

/-- A rule uses up tokens if whatever is repeated without bound has a token, and so has whatever forward rules
stand for. -/
theorem tokens_consume
    (hf : ∀ (a x : Nat), Reach h root a → h[a]? = some (.forward (some x)) → HasToken h x)
    (hr : ∀ (a : Nat) o r, Reach h root a → h[a]? = some o → Thin.repeated o = some r → HasToken h r) :
    Consumes h root :=
  ⟨fun _ => False, fun _ => 0, ⟨fun a x ha ho b hb => (token_open (hf a x ha ho) _ hb).elim,
    fun a x ha ho hb => (token_open (hf a x ha ho) _ hb).elim,
    fun a o r ha ho hr' => token_open (hr a o r ha ho hr') _⟩⟩

/-- A rule without forward rules uses up tokens if nothing that may be empty is repeated. -/
theorem plain_consumes (hf : ∀ (a : Nat) x, Reach h root a → h[a]? ≠ some (.forward x))
    (hfirm : ∀ (a : Nat) o r, Reach h root a → h[a]? = some o → Thin.repeated o = some r →
      ¬ Thin.Open (fun _ => False) h [.rule r] []) : Consumes h root :=
  ⟨fun _ => False, fun _ => 0, ⟨fun a x ha ho => (hf a _ ha ho).elim, fun a x ha ho => (hf a _ ha ho).elim, hfirm⟩⟩

end

/-! ### Results -/

/-- What the parser of a rule without agreement relations has: every derivation is found, and nothing stands in the
way of reporting it. -/
theorem program_reports (hrun : Run L setOrder [] h) (hr : RuleAt h root) (hst : Spec.Steady .plain h root)
    (hp : ∀ a b, pid a = pid b → a = b) (hs : SetOrder setOrder) (hh : ∀ a b, hash a = hash b → a = b)
    (hb : buildParser L setOrder c split relation pid limit root h = .ok (b, h'))
    {B : Bounds} (hB : EmptiesFound b.grammar B) (hnull : ¬ B.null b.grammar.start) {all : Bool} {fuel : Nat}
    {cols : List (Column Pred Token H)} (hc : chart b.grammar hash toks all fuel = some cols) :
    (∀ t, Reported b.grammar hash toks all fuel t → t.root.prune ≠ none ∧
      Accepts L (c.activation L split) h root toks t.range.1 t.range.2) ∧
    ∀ i j, Accepts L (c.activation L split) h root toks i j → (i = 0 ∨ all = true) →
      (all = true ∨ j = toks.length) → ∃ t, Reported b.grammar hash toks all fuel t ∧ t.range = (i, j) := by
  obtain ⟨k1, k2, k3, k4, k5, k6, rules, k7, k8⟩ := program_parts hrun hr hp hb
  obtain ⟨q1, q4⟩ := program_predict hrun hr hp hs hb
  have q2 : PredictLossless b.grammar := by
    rw [k7]
    exact (library_predict (start := b.grammar.start) hs k8).2
  have q3 := belongs_distinct k5
  have hlong : ∀ {i j : Nat} {d : DTree Pred Token},
      Derives b.grammar toks (.rule b.grammar.start) i j d → i < j := by
    intro i j d hd
    obtain ⟨h1, h2⟩ := derives_rounds hB hd
    by_cases e : i = j
    · exact absurd ((h2 _ rfl hB.start.1).1 e) hnull
    · omega
  refine ⟨fun t ht => ?_, fun i j ha hi hj => ?_⟩
  · have hd := reported_derives q1 ht
    exact ⟨reported_prune q1 ht (hlong hd), (program_derives_iff hrun hr hst hp hb _ _).1 ⟨_, hd⟩⟩
  · obtain ⟨d, hd⟩ := (program_derives_iff hrun hr hst hp hb _ _).2 ha
    have hil := derives_inside hd (hlong hd)
    have hlt := hlong hd
    obtain ⟨n, d3, _⟩ := ((derives_rounds hB hd).2 _ rfl hB.start.1).2 0 hB.start.2
    obtain ⟨s, hs1, hs2, _⟩ := chart_complete_partial q1 q2 q3 hh hB.waits hc i j n d hi (by omega) hj d3
    exact ⟨s.tree, (reported_of hc).2 (List.mem_map.2 ⟨s, hs1, rfl⟩), hs2⟩

/-- Relations of rules that are not part of the parser do not matter. -/
theorem program_silent (hrun : Run L setOrder [] h) (hr : RuleAt h root) (hp : ∀ a b, pid a = pid b → a = b)
    (hs : SetOrder setOrder) (hsilent : ∀ (x : Nat) o, Reach h root x → h[x]? = some o → o.silent)
    (hb : buildParser L setOrder c split relation pid limit root h = .ok (b, h')) :
    SameOn (Reach h' b.grammar.start) b.grammar b.grammar ∧
      SameAgreement (Reach h' b.grammar.start) b.agreement ⟨fun _ => none, relation⟩ := by
  obtain ⟨k1, k2, k3, k4, k5, k6, _⟩ := program_parts hrun hr hp hb
  obtain ⟨_, _, _, k9⟩ := buildParser_parts hb
  obtain ⟨q1, _⟩ := program_predict hrun hr hp hs hb
  have hsi := compileRule_kept silent_stable hp k1 k2 k3 k4 hsilent
  have hn := program_closed k5
  refine ⟨{
    start := rfl, root := .root, accepts := rfl, constrain := rfl
    productions := fun _ _ => rfl, predict := fun _ _ _ => rfl
    closed := fun r hz p hpr x hx => hn r p hz hpr x hx
    closed' := fun r t hz p hpr x hx => hn r p hz (q1 r t p hpr) x hx }, ?_, by rw [k9]⟩
  intro r hz
  rw [k9]
  show none = relationAt h' r
  unfold relationAt
  split
  · rename_i ho; exact (hsi _ _ hz ho).symm
  · rfl

/-- C60 (partial), `findall`, for every program: with parts that may be empty only at places where the parser
finds that, and without agreement relations, `findall` does not raise, and its matches are the best choice among
the ranges of tokens that the rule accepts. -/
theorem program_findall_partial (hrun : Run L setOrder [] h) (hr : RuleAt h root) (hst : Spec.Steady .plain h root)
    (hp : ∀ a b, pid a = pid b → a = b) (hs : SetOrder setOrder) (hh : ∀ a b, hash a = hash b → a = b)
    (hsilent : ∀ (x : Nat) o, Reach h root x → h[x]? = some o → o.silent)
    (hb : buildParser L setOrder c split relation pid limit root h = .ok (b, h'))
    {B : Bounds} (hB : EmptiesFound b.grammar B) (hnull : ¬ B.null b.grammar.start) {fuel : Nat}
    {r : Except Err (List (Match Pred) × Store)} (hx : findall b.grammar b.agreement hash toks fuel = some r) :
    ∃ ms σ, r = .ok (ms, σ) ∧
      Chosen (Accepts L (c.activation L split) h root toks) (ms.map (fun m => m.tree.range)) := by
  obtain ⟨k1, k2, k3, k4, k5, k6, rules, k7, k8⟩ := program_parts hrun hr hp hb
  obtain ⟨q1, q4⟩ := program_predict hrun hr hp hs hb
  have q2 : PredictLossless b.grammar := by
    rw [k7]
    exact (library_predict (start := b.grammar.start) hs k8).2
  obtain ⟨h1, h2⟩ := program_silent hrun hr hp hs hsilent hb
  rw [← findall_sameOn h1 h2] at hx
  have hA : ∀ r, (⟨fun _ => none, relation⟩ : Agreement).relationOf r = none := fun _ => rfl
  have hch : ∃ cols, chart b.grammar hash toks true fuel = some cols := by
    unfold findall matchStates at hx
    rw [Option.map_map] at hx
    obtain ⟨cols, h, _⟩ := Option.map_eq_some_iff.1 hx
    exact ⟨cols, h⟩
  obtain ⟨cols, hch⟩ := hch
  obtain ⟨r1, r2⟩ := program_reports hrun hr hst hp hs hh hb hB hnull hch
  obtain ⟨ms, σ, rfl⟩ := findall_ok q1 q2 hx (fun t ht => checkable_of_no_relations hA (r1 t ht).1)
  obtain ⟨cands, s1, s2, s3, s4, _⟩ := findall_selects q1 q2 hx
  refine ⟨ms, σ, rfl, cands, s1.order, fun i j => ⟨fun hm => ?_, fun ha => ?_⟩, s2, s3, s4⟩
  · obtain ⟨t, t1, t2, _⟩ := s1.accepted _ hm
    have := (r1 t t1).2
    rw [t2] at this
    exact this
  · obtain ⟨t, t1, t2⟩ := r2 i j ha (.inr rfl) (.inl rfl)
    rw [← t2]
    exact (s1.rest t t1).resolve_right (not_rejected hA t)

/-- C60 (partial), `match`, for every program: it does not raise; if the rule accepts the whole text it finds
the whole text; what it finds ends where the text ends, and the rule accepts it. -/
theorem program_match_partial (hrun : Run L setOrder [] h) (hr : RuleAt h root) (hst : Spec.Steady .plain h root)
    (hp : ∀ a b, pid a = pid b → a = b) (hs : SetOrder setOrder) (hh : ∀ a b, hash a = hash b → a = b)
    (hsilent : ∀ (x : Nat) o, Reach h root x → h[x]? = some o → o.silent)
    (hb : buildParser L setOrder c split relation pid limit root h = .ok (b, h'))
    {B : Bounds} (hB : EmptiesFound b.grammar B) (hnull : ¬ B.null b.grammar.start) {fuel : Nat}
    {r : Except Err (Option (Match Pred) × Store)} (hx : matchText b.grammar b.agreement hash toks fuel = some r) :
    ∃ x σ, r = .ok (x, σ) ∧
      (Accepts L (c.activation L split) h root toks 0 toks.length →
        ∃ m, x = some m ∧ m.tree.range = (0, toks.length)) ∧
      ∀ m, x = some m → m.tree.range.2 = toks.length ∧
        Accepts L (c.activation L split) h root toks m.tree.range.1 m.tree.range.2 := by
  obtain ⟨k1, k2, k3, k4, k5, k6, rules, k7, k8⟩ := program_parts hrun hr hp hb
  obtain ⟨q1, q4⟩ := program_predict hrun hr hp hs hb
  have q2 : PredictLossless b.grammar := by
    rw [k7]
    exact (library_predict (start := b.grammar.start) hs k8).2
  obtain ⟨h1, h2⟩ := program_silent hrun hr hp hs hsilent hb
  rw [← matchText_sameOn h1 h2] at hx
  have hA : ∀ r, (⟨fun _ => none, relation⟩ : Agreement).relationOf r = none := fun _ => rfl
  have hch : ∃ cols, chart b.grammar hash toks false fuel = some cols := by
    unfold matchText matchStates at hx
    rw [Option.map_map] at hx
    obtain ⟨cols, h, _⟩ := Option.map_eq_some_iff.1 hx
    exact ⟨cols, h⟩
  obtain ⟨cols, hch⟩ := hch
  obtain ⟨r1, r2⟩ := program_reports hrun hr hst hp hs hh hb hB hnull hch
  obtain ⟨x, σ, rfl⟩ := match_ok q1 q2 hx (fun t ht => checkable_of_no_relations hA (r1 t ht).1)
  refine ⟨x, σ, rfl, fun ha => ?_, ?_⟩
  · obtain ⟨t, t1, t2⟩ := r2 0 toks.length ha (.inl rfl) (.inr rfl)
    have hpass : Passes ⟨fun _ => none, relation⟩ t := by
      obtain ⟨home, n, hl⟩ := reported_laid q1 t1
      obtain ⟨⟨y, σ'⟩, hy⟩ := (prepareMatch_total hl storeOK_init).2 (checkable_of_no_relations hA (r1 t t1).1)
      cases y with
      | some m => exact ⟨m, σ', hy⟩
      | none => exact absurd ⟨Store.init, σ', narrowsIn_of hl storeOK_init, hy⟩ (not_rejected hA t)
    obtain ⟨m, rfl⟩ := (match_iff q1 q2 hx).2 ⟨t, t1, hpass⟩
    refine ⟨m, rfl, ?_⟩
    obtain ⟨u, u1, u2, _, u3⟩ := match_from q1 q2 hx
    have hstop := reported_stop q1 u1
    rw [← u2]
    by_cases e : t = u
    · rw [← e, t2]
    · have h0 : t.view.1 = (0, toks.length) := t2
      refine Prod.ext ?_ hstop
      cases u3 t t1 hpass e with
      | start hl => rw [h0] at hl; exact absurd hl (Nat.not_lt_zero _)
      | longer hl _ => rw [h0] at hl; exact hl
      | same hl _ => rw [h0] at hl; exact congrArg Prod.fst hl
  · rintro m rfl
    obtain ⟨t, t1, t2, _⟩ := match_from q1 q2 hx
    have hst := reported_stop q1 t1
    have := (r1 t t1).2
    rw [t2] at this hst
    exact ⟨hst, this⟩

/-- A parser of a rule without optional or empty parts finds all there is. -/
theorem program_solid (hrun : Run L setOrder [] h) (hr : RuleAt h root) (hp : ∀ a b, pid a = pid b → a = b)
    (hsolid : ∀ (x : Nat) o, Reach h root x → h[x]? = some o → o.solid)
    (hb : buildParser L setOrder c split relation pid limit root h = .ok (b, h')) :
    EmptiesFound b.grammar (solidBounds (Reach h' b.grammar.start)) := by
  obtain ⟨k1, k2, k3, k4, k5, k6, rules, k7, k8⟩ := program_parts hrun hr hp hb
  have hso := compileRule_kept solid_stable hp k1 k2 k3 k4 hsolid
  refine solid_found .root ?_
  intro r prod hz hpr
  refine ⟨?_, program_closed k5 r prod hz hpr⟩
  obtain ⟨ps, n, i, x, k, p, p1, p2, p3, p4⟩ := Thin.prod_view k5 (fun x o hx ho => by
    have := hso x o hx ho
    unfold Thin.lined
    split
    · exact this
    · trivial) hz hpr
  rcases p4 with p4 | ⟨p4, _⟩
  · generalize prod.terms = us at p4
    cases p4 with
    | prod hm => exact hso _ _ p3 hm
    | empty hm => exact (hso _ _ p3 hm).elim
  · exact p4

/-- What is asked of a rule for the parser to do what the rule says: what the user has to get right, and what is
left out by the theorem (optional parts and agreement). -/
structure Complete (c : Context) (split : Str → List Str) (h : Heap Pred) (root : Nat) : Prop where
  /-- forward rules are defined, and not by a repetition without bounds or by a forward rule -/
  defined : ∀ a d, Reach h root a → h[a]? = some (.forward d) → ∃ r, d = some r ∧ Defining h r
  known : ∀ a ts m, Reach h root a → h[a]? = some (.prod ts m) → ∀ p, .pred p ∈ ts → ∀ q, PredPart q p → Known c q
  words : ∀ a k ls, Reach h root a → h[a]? = some (.pipe (.scheme k ls)) → ∀ l ∈ ls, split l ≠ []
  morph : ∀ a ls, Reach h root a → h[a]? = some (.pipe (.scheme .morph ls)) → ls ≠ [] → ∃ m, c.morph = some m
  steady : Spec.Steady .plain h root
  /-- no forward rule is, with no token beside it, in the place of a forward rule -/
  guarded : ∀ (a x : Nat), Reach h root a → h[a]? = some (.forward (some x)) →
    ∀ d, ¬ Thin.Open (fun _ => False) h [.rule x] [d]
  solid : ∀ (x : Nat) o, Reach h root x → h[x]? = some o → o.solid
  silent : ∀ (x : Nat) o, Reach h root x → h[x]? = some o → o.silent

/-- C60 (partial): total correctness. For a rule without optional parts and agreement relations `Parser(rule)`
succeeds, and on every text `extract`, `findall` and `match` end without raising: `extract` reports exactly the ranges
that the rule accepts, `findall` the best choice among them, and `match` finds the whole text if the rule accepts it. -/
theorem fresh_correct_partial (hrun : Fresh L setOrder h) (hr : RuleAt h root) (hp : ∀ a b, pid a = pid b → a = b)
    (hs : SetOrder setOrder) (hh : ∀ a b, hash a = hash b → a = b) (hc : Complete c split h root) :
    ∃ N b h', (∀ limit, N ≤ limit → buildParser L setOrder c split relation pid limit root h = .ok (b, h')) ∧
      ∀ toks : List Token,
        (∃ fuel ms σ, extract b.grammar b.agreement hash toks true fuel = some (ms, σ, none) ∧
          ∀ i j, (∃ m ∈ ms, m.tree.range = (i, j)) ↔ Accepts L (c.activation L split) h root toks i j) ∧
        (∃ fuel ms σ, findall b.grammar b.agreement hash toks fuel = some (.ok (ms, σ)) ∧
          Chosen (Accepts L (c.activation L split) h root toks) (ms.map (fun m => m.tree.range))) ∧
        ∃ fuel x σ, matchText b.grammar b.agreement hash toks fuel = some (.ok (x, σ)) ∧
          (Accepts L (c.activation L split) h root toks 0 toks.length →
            ∃ m, x = some m ∧ m.tree.range = (0, toks.length)) ∧
          ∀ m, x = some m → m.tree.range.2 = toks.length ∧
            Accepts L (c.activation L split) h root toks m.tree.range.1 m.tree.range.2 := by
  have hrun' := fresh_run hrun
  obtain ⟨N, b, h', hbuild⟩ := fresh_parser_builds_partial (c := c) (split := split) (relation := relation) hrun hp hr
    hc.defined (fun a d b r ha ho => hc.solid a _ ha ho) hc.known hc.words hc.morph
  refine ⟨N, b, h', hbuild, fun toks => ?_⟩
  have hb := hbuild N (Nat.le_refl N)
  have hu := solid_consumes hc.solid hc.guarded
  have hB := program_solid hrun' hr hp hc.solid hb
  obtain ⟨⟨f1, r1, e1⟩, ⟨f2, r2, e2⟩, e3⟩ := fresh_terminates (hash := hash) hrun hr hp hs hu hb toks
  obtain ⟨f3, ⟨ms3, σ3, er3⟩, e3⟩ := e3 true
  refine ⟨⟨f3, ms3, σ3, ?_, fun i j => ?_⟩, ?_, ?_⟩
  · rw [e3, (program_recognises_partial hrun' hr hc.steady hp hs hh hc.solid hc.silent hb e3 0 0).1]
  · exact (program_recognises_partial hrun' hr hc.steady hp hs hh hc.solid hc.silent hb e3 i j).2
  · obtain ⟨ms, σ, rfl, hch⟩ := program_findall_partial hrun' hr hc.steady hp hs hh hc.silent hb hB (fun h => h) e1
    exact ⟨f1, ms, σ, e1, hch⟩
  · obtain ⟨x, σ, rfl, hm⟩ := program_match_partial hrun' hr hc.steady hp hs hh hc.silent hb hB (fun h => h) e2
    exact ⟨f2, x, σ, e2, hm⟩

/-! ### Samples -/

theorem fresh_makes : ∀ {os g : Heap Pred}, makeAll g os = true →
    RunWith L setOrder (fun _ _ => False) g (g ++ os) := by
  intro os
  induction os with
  | nil => intro g _; rw [List.append_nil]; exact .nil
  | cons o os ih =>
    intro g e
    simp only [makeAll, Bool.and_eq_true] at e
    have := ih e.2
    rw [List.append_assoc] at this
    exact .cons (.make (makeable_ok e.1)) this

theorem fresh_trans {f g k : Heap Pred} (h1 : RunWith L setOrder (fun _ _ => False) f g)
    (h2 : RunWith L setOrder (fun _ _ => False) g k) : RunWith L setOrder (fun _ _ => False) f k := by
  induction h1 with
  | nil => exact h2
  | cons a _ ih => exact .cons a (ih h2)

/-- `X = forward(); X.define(or_(rule(rule('a').repeatable(max=2), X), pipeline(['b c'])))`. -/
def chainSource : Heap Pred :=
  [.forward (some 7), .prod [.pred (.eq "a".toList)] 0, .rule [1], .maxBounded 2 2 false,
   .prod [.rule 3, .rule 0] 0, .rule [4], .pipe (.scheme .exact ["b c".toList]), .or [5, 6]]

theorem chainSource_fresh : Fresh L setOrder chainSource :=
  fresh_trans (fresh_makes (g := []) (os := .forward none :: chainSource.tail) (by decide +kernel))
    (.cons (.define (a := 0) (c := none) (r := 7) rfl ⟨.or [5, 6], rfl, rfl⟩) .nil)

theorem chainSource_token : HasToken chainSource 7 := by
  have h1 : HasToken chainSource 1 := .token (p := .eq "a".toList) rfl List.mem_cons_self
  have h2 : HasToken chainSource 2 := .parts (o := .rule [1]) rfl rfl (by simpa [Obj.children] using h1)
  have h3 : HasToken chainSource 3 := .parts (o := .maxBounded 2 2 false) rfl rfl (by simpa [Obj.children] using h2)
  have h4 : HasToken chainSource 4 := .part (r := 3) rfl List.mem_cons_self h3
  have h5 : HasToken chainSource 5 := .parts (o := .rule [4]) rfl rfl (by simpa [Obj.children] using h4)
  have h6 : HasToken chainSource 6 := .pipe rfl
  exact .parts (o := .or [5, 6]) rfl rfl (by simpa [Obj.children] using ⟨h5, h6⟩)

/-- The hypotheses of `fresh_correct_partial` hold of it. -/
theorem chainSource_complete_in {c : Context} {split : Str → List Str} (hw : split "b c".toList ≠ []) :
    Complete c split chainSource 0 := by
  have at_ : ∀ {a : Nat} {o : Obj Pred}, chainSource[a]? = some o → o ∈ chainSource := List.mem_of_getElem?
  refine ⟨?_, ?_, ?_, ?_, ⟨?_, ?_, ?_⟩, ?_, ?_, ?_⟩
  · intro a d _ h
    have : some (Obj.or (P := Pred) [5, 6]) = chainSource[7]? := rfl
    have hm := at_ h
    simp only [chainSource, List.mem_cons, List.not_mem_nil, reduceCtorEq, or_false, Obj.forward.injEq] at hm
    exact ⟨7, hm, .plain this.symm rfl⟩
  · intro a ts m _ h p hp q hq
    have hm := at_ h
    simp only [chainSource, List.mem_cons, List.not_mem_nil, reduceCtorEq, or_false, false_or,
      Obj.prod.injEq] at hm
    rcases hm with ⟨rfl, _⟩ | ⟨rfl, _⟩ <;> simp at hp
    subst hp; cases hq; trivial
  · intro a k ls _ h l hl
    have hm := at_ h
    simp only [chainSource, List.mem_cons, List.not_mem_nil, reduceCtorEq, or_false, false_or,
      Obj.pipe.injEq, Pipe.scheme.injEq] at hm
    obtain ⟨_, rfl⟩ := hm
    simp only [List.mem_cons, List.not_mem_nil, or_false] at hl
    subst hl
    exact hw
  · intro a ls _ h _
    have hm := at_ h
    simp [chainSource] at hm
  · intro a o _ h
    have ho := at_ h
    simp only [chainSource, List.mem_cons, List.not_mem_nil, or_false] at ho
    rcases ho with rfl | rfl | rfl | rfl | rfl | rfl | rfl | rfl <;>
      first | trivial | (simp only [Obj.bounds]; omega)
  · intro a o _ h
    have ho := at_ h
    simp only [chainSource, List.mem_cons, List.not_mem_nil, or_false] at ho
    rcases ho with rfl | rfl | rfl | rfl | rfl | rfl | rfl | rfl <;> trivial
  · intro a o _ h
    have ho := at_ h
    simp only [chainSource, List.mem_cons, List.not_mem_nil, or_false] at ho
    rcases ho with rfl | rfl | rfl | rfl | rfl | rfl | rfl | rfl <;> (intro _ _ _ _ _ e; cases e)
  · intro a x _ h d
    have hm := at_ h
    simp only [chainSource, List.mem_cons, List.not_mem_nil, reduceCtorEq, or_false, Obj.forward.injEq,
      Option.some.injEq] at hm
    subst hm
    exact token_open chainSource_token _
  · intro a o _ h
    have ho := at_ h
    simp only [chainSource, List.mem_cons, List.not_mem_nil, or_false] at ho
    rcases ho with rfl | rfl | rfl | rfl | rfl | rfl | rfl | rfl <;> simp [Obj.solid]
  · intro a o _ h
    have ho := at_ h
    simp only [chainSource, List.mem_cons, List.not_mem_nil, or_false] at ho
    rcases ho with rfl | rfl | rfl | rfl | rfl | rfl | rfl | rfl <;> simp [Obj.silent]

theorem chainSource_complete : Complete sampleContext sampleSplit chainSource 0 :=
  chainSource_complete_in (by decide +kernel)

example : Fresh sampleLang sampleOrder chainSource ∧ RuleAt chainSource 0 ∧
    Complete sampleContext sampleSplit chainSource 0 ∧
    reportedRanges chainSource 0 (["a", "b", "c", "a", "b"].map sourceWord) = some [(1, 3), (0, 3)] :=
  ⟨chainSource_fresh, ⟨_, rfl, rfl⟩, chainSource_complete, by decide +kernel⟩

/-- `rule(rule('a', rule('b').optional()).repeatable(), 'c')`. -/
def trailSource : Heap Pred :=
  [.prod [.pred (.eq "b".toList)] 0, .rule [0], .optional 1 false, .prod [.pred (.eq "a".toList), .rule 2] 0,
   .rule [3], .repeatable 4 false, .prod [.rule 5, .pred (.eq "c".toList)] 0, .rule [6]]

theorem trailSource_consumes : Consumes trailSource 7 := by
  refine tokens_consume (fun a x _ h => ?_) (fun a o r _ h hr => ?_)
  · have hm := List.mem_of_getElem? h
    simp [trailSource] at hm
  · have hm := List.mem_of_getElem? h
    simp only [trailSource, List.mem_cons, List.not_mem_nil, or_false] at hm
    rcases hm with rfl | rfl | rfl | rfl | rfl | rfl | rfl | rfl <;> cases hr
    have h3 : HasToken trailSource 3 := .token (p := .eq "a".toList) rfl List.mem_cons_self
    exact .parts (o := .rule [3]) rfl rfl (by simpa [Obj.children] using h3)

/-- The hypotheses of `fresh_terminates` hold of a repeated rule with an optional part. -/
example : Fresh sampleLang sampleOrder trailSource ∧ RuleAt trailSource 7 ∧ Consumes trailSource 7 ∧
    reportedRanges trailSource 7 (["a", "b", "a", "c"].map sourceWord) = some [(2, 4), (0, 4)] :=
  ⟨fresh_makes (g := []) (os := trailSource) (by decide +kernel), ⟨_, rfl, rfl⟩, trailSource_consumes,
    by decide +kernel⟩

end Yargy
