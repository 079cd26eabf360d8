import Verif.Properties.Choices
/-!
C19 for what is both optional and repeatable, as `.repeatable().optional()`.
-/
namespace Yargy
open Spec Pick

variable {L : Lang} {setOrder : List Str → List Str} {c : Context} {split : Str → List Str}
  {relation : Nat → Relation} {pid : Nat → Nat} {limit root : Nat} {h h' : Heap Pred} {b : Built}
  {H : Type} [DecidableEq H] {hash : Key → H} {toks : List Token}

section
variable {P : Type} {rr ro : Bool}

theorem starMarks_more (e : Bool) (w : List (Mark P)) {ws : List (List (Mark P))} (he : e = true ∨ ws ≠ []) :
    starMarks rr ro e (w :: ws) =
      .note (.alt (starMore rr ro)) :: .note (.head 2 0) :: (w ++ starMarks rr ro e ws) := by
  cases e with
  | true => rfl
  | false =>
    cases ws with
    | nil => simp at he
    | cons z ws => rfl

/-- Which of two lists of repetitions is preferred is decided where the shorter one ends: by the quantifier
that is optional if it ends by having nothing more, otherwise by the one that repeats. -/
theorem star_order {e e' : Bool} : ∀ {us vs : List (List (Mark P))}, (e = false → us ≠ []) →
    us.length < vs.length →
    (∀ n, (if e then n else n + 1) < us.length → us[n]?.map alts = vs[n]?.map alts) → ∀ p p',
    ((if e then ro else !rr) = true →
      Sooner (alts (starMarks rr ro e' vs) ++ p') (alts (starMarks rr ro e us) ++ p)) ∧
    ((if e then ro else !rr) = false →
      Sooner (alts (starMarks rr ro e us) ++ p) (alts (starMarks rr ro e' vs) ++ p'))
  | _, [], _, h, _, _, _ => by simp at h
  | [], v :: vs, hn, _, _, p, p' => by
    cases e with
    | false => exact absurd rfl (hn rfl)
    | true =>
      have : ∃ x l, alts (starMarks rr ro e' (v :: vs)) = x :: l ∧ (x = starMore rr ro ∨ x = starLast rr ro) := by
        by_cases he : e' = true ∨ vs ≠ []
        · rw [starMarks_more e' v he]; exact ⟨_, _, rfl, .inl rfl⟩
        · simp only [not_or, Bool.not_eq_true, ne_eq, Decidable.not_not] at he
          obtain ⟨rfl, rfl⟩ := he
          exact ⟨_, _, rfl, .inr rfl⟩
      obtain ⟨x, l, e1, e2⟩ := this
      rw [e1]
      show (ro = true → Sooner (x :: (l ++ p')) (starStop rr ro :: p)) ∧
        (ro = false → Sooner (starStop rr ro :: p) (x :: (l ++ p')))
      constructor
      · rintro rfl
        refine .here ?_
        rcases e2 with rfl | rfl <;> cases rr <;> decide
      · rintro rfl
        refine .here ?_
        rcases e2 with rfl | rfl <;> cases rr <;> decide
  | u :: us, [v], _, h, _, _, _ => by simp at h
  | u :: us, v :: z :: vs, hn, hl, he, p, p' => by
    rw [starMarks_more e' v (.inr (by simp))]
    by_cases hu : e = true ∨ us ≠ []
    · have e0 : alts u = alts v := by
        have := he 0 (by
          rcases hu with rfl | hu
          · simp
          · cases us with
            | nil => exact absurd rfl hu
            | cons _ _ => split <;> simp)
        simpa using this
      have ih := star_order (e := e) (e' := e') (us := us) (vs := z :: vs)
        (fun h1 => by rcases hu with h2 | h2
                      · rw [h1] at h2; cases h2
                      · exact h2) (by simpa using hl)
        (fun n hn => by
          have := he (n + 1) (by revert hn; split <;> simp)
          simpa using this) p p'
      rw [starMarks_more e u hu, alts, alts, alts_head, alts_head, alts_append, alts_append, e0]
      simp only [List.cons_append, List.append_assoc]
      exact ⟨fun x => .later (sooner_prefix _ (ih.1 x)), fun x => .later (sooner_prefix _ (ih.2 x))⟩
    · simp only [not_or, Bool.not_eq_true, ne_eq, Decidable.not_not] at hu
      obtain ⟨rfl, rfl⟩ := hu
      rw [starMarks, alts, alts]
      constructor
      · intro hr
        refine .here ?_
        revert hr; cases rr <;> cases ro <;> decide
      · intro hr
        refine .here ?_
        revert hr; cases rr <;> cases ro <;> decide

variable {A : Activation P} {h : Heap P}

theorem stars_picks {r : Nat} {w : List (Mark P)} :
    (∃ pat, Star rr ro pat ∧ Picks A h (fill r pat) w) ↔
    ∃ e us, (e = false → us ≠ []) ∧ (∀ u ∈ us, Picks A h [.rule r] u) ∧ w = starMarks rr ro e us := by
  constructor
  · rintro ⟨pat, hp, s⟩
    induction hp generalizing w with
    | stop => exact ⟨true, [], by simp, by simp, picks_fill_nothing.1 s⟩
    | last =>
      obtain ⟨v2, s3, rfl⟩ := picks_fill_last.1 s
      exact ⟨false, [v2], by simp, by simpa using s3, rfl⟩
    | more _ ih =>
      obtain ⟨v2, v'', s3, s4, rfl⟩ := picks_fill_more.1 s
      obtain ⟨e, us, h1, h2, rfl⟩ := ih s4
      refine ⟨e, v2 :: us, by simp, ?_, (starMarks_more e v2 ?_).symm⟩
      · intro x hx
        rcases List.mem_cons.1 hx with rfl | hx
        · exact s3
        · exact h2 x hx
      · cases e with
        | true => exact .inl rfl
        | false => exact .inr (h1 rfl)
  · rintro ⟨e, us, h1, h2, rfl⟩
    induction us with
    | nil =>
      cases e with
      | true => exact ⟨_, .stop, picks_fill_nothing.2 rfl⟩
      | false => exact absurd rfl (h1 rfl)
    | cons u us ih =>
      by_cases hu : e = true ∨ us ≠ []
      · obtain ⟨pat, p1, p2⟩ := ih (fun h1 => by
          rcases hu with h2 | h2
          · rw [h1] at h2; cases h2
          · exact h2) (fun x hx => h2 x (List.mem_cons_of_mem _ hx))
        rw [starMarks_more e u hu]
        exact ⟨_, .more p1, picks_fill_more.2 ⟨u, _, h2 u List.mem_cons_self, p2, rfl⟩⟩
      · simp only [not_or, Bool.not_eq_true, ne_eq, Decidable.not_not] at hu
        obtain ⟨rfl, rfl⟩ := hu
        exact ⟨_, .last, picks_fill_last.2 ⟨u, h2 u List.mem_cons_self, rfl⟩⟩

/-- The words with choices of something both optional and repeatable. -/
theorem picks_repOptional {q r : Nat} (hq : h[q]? = some (.repOptional r rr ro)) {w : List (Mark P)} :
    Picks A h [.rule q] w ↔
    ∃ e us, (e = false → us ≠ []) ∧ (∀ u ∈ us, Picks A h [.rule r] u) ∧ w = starMarks rr ro e us := by
  rw [picks_rule hq, ← stars_picks]
  constructor
  · rintro ⟨us, h1, h2⟩
    rw [offers_other (by simp) (by simp)] at h1
    cases h1 with | repOptional hp => exact ⟨_, hp, h2⟩
  · rintro ⟨pat, hp, h2⟩
    exact ⟨_, (offers_other (by simp) (by simp)).2 (.repOptional hp), h2⟩

end

/-- C19 for `.repeatable(reverse=rr).optional(reverse=ro)`, or the other way round: two reported parses of
the same piece of the text that start with it consist of repetitions with something behind them, and it is
seen whether they end by deciding that nothing more is there. When one has fewer repetitions than the
other, and they make the same choices up to where it ends, then: if it ends by having nothing more, it is
preferred unless `ro`; otherwise the other one is preferred unless `rr`. -/
theorem star_order_partial (hrun : Run L setOrder [] h) (hr : RuleAt h root) (ho : Orderly (settle h) root)
    (hp : ∀ a b, pid a = pid b → a = b) (hs : SetOrder setOrder)
    (hb : buildParser L setOrder c split relation pid limit root h = .ok (b, h'))
    {q r : Nat} {rr ro : Bool} (hl : Leads (settle h) root q) (hq : (settle h)[q]? = some (.repOptional r rr ro))
    {all : Bool} {fuel : Nat} {cols : List (Column Pred Token H)}
    (hc : chart b.grammar hash toks all fuel = some cols) (s t : State Pred Token)
    (hs1 : s ∈ chartMatches b.grammar.start all cols) (ht : t ∈ chartMatches b.grammar.start all cols)
    (hst : s.tree.range = t.tree.range) :
    ∃ e us e' vs post post',
      Starts (marks b.grammar s.tree.root.erase) (starMarks rr ro e us) post ∧
      Starts (marks b.grammar t.tree.root.erase) (starMarks rr ro e' vs) post' ∧
      (e = false → us ≠ []) ∧ (e' = false → vs ≠ []) ∧
      (∀ u ∈ us, Picks (c.activation L split) (settle h) [.rule r] u) ∧
      (∀ u ∈ vs, Picks (c.activation L split) (settle h) [.rule r] u) ∧
      (us.length < vs.length →
        (∀ n, (if e then n else n + 1) < us.length → us[n]?.map alts = vs[n]?.map alts) →
        (e = true → ro = false → treeLt s.tree t.tree = .ok true) ∧
        (e = true → ro = true → treeLt t.tree s.tree = .ok true) ∧
        (e = false → rr = false → treeLt t.tree s.tree = .ok true) ∧
        (e = false → rr = true → treeLt s.tree t.tree = .ok true)) := by
  obtain ⟨_, _, _, h4, _⟩ := program_picks (toks := toks) hrun hr ho hp hs hb
  obtain ⟨p1, _⟩ := parse_choices hrun hr ho hp hs hb (chart_matches_sound h4 hc s hs1)
  obtain ⟨p2, _⟩ := parse_choices hrun hr ho hp hs hb (chart_matches_sound h4 hc t ht)
  obtain ⟨x, post, k1, e1⟩ := picks_leads hl p1
  obtain ⟨y, post', k2, e2⟩ := picks_leads hl p2
  obtain ⟨e, us, a1, a2, rfl⟩ := (picks_repOptional hq).1 k1
  obtain ⟨e', vs, b1, b2, rfl⟩ := (picks_repOptional hq).1 k2
  refine ⟨e, us, e', vs, post, post', e1, e2, a1, b1, a2, b2, fun hlt he => ?_⟩
  have key := star_order (rr := rr) (ro := ro) (e' := e') a1 hlt he (alts post) (alts post')
  rw [← alts_append, ← alts_append, ← starts_alts e1, ← starts_alts e2] at key
  obtain ⟨z, z1, z2⟩ := parse_order hrun hr ho hp hs hb hc s t hs1 ht hst
  obtain ⟨y, y1, y2⟩ := parse_order hrun hr ho hp hs hb hc t s ht hs1 hst.symm
  refine ⟨?_, ?_, ?_, ?_⟩
  · rintro rfl rfl; rw [z1, z2.2 (key.2 rfl)]
  · rintro rfl rfl; rw [y1, y2.2 (key.1 rfl)]
  · rintro rfl rfl; rw [y1, y2.2 (key.1 rfl)]
  · rintro rfl rfl; rw [z1, z2.2 (key.2 rfl)]

/-! ### Samples -/

/-- `X = rule('a'); rule(X.repeatable(reverse=rr).optional(reverse=ro), X.repeatable())` -/
def starSource (rr ro : Bool) : Heap Pred :=
  [.prod [.pred (.eq "a".toList)] 0, .rule [0], .repeatable 1 rr, .optional 2 ro, .repeatable 1 false,
   .prod [.rule 3, .rule 4] 0, .rule [5]]

theorem starSource_run (rr ro : Bool) : Run L setOrder [] (starSource rr ro) :=
  makeAll_run (h := []) (by cases rr <;> cases ro <;> decide +kernel)

theorem starSource_settle (rr ro : Bool) : settle (starSource rr ro) =
    [.prod [.pred (.eq "a".toList)] 0, .rule [0], .repeatable 1 rr, .repOptional 1 rr ro, .repeatable 1 false,
     .prod [.rule 3, .rule 4] 0, .rule [5]] := rfl

theorem starSource_orderly (rr ro : Bool) (root : Nat) : Orderly (settle (starSource rr ro)) root := by
  rw [starSource_settle]
  refine ⟨fun _ o _ ho => ?_, fun _ o _ ho c q hc hq => ?_, fun _ o _ ho => ?_, fun _ o _ ho => ?_⟩
  all_goals
    have ho := List.mem_of_getElem? ho
    simp only [List.mem_cons, List.not_mem_nil, or_false] at ho
    rcases ho with rfl | rfl | rfl | rfl | rfl | rfl | rfl
  all_goals first | exact trivial | exact rfl | (cases hc <;> cases hq <;> rfl) | cases hc

/-- The order in which the five ways to read `a a a` (nothing, one, or two repetitions at the start, the
latter two with or without deciding that nothing more is there) are preferred. -/
def nestedOrder : Bool → Bool → List (List Nat)
  | false, false => [[0, 0, 0, 1], [1, 0, 0, 1], [1, 1, 0, 1], [1, 2, 1], [2, 0, 1]]
  | true, false => [[0, 0, 0, 1], [1, 0, 1], [2, 0, 0, 1], [2, 1, 1], [2, 2, 0, 1]]
  | false, true => [[0, 0, 2, 1], [0, 1, 1], [0, 2, 0, 1], [1, 0, 1], [2, 0, 0, 1]]
  | true, true => [[0, 0, 1], [1, 0, 1], [1, 1, 2, 1], [1, 2, 0, 1], [2, 0, 0, 1]]

/-- The hypotheses of `star_order_partial` are met, greedy or not. -/
example (rr ro : Bool) : Run sampleLang sampleOrder [] (starSource rr ro) ∧ RuleAt (starSource rr ro) 6 ∧
    Orderly (settle (starSource rr ro)) 6 ∧ Leads (settle (starSource rr ro)) 6 3 ∧
    (settle (starSource rr ro))[3]? = some (.repOptional 1 rr ro) ∧
    ∃ b h', sampleBuild 6 (starSource rr ro) = .ok (b, h') ∧
      (preferences b (["a", "a", "a"].map sourceWord)).map (·.map Prod.snd) = some (nestedOrder rr ro) := by
  refine ⟨starSource_run rr ro, ⟨_, rfl, rfl⟩, starSource_orderly rr ro 6, .rule rfl (.prod rfl .self), rfl, ?_⟩
  have key : (match sampleBuild 6 (starSource rr ro) with
      | .ok (b, _) => decide ((preferences b (["a", "a", "a"].map sourceWord)).map (·.map Prod.snd) =
          some (nestedOrder rr ro))
      | .error _ => false) = true := by cases rr <;> cases ro <;> decide +kernel
  split at key
  · rename_i b h' e
    exact ⟨b, h', e, of_decide_eq_true key⟩
  · cases key

/-- `X = rule('a'); rule(X.optional(reverse=u).optional(reverse=v), X.repeatable())` -/
def twiceSource (u v : Bool) : Heap Pred :=
  [.prod [.pred (.eq "a".toList)] 0, .rule [0], .optional 1 u, .optional 2 v, .repeatable 1 false,
   .prod [.rule 3, .rule 4] 0, .rule [5]]

/-- Of two alike the outer one counts. -/
example (u v : Bool) : (settle (twiceSource u v))[3]? = some (.optional 1 v) ∧
    ∃ b h', sampleBuild 6 (twiceSource u v) = .ok (b, h') ∧
      preferences b (["a", "a"].map sourceWord) =
        some (if v then [((0, 2), [0, 1]), ((0, 2), [1, 0, 1])]
          else [((0, 2), [0, 0, 1]), ((0, 2), [1, 1])]) := by
  refine ⟨rfl, ?_⟩
  have key : (match sampleBuild 6 (twiceSource u v) with
      | .ok (b, _) => decide (preferences b (["a", "a"].map sourceWord) =
          some (if v then [((0, 2), [0, 1]), ((0, 2), [1, 0, 1])]
            else [((0, 2), [0, 0, 1]), ((0, 2), [1, 1])]))
      | .error _ => false) = true := by cases u <;> cases v <;> decide +kernel
  split at key
  · rename_i b h' e
    exact ⟨b, h', e, of_decide_eq_true key⟩
  · cases key

end Yargy
