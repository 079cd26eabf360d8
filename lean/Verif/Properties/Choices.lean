import Verif.Proofs.PickProgram
import Verif.Properties.Labels
import Verif.Properties.Order
/-!
C50: parses are ordered by the choices that the rule leaves open, in the order in which they are
written. C19: repetition is greedy unless reversed.
-/
namespace Yargy
open Spec Pick

variable {L : Lang} {setOrder : List Str → List Str} {c : Context} {split : Str → List Str}
  {relation : Nat → Relation} {pid : Nat → Nat} {limit root : Nat} {h h' : Heap Pred} {b : Built}
  {H : Type} [DecidableEq H] {hash : Key → H} {toks : List Token}

/-- The choices that a derivation shows. -/
def choices (G : Grammar Pred Token) (d : DTree Pred Token) : List Nat := alts (marks G d)

theorem program_picks (hrun : Run L setOrder [] h) (hr : RuleAt h root) (ho : Orderly (settle h) root)
    (hp : ∀ a b, pid a = pid b → a = b) (hs : SetOrder setOrder)
    (hb : buildParser L setOrder c split relation pid limit root h = .ok (b, h')) :
    (∀ w, Pick.Words h' b.grammar.start w ↔ Picks (c.activation L split) (settle h) [.rule root] w) ∧
      Belongs L h' b.grammar (Reach h' b.grammar.start) ∧ isBnf h' b.grammar.start = true ∧
      PredictSound b.grammar ∧ PredictLossless b.grammar ∧
      KeepsOrder b.grammar toks (Reach h' b.grammar.start) := by
  obtain ⟨h1, h2, h3, h4, h5, h6, rules, h7, h8⟩ := program_parts hrun hr hp hb
  obtain ⟨k1, k2⟩ := compileRule_picks hp h1 h2 h3 ho h4
  obtain ⟨q1, q2⟩ := library_predict (start := b.grammar.start) hs h8
  rw [← h7] at q1 q2
  obtain ⟨start, e1, e2, _⟩ := buildParser_parts hb
  rw [h4] at e1
  cases e1
  exact ⟨k1, h5, h6, q1, q2, keepsOrder e2 h5 k2⟩

/-- C50: every parse shows choices that the rule leaves open, and that fit the text. -/
theorem parse_choices (hrun : Run L setOrder [] h) (hr : RuleAt h root) (ho : Orderly (settle h) root)
    (hp : ∀ a b, pid a = pid b → a = b) (hs : SetOrder setOrder)
    (hb : buildParser L setOrder c split relation pid limit root h = .ok (b, h')) {i j : Nat}
    {d : DTree Pred Token} (hd : Derives b.grammar toks (.rule b.grammar.start) i j d) :
    Picks (c.activation L split) (settle h) [.rule root] (marks b.grammar d) ∧
      Suits (Pred.accepts L) toks (marks b.grammar d) i j := by
  obtain ⟨h1, h2, h3, _⟩ := program_picks (toks := toks) hrun hr ho hp hs hb
  obtain ⟨k1, k2⟩ := derives_tells h2 hd (fun r e => by cases e; exact ⟨.root, h3⟩)
  exact ⟨(h1 _).1 k1, k2⟩

/-- C50: whatever choices fit the text, there is a parse that makes the same choices, or earlier
ones (when the same thing is offered twice). -/
theorem choices_parse (hrun : Run L setOrder [] h) (hr : RuleAt h root) (ho : Orderly (settle h) root)
    (hp : ∀ a b, pid a = pid b → a = b) (hs : SetOrder setOrder)
    (hb : buildParser L setOrder c split relation pid limit root h = .ok (b, h')) {i j : Nat}
    {w : List (Mark Pred)} (hw : Picks (c.activation L split) (settle h) [.rule root] w)
    (hf : Suits (Pred.accepts L) toks w i j) :
    ∃ d, Derives b.grammar toks (.rule b.grammar.start) i j d ∧
      (choices b.grammar d = alts w ∨ Sooner (choices b.grammar d) (alts w)) := by
  obtain ⟨h1, h2, h3, _⟩ := program_picks (toks := toks) hrun hr ho hp hs hb
  obtain ⟨d, hd, hn, _⟩ := tells_derives h2 .root h3 ((h1 w).2 hw) hf
  exact ⟨d, hd, hn⟩

/-- C50: different parses of a piece of the text make different choices. -/
theorem choices_unique (hrun : Run L setOrder [] h) (hr : RuleAt h root) (ho : Orderly (settle h) root)
    (hp : ∀ a b, pid a = pid b → a = b) (hs : SetOrder setOrder)
    (hb : buildParser L setOrder c split relation pid limit root h = .ok (b, h')) {i j j' : Nat}
    {d d' : DTree Pred Token} (hd : Derives b.grammar toks (.rule b.grammar.start) i j d)
    (hd' : Derives b.grammar toks (.rule b.grammar.start) i j' d')
    (e : choices b.grammar d = choices b.grammar d') : d = d' := by
  obtain ⟨_, h2, h3, _, h5, h6⟩ := program_picks (toks := toks) hrun hr ho hp hs hb
  exact choices_differ h2 h5 h6 .root h3 hd hd' e

/-- C50: reported parses of the same piece of the text are ordered by their choices, read from left to
right. -/
theorem parse_order (hrun : Run L setOrder [] h) (hr : RuleAt h root) (ho : Orderly (settle h) root)
    (hp : ∀ a b, pid a = pid b → a = b) (hs : SetOrder setOrder)
    (hb : buildParser L setOrder c split relation pid limit root h = .ok (b, h'))
    {all : Bool} {fuel : Nat} {cols : List (Column Pred Token H)}
    (hc : chart b.grammar hash toks all fuel = some cols) (s t : State Pred Token)
    (hs1 : s ∈ chartMatches b.grammar.start all cols) (ht : t ∈ chartMatches b.grammar.start all cols)
    (hst : s.tree.range = t.tree.range) :
    ∃ v, treeLt s.tree t.tree = .ok v ∧
      (v = true ↔ Sooner (choices b.grammar s.tree.root.erase) (choices b.grammar t.tree.root.erase)) := by
  obtain ⟨_, h2, h3, h4, h5, h6⟩ := program_picks (toks := toks) hrun hr ho hp hs hb
  obtain ⟨v, k1, k2⟩ := treeLt_preferred h4 hc s t hs1 ht
  refine ⟨v, k1, k2.trans ?_⟩
  have d1 := chart_matches_sound h4 hc s hs1
  have d2 := chart_matches_sound h4 hc t ht
  have e1 : s.start = t.start := congrArg Prod.fst hst
  rw [← e1] at d2
  have key := earlier_iff h2 h5 h6 .root h3 d1 d2
  refine Iff.trans ?_ key
  constructor
  · intro hh
    cases hh with
    | start h5 => exact absurd h5 (by show ¬ s.start < t.start; omega)
    | longer _ h5 =>
      have : s.stop = t.stop := congrArg Prod.snd hst
      exact absurd h5 (by show ¬ t.stop < s.stop; omega)
    | same _ h5 => exact h5
  · intro hh
    exact .same hst hh

/-! ### Repetitions -/

theorem alts_head {P : Type} (n m : Nat) (w : List (Mark P)) : alts (.note (.head n m) :: w) = alts w := rfl

/-- When one list of repetitions is longer than another and the items before the last one of the shorter
list make the same choices, the longer is preferred, or with `reverse` the shorter. -/
theorem laps_order {P : Type} (v : Bool) : ∀ {us vs : List (List (Mark P))}, us ≠ [] →
    us.length < vs.length → (∀ n, n + 1 < us.length → us[n]?.map alts = vs[n]?.map alts) → ∀ p p',
    (v = false → Sooner (alts (lapMarks v vs) ++ p') (alts (lapMarks v us) ++ p)) ∧
    (v = true → Sooner (alts (lapMarks v us) ++ p) (alts (lapMarks v vs) ++ p'))
  | [], _, h, _, _, _, _ => absurd rfl h
  | _ :: _, [], _, h, _, _, _ => by simp at h
  | _ :: _, [_], _, h, _, _, _ => by simp at h
  | [x], y :: z :: ws, _, _, _, p, p' => by
    rw [lapMarks, lapMarks, alts, alts]
    constructor
    · rintro rfl; exact .here (by decide)
    · rintro rfl; exact .here (by decide)
  | u :: u' :: us, y :: z :: ws, _, hl, he, p, p' => by
    have e := he 0 (by simp)
    simp only [List.getElem?_cons_zero, Option.map_some, Option.some.injEq] at e
    have := laps_order v (us := u' :: us) (vs := z :: ws) (by simp) (by simpa using hl)
      (fun n hn => by simpa using he (n + 1) (by simpa using hn)) p p'
    rw [lapMarks, lapMarks, alts, alts, alts_head, alts_head, alts_append, alts_append, e]
    simp only [List.cons_append, List.append_assoc]
    exact ⟨fun e => .later (sooner_prefix _ (this.1 e)), fun e => .later (sooner_prefix _ (this.2 e))⟩

/-- The same where only so many repetitions are allowed. -/
theorem laps_order_upTo {P : Type} (v : Bool) : ∀ {m : Nat} {us vs : List (List (Mark P))}, us ≠ [] →
    us.length < vs.length → vs.length ≤ m + 1 →
    (∀ n, n + 1 < us.length → us[n]?.map alts = vs[n]?.map alts) → ∀ p p',
    (v = false → Sooner (alts (lapMarksUpTo v m vs) ++ p') (alts (lapMarksUpTo v m us) ++ p)) ∧
    (v = true → Sooner (alts (lapMarksUpTo v m us) ++ p) (alts (lapMarksUpTo v m vs) ++ p'))
  | _, [], _, h, _, _, _, _, _ => absurd rfl h
  | _, _ :: _, [], _, h, _, _, _, _ => by simp at h
  | _, _ :: _, [_], _, h, _, _, _, _ => by simp at h
  | 0, _ :: _, _ :: _ :: _, _, _, h, _, _, _ => by simp at h
  | m + 1, [x], y :: z :: ws, _, _, _, _, p, p' => by
    rw [lapMarksUpTo, lapMarksUpTo, alts, alts]
    constructor
    · rintro rfl; exact .here (by decide)
    · rintro rfl; exact .here (by decide)
  | m + 1, u :: u' :: us, y :: z :: ws, _, hl, hm, he, p, p' => by
    have e := he 0 (by simp)
    simp only [List.getElem?_cons_zero, Option.map_some, Option.some.injEq] at e
    have := laps_order_upTo v (m := m) (us := u' :: us) (vs := z :: ws) (by simp) (by simpa using hl)
      (by simp at hm ⊢; omega) (fun n hn => by simpa using he (n + 1) (by simpa using hn)) p p'
    rw [lapMarksUpTo, lapMarksUpTo, alts, alts, alts_head, alts_head, alts_append, alts_append, e]
    simp only [List.cons_append, List.append_assoc]
    exact ⟨fun e => .later (sooner_prefix _ (this.1 e)), fun e => .later (sooner_prefix _ (this.2 e))⟩

theorem alts_flatten {P : Type} (us : List (List (Mark P))) : alts us.flatten = (us.map alts).flatten := by
  induction us with
  | nil => rfl
  | cons u us ih => simp [alts_append, ih]

/-- The same of repetitions of any kind. -/
theorem rounds_order {P : Type} (v : Bool) {least : Nat} {most : Option Nat} {us vs : List (List (Mark P))}
    (h0 : 1 ≤ least) (h1 : least ≤ us.length) (h2 : us.length < vs.length)
    (h3 : ∀ m, most = some m → vs.length ≤ m)
    (he : ∀ n, n + 1 < us.length → us[n]?.map alts = vs[n]?.map alts) (p p' : List Nat) :
    (v = false → Sooner (alts (rounds v least most vs) ++ p') (alts (rounds v least most us) ++ p)) ∧
    (v = true → Sooner (alts (rounds v least most us) ++ p) (alts (rounds v least most vs) ++ p')) := by
  have e1 : alts (us.take (least - 1)).flatten = alts (vs.take (least - 1)).flatten := by
    rw [alts_flatten, alts_flatten]
    congr 1
    apply List.ext_getElem?
    intro n
    rw [List.getElem?_map, List.getElem?_map, List.getElem?_take, List.getElem?_take]
    split
    · exact he n (by omega)
    · rfl
  have n0 : us.drop (least - 1) ≠ [] := by
    intro e
    have := congrArg List.length e
    simp at this; omega
  have n1 : (us.drop (least - 1)).length < (vs.drop (least - 1)).length := by simp; omega
  have n2 : ∀ n, n + 1 < (us.drop (least - 1)).length →
      (us.drop (least - 1))[n]?.map alts = (vs.drop (least - 1))[n]?.map alts := by
    intro n hn
    rw [List.getElem?_drop, List.getElem?_drop]
    simp at hn
    exact he _ (by omega)
  unfold rounds
  simp only [alts_append, e1, List.append_assoc, alts_entry none]
  cases most with
  | none =>
    have := laps_order v n0 n1 n2 p p'
    exact ⟨fun e => sooner_prefix _ (sooner_prefix _ (this.1 e)),
      fun e => sooner_prefix _ (sooner_prefix _ (this.2 e))⟩
  | some m =>
    have := laps_order_upTo v (m := m - least) n0 n1 (by have := h3 m rfl; simp; omega) n2 p p'
    exact ⟨fun e => sooner_prefix _ (sooner_prefix _ (this.1 e)),
      fun e => sooner_prefix _ (sooner_prefix _ (this.2 e))⟩

section picks
variable {P : Type} {A : Activation P} {h : Heap P}

theorem picks_append {ts us : List (Piece P)} {w : List (Mark P)} :
    Picks A h (ts ++ us) w ↔ ∃ v v', Picks A h ts v ∧ Picks A h us v' ∧ w = v ++ v' := by
  induction ts generalizing w with
  | nil =>
    constructor
    · exact fun s => ⟨[], w, .nil, s, rfl⟩
    · rintro ⟨v, v', s1, s2, rfl⟩; cases s1; exact s2
  | cons t ts ih =>
    constructor
    · intro s
      cases s with
      | pred s => obtain ⟨v, v', s1, s2, rfl⟩ := ih.1 s; exact ⟨_, _, .pred s1, s2, rfl⟩
      | note s => obtain ⟨v, v', s1, s2, rfl⟩ := ih.1 s; exact ⟨_, _, .note s1, s2, rfl⟩
      | rule h1 h2 h3 s =>
        obtain ⟨v, v', s1, s2, rfl⟩ := ih.1 s
        exact ⟨_, _, .rule h1 h2 h3 s1, s2, by simp⟩
    · rintro ⟨v, v', s1, s2, rfl⟩
      cases s1 with
      | pred s => exact .pred (ih.2 ⟨_, _, s, s2, rfl⟩)
      | note s => exact .note (ih.2 ⟨_, _, s, s2, rfl⟩)
      | rule h1 h2 h3 s =>
        rw [List.append_assoc]
        exact .rule h1 h2 h3 (ih.2 ⟨_, _, s, s2, rfl⟩)

theorem picks_rule {a : Nat} {o : Obj P} (ho : h[a]? = some o) {w : List (Mark P)} :
    Picks A h [.rule a] w ↔ ∃ us, Offers A o us ∧ Picks A h us w := by
  constructor
  · intro s
    cases s with
    | rule h1 h2 h3 s =>
      rw [ho] at h1; cases h1
      cases s
      exact ⟨_, h2, by simpa using h3⟩
  · rintro ⟨us, h1, h2⟩
    have := Picks.rule ho h1 h2 .nil
    simpa using this

theorem offers_other {o : Obj P} (h1 : ∀ ts m, o ≠ .prod ts m) (h2 : ∀ d l, o ≠ .pipe (.scheme d l))
    {us : List (Piece P)} : Offers A o us ↔ Deals o us := by
  constructor
  · intro s
    cases s with
    | prod _ => exact absurd rfl (h1 _ _)
    | line _ _ => exact absurd rfl (h2 _ _)
    | other _ s => exact s
  · exact fun s => .other h1 s

theorem picks_fill_cons {r : Nat} {x : Option Note} {pat : List (Option Note)} {w : List (Mark P)} :
    Picks A h (fill r (x :: pat)) w ↔
      ∃ v v', Picks A h [partAt r x] v ∧ Picks A h (fill r pat) v' ∧ w = v ++ v' := by
  show Picks A h ([partAt r x] ++ fill r pat) w ↔ _
  exact picks_append

theorem picks_note {x : Note} {w : List (Mark P)} : Picks A h [.note x] w ↔ w = [.note x] := by
  constructor
  · intro s; cases s with | note s => cases s; rfl
  · rintro rfl; exact .note .nil

theorem picks_notes {xs : List Note} {ts : List (Piece P)} {w : List (Mark P)} :
    Picks A h (xs.map .note ++ ts) w ↔ ∃ v, Picks A h ts v ∧ w = xs.map .note ++ v := by
  induction xs generalizing w with
  | nil => simp
  | cons x xs ih =>
    rw [List.map_cons, List.cons_append]
    constructor
    · intro s
      cases s with
      | note s => obtain ⟨v, g, rfl⟩ := ih.1 s; exact ⟨v, g, rfl⟩
    · rintro ⟨v, g, rfl⟩
      exact .note (ih.2 ⟨v, g, rfl⟩)

theorem picks_fill_note {r : Nat} {x : Note} {pat : List (Option Note)} {w : List (Mark P)} :
    Picks A h (fill r (some x :: pat)) w ↔ ∃ v, Picks A h (fill r pat) v ∧ w = .note x :: v := by
  constructor
  · intro s; cases s with | note s => exact ⟨_, s, rfl⟩
  · rintro ⟨v, g, rfl⟩; exact .note g

theorem picks_fill_none {r : Nat} {pat : List (Option Note)} {w : List (Mark P)} :
    Picks A h (fill r (none :: pat)) w ↔
      ∃ v v', Picks A h [.rule r] v ∧ Picks A h (fill r pat) v' ∧ w = v ++ v' := picks_fill_cons

/-- One more, and no more. -/
theorem picks_fill_last {r : Nat} {x : Note} {w : List (Mark P)} :
    Picks A h (fill r [some x, none]) w ↔ ∃ v, Picks A h [.rule r] v ∧ w = .note x :: v :=
  picks_fill_note

theorem picks_fill_more {r : Nat} {x : Note} {pat : List (Option Note)} {w : List (Mark P)} :
    Picks A h (fill r (some x :: some (.head 2 0) :: none :: pat)) w ↔
      ∃ v v', Picks A h [.rule r] v ∧ Picks A h (fill r pat) v' ∧
        w = .note x :: .note (.head 2 0) :: (v ++ v') := by
  rw [picks_fill_note]
  constructor
  · rintro ⟨v, g, rfl⟩
    obtain ⟨v, g1, rfl⟩ := picks_fill_note.1 g
    obtain ⟨v, v', h2, h3, rfl⟩ := picks_fill_none.1 g1
    exact ⟨v, v', h2, h3, rfl⟩
  · rintro ⟨v, v', h2, h3, rfl⟩
    exact ⟨_, picks_fill_note.2 ⟨_, picks_fill_none.2 ⟨v, v', h2, h3, rfl⟩, rfl⟩, rfl⟩

theorem picks_fill_nothing {r : Nat} {x : Note} {w : List (Mark P)} :
    Picks A h (fill r [some x, some (.head 0 0)]) w ↔ w = [.note x, .note (.head 0 0)] := by
  rw [picks_fill_note]
  constructor
  · rintro ⟨v, g, rfl⟩
    obtain ⟨v, g1, rfl⟩ := picks_fill_note.1 g
    cases g1
    rfl
  · rintro rfl
    exact ⟨_, picks_fill_note.2 ⟨[], .nil, rfl⟩, rfl⟩

theorem laps_picks {r : Nat} {v : Bool} {w : List (Mark P)} :
    (∃ pat, Laps v pat ∧ Picks A h (fill r pat) w) ↔
    ∃ us, us ≠ [] ∧ (∀ u ∈ us, Picks A h [.rule r] u) ∧ w = lapMarks v us := by
  constructor
  · rintro ⟨pat, hp, s⟩
    induction hp generalizing w with
    | last =>
      obtain ⟨v2, s3, rfl⟩ := picks_fill_last.1 s
      exact ⟨[v2], by simp, by simpa using s3, by simp [lapMarks]⟩
    | more _ ih =>
      obtain ⟨v2, v'', s3, s4, rfl⟩ := picks_fill_more.1 s
      obtain ⟨us, h1, h2, rfl⟩ := ih s4
      cases us with
      | nil => exact absurd rfl h1
      | cons u us =>
        refine ⟨v2 :: u :: us, by simp, ?_, by simp [lapMarks]⟩
        intro x hx
        rcases List.mem_cons.1 hx with rfl | hx
        · exact s3
        · exact h2 x hx
  · rintro ⟨us, h1, h2, rfl⟩
    induction us with
    | nil => exact absurd rfl h1
    | cons u us ih =>
      cases us with
      | nil =>
        exact ⟨_, .last, picks_fill_last.2 ⟨u, h2 u List.mem_cons_self, rfl⟩⟩
      | cons z us =>
        obtain ⟨pat, p1, p2⟩ := ih (by simp) (fun x hx => h2 x (List.mem_cons_of_mem _ hx))
        exact ⟨_, .more p1, picks_fill_more.2 ⟨u, _, h2 u List.mem_cons_self, p2, rfl⟩⟩

theorem lapsUpTo_picks {r : Nat} {v : Bool} {m : Nat} {w : List (Mark P)} :
    (∃ pat, LapsUpTo v (m + 1) pat ∧ Picks A h (fill r pat) w) ↔
    ∃ us, us ≠ [] ∧ us.length ≤ m + 1 ∧ (∀ u ∈ us, Picks A h [.rule r] u) ∧ w = lapMarksUpTo v m us := by
  constructor
  · rintro ⟨pat, hp, s⟩
    generalize hk : m + 1 = k at hp
    induction hp generalizing w m with
    | one =>
      obtain ⟨v2, v'', s3, s4, rfl⟩ := picks_fill_cons.1 s
      cases s4
      obtain rfl : m = 0 := by omega
      exact ⟨[v2], by simp, by simp, by simpa [partAt] using s3, by simp [lapMarksUpTo]⟩
    | last =>
      obtain ⟨v2, s3, rfl⟩ := picks_fill_last.1 s
      obtain ⟨m', rfl⟩ : ∃ m', m = m' + 1 := ⟨m - 1, by omega⟩
      exact ⟨[v2], by simp, by simp, by simpa using s3, by simp [lapMarksUpTo]⟩
    | @more n pat _ ih =>
      obtain ⟨v2, v'', s3, s4, rfl⟩ := picks_fill_more.1 s
      obtain ⟨m', rfl⟩ : ∃ m', m = m' + 1 := ⟨m - 1, by omega⟩
      obtain ⟨us, h1, hl, h2, rfl⟩ := ih (m := m') s4 (by omega)
      cases us with
      | nil => exact absurd rfl h1
      | cons u us =>
        refine ⟨v2 :: u :: us, by simp, by simp at hl ⊢; omega, ?_, by simp [lapMarksUpTo]⟩
        intro x hx
        rcases List.mem_cons.1 hx with rfl | hx
        · exact s3
        · exact h2 x hx
  · rintro ⟨us, h1, hl, h2, rfl⟩
    induction us generalizing m with
    | nil => exact absurd rfl h1
    | cons u us ih =>
      cases m with
      | zero =>
        obtain rfl : us = [] := by simp at hl; exact hl
        exact ⟨_, .one, picks_fill_cons.2 ⟨u, [], h2 u List.mem_cons_self, .nil, by simp [lapMarksUpTo]⟩⟩
      | succ m =>
        cases us with
        | nil =>
          exact ⟨_, .last, picks_fill_last.2 ⟨u, h2 u List.mem_cons_self, rfl⟩⟩
        | cons z us =>
          obtain ⟨pat, p1, p2⟩ := ih (m := m) (by simp) (by simp at hl ⊢; omega)
            (fun x hx => h2 x (List.mem_cons_of_mem _ hx))
          exact ⟨_, .more p1, picks_fill_more.2 ⟨u, _, h2 u List.mem_cons_self, p2, rfl⟩⟩

theorem replicate_picks {r n : Nat} {w : List (Mark P)} :
    Picks A h (fill r (List.replicate n none)) w ↔
      ∃ us : List (List (Mark P)), us.length = n ∧ (∀ u ∈ us, Picks A h [.rule r] u) ∧ w = us.flatten := by
  induction n generalizing w with
  | zero =>
    constructor
    · intro s; cases s; exact ⟨[], rfl, by simp, rfl⟩
    · rintro ⟨us, h1, _, rfl⟩
      obtain rfl := List.length_eq_zero_iff.1 h1
      exact .nil
  | succ n ih =>
    rw [List.replicate_succ, picks_fill_cons]
    constructor
    · rintro ⟨v, v', s1, s2, rfl⟩
      obtain ⟨us, h1, h2, rfl⟩ := ih.1 s2
      refine ⟨v :: us, by simp [h1], ?_, rfl⟩
      intro x hx
      rcases List.mem_cons.1 hx with rfl | hx
      · exact s1
      · exact h2 x hx
    · rintro ⟨us, h1, h2, rfl⟩
      cases us with
      | nil => simp at h1
      | cons u us =>
        exact ⟨u, us.flatten, h2 u List.mem_cons_self,
          ih.2 ⟨us, by simpa using h1, fun x hx => h2 x (List.mem_cons_of_mem _ hx), rfl⟩, rfl⟩

theorem fill_append (r : Nat) (p q : List (Option Note)) : fill (P := P) r (p ++ q) = fill r p ++ fill r q := by
  simp [fill]

theorem fill_after' (r j : Nat) (p : List (Option Note)) :
    fill (P := P) r ((groupOf (j + 1) 0).map some ++ List.replicate j none ++ p) =
      (groupOf (j + 1) 0).map .note ++ (fill r (List.replicate j none) ++ fill r p) := by
  simp [fill, partAt]

theorem after_zero {L : List (Option Note) → Prop} {pat : List (Option Note)} : Behind 0 L pat ↔ L pat :=
  ⟨fun ⟨p, h, e⟩ => by rw [e]; exact h, fun h => ⟨pat, h, rfl⟩⟩

/-- Some repetitions that are demanded, followed by some that are not. -/
theorem picks_rounds {r : Nat} {v : Bool} {least : Nat} {most : Option Nat} (h1 : 1 ≤ least)
    (h2 : ∀ m, most = some m → least ≤ m) {T : List (Option Note) → Prop}
    (hT : ∀ pat, T pat ↔ match most with
      | none => Laps v pat
      | some m => LapsUpTo v (m - least + 1) pat) {w : List (Mark P)} :
    (∃ pat, Behind (least - 1) T pat ∧ Picks A h (fill r pat) w) ↔
    ∃ us, least ≤ us.length ∧ (∀ m, most = some m → us.length ≤ m) ∧
      (∀ u ∈ us, Picks A h [.rule r] u) ∧ w = rounds v least most us := by
  have split : ∀ {us : List (List (Mark P))}, (∀ u ∈ us, Picks A h [.rule r] u) →
      (∀ u ∈ us.take (least - 1), Picks A h [.rule r] u) ∧ ∀ u ∈ us.drop (least - 1), Picks A h [.rule r] u :=
    fun h => ⟨fun u hu => h u (List.mem_of_mem_take hu), fun u hu => h u (List.mem_of_mem_drop hu)⟩
  have join : ∀ {us vs : List (List (Mark P))}, us.length = least - 1 →
      (us ++ vs).take (least - 1) = us ∧ (us ++ vs).drop (least - 1) = vs := by
    intro us vs e
    exact ⟨by rw [← e]; simp, by rw [← e]; simp⟩
  constructor
  · rintro ⟨_, ⟨pat, hp, rfl⟩, s⟩
    rw [fill_after', picks_notes] at s
    obtain ⟨_, s, rfl⟩ := s
    rw [picks_append] at s
    obtain ⟨x, y, s1, s2, rfl⟩ := s
    rw [Nat.sub_add_cancel h1]
    obtain ⟨us, e1, e2, rfl⟩ := replicate_picks.1 s1
    cases most with
    | none =>
      obtain ⟨vs, k1, k2, rfl⟩ := laps_picks.1 ⟨pat, (hT pat).1 hp, s2⟩
      refine ⟨us ++ vs, ?_, nofun, ?_, ?_⟩
      · have : vs.length ≠ 0 := by simpa using k1
        simp; omega
      · intro u hu
        rcases List.mem_append.1 hu with hu | hu
        · exact e2 u hu
        · exact k2 u hu
      · unfold rounds
        rw [(join e1).1, (join e1).2, List.append_assoc]
    | some m =>
      obtain ⟨vs, k1, k0, k2, rfl⟩ := lapsUpTo_picks.1 ⟨pat, (hT pat).1 hp, s2⟩
      have := h2 m rfl
      refine ⟨us ++ vs, ?_, ?_, ?_, ?_⟩
      · have : vs.length ≠ 0 := by simpa using k1
        simp; omega
      · rintro _ ⟨⟩; simp; omega
      · intro u hu
        rcases List.mem_append.1 hu with hu | hu
        · exact e2 u hu
        · exact k2 u hu
      · unfold rounds
        rw [(join e1).1, (join e1).2, List.append_assoc]
  · rintro ⟨us, k1, k2, k3, rfl⟩
    obtain ⟨j1, j2⟩ := split k3
    have n0 : us.drop (least - 1) ≠ [] := by
      intro e
      have := congrArg List.length e
      simp at this; omega
    have front : Picks A h (fill r (List.replicate (least - 1) none)) (us.take (least - 1)).flatten :=
      replicate_picks.2 ⟨_, by simp; omega, j1, rfl⟩
    cases most with
    | none =>
      obtain ⟨pat, p1, p2⟩ := laps_picks.2 ⟨_, n0, j2, rfl⟩
      refine ⟨_, ⟨pat, (hT pat).2 p1, rfl⟩, ?_⟩
      rw [fill_after', picks_notes, Nat.sub_add_cancel h1]
      exact ⟨_, picks_append.2 ⟨_, _, front, p2, rfl⟩, by rw [rounds, List.append_assoc]⟩
    | some m =>
      have := h2 m rfl
      have := k2 m rfl
      obtain ⟨pat, p1, p2⟩ := lapsUpTo_picks.2 ⟨_, n0, (by simp; omega : _ ≤ m - least + 1), j2, rfl⟩
      refine ⟨_, ⟨pat, (hT pat).2 p1, rfl⟩, ?_⟩
      rw [fill_after', picks_notes, Nat.sub_add_cancel h1]
      exact ⟨_, picks_append.2 ⟨_, _, front, p2, rfl⟩, by rw [rounds, List.append_assoc]⟩

/-- The words with choices of a repeated item. -/
theorem picks_repetition {q r : Nat} {v : Bool} {least : Nat} {most : Option Nat} {o : Obj P}
    (hq : h[q]? = some o) (ho : o.bounds) (hr : o.repetition = some (r, v, least, most)) {w : List (Mark P)} :
    Picks A h [.rule q] w ↔
      ∃ us, least ≤ us.length ∧ (∀ m, most = some m → us.length ≤ m) ∧
        (∀ u ∈ us, Picks A h [.rule r] u) ∧ w = rounds v least most us := by
  rw [picks_rule hq]
  cases o with
  | repeatable r' v' =>
    cases hr
    rw [← picks_rounds (T := Laps v) (by omega) (by intro m e; cases e) (fun _ => Iff.rfl)]
    constructor
    · rintro ⟨us, h1, h2⟩
      rw [offers_other (by simp) (by simp)] at h1
      cases h1 with | repeatable hp => exact ⟨_, after_zero.2 hp, h2⟩
    · rintro ⟨pat, hp, h2⟩
      exact ⟨_, (offers_other (by simp) (by simp)).2 (.repeatable (after_zero.1 hp)), h2⟩
  | minBounded r' min v' =>
    cases hr
    rw [← picks_rounds (T := Laps v) ho (by intro m e; cases e) (fun _ => Iff.rfl)]
    constructor
    · rintro ⟨us, h1, h2⟩
      rw [offers_other (by simp) (by simp)] at h1
      cases h1 with | minBounded hp => exact ⟨_, hp, h2⟩
    · rintro ⟨pat, hp, h2⟩
      exact ⟨_, (offers_other (by simp) (by simp)).2 (.minBounded hp), h2⟩
  | maxBounded r' max v' =>
    cases hr
    have hm : 1 ≤ max := ho
    rw [← picks_rounds (T := LapsUpTo v max) (by omega) (by rintro _ ⟨⟩; exact hm)
      (fun pat => by show _ ↔ LapsUpTo v (max - 1 + 1) pat; rw [Nat.sub_add_cancel hm])]
    constructor
    · rintro ⟨us, h1, h2⟩
      rw [offers_other (by simp) (by simp)] at h1
      cases h1 with | maxBounded hp => exact ⟨_, after_zero.2 hp, h2⟩
    · rintro ⟨pat, hp, h2⟩
      exact ⟨_, (offers_other (by simp) (by simp)).2 (.maxBounded (after_zero.1 hp)), h2⟩
  | minMaxBounded r' min max v' =>
    cases hr
    rw [← picks_rounds (T := LapsUpTo v (max - least + 1)) ho.1 (by rintro _ ⟨⟩; exact ho.2)
      (fun pat => Iff.rfl)]
    constructor
    · rintro ⟨us, h1, h2⟩
      rw [offers_other (by simp) (by simp)] at h1
      cases h1 with | minMaxBounded hp => exact ⟨_, hp, h2⟩
    · rintro ⟨pat, hp, h2⟩
      exact ⟨_, (offers_other (by simp) (by simp)).2 (.minMaxBounded hp), h2⟩
  | _ => cases hr

/-- The words with choices of an item that is perhaps left out. -/
theorem picks_optional {q r : Nat} {v : Bool} (hq : h[q]? = some (.optional r v)) {w : List (Mark P)} :
    Picks A h [.rule q] w ↔ w = [.note (.alt (if v then 1 else 0)), .note (.head 0 0)] ∨
      ∃ u, Picks A h [.rule r] u ∧ w = .note (.alt (if v then 0 else 1)) :: u := by
  rw [picks_rule hq]
  constructor
  · rintro ⟨us, h1, h2⟩
    rw [offers_other (by simp) (by simp)] at h1
    cases h1 with
    | optional hp =>
      cases hp with
      | skip => exact .inl (picks_fill_nothing.1 h2)
      | take => exact .inr (picks_fill_last.1 h2)
  · rintro (rfl | ⟨u, hu, rfl⟩)
    · exact ⟨_, (offers_other (by simp) (by simp)).2 (.optional .skip), picks_fill_nothing.2 rfl⟩
    · exact ⟨_, (offers_other (by simp) (by simp)).2 (.optional .take), picks_fill_last.2 ⟨u, hu, rfl⟩⟩

theorem group_heads (n m : Nat) : ∃ heads : List (Nat × Nat),
    (groupOf n m).map (Mark.note (P := P)) = heads.map (fun x => .note (.head x.1 x.2)) := by
  unfold groupOf
  split
  · exact ⟨[], rfl⟩
  · exact ⟨[(n, m)], rfl⟩

theorem starts_alts {w v post : List (Mark P)} (h : Starts w v post) : alts w = alts (v ++ post) := by
  obtain ⟨heads, rfl⟩ := h
  induction heads with
  | nil => rfl
  | cons x heads ih => exact ih

theorem picks_leads {a q : Nat} (hl : Leads h a q) : ∀ {w : List (Mark P)}, Picks A h [.rule a] w →
    ∃ u post, Picks A h [.rule q] u ∧ Starts w u post := by
  induction hl with
  | self => intro w s; exact ⟨w, [], s, [], by simp⟩
  | rule ho _ ih =>
    intro w s
    obtain ⟨us, h1, h2⟩ := (picks_rule ho).1 s
    rw [offers_other (by simp) (by simp)] at h1
    cases h1 with
    | @rule _ i p hp =>
      have hp := List.mem_of_getElem? hp
      simp only [List.mem_singleton] at hp
      subst hp
      exact ih (by simpa [choiceOf] using h2)
  | prod ho _ ih =>
    intro w s
    obtain ⟨us, h1, h2⟩ := (picks_rule ho).1 s
    cases h1 with
    | prod hu =>
      cases hu with
      | cons ht hts =>
        cases ht
        obtain ⟨_, h3, rfl⟩ := picks_notes.1 h2
        rw [List.map_cons] at h3
        obtain ⟨v, v', s1, s2, rfl⟩ := (picks_append (ts := [Piece.rule _])).1 h3
        obtain ⟨u, post, s3, heads, rfl⟩ := ih s1
        obtain ⟨xs, e⟩ := group_heads (P := P) (List.length (_ :: _)) _
        exact ⟨u, post ++ v', s3, xs ++ heads, by rw [e]; simp⟩
    | other hn _ => exact absurd rfl (hn _ _)
  | named ho _ ih =>
    intro w s
    obtain ⟨us, h1, h2⟩ := (picks_rule ho).1 s
    rw [offers_other (by simp) (by simp)] at h1
    cases h1; exact ih h2
  | interp ho _ ih =>
    intro w s
    obtain ⟨us, h1, h2⟩ := (picks_rule ho).1 s
    rw [offers_other (by simp) (by simp)] at h1
    cases h1; exact ih h2
  | relation ho _ ih =>
    intro w s
    obtain ⟨us, h1, h2⟩ := (picks_rule ho).1 s
    rw [offers_other (by simp) (by simp)] at h1
    cases h1; exact ih h2
  | forward ho _ ih =>
    intro w s
    obtain ⟨us, h1, h2⟩ := (picks_rule ho).1 s
    rw [offers_other (by simp) (by simp)] at h1
    cases h1; exact ih h2

end picks

/-! ### C19 -/

theorem leads_reach {P : Type} {h : Heap P} {root a q : Nat} (hl : Leads h a q) :
    Reach h root a → Reach h root q := by
  induction hl with
  | self => exact id
  | rule e _ ih => exact fun k => ih (.step k e (by simp [Obj.children]))
  | prod e _ ih => exact fun k => ih (.step k e (by simp [Obj.children, termRules]))
  | named e _ ih => exact fun k => ih (.step k e (by simp [Obj.children]))
  | interp e _ ih => exact fun k => ih (.step k e (by simp [Obj.children]))
  | relation e _ ih => exact fun k => ih (.step k e (by simp [Obj.children]))
  | forward e _ ih => exact fun k => ih (.step k e (by simp [Obj.children]))

/-- C19: two reported parses of the same piece of the text that start with a repetition (of any kind)
consist of repetitions of the item with something behind them. When one has fewer of them than the other,
and they make the same choices in the items before the last one of the former, then the one with more
is preferred, or with `reverse` the one with fewer. -/
theorem repetition_order_partial (hrun : Run L setOrder [] h) (hr : RuleAt h root) (ho : Orderly (settle h) root)
    (hp : ∀ a b, pid a = pid b → a = b) (hs : SetOrder setOrder)
    (hb : buildParser L setOrder c split relation pid limit root h = .ok (b, h'))
    {q r least : Nat} {v : Bool} {most : Option Nat} {o : Obj Pred} (hl : Leads (settle h) root q)
    (hq : (settle h)[q]? = some o) (hrep : o.repetition = some (r, v, least, most))
    {all : Bool} {fuel : Nat} {cols : List (Column Pred Token H)}
    (hc : chart b.grammar hash toks all fuel = some cols) (s t : State Pred Token)
    (hs1 : s ∈ chartMatches b.grammar.start all cols) (ht : t ∈ chartMatches b.grammar.start all cols)
    (hst : s.tree.range = t.tree.range) :
    ∃ us vs post post',
      Starts (marks b.grammar s.tree.root.erase) (rounds v least most us) post ∧
      Starts (marks b.grammar t.tree.root.erase) (rounds v least most vs) post' ∧
      (∀ u ∈ us, Picks (c.activation L split) (settle h) [.rule r] u) ∧
      (∀ u ∈ vs, Picks (c.activation L split) (settle h) [.rule r] u) ∧
      (us.length < vs.length →
        (∀ n, n + 1 < us.length → us[n]?.map alts = vs[n]?.map alts) →
        (v = false → treeLt t.tree s.tree = .ok true) ∧ (v = true → treeLt s.tree t.tree = .ok true)) := by
  obtain ⟨_, _, _, h4, _⟩ := program_picks (toks := toks) hrun hr ho hp hs hb
  have hbo : o.bounds := ho.bounds q o (leads_reach hl .root) hq
  have hleast : 1 ≤ least := by
    cases o <;> cases hrep <;> first | exact Nat.le_refl 1 | exact hbo | exact hbo.1
  obtain ⟨p1, _⟩ := parse_choices hrun hr ho hp hs hb (chart_matches_sound h4 hc s hs1)
  obtain ⟨p2, _⟩ := parse_choices hrun hr ho hp hs hb (chart_matches_sound h4 hc t ht)
  obtain ⟨x, post, k1, e1⟩ := picks_leads hl p1
  obtain ⟨y, post', k2, e2⟩ := picks_leads hl p2
  obtain ⟨us, a1, a2, a3, rfl⟩ := (picks_repetition hq hbo hrep).1 k1
  obtain ⟨vs, b1, b2, b3, rfl⟩ := (picks_repetition hq hbo hrep).1 k2
  refine ⟨us, vs, post, post', e1, e2, a3, b3, fun hlt he => ?_⟩
  have key := rounds_order v hleast a1 hlt b2 he (alts post) (alts post')
  rw [← alts_append, ← alts_append, ← starts_alts e1, ← starts_alts e2] at key
  constructor
  · intro hv
    obtain ⟨z, z1, z2⟩ := parse_order hrun hr ho hp hs hb hc t s ht hs1 hst.symm
    rw [z1, z2.2 (key.1 hv)]
  · intro hv
    obtain ⟨z, z1, z2⟩ := parse_order hrun hr ho hp hs hb hc s t hs1 ht hst
    rw [z1, z2.2 (key.2 hv)]

/-- C19, where the item leaves nothing to choose: of two reported parses of the same piece of the text the
one with more repetitions is preferred, or with `reverse` the one with fewer. -/
theorem repetition_count (hrun : Run L setOrder [] h) (hr : RuleAt h root) (ho : Orderly (settle h) root)
    (hp : ∀ a b, pid a = pid b → a = b) (hs : SetOrder setOrder)
    (hb : buildParser L setOrder c split relation pid limit root h = .ok (b, h'))
    {q r least : Nat} {v : Bool} {most : Option Nat} {o : Obj Pred} (hl : Leads (settle h) root q)
    (hq : (settle h)[q]? = some o) (hrep : o.repetition = some (r, v, least, most))
    (hn : ∀ u, Picks (c.activation L split) (settle h) [.rule r] u → alts u = [])
    {all : Bool} {fuel : Nat} {cols : List (Column Pred Token H)}
    (hc : chart b.grammar hash toks all fuel = some cols) (s t : State Pred Token)
    (hs1 : s ∈ chartMatches b.grammar.start all cols) (ht : t ∈ chartMatches b.grammar.start all cols)
    (hst : s.tree.range = t.tree.range) :
    ∃ us vs post post',
      Starts (marks b.grammar s.tree.root.erase) (rounds v least most us) post ∧
      Starts (marks b.grammar t.tree.root.erase) (rounds v least most vs) post' ∧
      (∀ u ∈ us, Picks (c.activation L split) (settle h) [.rule r] u) ∧
      (∀ u ∈ vs, Picks (c.activation L split) (settle h) [.rule r] u) ∧
      (us.length < vs.length →
        (v = false → treeLt t.tree s.tree = .ok true) ∧ (v = true → treeLt s.tree t.tree = .ok true)) := by
  obtain ⟨us, vs, post, post', e1, e2, a1, a2, key⟩ :=
    repetition_order_partial hrun hr ho hp hs hb hl hq hrep hc s t hs1 ht hst
  refine ⟨us, vs, post, post', e1, e2, a1, a2, fun hlt => key hlt fun n hn' => ?_⟩
  have l1 : n < us.length := by omega
  have l2 : n < vs.length := by omega
  rw [List.getElem?_eq_getElem l1, List.getElem?_eq_getElem l2]
  simp only [Option.map_some]
  rw [hn _ (a1 _ (List.getElem_mem l1)), hn _ (a2 _ (List.getElem_mem l2))]

/-- C19: of two reported parses of the same piece of the text that start with something optional, one
that leaves it out is preferred to one that has it, or with `reverse` the other way round. -/
theorem optional_order (hrun : Run L setOrder [] h) (hr : RuleAt h root) (ho : Orderly (settle h) root)
    (hp : ∀ a b, pid a = pid b → a = b) (hs : SetOrder setOrder)
    (hb : buildParser L setOrder c split relation pid limit root h = .ok (b, h'))
    {q r : Nat} {v : Bool} (hl : Leads (settle h) root q) (hq : (settle h)[q]? = some (.optional r v))
    {all : Bool} {fuel : Nat} {cols : List (Column Pred Token H)}
    (hc : chart b.grammar hash toks all fuel = some cols) (s t : State Pred Token)
    (hs1 : s ∈ chartMatches b.grammar.start all cols) (ht : t ∈ chartMatches b.grammar.start all cols)
    (hst : s.tree.range = t.tree.range) :
    ∃ x y post post',
      Starts (marks b.grammar s.tree.root.erase) x post ∧
      Starts (marks b.grammar t.tree.root.erase) y post' ∧
      (x = [.note (.alt (if v then 1 else 0)), .note (.head 0 0)] ∨
        ∃ u, Picks (c.activation L split) (settle h) [.rule r] u ∧ x = .note (.alt (if v then 0 else 1)) :: u) ∧
      (y = [.note (.alt (if v then 1 else 0)), .note (.head 0 0)] ∨
        ∃ u, Picks (c.activation L split) (settle h) [.rule r] u ∧ y = .note (.alt (if v then 0 else 1)) :: u) ∧
      (x = [.note (.alt (if v then 1 else 0)), .note (.head 0 0)] →
        y ≠ [.note (.alt (if v then 1 else 0)), .note (.head 0 0)] →
        (v = false → treeLt s.tree t.tree = .ok true) ∧ (v = true → treeLt t.tree s.tree = .ok true)) := by
  obtain ⟨_, _, _, h4, _⟩ := program_picks (toks := toks) hrun hr ho hp hs hb
  obtain ⟨p1, _⟩ := parse_choices hrun hr ho hp hs hb (chart_matches_sound h4 hc s hs1)
  obtain ⟨p2, _⟩ := parse_choices hrun hr ho hp hs hb (chart_matches_sound h4 hc t ht)
  obtain ⟨x, post, k1, e1⟩ := picks_leads hl p1
  obtain ⟨y, post', k2, e2⟩ := picks_leads hl p2
  replace e1 : Starts (marks b.grammar s.tree.root.erase) x post := e1
  replace e2 : Starts (marks b.grammar t.tree.root.erase) y post' := e2
  have w1 := (picks_optional hq).1 k1
  have w2 := (picks_optional hq).1 k2
  refine ⟨x, y, post, post', e1, e2, w1, w2, fun hx hy => ?_⟩
  rcases w2 with w2 | ⟨u, _, rfl⟩
  · exact absurd w2 hy
  · subst hx
    constructor
    · rintro rfl
      obtain ⟨z, z1, z2⟩ := parse_order hrun hr ho hp hs hb hc s t hs1 ht hst
      rw [z1, z2.2]
      unfold choices
      rw [starts_alts e1, starts_alts e2]
      exact .here (by decide)
    · rintro rfl
      obtain ⟨z, z1, z2⟩ := parse_order hrun hr ho hp hs hb hc t s ht hs1 hst.symm
      rw [z1, z2.2]
      unfold choices
      rw [starts_alts e1, starts_alts e2]
      exact .here (by decide)

/-! ### Samples -/

/-- The reported parses of the longest beginning, in order of preference, with their choices. -/
def preferences (b : Built) (toks : List Token) : Option (List ((Nat × Nat) × List Nat)) :=
  (chart b.grammar (id : Key → Key) toks false 300).map (fun cols =>
    match sortBy treeLt [] (prepareTrees (chartMatches b.grammar.start false cols)) with
    | .ok l => l.map (fun t : Tree Pred Token => (t.range, choices b.grammar t.root.erase))
    | .error _ => [])

/-- `X = rule('a'); rule(X.repeatable(reverse=v), X.repeatable())` -/
def countSource (v : Bool) : Heap Pred :=
  [.prod [.pred (.eq "a".toList)] 0, .rule [0], .repeatable 1 v, .repeatable 1 false,
   .prod [.rule 2, .rule 3] 0, .rule [4]]

theorem countSource_run (v : Bool) : Run L setOrder [] (countSource v) :=
  makeAll_run (h := []) (by cases v <;> decide +kernel)

theorem orderly_of {P : Type} {h : Heap P} {root : Nat} (h1 : ∀ o ∈ h, o.bounds ∧ o.orderly ∧ o.entry = false)
    (h2 : Single h) :
    Orderly (settle h) root := by
  rw [settle_single h2]
  exact ⟨fun _ o _ ho => (h1 o (List.mem_of_getElem? ho)).1,
    fun _ o _ ho c q hc hq => h2 o (List.mem_of_getElem? ho) c q hc hq,
    fun _ o _ ho => (h1 o (List.mem_of_getElem? ho)).2.1, fun _ o _ ho => (h1 o (List.mem_of_getElem? ho)).2.2⟩

theorem countSource_orderly (v : Bool) (root : Nat) : Orderly (settle (countSource v)) root := by
  refine orderly_of ?_ ?_
  · intro o ho
    simp only [countSource, List.mem_cons, List.not_mem_nil, or_false] at ho
    rcases ho with rfl | rfl | rfl | rfl | rfl | rfl <;> exact ⟨trivial, trivial, rfl⟩
  · intro o ho c q hc hq
    simp only [countSource, List.mem_cons, List.not_mem_nil, or_false] at ho
    rcases ho with rfl | rfl | rfl | rfl | rfl | rfl <;> cases hc <;> cases hq <;> rfl

/-- The item of `countSource` leaves nothing to choose. -/
theorem countSource_item {A : Activation Pred} {v : Bool} {u : List (Mark Pred)}
    (hu : Picks A (settle (countSource v)) [.rule 1] u) : alts u = [] := by
  obtain ⟨us, h1, h2⟩ := (picks_rule (o := .rule [0]) rfl).1 hu
  rw [offers_other (by simp) (by simp)] at h1
  cases h1 with
  | @rule _ i p hp =>
    have hp := List.mem_of_getElem? hp
    simp only [List.mem_singleton] at hp
    subst hp
    have h5 : Picks A (settle (countSource v)) [.rule 0] u := by simpa [choiceOf] using h2
    obtain ⟨ws, h3, h4⟩ := (picks_rule (o := .prod [.pred (.eq "a".toList)] 0) rfl).1 h5
    cases h3 with
    | prod ha =>
      obtain ⟨p, rfl⟩ : ∃ p, u = [.pred p] := by
        cases ha with
        | cons ht hts =>
          cases hts
          cases ht
          cases h4 with
          | pred h4 => cases h4; exact ⟨_, rfl⟩
      rfl
    | other hn _ => exact absurd rfl (hn _ _)

/-- The hypotheses of `repetition_order_partial` and `repetition_count` are met, greedy or not; in the text
`a a a` the parses with two and with one repetition at the start come in this order, or the other. -/
example (v : Bool) : Run sampleLang sampleOrder [] (countSource v) ∧ RuleAt (countSource v) 5 ∧
    Orderly (settle (countSource v)) 5 ∧ Leads (settle (countSource v)) 5 2 ∧
    (settle (countSource v))[2]? = some (.repeatable 1 v) ∧
    (∀ u, Picks (sampleContext.activation sampleLang sampleSplit) (settle (countSource v)) [.rule 1] u → alts u = []) ∧
    ∃ b h', sampleBuild 5 (countSource v) = .ok (b, h') ∧
      preferences b (["a", "a", "a"].map sourceWord) =
        some (if v then [((0, 3), [0, 0, 1]), ((0, 3), [1, 0, 1])]
          else [((0, 3), [0, 1, 1]), ((0, 3), [1, 0, 1])]) := by
  refine ⟨countSource_run v, ⟨_, rfl, rfl⟩, countSource_orderly v 5, .rule rfl (.prod rfl .self), rfl,
    fun u => countSource_item, ?_⟩
  have key : (match sampleBuild 5 (countSource v) with
      | .ok (b, _) => decide (preferences b (["a", "a", "a"].map sourceWord) =
          some (if v then [((0, 3), [0, 0, 1]), ((0, 3), [1, 0, 1])]
            else [((0, 3), [0, 1, 1]), ((0, 3), [1, 0, 1])]))
      | .error _ => false) = true := by cases v <;> decide +kernel
  split at key
  · rename_i b h' e
    exact ⟨b, h', e, of_decide_eq_true key⟩
  · cases key

/-- `X = or_(rule('a', 'b'), rule('a'), rule('b')); rule(X.repeatable())` -/
def mixedSource : Heap Pred :=
  [.prod [.pred (.eq "a".toList), .pred (.eq "b".toList)] 0, .rule [0], .prod [.pred (.eq "a".toList)] 0,
   .rule [2], .prod [.pred (.eq "b".toList)] 0, .rule [4], .or [1, 3, 5], .repeatable 6 false,
   .prod [.rule 7] 0, .rule [8]]

theorem mixedSource_run : Run L setOrder [] mixedSource := makeAll_run (h := []) (by decide +kernel)

theorem mixedSource_orderly (root : Nat) : Orderly (settle mixedSource) root := by
  refine orderly_of ?_ ?_
  · intro o ho
    simp only [mixedSource, List.mem_cons, List.not_mem_nil, or_false] at ho
    rcases ho with rfl | rfl | rfl | rfl | rfl | rfl | rfl | rfl | rfl | rfl <;> exact ⟨trivial, trivial, rfl⟩
  · intro o ho c q hc hq
    simp only [mixedSource, List.mem_cons, List.not_mem_nil, or_false] at ho
    rcases ho with rfl | rfl | rfl | rfl | rfl | rfl | rfl | rfl | rfl | rfl <;> cases hc <;> cases hq <;> rfl

/-- More repetitions are not preferred in general: the text `a b a` is read as `ab`, `a` rather than as
`a`, `b`, `a`, because the alternative that the first item takes comes earlier. -/
theorem greedy_not_always : Run sampleLang sampleOrder [] mixedSource ∧ RuleAt mixedSource 9 ∧
    Orderly (settle mixedSource) 9 ∧ Leads (settle mixedSource) 9 7 ∧ (settle mixedSource)[7]? = some (.repeatable 6 false) ∧
    ∃ b h', sampleBuild 9 mixedSource = .ok (b, h') ∧
      preferences b (["a", "b", "a"].map sourceWord) =
        some [((0, 3), [0, 0, 1, 1]), ((0, 3), [0, 1, 0, 2, 1, 1])] := by
  refine ⟨mixedSource_run, ⟨_, rfl, rfl⟩, mixedSource_orderly 9, .rule rfl (.prod rfl .self), rfl, ?_⟩
  have key : (match sampleBuild 9 mixedSource with
      | .ok (b, _) => decide (preferences b (["a", "b", "a"].map sourceWord) =
          some [((0, 3), [0, 0, 1, 1]), ((0, 3), [0, 1, 0, 2, 1, 1])])
      | .error _ => false) = true := by decide +kernel
  split at key
  · rename_i b h' e
    exact ⟨b, h', e, of_decide_eq_true key⟩
  · cases key

/-- `X = rule('a'); rule(X.optional(reverse=v), X.repeatable())` -/
def perhapsSource (v : Bool) : Heap Pred :=
  [.prod [.pred (.eq "a".toList)] 0, .rule [0], .optional 1 v, .repeatable 1 false,
   .prod [.rule 2, .rule 3] 0, .rule [4]]

theorem perhapsSource_run (v : Bool) : Run L setOrder [] (perhapsSource v) :=
  makeAll_run (h := []) (by cases v <;> decide +kernel)

theorem perhapsSource_orderly (v : Bool) (root : Nat) : Orderly (settle (perhapsSource v)) root := by
  refine orderly_of ?_ ?_
  · intro o ho
    simp only [perhapsSource, List.mem_cons, List.not_mem_nil, or_false] at ho
    rcases ho with rfl | rfl | rfl | rfl | rfl | rfl <;> exact ⟨trivial, trivial, rfl⟩
  · intro o ho c q hc hq
    simp only [perhapsSource, List.mem_cons, List.not_mem_nil, or_false] at ho
    rcases ho with rfl | rfl | rfl | rfl | rfl | rfl <;> cases hc <;> cases hq <;> rfl

/-- The hypotheses of `optional_order` are met: the text `a a` is read without the optional part, or with
`reverse` with it. -/
example (v : Bool) : Run sampleLang sampleOrder [] (perhapsSource v) ∧ RuleAt (perhapsSource v) 5 ∧
    Orderly (settle (perhapsSource v)) 5 ∧ Leads (settle (perhapsSource v)) 5 2 ∧
    (settle (perhapsSource v))[2]? = some (.optional 1 v) ∧
    ∃ b h', sampleBuild 5 (perhapsSource v) = .ok (b, h') ∧
      preferences b (["a", "a"].map sourceWord) =
        some (if v then [((0, 2), [0, 1]), ((0, 2), [1, 0, 1])]
          else [((0, 2), [0, 0, 1]), ((0, 2), [1, 1])]) := by
  refine ⟨perhapsSource_run v, ⟨_, rfl, rfl⟩, perhapsSource_orderly v 5, .rule rfl (.prod rfl .self), rfl, ?_⟩
  have key : (match sampleBuild 5 (perhapsSource v) with
      | .ok (b, _) => decide (preferences b (["a", "a"].map sourceWord) =
          some (if v then [((0, 2), [0, 1]), ((0, 2), [1, 0, 1])]
            else [((0, 2), [0, 0, 1]), ((0, 2), [1, 1])]))
      | .error _ => false) = true := by cases v <;> decide +kernel
  split at key
  · rename_i b h' e
    exact ⟨b, h', e, of_decide_eq_true key⟩
  · cases key

end Yargy
