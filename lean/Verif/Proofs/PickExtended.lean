import Verif.Proofs.PickPasses
import Verif.Proofs.ExtendedPass
/-!
`ReplaceExtendedTransformator` keeps the words with choices of rules.
-/
namespace Yargy.Pick

variable {P : Type} {I : PassInv P} {H : Heap P}

/-- The words of `y` are those of such patterns of `r`, and cost so much more. -/
structure Pow (H : Heap P) (y r : Nat) (L : List (Option Note) → Prop)
    (C : List (Option Note) → Nat) : Prop where
  forth : ∀ pat c w, L pat → Gen H c (fill r pat) w → Gen H (C pat + c) [.rule y] w
  back : ∀ n w, Gen H n [.rule y] w → ∃ pat c, L pat ∧ Gen H c (fill r pat) w

theorem equiv_pow {x y r r' : Nat} {o : Obj P} {L : List (Option Note) → Prop}
    {C : List (Option Note) → Nat}
    (hx : H[x]? = some o) (ho : Quant o r L) (h : Equiv H r r')
    (hy : Pow H y r' L C) (hC : ∀ pat, L pat → C pat ≤ stepCost o pat.length) : Equiv H x y := by
  constructor
  · intro n w g
    obtain ⟨o', us, c, ho', hs, hc, hu⟩ := gen_one.1 g
    rw [hx] at ho'; cases ho'
    obtain ⟨m, hm, rfl⟩ := (ho us).1 hs
    have g1 := (gen_parts (pointwise_fill h m)).1 _ _ hu
    have := hC m hm
    rw [fill, List.length_map] at hc
    exact (hy.forth m c w hm g1).mono (by omega)
  · intro n w g
    obtain ⟨m, c, hm, g1⟩ := hy.back n w g
    obtain ⟨c', g2⟩ := (gen_parts (pointwise_fill h m)).2 _ _ g1
    exact ⟨_, gen_one.2 ⟨o, _, c', hx, (ho _).2 ⟨m, hm, rfl⟩, Nat.le_refl _, g2⟩⟩

/-! ### Words of the objects made here -/

theorem gen_fill_note {r n : Nat} {x : Note} {pat : List (Option Note)} {w : List (Mark P)} :
    Gen H n (fill r (some x :: pat)) w ↔ ∃ v, Gen H n (fill r pat) v ∧ w = .note x :: v := gen_note

theorem gen_fill_none {r n : Nat} {pat : List (Option Note)} {w : List (Mark P)} :
    Gen H n (fill r (none :: pat)) w ↔ ∃ c d v v', c + d ≤ n ∧ Gen H c [.rule r] v ∧
      Gen H d (fill r pat) v' ∧ w = v ++ v' := gen_cons

theorem gen_fill_one {r n : Nat} {w : List (Mark P)} :
    Gen H n (fill r [none]) w ↔ Gen H n [.rule r] w := Iff.rfl

theorem gen_or {a : Nat} {rs : List Nat} (ha : H[a]? = some (.or rs)) (h2 : ¬ rs.length ≤ 1)
    (n : Nat) (w : List (Mark P)) :
    Gen H n [.rule a] w ↔
      ∃ (i r : Nat) (v : List (Mark P)), rs[i]? = some r ∧ Gen H n [.rule r] v ∧ w = .note (.alt i) :: v := by
  rw [gen_one]
  constructor
  · rintro ⟨o, us, c, ho, hs, hc, hu⟩
    rw [ha] at ho; cases ho
    obtain ⟨i, r, hi, rfl⟩ := (alts_or rs _).1 hs
    rw [choiceOf, if_neg h2] at hu
    obtain ⟨v, g, rfl⟩ := gen_note.1 hu
    exact ⟨i, r, v, hi, g.mono (by omega), rfl⟩
  · rintro ⟨i, r, v, hi, g, rfl⟩
    refine ⟨_, _, n, ha, .or hi, by simp [stepCost], ?_⟩
    rw [choiceOf, if_neg h2]
    exact gen_note.2 ⟨v, g, rfl⟩

/-- Two alternatives in one order or the other. -/
theorem gen_or_two {o a item : Nat} {rev : Bool}
    (ho : H[o]? = some (.or (if rev then [item, a] else [a, item]))) (n : Nat) (w : List (Mark P)) :
    Gen H n [.rule o] w ↔ (∃ v, Gen H n [.rule a] v ∧ w = .note (.alt (goOn rev)) :: v) ∨
      ∃ v, Gen H n [.rule item] v ∧ w = .note (.alt (lastOne rev)) :: v := by
  rw [gen_or ho (by cases rev <;> simp)]
  cases rev with
  | false =>
    constructor
    · rintro ⟨i, r, v, hi, g, rfl⟩
      match i, hi with
      | 0, hi => cases hi; exact .inl ⟨v, g, rfl⟩
      | 1, hi => cases hi; exact .inr ⟨v, g, rfl⟩
    · rintro (⟨v, g, rfl⟩ | ⟨v, g, rfl⟩)
      · exact ⟨0, a, v, rfl, g, rfl⟩
      · exact ⟨1, item, v, rfl, g, rfl⟩
  | true =>
    constructor
    · rintro ⟨i, r, v, hi, g, rfl⟩
      match i, hi with
      | 0, hi => cases hi; exact .inr ⟨v, g, rfl⟩
      | 1, hi => cases hi; exact .inl ⟨v, g, rfl⟩
    · rintro (⟨v, g, rfl⟩ | ⟨v, g, rfl⟩)
      · exact ⟨1, a, v, rfl, g, rfl⟩
      · exact ⟨0, item, v, rfl, g, rfl⟩

/-- Three alternatives in one of four orders. -/
theorem gen_or_three {o e a item : Nat} {rr ro : Bool}
    (ho : H[o]? = some (.or (repOptionalOrder e a item rr ro))) (n : Nat) (w : List (Mark P)) :
    Gen H n [.rule o] w ↔ (∃ v, Gen H n [.rule e] v ∧ w = .note (.alt (starStop rr ro)) :: v) ∨
      (∃ v, Gen H n [.rule a] v ∧ w = .note (.alt (starMore rr ro)) :: v) ∨
      ∃ v, Gen H n [.rule item] v ∧ w = .note (.alt (starLast rr ro)) :: v := by
  rw [gen_or ho (by cases rr <;> cases ro <;> simp [repOptionalOrder])]
  cases rr <;> cases ro
  · constructor
    · rintro ⟨i, r, v, hi, g, rfl⟩
      match i, hi with
      | 0, hi => cases hi; exact .inl ⟨v, g, rfl⟩
      | 1, hi => cases hi; exact .inr (.inl ⟨v, g, rfl⟩)
      | 2, hi => cases hi; exact .inr (.inr ⟨v, g, rfl⟩)
    · rintro (⟨v, g, rfl⟩ | ⟨v, g, rfl⟩ | ⟨v, g, rfl⟩)
      · exact ⟨0, e, v, rfl, g, rfl⟩
      · exact ⟨1, a, v, rfl, g, rfl⟩
      · exact ⟨2, item, v, rfl, g, rfl⟩
  · constructor
    · rintro ⟨i, r, v, hi, g, rfl⟩
      match i, hi with
      | 0, hi => cases hi; exact .inr (.inl ⟨v, g, rfl⟩)
      | 1, hi => cases hi; exact .inr (.inr ⟨v, g, rfl⟩)
      | 2, hi => cases hi; exact .inl ⟨v, g, rfl⟩
    · rintro (⟨v, g, rfl⟩ | ⟨v, g, rfl⟩ | ⟨v, g, rfl⟩)
      · exact ⟨2, e, v, rfl, g, rfl⟩
      · exact ⟨0, a, v, rfl, g, rfl⟩
      · exact ⟨1, item, v, rfl, g, rfl⟩
  · constructor
    · rintro ⟨i, r, v, hi, g, rfl⟩
      match i, hi with
      | 0, hi => cases hi; exact .inl ⟨v, g, rfl⟩
      | 1, hi => cases hi; exact .inr (.inr ⟨v, g, rfl⟩)
      | 2, hi => cases hi; exact .inr (.inl ⟨v, g, rfl⟩)
    · rintro (⟨v, g, rfl⟩ | ⟨v, g, rfl⟩ | ⟨v, g, rfl⟩)
      · exact ⟨0, e, v, rfl, g, rfl⟩
      · exact ⟨2, a, v, rfl, g, rfl⟩
      · exact ⟨1, item, v, rfl, g, rfl⟩
  · constructor
    · rintro ⟨i, r, v, hi, g, rfl⟩
      match i, hi with
      | 0, hi => cases hi; exact .inr (.inr ⟨v, g, rfl⟩)
      | 1, hi => cases hi; exact .inr (.inl ⟨v, g, rfl⟩)
      | 2, hi => cases hi; exact .inl ⟨v, g, rfl⟩
    · rintro (⟨v, g, rfl⟩ | ⟨v, g, rfl⟩ | ⟨v, g, rfl⟩)
      · exact ⟨2, e, v, rfl, g, rfl⟩
      · exact ⟨1, a, v, rfl, g, rfl⟩
      · exact ⟨0, item, v, rfl, g, rfl⟩

theorem gen_forward {a r : Nat} (ha : H[a]? = some (.forward (some r))) (n : Nat)
    (w : List (Mark P)) : Gen H (n + 1) [.rule a] w ↔ Gen H n [.rule r] w := by
  rw [gen_one]
  constructor
  · rintro ⟨o, us, c, ho, hs, hc, hu⟩
    rw [ha] at ho; cases ho
    cases hs
    simp only [stepCost] at hc
    exact hu.mono (by omega)
  · intro g
    exact ⟨_, _, n, ha, .forward, by simp [stepCost]; omega, g⟩

theorem gen_forward_zero {a : Nat} {r : Option Nat} (ha : H[a]? = some (.forward r))
    (w : List (Mark P)) : ¬ Gen H 0 [.rule a] w := by
  rw [gen_one]
  rintro ⟨o, us, c, ho, hs, hc, hu⟩
  rw [ha] at ho; cases ho
  simp [stepCost] at hc

theorem gen_empty {a : Nat} (ha : H[a]? = some .empty) (n : Nat) (w : List (Mark P)) :
    Gen H n [.rule a] w ↔ w = [.note (.head 0 0)] := by
  rw [gen_one]
  constructor
  · rintro ⟨o, us, c, ho, hs, hc, hu⟩
    rw [ha] at ho; cases ho; cases hs
    obtain ⟨v, g, rfl⟩ := gen_note.1 hu
    rw [gen_nil] at g; rw [g]
  · rintro rfl
    exact ⟨_, _, n, ha, .empty, by simp [stepCost], .note .nil⟩

/-- `rule(*items)`. -/
theorem gen_seq {a p : Nat} {ts : List (Term P)} {m : Nat} (ha : H[a]? = some (.rule [p]))
    (hp : H[p]? = some (.prod ts m)) (n : Nat) (w : List (Mark P)) :
    Gen H n [.rule a] w ↔ Gen H n ((groupOf ts.length m).map .note ++ ts.map Term.part) w :=
  (gen_rule_one ha n w).trans (gen_at hp (fun us => ⟨fun h => by cases h; rfl, fun h => h ▸ .prod⟩) (fun _ => rfl) n w)

/-- `rule(item, other)`. -/
theorem gen_pair {a p item t : Nat} {m : Nat} (ha : H[a]? = some (.rule [p]))
    (hp : H[p]? = some (.prod [.rule item, .rule t] m)) (n : Nat) (w : List (Mark P)) :
    Gen H n [.rule a] w ↔ ∃ c d v v', c + d ≤ n ∧ Gen H c [.rule item] v ∧
      Gen H d [.rule t] v' ∧ w = .note (.head 2 m) :: (v ++ v') := by
  rw [gen_seq ha hp]
  show Gen H n (.note (.head 2 m) :: [.rule item, .rule t]) w ↔ _
  rw [gen_note]
  constructor
  · rintro ⟨v, g, rfl⟩
    obtain ⟨c, d, v, v', h1, h2, h3, rfl⟩ := gen_cons.1 g
    exact ⟨c, d, v, v', h1, h2, h3, rfl⟩
  · rintro ⟨c, d, v, v', h1, h2, h3, rfl⟩
    exact ⟨_, gen_cons.2 ⟨c, d, v, v', h1, h2, h3, rfl⟩, rfl⟩

/-- Another repetition. -/
theorem gen_fill_more {r n : Nat} {x : Note} {pat : List (Option Note)} {w : List (Mark P)} :
    Gen H n (fill r (some x :: some (.head 2 0) :: none :: pat)) w ↔
      ∃ c d v v', c + d ≤ n ∧ Gen H c [.rule r] v ∧ Gen H d (fill r pat) v' ∧
        w = .note x :: .note (.head 2 0) :: (v ++ v') := by
  rw [gen_fill_note]
  constructor
  · rintro ⟨v, g, rfl⟩
    obtain ⟨v, g1, rfl⟩ := gen_fill_note.1 g
    obtain ⟨c, d, v, v', h1, h2, h3, rfl⟩ := gen_fill_none.1 g1
    exact ⟨c, d, v, v', h1, h2, h3, rfl⟩
  · rintro ⟨c, d, v, v', h1, h2, h3, rfl⟩
    exact ⟨_, gen_fill_note.2 ⟨_, gen_fill_none.2 ⟨c, d, v, v', h1, h2, h3, rfl⟩, rfl⟩, rfl⟩

/-- Nothing. -/
theorem gen_fill_nothing {r n : Nat} {x : Note} {w : List (Mark P)} :
    Gen H n (fill r [some x, some (.head 0 0)]) w ↔ w = [.note x, .note (.head 0 0)] := by
  rw [gen_fill_note]
  constructor
  · rintro ⟨v, g, rfl⟩
    obtain ⟨v, g1, rfl⟩ := gen_fill_note.1 g
    rw [show fill (P := P) r [] = [] from rfl, gen_nil] at g1
    rw [g1]
  · rintro rfl
    exact ⟨_, gen_fill_note.2 ⟨[], .nil, rfl⟩, rfl⟩

theorem pow_repeatable {t o a p item : Nat} {rev : Bool} (ht : H[t]? = some (.forward (some o)))
    (ho : H[o]? = some (.or (if rev then [item, a] else [a, item])))
    (ha : H[a]? = some (.rule [p])) (hp : H[p]? = some (.prod [.rule item, .rule t] 0)) :
    Pow H t item (Laps rev) List.length where
  forth := by
    intro pat c w hL
    induction hL generalizing c w with
    | last =>
      intro g
      obtain ⟨v, g1, rfl⟩ := gen_fill_note.1 g; replace g := g1
      refine ((gen_forward ht _ _).2 ((gen_or_two ho _ _).2 (.inr ⟨v, g, rfl⟩))).mono ?_
      simp only [List.length_cons, List.length_nil]; omega
    | @more pat _ ih =>
      intro g
      obtain ⟨c1, c2, v, v', h1, h2, h3, rfl⟩ := gen_fill_more.1 g
      refine ((gen_forward ht _ _).2 ((gen_or_two ho _ _).2 (.inl ⟨_, (gen_pair ha hp _ _).2
        ⟨c1, pat.length + c2, v, v', Nat.le_refl _, h2, ih c2 v' h3, rfl⟩, rfl⟩))).mono ?_
      simp only [List.length_cons]; omega
  back := by
    intro n
    induction n using Nat.strongRecOn with
    | _ n ih =>
      intro w g
      cases n with
      | zero => exact (gen_forward_zero ht w g).elim
      | succ n =>
        rw [gen_forward ht, gen_or_two ho] at g
        rcases g with ⟨v, g, rfl⟩ | ⟨v, g, rfl⟩
        · obtain ⟨c1, c2, v, v', h1, h2, h3, rfl⟩ := (gen_pair ha hp _ _).1 g
          obtain ⟨pat, c, hm, g'⟩ := ih c2 (by omega) v' h3
          exact ⟨_, c1 + c, .more hm, gen_fill_more.2 ⟨c1, c, v, v', Nat.le_refl _, h2, g', rfl⟩⟩
        · exact ⟨_, n, .last, gen_fill_note.2 ⟨v, g, rfl⟩⟩

theorem pow_repOptional {t o e a p item : Nat} {rr ro : Bool}
    (ht : H[t]? = some (.forward (some o)))
    (ho : H[o]? = some (.or (repOptionalOrder e a item rr ro)))
    (he : H[e]? = some .empty)
    (ha : H[a]? = some (.rule [p])) (hp : H[p]? = some (.prod [.rule item, .rule t] 0)) :
    Pow H t item (Star rr ro) List.length where
  forth := by
    intro pat c w hL
    induction hL generalizing c w with
    | stop =>
      intro g
      obtain rfl := gen_fill_nothing.1 g
      refine ((gen_forward ht c _).2 ((gen_or_three ho _ _).2 (.inl ⟨_, (gen_empty he _ _).2 rfl,
        rfl⟩))).mono ?_
      simp only [List.length_cons, List.length_nil]; omega
    | last =>
      intro g
      obtain ⟨v, g1, rfl⟩ := gen_fill_note.1 g; replace g := g1
      refine ((gen_forward ht _ _).2 ((gen_or_three ho _ _).2 (.inr (.inr ⟨v, g, rfl⟩)))).mono ?_
      simp only [List.length_cons, List.length_nil]; omega
    | @more pat _ ih =>
      intro g
      obtain ⟨c1, c2, v, v', h1, h2, h3, rfl⟩ := gen_fill_more.1 g
      refine ((gen_forward ht _ _).2 ((gen_or_three ho _ _).2 (.inr (.inl ⟨_,
        (gen_pair ha hp _ _).2
        ⟨c1, pat.length + c2, v, v', Nat.le_refl _, h2, ih c2 v' h3, rfl⟩, rfl⟩)))).mono ?_
      simp only [List.length_cons]; omega
  back := by
    intro n
    induction n using Nat.strongRecOn with
    | _ n ih =>
      intro w g
      cases n with
      | zero => exact (gen_forward_zero ht w g).elim
      | succ n =>
        rw [gen_forward ht, gen_or_three ho] at g
        rcases g with ⟨v, g, rfl⟩ | ⟨v, g, rfl⟩ | ⟨v, g, rfl⟩
        · rw [gen_empty he] at g
          subst g
          exact ⟨_, 0, .stop, gen_fill_nothing.2 rfl⟩
        · obtain ⟨c1, c2, v, v', h1, h2, h3, rfl⟩ := (gen_pair ha hp _ _).1 g
          obtain ⟨pat, c, hm, g'⟩ := ih c2 (by omega) v' h3
          exact ⟨_, c1 + c, .more hm, gen_fill_more.2 ⟨c1, c, v, v', Nat.le_refl _, h2, g', rfl⟩⟩
        · exact ⟨_, n, .last, gen_fill_note.2 ⟨v, g, rfl⟩⟩

theorem pow_optional {o e item : Nat} {rev : Bool}
    (ho : H[o]? = some (.or (if rev then [item, e] else [e, item]))) (he : H[e]? = some .empty) :
    Pow H o item (Perhaps rev) (fun _ => 0) where
  forth := by
    intro pat c w hL g
    rw [Nat.zero_add, gen_or_two ho]
    cases hL with
    | skip =>
      obtain rfl := gen_fill_nothing.1 g
      exact .inl ⟨_, (gen_empty he _ _).2 rfl, rfl⟩
    | take =>
      obtain ⟨v, g1, rfl⟩ := gen_fill_note.1 g; replace g := g1
      exact .inr ⟨v, g, rfl⟩
  back := by
    intro n w g
    rw [gen_or_two ho] at g
    rcases g with ⟨v, g, rfl⟩ | ⟨v, g, rfl⟩
    · rw [gen_empty he] at g
      subst g
      exact ⟨_, 0, .skip, gen_fill_nothing.2 rfl⟩
    · exact ⟨_, n, .take, gen_fill_note.2 ⟨v, g, rfl⟩⟩

theorem pow_one (item : Nat) (rev : Bool) : Pow H item item (LapsUpTo rev 1) (fun _ => 0) where
  forth := by
    intro pat c w hm g
    rw [Nat.zero_add]
    cases hm with
    | one => exact g
  back := fun n w g => ⟨_, n, .one, g⟩

theorem pow_more {o a p inner item n : Nat} {rev : Bool}
    (ho : H[o]? = some (.or (if rev then [item, a] else [a, item])))
    (ha : H[a]? = some (.rule [p])) (hp : H[p]? = some (.prod [.rule item, .rule inner] 0))
    (hi : Pow H inner item (LapsUpTo rev (n + 1)) (fun _ => 0)) :
    Pow H o item (LapsUpTo rev (n + 2)) (fun _ => 0) where
  forth := by
    intro m c w hm g
    rw [Nat.zero_add, gen_or_two ho]
    cases hm with
    | last =>
      obtain ⟨v, g1, rfl⟩ := gen_fill_note.1 g; replace g := g1
      exact .inr ⟨v, g, rfl⟩
    | more hm =>
      obtain ⟨c1, c2, v, v', h1, h2, h3, rfl⟩ := gen_fill_more.1 g
      have := hi.forth _ c2 v' hm h3
      rw [Nat.zero_add] at this
      exact .inl ⟨_, (gen_pair ha hp _ _).2 ⟨c1, c2, v, v', h1, h2, this, rfl⟩, rfl⟩
  back := by
    intro N w g
    rw [gen_or_two ho] at g
    rcases g with ⟨v, g, rfl⟩ | ⟨v, g, rfl⟩
    · obtain ⟨c1, c2, v, v', h1, h2, h3, rfl⟩ := (gen_pair ha hp _ _).1 g
      obtain ⟨m, c, hm, g'⟩ := hi.back _ _ h3
      exact ⟨_, c1 + c, .more hm, gen_fill_more.2 ⟨c1, c, v, v', Nat.le_refl _, h2, g', rfl⟩⟩
    · exact ⟨_, N, .last, gen_fill_note.2 ⟨v, g, rfl⟩⟩

theorem fill_after (item j : Nat) (p : List (Option Note)) :
    fill (P := P) item ((groupOf (j + 1) 0).map some ++ List.replicate j none ++ p) =
      (groupOf (j + 1) 0).map .note ++ (List.replicate j (.rule item) ++ fill item p) := by
  simp [fill, partAt]

theorem pow_seq {y p t item j : Nat} {L : List (Option Note) → Prop} {C : List (Option Note) → Nat}
    (hC : ∀ pre pat, C pat ≤ C (pre ++ pat))
    (hy : H[y]? = some (.rule [p]))
    (hp : H[p]? = some (.prod ((List.replicate j item ++ [t]).map .rule) 0)) (ht : Pow H t item L C) :
    Pow H y item (Behind j L) C := by
  have key : ∀ n w, Gen H n [.rule y] w ↔ ∃ v, Gen H n (List.replicate j (.rule item) ++ [.rule t]) v ∧
      w = (groupOf (j + 1) 0).map .note ++ v := by
    intro n w
    rw [gen_seq hy hp, ← gen_notes]
    simp only [List.map_append, List.map_replicate, List.map_cons, List.map_nil, Term.part,
      List.length_append, List.length_replicate, List.length_cons, List.length_nil]
  constructor
  · rintro _ c w ⟨pat, hm, rfl⟩ g
    rw [fill_after, gen_notes] at g
    obtain ⟨u, g, rfl⟩ := g
    obtain ⟨c1, c2, v, v', h1, h2, h3, rfl⟩ := g.split
    have := ht.forth _ _ _ hm h3
    have hc := hC ((groupOf (j + 1) 0).map some ++ List.replicate j none) pat
    exact (key _ _).2 ⟨_, (h2.append this).mono (by omega), rfl⟩
  · intro n w g
    obtain ⟨u, g1, rfl⟩ := (key _ _).1 g
    obtain ⟨c1, c2, v, v', h1, h2, h3, rfl⟩ := g1.split
    obtain ⟨m, c, hm, g'⟩ := ht.back _ _ h3
    refine ⟨_, c1 + c, ⟨m, hm, rfl⟩, ?_⟩
    rw [fill_after, gen_notes]
    exact ⟨_, h2.append g', rfl⟩

/-! ### Making them -/

/-- Several new objects. -/
theorem fine_extend {g : Heap P} {s : St P} (hf : Fine I g s) (ext : Heap P)
    (hc : ∀ o ∈ ext, ∀ c ∈ o.children, c < g.length + ext.length)
    (hq : ∀ o ∈ ext, ∀ g', I.Q g' o) :
    Fine I (g ++ ext) { s with heap := s.heap ++ ext } where
  shape := by
    have : ∀ (ext g h : Heap P), Shape I.N g h → Shape I.N (g ++ ext) (h ++ ext) := by
      intro ext
      induction ext with
      | nil => intro g h hs; simpa using hs
      | cons o ext ih =>
        intro g h hs
        have := ih _ _ (shape_snoc I.Nmono hs (.refl o))
        simpa using this
    exact this _ _ _ hf.shape
  closed := by
    intro o ho c hcc
    rw [List.length_append]
    rw [List.mem_append] at ho
    rcases ho with ho | ho
    · have := hf.closed o ho c hcc; omega
    · exact hc o ho c hcc
  inv := by
    intro o ho
    rw [List.mem_append] at ho
    rcases ho with ho | ho
    · exact I.Qmono _ _ _ hf.closed ho (hf.inv o ho)
    · exact hq o ho _
  memo := fun e he => (hf.memo e he).mono hf.closed

/-- The builder makes a rule with these words out of `item`. -/
def Builds (I : PassInv P) (item : Nat) (s : St P) (r : Nat × St P) (L : List (Option Note) → Prop)
    (C : List (Option Note) → Nat) : Prop :=
  ∃ ext, ∀ g, Fine I g s → item < g.length →
    Fine I (g ++ ext) r.2 ∧ r.1 < (g ++ ext).length ∧
      ∀ H, g ++ ext <+: H → Pow H r.1 item L C

theorem builds_repeatable (hI : Copying I) (item : Nat) (rev : Bool) (s : St P) :
    Builds I item s (mkRepeatable item rev s) (Laps rev) List.length := by
  let l := s.heap.length
  refine ⟨[.forward (some (l + 3)), .prod [.rule item, .rule l] 0, .rule [l + 1],
    .or (if rev then [item, l + 2] else [l + 2, item])], fun g hg hi => ?_⟩
  have hl : l = g.length := hg.shape.length.symm
  have e : (mkRepeatable item rev s) = (l, { s with heap := s.heap ++
      [.forward (some (l + 3)), .prod [.rule item, .rule l] 0, .rule [l + 1],
        .or (if rev then [item, l + 2] else [l + 2, item])] }) := by
    simp [mkRepeatable, St.alloc, St.rule, l]
  rw [e]
  refine ⟨fine_extend hg _ ?_ ?_, ?_, fun H hH => ?_⟩
  · intro o ho c hc
    simp only [List.mem_cons, List.not_mem_nil, or_false] at ho
    rcases ho with rfl | rfl | rfl | rfl
    · simp [Obj.children] at hc; simp; omega
    · simp [Obj.children, termRules] at hc; simp; omega
    · simp [Obj.children] at hc; simp; omega
    · cases rev <;> simp [Obj.children] at hc <;> simp <;> omega
  · intro o ho g'
    simp only [List.mem_cons, List.not_mem_nil, or_false] at ho
    rcases ho with rfl | rfl | rfl | rfl <;> exact hI.new _ _ rfl rfl
  · simp; omega
  · refine pow_repeatable (o := l + 3) (a := l + 2) (p := l + 1) ?_ ?_ ?_ ?_
    · exact at_ext' hl hH 0 rfl
    · exact at_ext' hl hH 3 rfl
    · exact at_ext' hl hH 2 rfl
    · exact at_ext' hl hH 1 rfl

theorem builds_optional (hI : Copying I) (item : Nat) (rev : Bool) (s : St P) :
    Builds I item s (mkOptional item rev s) (Perhaps rev) (fun _ => 0) := by
  let l := s.heap.length
  refine ⟨[.empty, .or (if rev then [item, l] else [l, item])], fun g hg hi => ?_⟩
  have hl : l = g.length := hg.shape.length.symm
  have e : (mkOptional item rev s) = (l + 1, { s with heap := s.heap ++
      [.empty, .or (if rev then [item, l] else [l, item])] }) := by
    simp [mkOptional, St.alloc, l]
  rw [e]
  refine ⟨fine_extend hg _ ?_ ?_, ?_, fun H hH => ?_⟩
  · intro o ho c hc
    simp only [List.mem_cons, List.not_mem_nil, or_false] at ho
    rcases ho with rfl | rfl
    · simp [Obj.children] at hc
    · cases rev <;> simp [Obj.children] at hc <;> simp <;> omega
  · intro o ho g'
    simp only [List.mem_cons, List.not_mem_nil, or_false] at ho
    rcases ho with rfl | rfl <;> exact hI.new _ _ rfl rfl
  · simp; omega
  · refine pow_optional (e := l) ?_ ?_
    · exact at_ext' hl hH 1 rfl
    · exact at_ext' hl hH 0 rfl

theorem builds_repOptional (hI : Copying I) (item : Nat) (rr ro : Bool) (s : St P) :
    Builds I item s (mkRepOptional item rr ro s) (Star rr ro) List.length := by
  let l := s.heap.length
  refine ⟨[.forward (some (l + 4)), .empty, .prod [.rule item, .rule l] 0, .rule [l + 2],
    .or (repOptionalOrder (l + 1) (l + 3) item rr ro)], fun g hg hi => ?_⟩
  have hl : l = g.length := hg.shape.length.symm
  have e : (mkRepOptional item rr ro s) = (l, { s with heap := s.heap ++
      [.forward (some (l + 4)), .empty, .prod [.rule item, .rule l] 0, .rule [l + 2],
        .or (repOptionalOrder (l + 1) (l + 3) item rr ro)] }) := by
    simp [mkRepOptional, St.alloc, St.rule, l]
  rw [e]
  refine ⟨fine_extend hg _ ?_ ?_, ?_, fun H hH => ?_⟩
  · intro o ho c hc
    simp only [List.mem_cons, List.not_mem_nil, or_false] at ho
    rcases ho with rfl | rfl | rfl | rfl | rfl
    · simp [Obj.children] at hc; simp; omega
    · simp [Obj.children] at hc
    · simp [Obj.children, termRules] at hc; simp; omega
    · simp [Obj.children] at hc; simp; omega
    · simp only [Obj.children, mem_repOptionalOrder] at hc; simp; omega
  · intro o ho g'
    simp only [List.mem_cons, List.not_mem_nil, or_false] at ho
    rcases ho with rfl | rfl | rfl | rfl | rfl <;> exact hI.new _ _ rfl rfl
  · simp; omega
  · refine pow_repOptional (o := l + 4) (e := l + 1) (a := l + 3) (p := l + 2) ?_ ?_ ?_ ?_ ?_
    · exact at_ext' hl hH 0 rfl
    · exact at_ext' hl hH 4 rfl
    · exact at_ext' hl hH 1 rfl
    · exact at_ext' hl hH 3 rfl
    · exact at_ext' hl hH 2 rfl

theorem builds_maxBound (hI : Copying I) (item : Nat) (rev : Bool) : ∀ (n : Nat) (s : St P),
    Builds I item s (maxBound item rev (n + 1) s) (LapsUpTo rev (n + 1)) (fun _ => 0) := by
  intro n
  induction n with
  | zero =>
    intro s
    refine ⟨[], fun g hg hi => ?_⟩
    simp only [maxBound, List.append_nil]
    exact ⟨hg, hi, fun H _ => pow_one item rev⟩
  | succ n ih =>
    intro s
    obtain ⟨e1, he1⟩ := ih s
    generalize hr : maxBound item rev (n + 1) s = r at he1
    obtain ⟨inner, s1⟩ := r
    let l := s1.heap.length
    refine ⟨e1 ++ [.prod [.rule item, .rule inner] 0, .rule [l],
      .or (if rev then [item, l + 1] else [l + 1, item])], fun g hg hi => ?_⟩
    obtain ⟨f1, h1, p1⟩ := he1 g hg hi
    simp only at h1 p1 f1
    have hl : l = (g ++ e1).length := f1.shape.length.symm
    have e : maxBound item rev (n + 1 + 1) s = (l + 2, { s1 with heap := s1.heap ++
        [.prod [.rule item, .rule inner] 0, .rule [l],
          .or (if rev then [item, l + 1] else [l + 1, item])] }) := by
      conv => lhs; unfold maxBound
      simp [hr, St.alloc, St.rule, l]
    rw [e, ← List.append_assoc]
    have hi' : item < (g ++ e1).length := by simp; omega
    refine ⟨fine_extend f1 _ ?_ ?_, ?_, fun H hH => ?_⟩
    · intro o ho c hc
      simp only [List.mem_cons, List.not_mem_nil, or_false] at ho
      rcases ho with rfl | rfl | rfl
      · simp only [Obj.children, termRules, List.mem_cons, List.not_mem_nil, or_false] at hc
        rcases hc with rfl | rfl <;> omega
      · simp [Obj.children] at hc; simp only [List.length_cons, List.length_nil]; omega
      · cases rev <;> simp [Obj.children] at hc <;>
          simp only [List.length_cons, List.length_nil] <;> omega
    · intro o ho g'
      simp only [List.mem_cons, List.not_mem_nil, or_false] at ho
      rcases ho with rfl | rfl | rfl <;> exact hI.new _ _ rfl rfl
    · rw [List.length_append]; simp only [List.length_cons, List.length_nil]; omega
    · refine pow_more (n := n) (a := l + 1) (p := l) (inner := inner) ?_ ?_ ?_ ?_
      · rw [hl]; exact at_ext hH 2 (by rw [← hl]; rfl)
      · rw [hl]; exact at_ext hH 1 (by rw [← hl]; rfl)
      · rw [hl]; exact at_ext hH 0 rfl
      · exact p1 H ((List.prefix_append _ _).trans hH)

theorem builds_seq (hI : Copying I) {item : Nat} {s : St P} {t : Nat} {s1 : St P}
    {L : List (Option Note) → Prop} {C : List (Option Note) → Nat} (hb : Builds I item s (t, s1) L C)
    (j : Nat) (hC : ∀ pre pat, C pat ≤ C (pre ++ pat)) :
    Builds I item s (s1.rule (List.replicate j item ++ [t])) (Behind j L) C := by
  obtain ⟨e1, he1⟩ := hb
  let l := s1.heap.length
  refine ⟨e1 ++ [.prod ((List.replicate j item ++ [t]).map .rule) 0, .rule [l]],
    fun g hg hi => ?_⟩
  obtain ⟨f1, h1, p1⟩ := he1 g hg hi
  simp only at h1 p1 f1
  have hl : l = (g ++ e1).length := f1.shape.length.symm
  have e : s1.rule (List.replicate j item ++ [t]) = (l + 1, { s1 with heap := s1.heap ++
      [.prod ((List.replicate j item ++ [t]).map .rule) 0, .rule [l]] }) := by
    simp [St.alloc, St.rule, l]
  rw [e, ← List.append_assoc]
  have hi' : item < (g ++ e1).length := by simp; omega
  refine ⟨fine_extend f1 _ ?_ ?_, ?_, fun H hH => ?_⟩
  · intro o ho c hc
    simp only [List.mem_cons, List.not_mem_nil, or_false] at ho
    rcases ho with rfl | rfl
    · simp only [Obj.children, termRules_map, List.mem_append, List.mem_replicate,
        List.mem_singleton] at hc
      rcases hc with ⟨_, rfl⟩ | rfl <;> omega
    · simp [Obj.children] at hc; simp only [List.length_cons, List.length_nil]; omega
  · intro o ho g'
    simp only [List.mem_cons, List.not_mem_nil, or_false] at ho
    rcases ho with rfl | rfl <;> exact hI.new _ _ rfl rfl
  · rw [List.length_append]; simp only [List.length_cons, List.length_nil]; omega
  · refine pow_seq (p := l) (t := t) hC ?_ ?_ (p1 H ((List.prefix_append _ _).trans hH))
    · rw [hl]; exact at_ext hH 1 (by rw [← hl]; rfl)
    · rw [hl]; exact at_ext hH 0 rfl

/-- A quantifier replaced by a rule with the same words. -/
theorem builds_ok {rec : Visit P} (hr : VisitOk (baseInv true) rec) {a r : Nat} {o : Obj P}
    {s : St P} (hfix : o.fixed) (ho : s.heap[a]? = some o)
    {L : List (Option Note) → Prop} {C : List (Option Note) → Nat} (hq : Quant o r L)
    (hC : ∀ pat, L pat → C pat ≤ stepCost o pat.length)
    (mk : Nat → St P → Nat × St P)
    (hmk : o.bounds → ∀ item s, Builds (baseInv true) item s (mk item s) L C) {b s'}
    (h : (rec r s).map (fun x => mk x.1 x.2) = .ok (b, s')) :
    ∃ ext, ∀ g, Fine (baseInv true) g s →
      Fine (baseInv true) (g ++ ext) s' ∧ Image (baseInv true) (g ++ ext) a b := by
  cases h1 : rec r s with
  | error e => simp [h1, Except.map] at h
  | ok x =>
    obtain ⟨y, s1⟩ := x
    simp only [h1, Except.map, Except.ok.injEq] at h
    obtain ⟨e1, he1⟩ := hr r s y s1 h1
    by_cases hb : o.bounds
    · obtain ⟨e2, he2⟩ := hmk hb y s1
      refine ⟨e1 ++ e2, fun g hg => ?_⟩
      obtain ⟨f1, i1⟩ := he1 g hg
      obtain ⟨f2, h2, p2⟩ := he2 _ f1 i1.lt'
      rw [h] at f2 h2 p2
      rw [← List.append_assoc]
      refine ⟨f2, ?_, h2, trivial, fun H hH => ?_⟩
      · have := hg.lt ho; simp; omega
      · exact equiv_pow (getElem?_prefix hH (getElem?_append_some (getElem?_append_some
          (hg.same ho hfix)))) hq (i1.sem H ((List.prefix_append _ _).trans hH)) (p2 H hH) hC
    · refine ⟨[], fun g hg => ?_⟩
      exact (hb (hg.inv o (List.mem_of_getElem? (hg.same ho hfix))).1).elim

theorem extended_ok : MethodOk (baseInv true : PassInv P) extendedMethod := by
  intro n rec hr a o s b s' ho h
  cases o with
  | repeatable r rev =>
    exact builds_ok hr (o := .repeatable r rev) trivial ho (quant_repeatable r rev)
      (fun m _ => Nat.le_refl _) (fun x s => mkRepeatable x rev s)
      (fun _ x s => builds_repeatable baseCopying x rev s) h
  | optional r rev =>
    exact builds_ok hr (o := .optional r rev) trivial ho (quant_optional r rev)
      (fun m _ => Nat.zero_le _) (fun x s => mkOptional x rev s)
      (fun _ x s => builds_optional baseCopying x rev s) h
  | repOptional r rr ro =>
    exact builds_ok hr (o := .repOptional r rr ro) trivial ho (quant_repOptional r rr ro)
      (fun m _ => Nat.le_refl _) (fun x s => mkRepOptional x rr ro s)
      (fun _ x s => builds_repOptional baseCopying x rr ro s) h
  | minBounded r min rev =>
    refine builds_ok hr (o := .minBounded r min rev) (C := List.length) trivial ho
      (quant_min r min rev) (fun m _ => Nat.le_refl _)
      (fun x s => (mkRepeatable x rev s).2.rule (List.replicate (min - 1) x ++
        [(mkRepeatable x rev s).1]))
      (fun hb x s => ?_) h
    exact builds_seq baseCopying (builds_repeatable (I := baseInv true) baseCopying x rev s)
      (min - 1) (fun pre pat => by simp)
  | maxBounded r max rev =>
    refine builds_ok hr (o := .maxBounded r max rev) (C := fun _ => 0) trivial ho
      (quant_max r max rev) (fun m _ => Nat.zero_le _) (fun x s => maxBound x rev max s)
      (fun hb x s => ?_) h
    have hb : 1 ≤ max := hb
    obtain ⟨m, rfl⟩ : ∃ m, max = m + 1 := ⟨max - 1, by omega⟩
    exact builds_maxBound baseCopying x rev m s
  | minMaxBounded r min max rev =>
    refine builds_ok hr (o := .minMaxBounded r min max rev) (C := fun _ => 0) trivial ho
      (quant_minMax r min max rev) (fun m _ => Nat.zero_le _)
      (fun x s => (maxBound x rev (max - min + 1) s).2.rule (List.replicate (min - 1) x ++
        [(maxBound x rev (max - min + 1) s).1]))
      (fun hb x s => ?_) h
    exact builds_seq baseCopying (builds_maxBound (I := baseInv true) baseCopying x rev (max - min) s)
      (min - 1) (fun _ _ => Nat.le_refl _)
  | _ => exact base_default_ok (n := n) hr ho h

end Yargy.Pick
