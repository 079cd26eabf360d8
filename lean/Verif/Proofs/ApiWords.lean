import Verif.Proofs.Api
/-! Lemmas on the words of the rules that calls return. -/
namespace Yargy.Api

open Spec

variable {A : Activation Pred} {k : Kind} {h : Heap Pred}

/-- Predicates that come from strings are used as they are. -/
def Fixed (A : Activation Pred) : Prop :=
  (∀ s, A.activate (.eq s) = .ok (.eq s)) ∧ A.activate (.in_ []) = .ok (.in_ [])

theorem fixed_activation (L : Lang) (c : Context) (split : Str → List Str) : Fixed (c.activation L split) :=
  ⟨fun _ => rfl, rfl⟩

theorem reads_rule {a : Nat} {w : List (Sym Pred)} : Reads A k h [.rule a] w ↔
    ∃ o us u, h[a]? = some o ∧ Opens A o us ∧ Reads A k h us u ∧ w = wrap (o.label k) u := by
  constructor
  · intro hr
    cases hr with
    | rule ho hs hu ht =>
      cases ht
      exact ⟨_, _, _, ho, hs, hu, List.append_nil _⟩
  · rintro ⟨o, us, u, ho, hs, hu, rfl⟩
    have := Reads.rule (k := k) ho hs hu .nil
    rwa [List.append_nil] at this

theorem reads_cons {a : Nat} {ts : List (Term Pred)} {w : List (Sym Pred)} :
    Reads A k h (.rule a :: ts) w ↔ ∃ u v, Reads A k h [.rule a] u ∧ Reads A k h ts v ∧ w = u ++ v := by
  constructor
  · intro hr
    cases hr with
    | rule ho hs hu ht => exact ⟨_, _, reads_rule.2 ⟨_, _, _, ho, hs, hu, rfl⟩, ht, rfl⟩
  · rintro ⟨u, v, h1, h2, rfl⟩
    exact reads_append (ts := [.rule a]) h1 h2

theorem reads_pred {p : Pred} {ts : List (Term Pred)} {w : List (Sym Pred)} :
    Reads A k h (.pred p :: ts) w ↔ ∃ v, Reads A k h ts v ∧ w = .pred p :: v := by
  constructor
  · intro hr; cases hr with | pred h => exact ⟨_, h, rfl⟩
  · rintro ⟨v, h1, rfl⟩; exact .pred h1

/-- The words of one item. -/
theorem item_words (hA : Fixed A) (x : Arg) (w : List (Sym Pred)) :
    ArgWord A k h x w ↔ ∃ t, Activated A (prepareItem x).1 t ∧ Reads A k h [t] w := by
  have hrule (a : Nat) : Reads A k h [.rule a] w ↔ ∃ t, Activated A (.rule a) t ∧ Reads A k h [t] w :=
    ⟨fun h => ⟨_, .rule a, h⟩, by rintro ⟨t, ⟨⟩, h⟩; exact h⟩
  have hpred (p : Pred) : (∃ q, A.activate p = .ok q ∧ w = [.pred q]) ↔
      ∃ t, Activated A (.pred p) t ∧ Reads A k h [t] w := by
    constructor
    · rintro ⟨q, h1, rfl⟩; exact ⟨_, .pred h1, .pred .nil⟩
    · rintro ⟨t, h1, h2⟩
      cases h1 with
      | pred h1 =>
        obtain ⟨v, h3, rfl⟩ := reads_pred.1 h2
        cases h3
        exact ⟨_, h1, rfl⟩
  have heq {p : Pred} (hp : A.activate p = .ok p) : w = [.pred p] ↔
      ∃ t, Activated A (.pred p) t ∧ Reads A k h [t] w := by
    rw [← hpred p, hp]
    simp
  cases x with
  | rule a => exact hrule a
  | pred p => exact hpred p
  | main t =>
    cases t with
    | rule a => exact hrule a
    | pred p => exact hpred p
  | str s => exact heq (hA.1 s)
  | _ => exact heq hA.2

theorem reads_term {t : Term Pred} {ts : List (Term Pred)} {w : List (Sym Pred)} :
    Reads A k h (t :: ts) w ↔ ∃ u v, Reads A k h [t] u ∧ Reads A k h ts v ∧ w = u ++ v := by
  cases t with
  | rule a => exact reads_cons
  | pred p =>
    constructor
    · intro hr
      obtain ⟨v, h1, rfl⟩ := reads_pred.1 hr
      exact ⟨_, _, .pred .nil, h1, rfl⟩
    · rintro ⟨u, v, h1, h2, rfl⟩
      exact reads_append (ts := [.pred p]) h1 h2

/-- The words of several items. -/
theorem items_words (hA : Fixed A) (items : List Arg) : ∀ w : List (Sym Pred), ArgWords A k h items w ↔
    ∃ us, ActivatedAll A (items.map (fun x => (prepareItem x).1)) us ∧ Reads A k h us w := by
  induction items with
  | nil =>
    intro w
    constructor
    · rintro ⟨⟩; exact ⟨_, .nil, .nil⟩
    · rintro ⟨us, ⟨⟩, ⟨⟩⟩; exact .nil
  | cons x xs ih =>
    intro w
    constructor
    · intro hw
      cases hw with
      | cons h1 h2 =>
        obtain ⟨t, g1, g2⟩ := (item_words hA x _).1 h1
        obtain ⟨us, g3, g4⟩ := (ih _).1 h2
        exact ⟨_, .cons g1 g3, reads_term.2 ⟨_, _, g2, g4, rfl⟩⟩
    · rintro ⟨us, h1, h2⟩
      cases h1 with
      | cons g1 g2 =>
        obtain ⟨u, v, g3, g4, rfl⟩ := reads_term.1 h2
        exact .cons ((item_words hA x _).2 ⟨_, g1, g3⟩) ((ih _).2 ⟨_, g2, g4⟩)

theorem argWords_one (x : Arg) (w : List (Sym Pred)) : ArgWords A k h [x] w ↔ ArgWord A k h x w := by
  constructor
  · intro hw
    cases hw with
    | cons h1 h2 => cases h2; rwa [List.append_nil]
  · intro hw
    have := ArgWords.cons hw .nil
    rwa [List.append_nil] at this

/-- What an object that is no production and no gazetteer stands for. -/
theorem opens_spells {o : Obj Pred} {us : List (Term Pred)} (h1 : ∀ ts m, o ≠ .prod ts m)
    (h2 : ∀ k ls, o ≠ .pipe (.scheme k ls)) : Opens A o us ↔ Spells o us := by
  constructor
  · intro ho
    cases ho with
    | prod => exact absurd rfl (h1 _ _)
    | line => exact absurd rfl (h2 _ _)
    | other _ hs => exact hs
  · exact fun hs => .other h1 hs

theorem words_rule {a p : Nat} (ha : h[a]? = some (.rule [p])) (w : List (Sym Pred)) :
    Reads A k h [.rule a] w ↔ Reads A k h [.rule p] w := by
  rw [reads_rule]
  constructor
  · rintro ⟨o, us, u, ho, hs, hu, rfl⟩
    rw [ha] at ho; cases ho
    rw [opens_spells (by rintro _ _ ⟨⟩) (by rintro _ _ ⟨⟩)] at hs
    cases hs with
    | rule hp =>
      rw [List.mem_singleton] at hp; subst hp
      cases k <;> exact hu
  · intro hu
    refine ⟨_, _, w, ha, .other (by rintro _ _ ⟨⟩) (.rule List.mem_cons_self), hu, ?_⟩
    cases k <;> rfl

theorem words_prod {a : Nat} {ts : List (Term Pred)} {m : Nat} (ha : h[a]? = some (.prod ts m))
    (w : List (Sym Pred)) : Reads A k h [.rule a] w ↔ ∃ us, ActivatedAll A ts us ∧ Reads A k h us w := by
  rw [reads_rule]
  constructor
  · rintro ⟨o, us, u, ho, hs, hu, rfl⟩
    rw [ha] at ho; cases ho
    cases hs with
    | prod hs => exact ⟨us, hs, by cases k <;> exact hu⟩
    | other hn => exact absurd rfl (hn _ _)
  · rintro ⟨us, hs, hu⟩
    exact ⟨_, us, w, ha, .prod hs, hu, by cases k <;> rfl⟩

theorem Consists.words (hA : Fixed A) {items : List Arg} {a : Nat} (hc : Consists h items a)
    (w : List (Sym Pred)) : Reads A k h [.rule a] w ↔ ArgWords A k h items w := by
  obtain ⟨p, h1, h2⟩ := hc
  rw [words_rule h1, words_prod h2, items_words hA]

theorem stands_words (hA : Fixed A) {x : Arg} {r : Nat} (hs : Stands h x r) (w : List (Sym Pred)) :
    Reads A k h [.rule r] w ↔ ArgWord A k h x w := by
  cases hs with
  | rule => exact Iff.rfl
  | pred h1 h2 =>
    rw [Consists.words hA (items := [.pred _]) ⟨_, h1, h2⟩, argWords_one]

theorem stands_times (hA : Fixed A) {x : Arg} {r : Nat} (hs : Stands h x r) (n : Nat) :
    ∀ w : List (Sym Pred), Reads A k h (List.replicate n (.rule r)) w ↔ ArgWords A k h (List.replicate n x) w := by
  induction n with
  | zero =>
    intro w
    constructor
    · rintro ⟨⟩; exact .nil
    · rintro ⟨⟩; exact .nil
  | succ n ih =>
    intro w
    rw [List.replicate_succ, List.replicate_succ, reads_cons]
    constructor
    · rintro ⟨u, v, h1, h2, rfl⟩
      exact .cons ((stands_words hA hs _).1 h1) ((ih _).1 h2)
    · intro hw
      cases hw with
      | cons h1 h2 => exact ⟨_, _, (stands_words hA hs _).2 h1, (ih _).2 h2, rfl⟩

theorem spells_repetition {o : Obj Pred} {r lo : Nat} {b : Bool} {hi : Option Nat}
    (ho : o.repetition = some (r, b, lo, hi)) (us : List (Term Pred)) :
    Spells o us ↔ ∃ n, lo ≤ n ∧ (∀ m, hi = some m → n ≤ m) ∧ us = List.replicate n (.rule r) := by
  cases o <;> first
    | (cases ho; done)
    | (cases ho
       constructor
       · intro hs
         cases hs
         first
           | exact ⟨_, by assumption, (by rintro m ⟨⟩; assumption), rfl⟩
           | exact ⟨_, by assumption, by rintro m ⟨⟩, rfl⟩
       · rintro ⟨n, h1, h2, rfl⟩
         first
           | exact .repeatable h1
           | exact .minBounded h1
           | exact .maxBounded h1 (h2 _ rfl)
           | exact .minMaxBounded h1 (h2 _ rfl))

theorem label_repetition {o : Obj Pred} {x : Nat × Bool × Nat × Option Nat}
    (ho : o.repetition = some x) : o.label k = none := by
  cases o <;> first
    | (cases ho; done)
    | (cases k <;> rfl)

/-- Something with one part. -/
theorem words_single {a r : Nat} {o : Obj Pred} (ha : h[a]? = some o) (h1 : ∀ ts m, o ≠ .prod ts m)
    (h2 : ∀ k ls, o ≠ .pipe (.scheme k ls)) (h3 : ∀ us, Spells o us ↔ us = [.rule r]) (w : List (Sym Pred)) :
    Reads A k h [.rule a] w ↔ ∃ u, Reads A k h [.rule r] u ∧ w = wrap (o.label k) u := by
  rw [reads_rule]
  constructor
  · rintro ⟨o', us, u, ho, hs, hu, rfl⟩
    rw [ha] at ho; cases ho
    rw [opens_spells h1 h2, h3] at hs
    subst hs
    exact ⟨u, hu, rfl⟩
  · rintro ⟨u, hu, rfl⟩
    exact ⟨_, _, u, ha, .other h1 ((h3 _).2 rfl), hu, rfl⟩

theorem argRules_mem {items : List Arg} {r : Nat} : r ∈ argRules items ↔ .rule r ∈ items := by
  rw [argRules, List.mem_filterMap]
  constructor
  · rintro ⟨x, h1, h2⟩
    cases x with
    | rule a => cases h2; exact h1
    | _ => cases h2
  · exact fun h => ⟨_, h, rfl⟩

theorem forward_words {a r : Nat} (ha : h[a]? = some (.forward (some r))) (w : List (Sym Pred)) :
    Reads A k h [.rule a] w ↔ Reads A k h [.rule r] w := by
  rw [words_single ha (r := r) (by rintro _ _ ⟨⟩) (by rintro _ _ ⟨⟩)
    (fun us => ⟨by rintro ⟨⟩; rfl, by rintro rfl; exact .forward⟩)]
  constructor
  · rintro ⟨u, hu, rfl⟩; cases k <;> exact hu
  · intro hu; exact ⟨w, hu, by cases k <;> rfl⟩

theorem definedAs_words (hA : Fixed A) {items : List Arg} {r : Nat} (hd : DefinedAs h items r)
    (w : List (Sym Pred)) : Reads A k h [.rule r] w ↔ ArgWords A k h items w := by
  rcases hd with rfl | hc
  · rw [argWords_one]; exact Iff.rfl
  · exact hc.words hA w

theorem often_iff {min max : Arg} {lo : Nat} {hi : Option Nat}
    (h4 : if given min then bound min = some (lo : Int) else lo = 1)
    (h5 : if given max then ∃ n, hi = some n ∧ bound max = some (n : Int) else hi = none) (n : Nat) :
    Often min max n ↔ lo ≤ n ∧ ∀ m, hi = some m → n ≤ m := by
  unfold Often
  cases hmin : given min <;> cases hmax : given max <;> rw [hmin] at h4 <;> rw [hmax] at h5 <;>
    simp only [Bool.false_eq_true, if_false, if_true] at h4 h5
  · subst h4 h5; simp
  · obtain ⟨m, rfl, h5⟩ := h5; subst h4; simp [h5]
  · subst h5; simp [h4]
  · obtain ⟨m, rfl, h5⟩ := h5; simp [h4, h5]

/-- The words of what a call made. -/
theorem Made.words (hA : Fixed A) {w : World} {c : Call} {a : Nat} (hm : Made w c a) (hf : c ≠ .forward) :
    ∃ b, Label w k c b ∧ ∀ s, Reads A k w.heap [.rule a] s ↔ ∃ u, CallWords A k w.heap c u ∧ s = wrap b u := by
  have plain {P Q : List (Sym Pred) → Prop} (h : ∀ s, P s ↔ Q s) (s : List (Sym Pred)) :
      P s ↔ ∃ u, Q u ∧ s = wrap none u :=
    ⟨fun hp => ⟨s, (h s).1 hp, rfl⟩, by rintro ⟨u, hq, rfl⟩; exact (h _).2 hq⟩
  cases hm with
  | rule hc => exact ⟨none, by cases k <;> rfl, plain (hc.words hA)⟩
  | empty he =>
    refine ⟨none, by cases k <;> rfl, plain fun s => ?_⟩
    rw [reads_rule]
    constructor
    · rintro ⟨o', us, u, ho, hs, hu, rfl⟩
      rw [he] at ho; cases ho
      rw [opens_spells (by rintro _ _ ⟨⟩) (by rintro _ _ ⟨⟩)] at hs
      cases hs; cases hu
      cases k <;> rfl
    · rintro rfl
      exact ⟨_, [], [], he, .other (by rintro _ _ ⟨⟩) .empty, .nil, by cases k <;> rfl⟩
  | forward => exact absurd rfl hf
  | or_ hr ho =>
    rename_i items
    refine ⟨none, by cases k <;> rfl, plain fun s => ?_⟩
    rw [reads_rule]
    constructor
    · rintro ⟨o', us, u, ho', hs, hu, rfl⟩
      rw [ho] at ho'; cases ho'
      rw [opens_spells (by rintro _ _ ⟨⟩) (by rintro _ _ ⟨⟩)] at hs
      cases hs with
      | or hr =>
        exact ⟨_, argRules_mem.1 hr, by cases k <;> exact hu⟩
    · rintro ⟨x, hx, hw⟩
      have := List.all_eq_true.1 hr x hx
      cases x with
      | rule r => exact ⟨_, _, s, ho, .other (by rintro _ _ ⟨⟩) (.or (argRules_mem.2 hx)), hw, by cases k <;> rfl⟩
      | _ => cases this
  | optional hs hv ho =>
    refine ⟨none, by cases k <;> rfl, plain fun s => ?_⟩
    rw [reads_rule]
    constructor
    · rintro ⟨o', us, u, ho', hs', hu, rfl⟩
      rw [ho] at ho'; cases ho'
      rw [opens_spells (by rintro _ _ ⟨⟩) (by rintro _ _ ⟨⟩)] at hs'
      cases hs' with
      | none => cases hu; exact .inl (by cases k <;> rfl)
      | one => exact .inr ((stands_words hA hs _).1 (by cases k <;> exact hu))
    · rintro (rfl | hw)
      · exact ⟨_, [], [], ho, .other (by rintro _ _ ⟨⟩) .none, .nil, by cases k <;> rfl⟩
      · exact ⟨_, _, s, ho, .other (by rintro _ _ ⟨⟩) .one, (stands_words hA hs _).2 hw, by cases k <;> rfl⟩
  | repeatable hs ho h3 h4 h5 h6 h7 =>
    rename_i o _ _
    refine ⟨none, by cases k <;> rfl, plain fun s => ?_⟩
    have n1 : ∀ ts m, o ≠ .prod ts m := by rintro _ _ rfl; cases h3
    have n2 : ∀ k ls, o ≠ .pipe (.scheme k ls) := by rintro _ _ rfl; cases h3
    rw [reads_rule]
    constructor
    · rintro ⟨o', us, u, ho', hs', hu, rfl⟩
      rw [ho] at ho'; cases ho'
      rw [opens_spells n1 n2, spells_repetition h3] at hs'
      obtain ⟨n, g1, g2, rfl⟩ := hs'
      rw [label_repetition h3]
      exact ⟨n, (often_iff h4 h5 n).2 ⟨g1, g2⟩, (stands_times hA hs n _).1 hu⟩
    · rintro ⟨n, h1, h2⟩
      obtain ⟨g1, g2⟩ := (often_iff h4 h5 n).1 h1
      exact ⟨_, _, s, ho, .other n1 ((spells_repetition h3 _).2 ⟨n, g1, g2, rfl⟩), (stands_times hA hs n _).2 h2,
        by rw [label_repetition h3]; rfl⟩
  | named hs ho =>
    rename_i n r
    refine ⟨(Obj.named (P := Pred) r n).label k, by cases k <;> rfl, fun s => ?_⟩
    rw [words_single ho (by rintro _ _ ⟨⟩) (by rintro _ _ ⟨⟩)
      (fun us => ⟨by rintro ⟨⟩; rfl, by rintro rfl; exact .named⟩)]
    constructor
    · rintro ⟨u, hu, rfl⟩; exact ⟨u, (stands_words hA hs _).1 hu, by cases k <;> rfl⟩
    · rintro ⟨u, hu, rfl⟩; exact ⟨u, (stands_words hA hs _).2 hu, by cases k <;> rfl⟩
  | interp hs ht ho =>
    rename_i i r
    refine ⟨(Obj.interp (P := Pred) r i).label k, by cases k <;> first | rfl | exact ⟨_, ht, rfl⟩, fun s => ?_⟩
    rw [words_single ho (by rintro _ _ ⟨⟩) (by rintro _ _ ⟨⟩)
      (fun us => ⟨by rintro ⟨⟩; rfl, by rintro rfl; exact .interp⟩)]
    constructor
    · rintro ⟨u, hu, rfl⟩; exact ⟨u, (stands_words hA hs _).1 hu, rfl⟩
    · rintro ⟨u, hu, rfl⟩; exact ⟨u, (stands_words hA hs _).2 hu, rfl⟩
  | relation hs ho =>
    rename_i i r
    refine ⟨(Obj.relation (P := Pred) r i).label k, by cases k <;> rfl, fun s => ?_⟩
    rw [words_single ho (by rintro _ _ ⟨⟩) (by rintro _ _ ⟨⟩)
      (fun us => ⟨by rintro ⟨⟩; rfl, by rintro rfl; exact .relation⟩)]
    constructor
    · rintro ⟨u, hu, rfl⟩; exact ⟨u, (stands_words hA hs _).1 hu, rfl⟩
    · rintro ⟨u, hu, rfl⟩; exact ⟨u, (stands_words hA hs _).2 hu, rfl⟩
  | pipeline ho =>
    refine ⟨none, by cases k <;> rfl, plain fun s => ?_⟩
    rw [reads_rule]
    have lit (ps : List Pred) (s : List (Sym Pred)) : Reads A k w.heap (ps.map .pred) s ↔ s = ps.map .pred := by
      induction ps generalizing s with
      | nil => exact ⟨by rintro ⟨⟩; rfl, by rintro rfl; exact .nil⟩
      | cons p ps ih =>
        rw [List.map_cons, reads_pred]
        simp [ih]
    constructor
    · rintro ⟨o', us, u, ho', hs', hu, rfl⟩
      rw [ho] at ho'; cases ho'
      cases hs' with
      | line hl hk =>
        rw [lit] at hu
        subst hu
        exact ⟨_, List.mem_map.2 ⟨_, hl, rfl⟩, _, hk, by cases k <;> rfl⟩
      | other _ hs => cases hs
    · rintro ⟨line, hl, ps, hk, rfl⟩
      rw [List.mem_map] at hl
      obtain ⟨l, hl, ⟨⟩⟩ := hl
      exact ⟨_, _, _, ho, .line hl hk, (lit _ _).2 rfl, by cases k <;> rfl⟩
  | define hd ho =>
    refine ⟨none, by cases k <;> rfl, plain fun s => ?_⟩
    rw [forward_words ho]
    exact definedAs_words hA hd s

end Yargy.Api
