import Verif.Spec.Separate
import Verif.Proofs.Tokenizer
/-! Tokenization before and after a character that separates. -/
namespace Yargy.Local
open Spec Yargy

theorem flatMap_same {α β : Type} {f g : α → List β} : ∀ {l : List α}, (∀ x ∈ l, f x = g x) → l.flatMap f = l.flatMap g := by
  intro l
  induction l with
  | nil => intro _; rfl
  | cons x l ih =>
    intro h
    rw [List.flatMap_cons, List.flatMap_cons, h x List.mem_cons_self, ih (fun y hy => h y (List.mem_cons_of_mem _ hy))]

theorem repEnds_outside {body : Str → List Nat} {c : Char} {t : Str}
    (hb : ∀ s, ∀ k ∈ body s, k ≤ s.length) (h : ∀ s, body (s ++ c :: t) = body s) :
    ∀ max min s, repEnds body min max (s ++ c :: t) = repEnds body min max s := by
  intro max
  induction max with
  | zero => intro min s; rfl
  | succ max ih =>
    intro min s
    unfold repEnds
    rw [h]
    congr 1
    refine flatMap_same (fun k hk => ?_)
    rw [List.drop_append_of_le_length (hb s k hk), ih]

theorem repEnds_enough {body : Str → List Nat} (hb : ∀ s, ∀ k ∈ body s, k ≤ s.length ∧ k ≠ 0) :
    ∀ m n min s, s.length ≤ m → s.length ≤ n → repEnds body min m s = repEnds body min n s := by
  have none : ∀ s : Str, s.length ≤ 0 → body s = [] := by
    intro s hs
    cases e : body s with
    | nil => rfl
    | cons k l =>
      have := hb s k (by rw [e]; exact List.mem_cons_self)
      omega
  intro m
  induction m with
  | zero =>
    intro n min s h1 h2
    cases n with
    | zero => rfl
    | succ n => simp only [repEnds, none s h1, List.flatMap_nil, List.nil_append]
  | succ m ih =>
    intro n min s h1 h2
    cases n with
    | zero => simp only [repEnds, none s h2, List.flatMap_nil, List.nil_append]
    | succ n =>
      simp only [repEnds]
      congr 1
      refine flatMap_same (fun k hk => ?_)
      have := hb s k hk
      rw [ih n (min - 1) (s.drop k) (by rw [List.length_drop]; omega) (by rw [List.length_drop]; omega)]

/-- A pattern does not see past a character that is in none of its classes. -/
theorem ends_outside {c : Char} : ∀ (r : Re), ReProper r → Outside c r → ∀ s t, r.ends (s ++ c :: t) = r.ends s := by
  intro r
  induction r with
  | cls p =>
    intro _ ho s t
    cases s with
    | nil =>
      show (if p c then [1] else []) = []
      rw [show p c = false from ho]
      rfl
    | cons d s => rfl
  | seq a b iha ihb =>
    intro hp ho s t
    show (a.ends (s ++ c :: t)).flatMap _ = (a.ends s).flatMap _
    rw [iha hp.1 ho.1]
    refine flatMap_same (fun k hk => ?_)
    rw [List.drop_append_of_le_length (ends_sound a s k hk).1, ihb hp.2 ho.2]
  | opt a iha =>
    intro hp ho s t
    show a.ends (s ++ c :: t) ++ [0] = a.ends s ++ [0]
    rw [iha hp ho]
  | rep a min max iha =>
    intro hp ho s t
    show repEnds a.ends min (max.getD (s ++ c :: t).length) (s ++ c :: t) = repEnds a.ends min (max.getD s.length) s
    rw [repEnds_outside (fun s k hk => (ends_sound a s k hk).1) (fun s => iha hp.1 ho s t)]
    cases max with
    | some m => rfl
    | none =>
      refine repEnds_enough (fun s k hk => ?_) _ _ _ _ (by show _ ≤ (s ++ c :: t).length; rw [List.length_append]; omega)
        (Nat.le_refl _)
      obtain ⟨h1, h2⟩ := ends_sound a s k hk
      refine ⟨h1, fun e => ?_⟩
      subst e
      exact hp.2 rfl h2

theorem re_separates {c : Char} (r : Re) (hp : ReProper r) (ho : Outside c r) (id : Nat) (type : Str) :
    Separates c (r.rule id type) := by
  constructor
  · intro a b i hi
    show r.ends ((a ++ c :: b).drop i) = r.ends (a.drop i)
    rw [List.drop_append_of_le_length hi]
    exact ends_outside r hp ho _ _
  · intro a b i
    show r.ends ((a ++ c :: b).drop (a.length + 1 + i)) = r.ends (b.drop i)
    rw [show a.length + 1 + i = a.length + (i + 1) by omega, List.drop_append, List.drop_eq_nil_of_le (by omega)]
    simp

variable {rules : List TokenRule} {a b : Str} {c : Char}

/-- The match, so many characters later. -/
def later (n : Nat) (f : Found) : Found := ⟨f.type, n + f.start, f.len⟩

theorem skips_left (hs : ∀ r ∈ rules, Separates c r) {p : Nat} (hp : p ≤ a.length) {adv : Prop}
    (h : Skips rules a adv p) : Skips rules (a ++ c :: b) adv p := by
  intro r hr j hj
  rw [(hs r hr).1 a b p hp] at hj
  exact h r hr j hj

theorem skips_right (hs : ∀ r ∈ rules, Separates c r) {p : Nat} {adv : Prop}
    (h : Skips rules b adv p) : Skips rules (a ++ c :: b) adv (a.length + 1 + p) := by
  intro r hr j hj
  rw [(hs r hr).2 a b p] at hj
  exact h r hr j hj

theorem chooses_left (hs : ∀ r ∈ rules, Separates c r) {p : Nat} (hp : p ≤ a.length) {adv : Prop} {f : Found}
    (h : Chooses rules a adv p f) : Chooses rules (a ++ c :: b) adv p f := by
  obtain ⟨pre, r, post, better, k, worse, h1, h2, h3, h4, h5, h6⟩ := h
  refine ⟨pre, r, post, better, k, worse, h1, ?_, ?_, h4, h5, h6⟩
  · intro q hq j hj
    rw [(hs q (by rw [h1]; simp [hq])).1 a b p hp] at hj
    exact h2 q hq j hj
  · rw [(hs r (by rw [h1]; simp)).1 a b p hp, h3]

theorem chooses_right (hs : ∀ r ∈ rules, Separates c r) {p : Nat} {adv : Prop} {f : Found}
    (h : Chooses rules b adv p f) :
    Chooses rules (a ++ c :: b) adv (a.length + 1 + p) (later (a.length + 1) f) := by
  obtain ⟨pre, r, post, better, k, worse, h1, h2, h3, h4, h5, h6⟩ := h
  refine ⟨pre, r, post, better, k, worse, h1, ?_, ?_, h4, h5, ?_⟩
  · intro q hq j hj
    rw [(hs q (by rw [h1]; simp [hq])).2 a b p] at hj
    exact h2 q hq j hj
  · rw [(hs r (by rw [h1]; simp)).2 a b p, h3]
  · rw [h6]; rfl

theorem cut_right (hs : ∀ r ∈ rules, Separates c r) {adv : Prop} {i : Nat} {gs : List Found}
    (h : Cut rules b adv i gs) :
    Cut rules (a ++ c :: b) adv (a.length + 1 + i) (gs.map (later (a.length + 1))) := by
  induction h with
  | @done adv i h =>
    refine .done (fun p h1 h2 => ?_)
    have h3 : p = a.length + 1 + (p - (a.length + 1)) := by omega
    rw [List.length_append, List.length_cons] at h2
    have := skips_right (a := a) hs (h (p - (a.length + 1)) (by omega) (by omega))
    rw [← h3] at this
    exact skips_congr (by constructor <;> rintro ⟨x, y⟩ <;> exact ⟨x, by omega⟩) this
  | @next adv i p f rest h1 h2 h3 h4 _ ih =>
    refine .next (p := a.length + 1 + p) (by omega) (by rw [List.length_append, List.length_cons]; omega)
      (fun q q1 q2 => ?_) ?_ ?_
    · have e : q = a.length + 1 + (q - (a.length + 1)) := by omega
      have := skips_right (a := a) hs (h3 (q - (a.length + 1)) (by omega) (by omega))
      rw [← e] at this
      exact skips_congr (by constructor <;> rintro ⟨x, y⟩ <;> exact ⟨x, by omega⟩) this
    · exact chooses_congr (by constructor <;> rintro ⟨x, y⟩ <;> exact ⟨x, by omega⟩) (chooses_right (a := a) hs h4)
    · rw [Nat.add_assoc]
      exact ih

theorem cut_extend {text : Str} {adv : Prop} {i i' : Nat} {gs : List Found} (hi : i < i')
    (hk : ∀ q, i ≤ q → q < i' → Skips rules text (adv ∧ q = i) q) (h : Cut rules text False i' gs) :
    Cut rules text adv i gs := by
  cases h with
  | done h =>
    refine .done (fun p h1 h2 => ?_)
    by_cases hp : p < i'
    · exact hk p h1 hp
    · exact fun r hr j hj => (h p (by omega) h2 r hr j hj).1.1.elim
  | @next _ _ p f rest h1 h2 h3 h4 h5 =>
    refine .next (p := p) (by omega) h2 (fun q q1 q2 => ?_) ?_ h5
    · by_cases hp : q < i'
      · exact hk q q1 hp
      · exact fun r hr j hj => (h3 q (by omega) q2 r hr j hj).1.1.elim
    · exact chooses_congr (by constructor <;> rintro ⟨x, y⟩ <;> first | exact x.elim | omega) h4

theorem cut_append (hs : ∀ r ∈ rules, Separates c r) (hin : ∀ r ∈ rules, Inside r) {adv : Prop} {i : Nat}
    {fs gs : List Found} (h : Cut rules a adv i fs) (hi : i ≤ a.length) (hg : Cut rules b False 0 gs) :
    Cut rules (a ++ c :: b) adv i (fs ++ gs.map (later (a.length + 1))) := by
  induction h with
  | @done adv i h =>
    have := cut_right (a := a) hs hg
    refine cut_extend (i' := a.length + 1) (by omega) ?_ this
    exact fun q q1 q2 => skips_left hs (by omega) (h q q1 (by omega))
  | @next adv i p f rest h1 h2 h3 h4 _ ih =>
    refine .next h1 (by rw [List.length_append]; omega) (fun q q1 q2 => skips_left hs (by omega) (h3 q q1 q2))
      (chooses_left hs h2 h4) (ih ?_)
    exact chooses_inside hin h2 h4

theorem cut_inside {text : Str} (hin : ∀ r ∈ rules, Inside r) {adv : Prop} {i : Nat} {fs : List Found}
    (h : Cut rules text adv i fs) : ∀ f ∈ fs, f.start + f.len ≤ text.length := by
  induction h with
  | done _ => intro f hf; cases hf
  | @next adv i p f rest _ h2 _ h4 _ ih =>
    intro g hg
    rcases List.mem_cons.1 hg with rfl | hg
    · rw [chooses_start h4]
      exact chooses_inside hin h2 h4
    · exact ih g hg

end Yargy.Local
