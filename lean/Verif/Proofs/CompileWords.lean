import Verif.Proofs.BnfPass
import Verif.Proofs.Normalize
import Verif.Proofs.Walk
/-!
Removing forward rules and naming rules keeps the words.
-/
namespace Yargy

variable {P : Type} {k : Kind}

theorem says_append {h : Heap P} {ts us : List (Term P)} {w : List (Sym P)} :
    Says k h (ts ++ us) w ↔ ∃ v v', Says k h ts v ∧ Says k h us v' ∧ w = v ++ v' := by
  constructor
  · intro s
    obtain ⟨n, g⟩ := s.gen
    obtain ⟨c, d, v, v', _, g1, g2, e⟩ := g.split
    exact ⟨v, v', g1.says, g2.says, e⟩
  · rintro ⟨v, v', s1, s2, rfl⟩
    obtain ⟨n, g1⟩ := s1.gen
    obtain ⟨m, g2⟩ := s2.gen
    exact (g1.append g2).says

theorem says_nil {h : Heap P} {w : List (Sym P)} : Says k h [] w ↔ w = [] :=
  ⟨fun s => by cases s; rfl, fun e => e ▸ .nil⟩

theorem words_iff {h : Heap P} {a : Nat} {o : Obj P} (ha : h[a]? = some o) (w : List (Sym P)) :
    Words k h a w ↔ ∃ us v, Spells o us ∧ Says k h us v ∧ w = wrap (o.label k) v := by
  constructor
  · intro s
    cases s with
    | rule ho hs hu ht =>
      rw [ha] at ho; cases ho
      cases ht
      exact ⟨_, _, hs, hu, by simp⟩
  · rintro ⟨us, v, h1, h2, rfl⟩
    have := Says.rule (k := k) ha h1 h2 .nil
    rwa [List.append_nil] at this

/-! ### Forward rules -/

/-- The second term is the first, or what the forward rule in its place holds. -/
inductive SkipTerm (h : Heap P) : Term P → Term P → Prop
  | same (t) : SkipTerm h t t
  | skip {f x} : h[f]? = some (.forward (some x)) → SkipTerm h (.rule f) (.rule x)

theorem removeTerm_skip {h : Heap P} {t t' : Term P} (ht : removeTerm h t = .ok t') :
    SkipTerm h t t' := by
  unfold removeTerm at ht
  split at ht
  · cases ht; exact .same _
  · split at ht
    · cases ht
    · rename_i hf; cases ht; exact .skip hf
    · cases ht; exact .same _

theorem mapM_pointwise {α β : Type} {f : α → Except Err β} {R : α → β → Prop}
    (hf : ∀ x y, f x = .ok y → R x y) : ∀ {xs : List α} {ys : List β}, xs.mapM f = .ok ys →
      Pointwise R xs ys := by
  intro xs
  induction xs with
  | nil => intro ys h; rw [List.mapM_nil] at h; cases h; exact .nil
  | cons x xs ih =>
    intro ys h
    rw [List.mapM_cons] at h
    cases h1 : f x with
    | error e => rw [h1] at h; cases h
    | ok y =>
      rw [h1] at h
      cases h2 : xs.mapM f with
      | error e => rw [h2] at h; cases h
      | ok ys' => rw [h2] at h; cases h; exact .cons (hf _ _ h1) (ih h2)

theorem skip_refl {h : Heap P} (ts : List (Term P)) : Pointwise (SkipTerm h) ts ts := by
  induction ts with
  | nil => exact .nil
  | cons t ts ih => exact .cons (.same t) ih

section
variable {h : Heap P} {a m : Nat} {ts ts' : List (Term P)}

theorem skip_at (ha : h[a]? = some (.prod ts m)) {b : Nat} {o : Obj P} (hb : h[b]? = some o) :
    (b = a ∧ o = .prod ts m ∧ (h.set a (.prod ts' m))[b]? = some (.prod ts' m)) ∨
    (b ≠ a ∧ (h.set a (.prod ts' m))[b]? = some o) := by
  by_cases e : b = a
  · subst e
    rw [ha] at hb; cases hb
    exact .inl ⟨rfl, rfl, by rw [List.getElem?_set_self (List.getElem?_eq_some_iff.1 ha).1]⟩
  · exact .inr ⟨e, by rw [List.getElem?_set_ne (Ne.symm e)]; exact hb⟩

theorem skip_forth (ha : h[a]? = some (.prod ts m)) (hp : Pointwise (SkipTerm h) ts ts') {us w}
    (s : Says k h us w) : ∀ us', Pointwise (SkipTerm h) us us' → Says k (h.set a (.prod ts' m)) us' w := by
  induction s with
  | nil => intro us' hu; cases hu; exact .nil
  | pred _ ih =>
    intro us' hu
    cases hu with
    | cons h1 h2 => cases h1; exact .pred (ih _ h2)
  | @rule b o vs us w v ho hs _ _ ih1 ih2 =>
    intro us' hu
    cases hu with
    | cons h1 h2 =>
      cases h1 with
      | same =>
        rcases skip_at (ts' := ts') ha ho with ⟨rfl, rfl, e⟩ | ⟨_, e⟩
        · cases hs
          have := Says.rule (k := k) e .prod (ih1 _ hp) (ih2 _ h2)
          rw [label_prod] at this ⊢
          exact this
        · exact .rule e hs (ih1 _ (skip_refl _)) (ih2 _ h2)
      | skip hf =>
        rw [ho] at hf; cases hf
        cases hs
        rw [label_forward]
        exact says_append.2 ⟨_, _, ih1 _ (skip_refl _), ih2 _ h2, rfl⟩

theorem skip_back (ha : h[a]? = some (.prod ts m)) (hp : Pointwise (SkipTerm h) ts ts') {us' w}
    (s : Says k (h.set a (.prod ts' m)) us' w) : ∀ us, Pointwise (SkipTerm h) us us' → Says k h us w := by
  induction s with
  | nil => intro us hu; cases hu; exact .nil
  | pred _ ih =>
    intro us hu
    cases hu with
    | cons h1 h2 => cases h1; exact .pred (ih _ h2)
  | @rule b o vs us' w v ho hs _ _ ih1 ih2 =>
    have one : ∀ {us v}, Says k h us v → Says k h (.rule b :: us) (wrap (o.label k) w ++ v) := by
      intro us v hv
      have hlt : b < h.length := by
        have := (List.getElem?_eq_some_iff.1 ho).1
        rwa [List.length_set] at this
      rcases skip_at (ts' := ts') ha (List.getElem?_eq_getElem hlt) with ⟨rfl, e1, e⟩ | ⟨_, e⟩
      · rw [ho] at e; cases e
        cases hs
        have := Says.rule (k := k) ha .prod (ih1 _ hp) hv
        rw [label_prod] at this ⊢
        exact this
      · rw [ho] at e; cases e
        exact .rule (List.getElem?_eq_getElem hlt) hs (ih1 _ (skip_refl _)) hv
    intro us hu
    cases hu with
    | cons h1 h2 =>
      cases h1 with
      | same => exact one (ih2 _ h2)
      | skip hf =>
        have h3 := one (us := []) .nil
        have := Says.rule (k := k) hf .forward h3 (ih2 _ h2)
        rw [label_forward] at this
        simpa [wrap] using this

theorem skip_words (ha : h[a]? = some (.prod ts m)) (hp : Pointwise (SkipTerm h) ts ts') (x : Nat)
    (w : List (Sym P)) : Words k (h.set a (.prod ts' m)) x w ↔ Words k h x w :=
  ⟨fun s => skip_back ha hp s _ (skip_refl _), fun s => skip_forth ha hp s _ (skip_refl _)⟩

end

theorem removeForwards_words {pid : Nat → Nat} : ∀ (n : Nat) (queue seen : List Nat) (h h' : Heap P),
    removeForwards pid n queue seen h = .ok h' →
      h'.length = h.length ∧ (∀ x w, Words k h' x w ↔ Words k h x w) ∧
      ∀ a : Nat, (∀ ts m, h[a]? ≠ some (.prod ts m)) → h'[a]? = h[a]? := by
  intro n
  induction n with
  | zero => intro queue seen h h' e; cases e; exact ⟨rfl, fun _ _ => Iff.rfl, fun _ _ => rfl⟩
  | succ n ih =>
    intro queue seen h h' e
    cases queue with
    | nil => cases e; exact ⟨rfl, fun _ _ => Iff.rfl, fun _ _ => rfl⟩
    | cons a queue =>
      simp only [removeForwards] at e
      split at e
      · cases e
      · rename_i ts m ha
        split at e
        · cases e
        · rename_i ts' hts
          obtain ⟨h1, h2, h3⟩ := ih _ _ _ _ e
          refine ⟨by rw [h1, List.length_set], fun x w => ?_, fun b hb => ?_⟩
          · rw [h2, skip_words ha (mapM_pointwise (fun _ _ => removeTerm_skip) hts)]
          · have hab : b ≠ a := fun e => hb ts m (e ▸ ha)
            rw [h3 b ?_, List.getElem?_set_ne (Ne.symm hab)]
            intro us m'
            rw [List.getElem?_set_ne (Ne.symm hab)]
            exact hb us m'
      · exact ih _ _ _ _ e

theorem words_forward {h : Heap P} {a x : Nat} (ha : h[a]? = some (.forward (some x)))
    (w : List (Sym P)) : Words k h a w ↔ Words k h x w := by
  rw [words_iff ha]
  constructor
  · rintro ⟨us, v, h1, h2, rfl⟩
    cases h1
    rw [label_forward]
    exact h2
  · intro hw
    exact ⟨_, _, .forward, hw, by rw [label_forward]; rfl⟩

theorem removeForward_words {pid : Nat → Nat} {root b : Nat} {h h' : Heap P}
    (e : removeForward pid root h = .ok (b, h')) :
    h'.length = h.length ∧ (∀ x w, Words k h' x w ↔ Words k h x w) ∧
      ∀ w, Words k h' b w ↔ Words k h root w := by
  unfold removeForward at e
  split at e
  · cases e
  · rename_i g hg
    obtain ⟨h1, h2, _⟩ := removeForwards_words (k := k) _ _ _ _ _ hg
    split at e
    · cases e
    · rename_i x hx
      cases e
      exact ⟨h1, h2, fun w => by rw [← h2, words_forward hx]⟩
    · cases e
      exact ⟨h1, h2, h2 _⟩

/-! ### Names -/

theorem like_set {h : Heap P} {a : Nat} {o o' : Obj P} (ha : h[a]? = some o) (hl : Like k o o') :
    Agree k h (h.set a o') where
  length := by simp
  at_ := by
    intro b x hb
    by_cases e : b = a
    · subst e
      rw [ha] at hb; cases hb
      exact ⟨o', by rw [List.getElem?_set_self (List.getElem?_eq_some_iff.1 ha).1], .inl hl⟩
    · exact ⟨x, by rw [List.getElem?_set_ne (Ne.symm e)]; exact hb, .inl (.refl x)⟩

theorem generated_genName (n : Nat) : generated (genName n) = true := by
  have h : ∀ c ∈ (toString n).toList, c.isDigit := by
    intro c hc
    rw [show toString n = Nat.repr n from rfl, Nat.toList_repr] at hc
    exact Nat.isDigit_of_mem_toDigits (by decide) (by decide) hc
  have h0 : (toString n).toList ≠ [] := by
    rw [show toString n = Nat.repr n from rfl, Nat.toList_repr]
    exact Nat.toDigits_ne_nil
  unfold genName
  match hl : (toString n).toList with
  | [] => exact absurd hl h0
  | c :: cs =>
    simp only [generated, List.all_eq_true]
    intro x hx
    exact h x (hl ▸ hx)

theorem realName_genName (n : Nat) : realName (genName n) = none := by
  simp [realName, generated_genName]

theorem realName_falsy {n : Option Str} (h : ∀ c cs, n ≠ some (c :: cs)) : n.bind realName = none := by
  match n with
  | none => rfl
  | some [] => simp [realName]
  | some (c :: cs) => exact absurd rfl (h c cs)

theorem generateNames_words : ∀ (as : List Nat) (count : Nat) (h : Heap P),
    (generateNames as count h).length = h.length ∧
    ∀ x w, Words k (generateNames as count h) x w ↔ Words k h x w := by
  intro as
  induction as with
  | nil => intro count h; exact ⟨rfl, fun _ _ => Iff.rfl⟩
  | cons a as ih =>
    intro count h
    simp only [generateNames]
    split
    · rename_i ps name i r kind ha
      split
      · exact ih _ _
      · obtain ⟨h1, h2⟩ := ih (count + 1) (h.set a (.bnf ps (some (genName count)) i r kind))
        refine ⟨by rw [h1, List.length_set], fun x w => ?_⟩
        rw [h2]
        refine ((like_set ha (.bnf ?_)).words x w).symm
        rename_i hn
        cases k <;> first | rfl | skip
        simp only [Obj.label, Option.bind_some, realName_genName]
        exact realName_falsy (fun c cs e => hn c cs e)
    · exact ih _ _

/-! ### All together -/

/-- Replacing one object by one with smaller references keeps a heap tidy. -/
theorem tidy_set {h : Heap P} {a : Nat} {o : Obj P} (ht : Tidy .plain h)
    (hc : ∀ c ∈ o.children, c < h.length) (hb : o.bounds) : Tidy .plain (h.set a o) where
  closed := by
    intro x hx c hcx
    rw [List.length_set]
    rcases List.mem_or_eq_of_mem_set hx with hx | rfl
    · exact ht.closed x hx c hcx
    · exact hc c hcx
  inv := by
    intro x hx
    refine ⟨fun _ _ _ _ _ _ => label_plain x, ?_⟩
    rcases List.mem_or_eq_of_mem_set hx with hx | rfl
    · exact (ht.inv x hx).2
    · exact hb

theorem termRules_mem {ts : List (Term P)} {r : Nat} : r ∈ termRules ts ↔ .rule r ∈ ts := by
  induction ts with
  | nil => simp [termRules]
  | cons t ts ih => cases t <;> simp [termRules, ih]

theorem skip_rules {h : Heap P} (hc : ClosedHeap h) {ts ts' : List (Term P)}
    (hp : Pointwise (SkipTerm h) ts ts') (hl : ∀ r ∈ termRules ts, r < h.length) :
    ∀ r ∈ termRules ts', r < h.length := by
  induction hp with
  | nil => simp [termRules]
  | @cons t t' ts ts' h1 _ ih =>
    intro r hr
    rw [termRules_mem, List.mem_cons] at hr
    rcases hr with hr | hr
    · subst hr
      cases h1 with
      | same => exact hl r (by simp [termRules])
      | skip hf => exact hc _ (List.mem_of_getElem? hf) r (by simp [Obj.children])
    · exact ih (fun r hr => hl r (by
        rw [termRules_mem] at hr ⊢; exact List.mem_cons_of_mem _ hr)) r (termRules_mem.2 hr)

theorem removeForwards_tidy {pid : Nat → Nat} : ∀ (n : Nat) (queue seen : List Nat) (h h' : Heap P),
    removeForwards pid n queue seen h = .ok h' → Tidy .plain h → Tidy .plain h' := by
  intro n
  induction n with
  | zero => intro queue seen h h' e ht; cases e; exact ht
  | succ n ih =>
    intro queue seen h h' e ht
    cases queue with
    | nil => cases e; exact ht
    | cons a queue =>
      simp only [removeForwards] at e
      split at e
      · cases e
      · rename_i ts m ha
        split at e
        · cases e
        · rename_i ts' hts
          refine ih _ _ _ _ e (tidy_set ht ?_ trivial)
          exact skip_rules ht.closed (mapM_pointwise (fun _ _ => removeTerm_skip) hts)
            (ht.closed _ (List.mem_of_getElem? ha))
      · exact ih _ _ _ _ e ht

theorem removeForward_step {pid : Nat → Nat} {root b : Nat} {h h' : Heap P}
    (e : removeForward pid root h = .ok (b, h')) (ht : Tidy .plain h) (hr : root < h.length) :
    Step .plain h root h' b := by
  obtain ⟨l, w1, w2⟩ := removeForward_words (k := .plain) e
  have : Tidy .plain h' ∧ b < h'.length := by
    unfold removeForward at e
    split at e
    · cases e
    · rename_i g hg
      have ht' := removeForwards_tidy _ _ _ _ _ hg ht
      split at e
      · cases e
      · rename_i x hx
        cases e
        exact ⟨ht', ht'.closed _ (List.mem_of_getElem? hx) b (by simp [Obj.children])⟩
      · cases e
        exact ⟨ht', l ▸ hr⟩
  exact ⟨this.1, this.2, Nat.le_of_eq l.symm, fun w => (w2 w).symm, fun x _ w => (w1 x w).symm⟩

theorem generateNames_tidy : ∀ (as : List Nat) (count : Nat) (h : Heap P), Tidy .plain h →
    Tidy .plain (generateNames as count h) := by
  intro as
  induction as with
  | nil => intro count h ht; exact ht
  | cons a as ih =>
    intro count h ht
    simp only [generateNames]
    split
    · rename_i ps name i r kind ha
      split
      · exact ih _ _ ht
      · have := ht.closed _ (List.mem_of_getElem? ha)
        exact ih _ _ (tidy_set ht this trivial)
    · exact ih _ _ ht

theorem asBnf_step {pid : Nat → Nat} (hp : ∀ a b, pid a = pid b → a = b) {limit root b : Nat}
    {h h' : Heap P} (e : asBnf pid limit root h = .ok (b, h')) (ht : Tidy .plain h)
    (hr : root < h.length) : Step .plain h root h' b := by
  unfold asBnf at e
  simp only [bind, Except.bind] at e
  split at e
  · cases e
  · rename_i x hx
    obtain ⟨r1, h1⟩ := x
    simp only at e
    split at e
    · cases e
    · rename_i y hy
      obtain ⟨r2, h2⟩ := y
      cases e
      unfold toBnf at hx
      have s1 := transform_step hp (bnf_ok _) (fun _ _ h => h) hx ht.closed ht.inv hr
      have s2 := removeForward_step hy s1.tidy s1.lt
      obtain ⟨l3, w3⟩ := generateNames_words (k := .plain) (walk pid h2 r2) 0 h2
      refine (s1.trans s2).trans ⟨generateNames_tidy _ _ _ s2.tidy, ?_, Nat.le_of_eq l3.symm,
        fun w => (w3 r2 w).symm, fun x _ w => (w3 x w).symm⟩
      rw [l3]; exact s2.lt

end Yargy
