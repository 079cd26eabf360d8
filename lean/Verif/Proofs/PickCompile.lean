import Verif.Proofs.PickBnf
import Verif.Proofs.CompileWords
/-!
Removing forward rules and naming rules keeps the words with choices.
-/
namespace Yargy.Pick

variable {P : Type}

theorem tells_append {h : Heap P} {ts us : List (Piece P)} {w : List (Mark P)} :
    Tells h (ts ++ us) w ↔ ∃ v v', Tells h ts v ∧ Tells h us v' ∧ w = v ++ v' := by
  constructor
  · intro s
    obtain ⟨n, g⟩ := tells_gen s
    obtain ⟨c, d, v, v', _, g1, g2, e⟩ := g.split
    exact ⟨v, v', g1.tells, g2.tells, e⟩
  · rintro ⟨v, v', s1, s2, rfl⟩
    obtain ⟨n, g1⟩ := tells_gen s1
    obtain ⟨m, g2⟩ := tells_gen s2
    exact (g1.append g2).tells

theorem tells_nil {h : Heap P} {w : List (Mark P)} : Tells h [] w ↔ w = [] :=
  ⟨fun s => by cases s; rfl, fun e => e ▸ .nil⟩

theorem words_iff {h : Heap P} {a : Nat} {o : Obj P} (ha : h[a]? = some o) (w : List (Mark P)) :
    Words h a w ↔ ∃ us, Deals o us ∧ Tells h us w := by
  constructor
  · intro s
    cases s with
    | rule ho hs hu ht =>
      rw [ha] at ho; cases ho
      cases ht
      exact ⟨_, hs, by rw [List.append_nil]; exact hu⟩
  · rintro ⟨us, h1, h2⟩
    have := Tells.rule ha h1 h2 .nil
    rwa [List.append_nil] at this

/-! ### Forward rules -/

/-- The second part is the first, or what the forward rule in its place holds. -/
inductive SkipPiece (h : Heap P) : Piece P → Piece P → Prop
  | same (t) : SkipPiece h t t
  | skip {f x} : h[f]? = some (.forward (some x)) → SkipPiece h (.rule f) (.rule x)

theorem skip_parts {h : Heap P} {ts ts' : List (Term P)} (hp : Pointwise (SkipTerm h) ts ts') :
    Pointwise (SkipPiece h) (ts.map Term.part) (ts'.map Term.part) := by
  induction hp with
  | nil => exact .nil
  | cons h1 _ ih =>
    refine .cons ?_ ih
    cases h1 with
    | same => exact .same _
    | skip hf => exact .skip hf

theorem skip_refl {h : Heap P} (ts : List (Piece P)) : Pointwise (SkipPiece h) ts ts := by
  induction ts with
  | nil => exact .nil
  | cons t ts ih => exact .cons (.same t) ih

section
variable {h : Heap P} {a m : Nat} {ts ts' : List (Term P)}

theorem skip_forth (ha : h[a]? = some (.prod ts m)) (hp : Pointwise (SkipTerm h) ts ts') {us w}
    (s : Tells h us w) : ∀ us', Pointwise (SkipPiece h) us us' →
      Tells (h.set a (.prod ts' m)) us' w := by
  induction s with
  | nil => intro us' hu; cases hu; exact .nil
  | pred _ ih =>
    intro us' hu
    cases hu with
    | cons h1 h2 => cases h1; exact .pred (ih _ h2)
  | note _ ih =>
    intro us' hu
    cases hu with
    | cons h1 h2 => cases h1; exact .note (ih _ h2)
  | @rule b o vs us w v ho hs _ _ ih1 ih2 =>
    intro us' hu
    cases hu with
    | cons h1 h2 =>
      cases h1 with
      | same =>
        rcases skip_at (ts' := ts') ha ho with ⟨rfl, rfl, e⟩ | ⟨_, e⟩
        · cases hs
          refine Tells.rule e .prod (ih1 _ ?_) (ih2 _ h2)
          rw [← pointwise_length hp]
          exact pointwise_append (skip_refl _) (skip_parts hp)
        · exact .rule e hs (ih1 _ (skip_refl _)) (ih2 _ h2)
      | skip hf =>
        rw [ho] at hf; cases hf
        cases hs
        exact tells_append.2 ⟨_, _, ih1 _ (skip_refl _), ih2 _ h2, rfl⟩

theorem skip_back (ha : h[a]? = some (.prod ts m)) (hp : Pointwise (SkipTerm h) ts ts') {us' w}
    (s : Tells (h.set a (.prod ts' m)) us' w) : ∀ us, Pointwise (SkipPiece h) us us' →
      Tells h us w := by
  induction s with
  | nil => intro us hu; cases hu; exact .nil
  | pred _ ih =>
    intro us hu
    cases hu with
    | cons h1 h2 => cases h1; exact .pred (ih _ h2)
  | note _ ih =>
    intro us hu
    cases hu with
    | cons h1 h2 => cases h1; exact .note (ih _ h2)
  | @rule b o vs us' w v ho hs _ _ ih1 ih2 =>
    have one : ∀ {us v}, Tells h us v → Tells h (.rule b :: us) (w ++ v) := by
      intro us v hv
      have hlt : b < h.length := by
        have := (List.getElem?_eq_some_iff.1 ho).1
        rwa [List.length_set] at this
      rcases skip_at (ts' := ts') ha (List.getElem?_eq_getElem hlt) with ⟨rfl, e1, e⟩ | ⟨_, e⟩
      · rw [ho] at e; cases e
        cases hs
        refine Tells.rule ha .prod (ih1 _ ?_) hv
        rw [pointwise_length hp]
        exact pointwise_append (skip_refl _) (skip_parts hp)
      · rw [ho] at e; cases e
        exact .rule (List.getElem?_eq_getElem hlt) hs (ih1 _ (skip_refl _)) hv
    intro us hu
    cases hu with
    | cons h1 h2 =>
      cases h1 with
      | same => exact one (ih2 _ h2)
      | skip hf =>
        have h3 := one (us := []) .nil
        have := Tells.rule hf .forward h3 (ih2 _ h2)
        simpa using this

theorem skip_words (ha : h[a]? = some (.prod ts m)) (hp : Pointwise (SkipTerm h) ts ts') (x : Nat)
    (w : List (Mark P)) : Words (h.set a (.prod ts' m)) x w ↔ Words h x w :=
  ⟨fun s => skip_back ha hp s _ (skip_refl _), fun s => skip_forth ha hp s _ (skip_refl _)⟩

end

theorem removeForwards_words {pid : Nat → Nat} : ∀ (n : Nat) (queue seen : List Nat) (h h' : Heap P),
    removeForwards pid n queue seen h = .ok h' →
      h'.length = h.length ∧ (∀ x w, Words h' x w ↔ Words h x w) ∧
      ∀ a : Nat, (∀ ts m, h[a]? ≠ some (.prod ts m)) → h'[a]? = h[a]? := by
  intro n
  induction n with
  | zero => intro queue seen h h' e; cases e; exact ⟨rfl, fun _ _ => Iff.rfl, fun _ _ => rfl⟩
  | succ n ih =>
    intro queue seen h h' e
    cases queue with
    | nil => cases e; exact ⟨rfl, fun _ _ => Iff.rfl, fun _ _ => rfl⟩
    | cons a queue =>
      simp only [removeForwards] at e
      split at e
      · cases e
      · rename_i ts m ha
        split at e
        · cases e
        · rename_i ts' hts
          obtain ⟨h1, h2, h3⟩ := ih _ _ _ _ e
          refine ⟨by rw [h1, List.length_set], fun x w => ?_, fun b hb => ?_⟩
          · rw [h2, skip_words ha (mapM_pointwise (fun _ _ => removeTerm_skip) hts)]
          · have hab : b ≠ a := fun e => hb ts m (e ▸ ha)
            rw [h3 b ?_, List.getElem?_set_ne (Ne.symm hab)]
            intro us m'
            rw [List.getElem?_set_ne (Ne.symm hab)]
            exact hb us m'
      · exact ih _ _ _ _ e

theorem words_forward {h : Heap P} {a x : Nat} (ha : h[a]? = some (.forward (some x)))
    (w : List (Mark P)) : Words h a w ↔ Words h x w := by
  rw [words_iff ha]
  constructor
  · rintro ⟨us, h1, h2⟩
    cases h1
    exact h2
  · intro hw
    exact ⟨_, .forward, hw⟩

theorem removeForward_words {pid : Nat → Nat} {root b : Nat} {h h' : Heap P}
    (e : removeForward pid root h = .ok (b, h')) :
    h'.length = h.length ∧ (∀ x w, Words h' x w ↔ Words h x w) ∧
      ∀ w, Words h' b w ↔ Words h root w := by
  unfold removeForward at e
  split at e
  · cases e
  · rename_i g hg
    obtain ⟨h1, h2, _⟩ := removeForwards_words _ _ _ _ _ hg
    split at e
    · cases e
    · rename_i x hx
      cases e
      exact ⟨h1, h2, fun w => by rw [← h2, words_forward hx]⟩
    · cases e
      exact ⟨h1, h2, h2 _⟩

/-! ### Names -/

theorem like_set {h : Heap P} {a : Nat} {o o' : Obj P} (ha : h[a]? = some o) (hl : Like o o') :
    Agree h (h.set a o') where
  length := by simp
  at_ := by
    intro b x hb
    by_cases e : b = a
    · subst e
      rw [ha] at hb; cases hb
      exact ⟨o', by rw [List.getElem?_set_self (List.getElem?_eq_some_iff.1 ha).1], .inl hl⟩
    · exact ⟨x, by rw [List.getElem?_set_ne (Ne.symm e)]; exact hb, .inl (.refl x)⟩

theorem generateNames_words : ∀ (as : List Nat) (count : Nat) (h : Heap P),
    (generateNames as count h).length = h.length ∧
    ∀ x w, Words (generateNames as count h) x w ↔ Words h x w := by
  intro as
  induction as with
  | nil => intro count h; exact ⟨rfl, fun _ _ => Iff.rfl⟩
  | cons a as ih =>
    intro count h
    simp only [generateNames]
    split
    · rename_i ps name i r kind ha
      split
      · exact ih _ _
      · obtain ⟨h1, h2⟩ := ih (count + 1) (h.set a (.bnf ps (some (genName count)) i r kind))
        refine ⟨by rw [h1, List.length_set], fun x w => ?_⟩
        rw [h2]
        exact ((like_set ha (Yargy.Like.bnf (n' := some (genName count)) rfl)).words x w).symm
    · exact ih _ _

/-! ### All together -/

/-- Replacing one object by one with smaller references keeps a heap tidy. -/
theorem tidy_set {h : Heap P} {a : Nat} {o : Obj P} (ht : Tidy false h)
    (hc : ∀ c ∈ o.children, c < h.length) (hb : o.bounds) : Tidy false (h.set a o) where
  closed := by
    intro x hx c hcx
    rw [List.length_set]
    rcases List.mem_or_eq_of_mem_set hx with hx | rfl
    · exact ht.closed x hx c hcx
    · exact hc c hcx
  inv := by
    intro x hx
    rcases List.mem_or_eq_of_mem_set hx with hx | rfl
    · exact ht.inv x hx
    · exact ⟨hb, nofun⟩

theorem removeForwards_tidy {pid : Nat → Nat} : ∀ (n : Nat) (queue seen : List Nat) (h h' : Heap P),
    removeForwards pid n queue seen h = .ok h' → Tidy false h → Tidy false h' := by
  intro n
  induction n with
  | zero => intro queue seen h h' e ht; cases e; exact ht
  | succ n ih =>
    intro queue seen h h' e ht
    cases queue with
    | nil => cases e; exact ht
    | cons a queue =>
      simp only [removeForwards] at e
      split at e
      · cases e
      · rename_i ts m ha
        split at e
        · cases e
        · rename_i ts' hts
          refine ih _ _ _ _ e (tidy_set ht ?_ trivial)
          exact skip_rules ht.closed (mapM_pointwise (fun _ _ => removeTerm_skip) hts)
            (ht.closed _ (List.mem_of_getElem? ha))
      · exact ih _ _ _ _ e ht

theorem removeForward_step {pid : Nat → Nat} {root b : Nat} {h h' : Heap P}
    (e : removeForward pid root h = .ok (b, h')) (ht : Tidy false h) (hr : root < h.length) :
    Step false h root h' b := by
  obtain ⟨l, _, w2⟩ := removeForward_words e
  have : Tidy false h' ∧ b < h'.length := by
    unfold removeForward at e
    split at e
    · cases e
    · rename_i g hg
      have ht' := removeForwards_tidy _ _ _ _ _ hg ht
      split at e
      · cases e
      · rename_i x hx
        cases e
        exact ⟨ht', ht'.closed _ (List.mem_of_getElem? hx) b (by simp [Obj.children])⟩
      · cases e
        exact ⟨ht', l ▸ hr⟩
  exact ⟨this.1, this.2, Nat.le_of_eq l.symm, fun w => (w2 w).symm⟩

theorem generateNames_tidy : ∀ (as : List Nat) (count : Nat) (h : Heap P), Tidy false h →
    Tidy false (generateNames as count h) := by
  intro as
  induction as with
  | nil => intro count h ht; exact ht
  | cons a as ih =>
    intro count h ht
    simp only [generateNames]
    split
    · rename_i ps name i r kind ha
      split
      · exact ih _ _ ht
      · have := ht.closed _ (List.mem_of_getElem? ha)
        exact ih _ _ (tidy_set ht this trivial)
    · exact ih _ _ ht

theorem asBnf_step {pid : Nat → Nat} (hp : ∀ a b, pid a = pid b → a = b) {limit root b : Nat}
    {h h' : Heap P} (e : asBnf pid limit root h = .ok (b, h')) (ht : Tidy true h)
    (hr : root < h.length) : Step false h root h' b := by
  unfold asBnf at e
  simp only [bind, Except.bind] at e
  split at e
  · cases e
  · rename_i x hx
    obtain ⟨r1, h1⟩ := x
    simp only at e
    split at e
    · cases e
    · rename_i y hy
      obtain ⟨r2, h2⟩ := y
      cases e
      unfold toBnf at hx
      have s1 := transform_step hp (bnf_ok _) (fun _ _ _ _ h => h) (fun _ _ h => h) hx ht.closed
        (fun o ho => ⟨(ht.inv o ho).1, nofun⟩) hr
      have s2 := removeForward_step hy s1.tidy s1.lt
      obtain ⟨l3, w3⟩ := generateNames_words (walk pid h2 r2) 0 h2
      refine (s1.trans s2).trans ⟨generateNames_tidy _ _ _ s2.tidy, ?_, Nat.le_of_eq l3.symm,
        fun w => (w3 r2 w).symm⟩
      rw [l3]; exact s2.lt

end Yargy.Pick
