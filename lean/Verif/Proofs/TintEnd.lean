import Verif.Proofs.TintCompile
/-!
Compiling as a whole keeps a rule painted.
-/
namespace Yargy.Tint

variable {P : Type}

def shape (h : Heap P) (a : Nat) : Option (Tag × List Nat) := h[a]?.map (fun o => (o.tag, o.children))

theorem activateAt_shape {A : Activation P} {h h' : Heap P} {a : Nat} (e : activateAt A h a = .ok h') :
    h'.length = h.length ∧ shape h' = shape h := by
  unfold activateAt at e
  split at e
  · cases e; exact ⟨rfl, rfl⟩
  · rename_i o ho
    cases h2 : activateObj A o with
    | error x => rw [h2] at e; cases e
    | ok o' =>
      rw [h2] at e
      cases e
      refine ⟨by simp, ?_⟩
      funext x
      unfold shape
      rw [List.getElem?_set]
      split
      · rename_i ex
        subst ex
        have := activateObj_shape h2
        rw [if_pos (List.getElem?_eq_some_iff.1 ho).1, ho]
        simp [this.1, this.2.1]
      · rfl

theorem activateRule_shape {A : Activation P} {pid : Nat → Nat} {root : Nat} {h h' : Heap P}
    (e : activateRule A pid root h = .ok h') : h'.length = h.length ∧ shape h' = shape h := by
  have key : ∀ (as : List Nat) (g h' : Heap P), as.foldlM (activateAt A) g = .ok h' →
      h'.length = g.length ∧ shape h' = shape g := by
    intro as
    induction as with
    | nil => intro g h' e; cases e; exact ⟨rfl, rfl⟩
    | cons a as ih =>
      intro g h' e
      rw [List.foldlM_cons] at e
      cases h1 : activateAt A g a with
      | error x => rw [h1] at e; cases e
      | ok g1 =>
        rw [h1] at e
        obtain ⟨k1, k2⟩ := ih g1 h' e
        obtain ⟨q1, q2⟩ := activateAt_shape h1
        exact ⟨k1.trans q1, k2.trans q2⟩
  exact key _ _ _ e

theorem shape_prod {g h : Heap P} (hs : shape g = shape h) (a : Nat) : isProdAt g a = isProdAt h a := by
  have := congrFun hs a
  unfold shape at this
  unfold isProdAt
  cases hg : g[a]? with
  | none =>
    rw [hg] at this
    cases hh : h[a]? with
    | none => rfl
    | some o => rw [hh] at this; cases this
  | some o =>
    rw [hg] at this
    cases hh : h[a]? with
    | none => rw [hh] at this; cases this
    | some o' =>
      rw [hh] at this
      simp only [Option.map_some, Option.some.injEq, Prod.mk.injEq] at this
      simp only [this.1]

theorem shape_sorted {g h : Heap P} (hl : g.length = h.length) (hs : shape g = shape h) (ho : Sorted h) :
    Sorted g := by
  intro a o ha c hc
  have := congrFun hs a
  unfold shape at this
  rw [ha] at this
  cases hh : h[a]? with
  | none => rw [hh] at this; cases this
  | some o' =>
    rw [hh] at this
    simp only [Option.map_some, Option.some.injEq, Prod.mk.injEq] at this
    have k := ho a o' hh c (this.2 ▸ hc)
    rw [hl, shape_prod hs, this.1]
    exact k

theorem sorted_typed {h : Heap P} {root : Nat} (hs : Sorted h) (hlt : root < h.length) :
    Typed (fun _ => true) (fun _ => True) h root := by
  intro x hx
  have hxl : x < h.length := by
    cases hx with
    | root => exact hlt
    | step _ hu hc => exact (hs _ _ hu _ hc).1
  exact ⟨_, List.getElem?_eq_getElem hxl, rfl, fun _ _ => trivial,
    fun c hc => (hs x _ (List.getElem?_eq_getElem hxl) c hc).2⟩

/-- The setting in which the user's rule is painted, before anything is done with it. -/
abbrev start (h : Heap P) (root : Nat) : Pal := Pal.next h root (fun _ => False) (fun _ => true) true

/-- The setting of the compiled grammar. -/
abbrev final (h : Heap P) (b : Nat) : Pal := Pal.next h b (fun _ => True) (fun _ => true) false

theorem compileRule_tint {A : Activation P} {pid : Nat → Nat} (hp : ∀ a b, pid a = pid b → a = b)
    {limit root b : Nat} {h h' : Heap P} (hso : Sorted h) (hlt : root < h.length)
    (hpr : isProdAt h root = false) {col : Nat → Color} (hs : Neat (start h root) col h)
    (e : compileRule A pid limit root h = .ok (b, h')) :
    ∃ col', Neat (final h' b) col' h' ∧ b < h'.length ∧ Img (settle col root) (col' b) := by
  unfold compileRule at e
  simp only [bind, Except.bind] at e
  split at e
  · cases e
  rename_i h1 e1
  obtain ⟨n1, l1⟩ := activateRule_steps e1 hs
  obtain ⟨-, sh⟩ := activateRule_shape e1
  have hso1 := shape_sorted l1 sh hso
  have hlt1 : root < h1.length := by omega
  have hpr1 := (shape_prod sh root).trans hpr
  have ht1 := sorted_typed hso1 hlt1
  split at e
  · cases e
  rename_i x e2
  obtain ⟨r6, h6⟩ := x
  simp only at e
  -- the passes
  unfold normalized replaced at e2
  simp only [bind, Except.bind] at e2
  split at e2
  · cases e2
  rename_i x2 p1
  obtain ⟨r2, h2⟩ := x2
  simp only at e2
  have f1 := squash_left hp ht1 hso1 hpr1 p1
  obtain ⟨c2, n2, i2, m2⟩ := transform_steps hp (squash_steps (fun _ => rfl) (fun _ h => h) rfl) n1
    ⟨.inr .root, hlt1⟩ p1
  have n2' := n2.settled i2
  split at e2
  · cases e2
  rename_i x3 p2
  obtain ⟨r3, h3⟩ := x3
  simp only at e2
  have f2 := extended_left hp f1.typed f1.sorted f1.prod p2
  obtain ⟨c3, n3, i3, m3⟩ := transform_steps hp (extended_steps (fun _ => rfl) (fun _ h => h) rfl) n2'
    (item_next i2.2) p2
  have n3' := n3.next i3 (S := fun _ => False) (T := fun _ => true) (fun _ _ _ _ => rfl) (fun _ _ h => h.elim)
  split at e2
  · cases e2
  rename_i x4 p3
  obtain ⟨r4, h4⟩ := x4
  simp only at e2
  have f3 := or_left hp f2.typed f2.sorted f2.prod p3
  obtain ⟨c4, n4, i4, m4⟩ := transform_steps hp (or_steps (fun _ => rfl) (fun _ h => h) rfl) n3'
    (item_next i3.2) p3
  have n4' := n4.next i4 (S := fun _ => False) (T := fun _ => true) (fun _ _ _ _ => rfl) (fun _ _ h => h.elim)
  split at e2
  · cases e2
  rename_i x5 p4
  obtain ⟨r5, h5⟩ := x5
  simp only at e2
  have f4 := empty_left hp f3.typed f3.sorted f3.prod p4
  obtain ⟨c5, n5, i5, m5⟩ := transform_steps hp (empty_steps (fun _ => rfl) (fun _ h => h)) n4'
    (item_next i4.2) p4
  have n5' := n5.next i5 (S := fun x => h5.length ≤ x) (T := flatTags) (fun x o hx ho => by
    obtain ⟨o', k1, k2, _⟩ := f4.typed x hx
    rw [ho] at k1; cases k1; exact k2) (fun x hx hS => by
      have := (n5.reach i5 hx).2; omega)
  have f5 := flatten_left hp f4.typed f4.sorted f4.prod e2
  obtain ⟨c6, n6, i6, m6⟩ := transform_steps hp (flatten_steps rfl rfl rfl rfl) n5' (item_next i5.2) e2
  have n6' := n6.next i6 (S := fun _ => True) (T := fun _ => true) (fun _ _ _ _ => rfl) (fun x hx _ hc => by
    have ix := n6.reach i6 hx
    obtain ⟨o, ho⟩ : ∃ o, h6[x]? = some o := ⟨_, List.getElem?_eq_getElem ix.2⟩
    have hg := n6.good x _ ix.1 ho
    have hprod : ∃ ts m, o = .prod ts m := by
      by_cases hx' : ∃ ts m, o = .prod ts m
      · exact hx'
      · exact absurd hc (ok_not_hollow hg.ok (fun ts m k => hx' ⟨ts, m, k⟩))
    obtain ⟨ts, m, hprod⟩ := hprod
    rcases f5.fresh x hx with k | ⟨o', k1, k2⟩ | ⟨⟨d, k⟩, _⟩
    · exact n6.flat x ix.1 k hc
    · rw [ho, hprod] at k1; cases k1; cases k2
    · rcases f5.frame x _ k with q | ⟨_, _, r, q⟩
      · rw [ho, hprod] at q; cases q
      · rw [ho, hprod] at q; cases q)
  -- compiled rules
  unfold asBnf at e
  simp only [bind, Except.bind, pure, Except.pure] at e
  split at e
  · cases e
  rename_i x7 p5
  obtain ⟨r7, h7⟩ := x7
  simp only at e
  obtain ⟨c7, n7, i7, m7⟩ := transform_steps hp (bnf_steps rfl (fun _ => rfl) (fun _ => trivial) _) n6'
    (item_next i6.2) p5
  split at e
  · cases e
  rename_i x8 p6
  obtain ⟨r8, h8⟩ := x8
  simp only [Except.ok.injEq, Prod.mk.injEq] at e
  obtain ⟨rfl, rfl⟩ := e
  have hroot : Img (settle col root) (c7 r7) := by
    have q2 : Img (settle col root) (settle c2 r2) := by
      unfold settle
      rcases m2 with m2 | ⟨m2, m2'⟩ | ⟨m2, m2'⟩
      · rw [m2]; exact .inl rfl
      · rw [m2, m2']; exact .inr (.inl ⟨rfl, rfl⟩)
      · rw [m2, m2']; exact .inr (.inr ⟨rfl, rfl⟩)
    exact ((((q2.trans m3).trans m4).trans m5).trans m6).trans m7
  have key : ∃ g, removeForwards pid (h7.length + 1) [r7] [pid r7] h7 = .ok g ∧ h8 = g ∧
      (r8 = r7 ∨ g[r7]? = some (.forward (some r8))) := by
    unfold removeForward at p6
    split at p6
    · cases p6
    · rename_i g hg
      refine ⟨g, hg, ?_⟩
      split at p6
      · cases p6
      · rename_i y hy; cases p6; exact ⟨rfl, .inr hy⟩
      · cases p6; exact ⟨rfl, .inl rfl⟩
  obtain ⟨g, hg, rfl, hr8⟩ := key
  obtain ⟨n8, l8⟩ := removeForwards_steps rfl _ _ _ _ _ hg n7
  obtain ⟨i8, m8⟩ : Item _ h8 r8 ∧ Img (c7 r7) (c7 r8) := by
    rcases hr8 with rfl | hr8
    · exact ⟨⟨i7.1, by rw [l8]; exact i7.2⟩, .inl rfl⟩
    · have hgo := n8.good r7 _ i7.1 hr8
      refine ⟨hgo.kids r8 (by simp [Obj.children]), ?_⟩
      rw [hgo.ok.1]
      rcases hgo.ok.2 r8 rfl with (w | w) | ⟨w, _⟩
      · exact .inl w
      · exact .inr (.inr ⟨rfl, w⟩)
      · cases w
  obtain ⟨n9, l9⟩ := generateNames_steps (walk pid h8 r8) 0 h8 n8
  have i9 : Item _ (generateNames (walk pid h8 r8) 0 h8) r8 := ⟨i8.1, by rw [l9]; exact i8.2⟩
  exact ⟨c7, n9.next i9 (fun _ _ _ _ => rfl) (fun x hx _ => n9.flat x (n9.reach i9 hx).1 trivial), i9.2,
    hroot.trans m8⟩

end Yargy.Tint
