import Verif.Proofs.Tint
/-!
The passes of compiling keep a rule painted.
-/
namespace Yargy.Tint

variable {P : Type} {F : Pal} {col : Nat → Color}

/-- What a method has to do for one object. -/
abbrev Does (F : Pal) (col : Nat → Color) (s s' : St P) (a b : Nat) : Prop :=
  ∃ col', Next col col' s.heap s'.heap ∧ NeatS F col' s' ∧ Got F col' s'.heap a b

theorem sd_not {sq : Bool} {c : Color} (h : Sd sq c) : c ≠ .null ∧ c ≠ .blank ∧ c ≠ .void ∧ c ≠ .hollow := by
  rcases h with (h | h) | ⟨_, h⟩ <;> subst h <;> simp

theorem full_not {c : Color} (h : Full c) : c ≠ .rep ∧ c ≠ .null ∧ c ≠ .blank ∧ c ≠ .void ∧ c ≠ .hollow := by
  rcases h with h | h <;> subst h <;> simp

/-! ### Squashing -/

theorem visitNew_steps {rec : Visit P} (hr : VisitSteps F rec) {o : Obj P} (k : Color) {s s' : St P} {b : Nat}
    (hs : NeatS F col s) (hok : Ok F.sq (paint col s.heap.length k) s.heap.length o) (htag : F.T o.tag = true)
    (hkids : ∀ c ∈ o.children, F.D c ∧ c < s.heap.length) (hS : F.S s.heap.length → k ≠ .hollow)
    (h : visitNew rec o s = .ok (b, s')) :
    ∃ col', Next col col' s.heap s'.heap ∧ NeatS F col' s' ∧ (F.D b ∧ b < s'.heap.length) ∧ Img k (col' b) := by
  obtain ⟨c, p1, p2, p3, p4, p5⟩ := hs.alloc k hok htag hkids hS
  obtain ⟨c', q1, q2, q3⟩ := hr c _ _ _ _ p2 ⟨p4, p5⟩ h
  refine ⟨c', p1.trans q1, q2, q3.1, ?_⟩
  have := q3.2
  rw [q1.2 _ p5] at this
  rw [← p3]
  exact this

theorem squashBounded_steps (hT : ∀ t, F.T t = true) (hS : ∀ l, ¬ F.S l) (hq : F.sq = true) {rec : Visit P}
    (hr : VisitSteps F rec) {a child : Nat} {o : Obj P} {mk : Nat → Obj P} {s s' : St P} {b : Nat}
    (hs : NeatS F col s) (hd : F.D a) (ho : s.heap[a]? = some o) (hxs : o.children = [child])
    (hmk : ∀ y, (mk y).children = [y])
    (hview : ∀ c y l, Ok F.sq c l (mk y) ↔
      ((c l = .full ∧ Full (c y)) ∨ (F.sq = true ∧ c l = .rep ∧ Sd F.sq (c y))))
    (he : o = mk child) (h : squashBounded rec child mk s = .ok (b, s')) : Does F col s s' a b := by
  have hlt := (List.getElem?_eq_some_iff.1 ho).1
  have hg := hs.good a o hd ho
  obtain ⟨kd, kl⟩ := hg.kids child (by rw [hxs]; simp)
  have hoa := hg.ok
  rw [he, hview] at hoa
  unfold squashBounded at h
  split at h
  · rename_i g rev hc
    have hgc := hs.good child _ kd hc
    have hcc := hgc.ok.2
    rw [hq] at hcc
    simp only [if_true] at hcc
    have harep : col a = .rep := by
      rcases hoa with ⟨_, k⟩ | ⟨_, k, _⟩
      · exact absurd hcc (full_not k).1
      · exact k
    have hkg := hgc.kids g (by simp [Obj.children])
    obtain ⟨c, p1, p2, p3, p4⟩ := visitNew_steps hr .rep hs (o := .repeatable g rev)
      ⟨by rw [paint_old hkg.2]; exact hgc.ok.1, by rw [paint_new, hq]; rfl⟩ (hT _)
      (fun x hx => hgc.kids x hx) (fun h => absurd h (hS _)) h
    refine ⟨c, p1, p2, p3, ?_⟩
    rw [p1.2 a hlt, harep]; exact p4
  · cases h
  · rename_i g rev hc
    have hcc := (hs.good child _ kd hc).ok.1
    rcases hoa with ⟨_, k⟩ | ⟨_, _, k⟩
    · exact absurd hcc (full_not k).2.1
    · exact absurd hcc (sd_not k).1
  · refine rebuild_steps hr hs hd ho hxs hmk (fun _ => hT _) (by
      rcases hoa with ⟨k, _⟩ | ⟨_, k, _⟩ <;> rw [k] <;> simp) ?_ ?_ h
    · intro c y ho hi
      rw [he, hview] at ho
      rw [hview]
      exact ho.imp (fun h => ⟨h.1, hi.full h.2⟩) (fun h => ⟨h.1, h.2.1, hi.sd h.2.2⟩)
    · intro c a l y e ho
      rw [hview] at ho ⊢
      rw [e]; exact ho

theorem squash_steps (hT : ∀ t, F.T t = true) (hS : ∀ l, ¬ F.S l) (hq : F.sq = true) :
    MethodSteps F (squashMethod (P := P)) := by
  intro n rec hr col a o s b s' hs hd ho h
  have hlt := (List.getElem?_eq_some_iff.1 ho).1
  have hg := hs.good a o hd ho
  unfold squashMethod at h
  split at h
  · rename_i child rev
    obtain ⟨kd, kl⟩ := hg.kids child (by simp [Obj.children])
    obtain ⟨ho1, ho2⟩ := hg.ok
    rw [hq] at ho2
    simp only [if_true] at ho2
    have key : ∀ g, Sd F.sq (col g) → F.D g ∧ g < s.heap.length →
        visitNew rec (.repeatable g rev) s = .ok (b, s') → Does F col s s' a b := by
      intro g hsd hkg h
      obtain ⟨c, p1, p2, p3, p4⟩ := visitNew_steps hr .rep hs (o := .repeatable g rev)
        ⟨by rw [paint_old hkg.2]; exact hsd, by rw [paint_new, hq]; rfl⟩ (hT _)
        (fun x hx => by
          simp only [Obj.children, List.mem_singleton] at hx
          subst hx; exact hkg) (fun h => absurd h (hS _)) h
      refine ⟨c, p1, p2, p3, ?_⟩
      rw [p1.2 a hlt, ho2]; exact p4
    split at h
    · rename_i hc
      exact absurd (hs.good child _ kd hc).ok.1 (sd_not ho1).1
    · cases h
    · rename_i g _ hc
      have := hs.good child _ kd hc
      exact key g this.ok.1 (this.kids g (by simp [Obj.children])) h
    · rename_i g _ _ hc
      have := hs.good child _ kd hc
      exact key g (this.ok.elim (fun h => .inl h.2) (fun h => h.2.2)) (this.kids g (by simp [Obj.children])) h
    · rename_i g _ _ hc
      have := hs.good child _ kd hc
      exact key g (this.ok.elim (fun h => .inl h.2) (fun h => h.2.2)) (this.kids g (by simp [Obj.children])) h
    · rename_i g _ _ _ hc
      have := hs.good child _ kd hc
      exact key g (this.ok.elim (fun h => .inl h.2) (fun h => h.2.2)) (this.kids g (by simp [Obj.children])) h
    · refine rebuild_steps (mk := (.repeatable · rev)) hr hs hd ho rfl (fun _ => rfl) (fun _ => hT _)
        (by rw [ho2]; simp) ?_ ?_ h
      · intro c y ho hi; exact ⟨hi.sd ho.1, ho.2⟩
      · intro c a l y e ho; simp only [Ok] at ho ⊢; rw [e]; exact ho
  · rename_i child rev
    obtain ⟨kd, kl⟩ := hg.kids child (by simp [Obj.children])
    obtain ⟨ho1, ho2⟩ := hg.ok
    split at h
    · rename_i hc
      have := (hs.good child _ kd hc).ok.2
      rw [hq] at this
      exact absurd this (full_not ho2).1
    · cases h
    · rename_i hc
      exact absurd (hs.good child _ kd hc).ok.1 (full_not ho2).2.1
    · refine rebuild_steps (mk := (.optional · rev)) hr hs hd ho rfl (fun _ => rfl) (fun _ => hT _)
        (by rw [ho1]; simp) ?_ ?_ h
      · intro c y ho hi; exact ⟨ho.1, hi.full ho.2⟩
      · intro c a l y e ho; simp only [Ok] at ho ⊢; rw [e]; exact ho
  · exact hg.ok.elim
  · rename_i child min rev
    exact squashBounded_steps (mk := (.minBounded · min rev)) hT hS hq hr hs hd ho rfl (fun _ => rfl)
      (fun _ _ _ => Iff.rfl) rfl h
  · rename_i child max rev
    exact squashBounded_steps (mk := (.maxBounded · max rev)) hT hS hq hr hs hd ho rfl (fun _ => rfl)
      (fun _ _ _ => Iff.rfl) rfl h
  · rename_i child min max rev
    exact squashBounded_steps (mk := (.minMaxBounded · min max rev)) hT hS hq hr hs hd ho rfl (fun _ => rfl)
      (fun _ _ _ => Iff.rfl) rfl h
  · exact default_steps (hT _) hr hs hd ho (fun ⟨l, hl⟩ => absurd hl (hS l)) h

/-! ### Replacing quantifiers -/

theorem placed_fulls {sq : Bool} {xs : List Nat} (h : ∀ x ∈ xs, Full (col x)) (b : Prop) :
    Placed (P := P) sq col b (xs.map .rule) := by
  induction xs generalizing b with
  | nil => trivial
  | cons x xs ih =>
    exact ⟨.inl (.inl (h x List.mem_cons_self)), ih (fun y hy => h y (List.mem_cons_of_mem _ hy)) _⟩

theorem termRules_map (xs : List Nat) : termRules (P := P) (xs.map .rule) = xs := by
  induction xs with
  | nil => rfl
  | cons x xs ih => simp [termRules, ih]

/-- New objects all of which are never empty. -/
theorem NeatS.fulls {s : St P} (hs : NeatS F col s) (hT : ∀ t, F.T t = true) (hS : ∀ l, ¬ F.S l)
    (os : List (Obj P)) (hok : ∀ (i : Nat) o, os[i]? = some o → Ok F.sq col (s.heap.length + i) o ∧
      ∀ c ∈ o.children, F.D c ∧ c < s.heap.length + os.length) :
    NeatS F col { s with heap := s.heap ++ os } ∧ Next col col s.heap (s.heap ++ os) :=
  hs.append os (fun _ _ => rfl) (fun a ha => hs.rest a (by omega)) (fun i o ho =>
    ⟨⟨(hok i o ho).1, hT _, (hok i o ho).2⟩, fun h => absurd h (hS _)⟩)

section extended
variable (hT : ∀ t, F.T t = true) (hS : ∀ l, ¬ F.S l)
include hT hS

theorem stRule_steps {s : St P} (hs : NeatS F col s) {items : List Nat} (hne : items ≠ [])
    (hi : ∀ x ∈ items, Item F s.heap x ∧ Full (col x)) :
    NeatS F col (s.rule items).2 ∧ Next col col s.heap (s.rule items).2.heap ∧
      Item F (s.rule items).2.heap (s.rule items).1 ∧ col (s.rule items).1 = .full := by
  have hlen := hs.len
  obtain ⟨h1, h2⟩ := hs.fulls hT hS [.prod (items.map .rule) 0, .rule [s.heap.length]] (by
    intro i o ho
    match i, ho with
    | 0, ho =>
      cases ho
      refine ⟨.inl ⟨by simpa using hne, placed_fulls (fun x hx => (hi x hx).2) _, .inl (hs.rest _ (by omega))⟩, ?_⟩
      intro c hc
      simp only [Obj.children, termRules_map] at hc
      refine ⟨(hi c hc).1.1, ?_⟩
      have := (hi c hc).1.2
      simp only [List.length_cons, List.length_nil]; omega
    | 1, ho =>
      cases ho
      refine ⟨.inl ⟨hs.rest _ (by omega), ?_⟩, ?_⟩
      · intro c hc
        simp only [List.map_cons, List.map_nil, List.mem_singleton] at hc
        subst hc; exact .inl (hs.rest _ (Nat.le_refl _))
      · intro c hc
        simp only [Obj.children, List.mem_singleton] at hc
        subst hc; exact ⟨F.new _ hlen, by simp only [List.length_cons, List.length_nil]; omega⟩)
  have e : (s.rule items).2 = { s with heap := s.heap ++ [.prod (items.map .rule) 0, .rule [s.heap.length]] } := by
    simp [St.rule, St.alloc]
  have e1 : (s.rule items).1 = s.heap.length + 1 := by simp [St.rule, St.alloc]
  rw [e, e1]
  refine ⟨h1, h2, ⟨F.new _ (by omega), ?_⟩, hs.rest _ (by omega)⟩
  simp

theorem mkRepeatable_steps (hq : F.sq = false) {s : St P} (hs : NeatS F col s) {item : Nat} (rev : Bool)
    (hi : Item F s.heap item ∧ Full (col item)) :
    NeatS F col (mkRepeatable item rev s).2 ∧ Next col col s.heap (mkRepeatable item rev s).2.heap ∧
      Item F (mkRepeatable item rev s).2.heap (mkRepeatable item rev s).1 ∧
      col (mkRepeatable item rev s).1 = .full := by
  have hlen := hs.len
  have hfull : ∀ i, Full (col (s.heap.length + i)) := fun i => .inl (hs.rest _ (by omega))
  obtain ⟨h1, h2⟩ := hs.fulls hT hS [.forward (some (s.heap.length + 3)),
      .prod [.rule item, .rule s.heap.length] 0, .rule [s.heap.length + 1],
      .or (if rev then [item, s.heap.length + 2] else [s.heap.length + 2, item])] (by
    intro i o ho
    match i, ho with
    | 0, ho =>
      cases ho
      refine ⟨⟨hs.rest _ (by omega), fun r hr => by cases hr; exact .inl (hfull 3)⟩, fun c hc => ?_⟩
      simp only [Obj.children, Option.toList_some, List.mem_singleton] at hc
      subst hc; exact ⟨F.new _ (by omega), by simp only [List.length_cons, List.length_nil]; omega⟩
    | 1, ho =>
      cases ho
      refine ⟨.inl ⟨by simp, placed_fulls (xs := [item, s.heap.length]) (fun x hx => ?_) _, .inl (hs.rest _ (by omega))⟩, ?_⟩
      · rcases List.mem_cons.1 hx with rfl | hx
        · exact hi.2
        · rw [List.mem_singleton] at hx; subst hx; exact hfull 0
      · intro c hc
        simp only [Obj.children, termRules, List.mem_cons, List.not_mem_nil, or_false] at hc
        simp only [List.length_cons, List.length_nil]
        rcases hc with rfl | rfl
        · exact ⟨hi.1.1, by have := hi.1.2; omega⟩
        · exact ⟨F.new _ hlen, by omega⟩
    | 2, ho =>
      cases ho
      refine ⟨.inl ⟨hs.rest _ (by omega), ?_⟩, ?_⟩
      · intro c hc
        simp only [List.map_cons, List.map_nil, List.mem_singleton] at hc
        subst hc; exact hfull 1
      · intro c hc
        simp only [Obj.children, List.mem_singleton] at hc
        subst hc; exact ⟨F.new _ (by omega), by simp only [List.length_cons, List.length_nil]; omega⟩
    | 3, ho =>
      cases ho
      have hmem : ∀ c ∈ (if rev then [item, s.heap.length + 2] else [s.heap.length + 2, item]),
          c = item ∨ c = s.heap.length + 2 := by
        intro c hc
        cases rev <;> simp at hc <;> omega
      refine ⟨.inl ⟨hs.rest _ (by omega), fun c hc => ?_⟩, fun c hc => ?_⟩
      · rcases hmem c hc with rfl | rfl
        · exact .inl hi.2
        · exact .inl (hfull 2)
      · simp only [List.length_cons, List.length_nil]
        rcases hmem c hc with rfl | rfl
        · exact ⟨hi.1.1, by have := hi.1.2; omega⟩
        · exact ⟨F.new _ (by omega), by omega⟩)
  have e : (mkRepeatable item rev s).2 = { s with heap := s.heap ++ [.forward (some (s.heap.length + 3)),
      .prod [.rule item, .rule s.heap.length] 0, .rule [s.heap.length + 1],
      .or (if rev then [item, s.heap.length + 2] else [s.heap.length + 2, item])] } := by
    simp [mkRepeatable, St.rule, St.alloc]
  have e1 : (mkRepeatable item rev s).1 = s.heap.length := by simp [mkRepeatable, St.alloc]
  rw [e, e1]
  refine ⟨h1, h2, ⟨F.new _ hlen, ?_⟩, hs.rest _ (by omega)⟩
  simp

theorem maxBound_steps {item : Nat} (rev : Bool) : ∀ (n : Nat) {s : St P}, NeatS F col s →
    Item F s.heap item ∧ Full (col item) →
    NeatS F col (maxBound item rev n s).2 ∧ Next col col s.heap (maxBound item rev n s).2.heap ∧
      Item F (maxBound item rev n s).2.heap (maxBound item rev n s).1 ∧
      Full (col (maxBound item rev n s).1)
  | 0, s, hs, hi => ⟨hs, .refl _ _, hi.1, hi.2⟩
  | 1, s, hs, hi => ⟨hs, .refl _ _, hi.1, hi.2⟩
  | n + 2, s, hs, hi => by
    obtain ⟨a1, a2, a3, a4⟩ := maxBound_steps rev (n + 1) hs hi
    simp only [maxBound]
    generalize maxBound item rev (n + 1) s = y at a1 a2 a3 a4
    obtain ⟨inner, s1⟩ := y
    have hi' : Item F s1.heap item := hi.1.next a2
    obtain ⟨b1, b2, b3, b4⟩ := stRule_steps hT hS a1 (items := [item, inner]) (by simp) (by
      intro x hx
      rcases List.mem_cons.1 hx with rfl | hx
      · exact ⟨hi', hi.2⟩
      · rw [List.mem_singleton] at hx; subst hx; exact ⟨a3, a4⟩)
    generalize s1.rule [item, inner] = z at b1 b2 b3 b4
    obtain ⟨w, s2⟩ := z
    have hi'' : Item F s2.heap item := hi'.next b2
    have hlen := b1.len
    simp only at b1 b2 b3 b4 ⊢
    obtain ⟨c1, c2⟩ := b1.fulls hT hS [.or (if rev then [item, w] else [w, item])] (by
      intro i o ho
      match i, ho with
      | 0, ho =>
        cases ho
        have hmem : ∀ c ∈ (if rev then [item, w] else [w, item]), c = item ∨ c = w := by
          intro c hc
          cases rev <;> simp at hc <;> omega
        refine ⟨.inl ⟨b1.rest _ (by omega), fun c hc => ?_⟩, fun c hc => ?_⟩
        · rcases hmem c hc with rfl | rfl
          · exact .inl hi.2
          · exact .inl (.inl b4)
        · simp only [List.length_cons, List.length_nil]
          rcases hmem c hc with rfl | rfl
          · exact ⟨hi''.1, by have := hi''.2; omega⟩
          · exact ⟨b3.1, by have := b3.2; omega⟩)
    refine ⟨c1, (a2.trans b2).trans c2, ⟨F.new _ (by simpa [St.alloc] using hlen), by simp [St.alloc]⟩, .inl ?_⟩
    exact b1.rest _ (by simp [St.alloc])

theorem mkOptional_steps (hq : F.sq = false) {s : St P} (hs : NeatS F col s) {item : Nat} (rev : Bool)
    (hi : Item F s.heap item ∧ Full (col item)) :
    ∃ col', NeatS F col' (mkOptional item rev s).2 ∧ Next col col' s.heap (mkOptional item rev s).2.heap ∧
      Item F (mkOptional item rev s).2.heap (mkOptional item rev s).1 ∧
      col' (mkOptional item rev s).1 = .null := by
  have hlen := hs.len
  let col' := paint (paint col s.heap.length .blank) (s.heap.length + 1) .null
  have c0 : col' s.heap.length = .blank := by
    simp only [col']; rw [paint_old (by omega), paint_new]
  have c1 : col' (s.heap.length + 1) = .null := paint_new
  have cold : ∀ a, a < s.heap.length → col' a = col a := fun a ha => by
    simp only [col']; rw [paint_old (by omega), paint_old ha]
  have hitem : Full (col' item) := by rw [cold _ hi.1.2]; exact hi.2
  obtain ⟨h1, h2⟩ := hs.append [.empty, .or (if rev then [item, s.heap.length] else [s.heap.length, item])]
    (col' := col') cold (fun a ha => by
      simp only [List.length_cons, List.length_nil] at ha
      simp only [col', paint]
      rw [if_neg (by omega), if_neg (by omega)]
      exact hs.rest a (by omega)) (by
    intro i o ho
    refine ⟨?_, fun h => absurd h (hS _)⟩
    match i, ho with
    | 0, ho => cases ho; exact ⟨c0, hT _, fun c hc => by cases hc⟩
    | 1, ho =>
      cases ho
      have hmem : ∀ c ∈ (if rev then [item, s.heap.length] else [s.heap.length, item]),
          c = item ∨ c = s.heap.length := by
        intro c hc
        cases rev <;> simp at hc <;> omega
      refine ⟨.inr ⟨c1, by cases rev <;> simp, fun c hc => ?_⟩, hT _, fun c hc => ?_⟩
      · rcases hmem c hc with rfl | rfl
        · exact .inl (.inl hitem)
        · exact .inr c0
      · simp only [List.length_cons, List.length_nil]
        rcases hmem c hc with rfl | rfl
        · exact ⟨hi.1.1, by have := hi.1.2; omega⟩
        · exact ⟨F.new _ hlen, by omega⟩)
  have e : (mkOptional item rev s).2 = { s with heap := s.heap ++
      [.empty, .or (if rev then [item, s.heap.length] else [s.heap.length, item])] } := by
    simp [mkOptional, St.alloc]
  have e1 : (mkOptional item rev s).1 = s.heap.length + 1 := by simp [mkOptional, St.alloc]
  rw [e, e1]
  exact ⟨col', h1, h2, ⟨F.new _ (by omega), by simp⟩, c1⟩

theorem extended_steps (hq : F.sq = false) : MethodSteps F (extendedMethod (P := P)) := by
  intro n rec hr col a o s b s' hs hd ho h
  have hlt := (List.getElem?_eq_some_iff.1 ho).1
  have hg := hs.good a o hd ho
  have full : ∀ {c}, Sd F.sq c → Full c := fun h => h.elim id (fun k => by rw [hq] at k; cases k.1)
  -- visiting the content, and then making something of the result
  have key : ∀ r {f : Nat × St P → Nat × St P} {b s'}, Item F s.heap r → Full (col r) →
      (∀ c y s1, NeatS F c s1 → Item F s1.heap y → Full (c y) → c a = col a → a < s1.heap.length →
        ∃ c', Next c c' s1.heap (f (y, s1)).2.heap ∧ NeatS F c' (f (y, s1)).2 ∧
          Item F (f (y, s1)).2.heap (f (y, s1)).1 ∧ Img (col a) (c' (f (y, s1)).1)) →
      (rec r s).map f = .ok (b, s') → Does F col s s' a b := by
    intro r f b s' hi hfr hf h
    cases hm : rec r s with
    | error e => rw [hm] at h; cases h
    | ok y =>
      obtain ⟨y, s1⟩ := y
      rw [hm] at h
      obtain ⟨c, k1, k2, k3⟩ := hr col r s y s1 hs hi hm
      have hfy : Full (c y) := k3.2.full (by rw [k1.2 r hi.2]; exact hfr)
      obtain ⟨c', q1, q2, q3, q4⟩ := hf c y s1 k2 k3.1 hfy (k1.2 a hlt) (Nat.lt_of_lt_of_le hlt k1.1)
      simp only [Except.map, Except.ok.injEq] at h
      rw [h] at q1 q2 q3 q4
      refine ⟨c', k1.trans q1, q2, q3, ?_⟩
      rw [(k1.trans q1).2 a hlt]; exact q4
  unfold extendedMethod at h
  split at h
  · rename_i r rev
    obtain ⟨o1, o2⟩ := hg.ok
    rw [hq] at o2
    refine key r (hg.kids r (by simp [Obj.children])) (full o1) (fun c y s1 h1 h2 h3 _ _ => ?_) h
    obtain ⟨a1, a2, a3, a4⟩ := mkRepeatable_steps hT hS hq h1 rev ⟨h2, h3⟩
    exact ⟨c, a2, a1, a3, .inl (by rw [a4, o2]; rfl)⟩
  · rename_i r rev
    obtain ⟨o1, o2⟩ := hg.ok
    refine key r (hg.kids r (by simp [Obj.children])) o2 (fun c y s1 h1 h2 h3 _ _ => ?_) h
    obtain ⟨c', a1, a2, a3, a4⟩ := mkOptional_steps hT hS hq h1 rev ⟨h2, h3⟩
    exact ⟨c', a2, a1, a3, .inl (by rw [a4, o1])⟩
  · exact hg.ok.elim
  · rename_i r min rev
    have o1 : col a = .full ∧ Full (col r) := hg.ok.resolve_right (fun h => by rw [hq] at h; cases h.1)
    refine key r (hg.kids r (by simp [Obj.children])) o1.2 (fun c y s1 h1 h2 h3 _ _ => ?_) h
    obtain ⟨a1, a2, a3, a4⟩ := mkRepeatable_steps hT hS hq h1 rev ⟨h2, h3⟩
    generalize mkRepeatable y rev s1 = z at a1 a2 a3 a4
    obtain ⟨t, s2⟩ := z
    obtain ⟨b1, b2, b3, b4⟩ := stRule_steps hT hS a1 (items := List.replicate (min - 1) y ++ [t]) (by simp) (by
      intro x hx
      rcases List.mem_append.1 hx with hx | hx
      · rw [(List.mem_replicate.1 hx).2]; exact ⟨h2.next a2, h3⟩
      · rw [List.mem_singleton] at hx; subst hx; exact ⟨a3, .inl a4⟩)
    exact ⟨c, a2.trans b2, b1, b3, .inl (b4.trans o1.1.symm)⟩
  · rename_i r max rev
    have o1 : col a = .full ∧ Full (col r) := hg.ok.resolve_right (fun h => by rw [hq] at h; cases h.1)
    refine key r (hg.kids r (by simp [Obj.children])) o1.2 (fun c y s1 h1 h2 h3 _ _ => ?_) h
    obtain ⟨a1, a2, a3, a4⟩ := maxBound_steps hT hS rev max h1 ⟨h2, h3⟩
    refine ⟨c, a2, a1, a3, ?_⟩
    rw [o1.1]
    rcases a4 with a4 | a4
    · exact .inl a4
    · exact .inr (.inr ⟨rfl, a4⟩)
  · rename_i r min max rev
    have o1 : col a = .full ∧ Full (col r) := hg.ok.resolve_right (fun h => by rw [hq] at h; cases h.1)
    refine key r (hg.kids r (by simp [Obj.children])) o1.2 (fun c y s1 h1 h2 h3 _ _ => ?_) h
    obtain ⟨a1, a2, a3, a4⟩ := maxBound_steps hT hS rev (max - min + 1) h1 ⟨h2, h3⟩
    generalize maxBound y rev (max - min + 1) s1 = z at a1 a2 a3 a4
    obtain ⟨t, s2⟩ := z
    obtain ⟨b1, b2, b3, b4⟩ := stRule_steps hT hS a1 (items := List.replicate (min - 1) y ++ [t]) (by simp) (by
      intro x hx
      rcases List.mem_append.1 hx with hx | hx
      · rw [(List.mem_replicate.1 hx).2]; exact ⟨h2.next a2, h3⟩
      · rw [List.mem_singleton] at hx; subst hx; exact ⟨a3, a4⟩)
    exact ⟨c, a2.trans b2, b1, b3, .inl (b4.trans o1.1.symm)⟩
  · exact default_steps (hT _) hr hs hd ho (fun ⟨l, hl⟩ => absurd hl (hS l)) h

/-! ### Alternatives, empty rules -/

theorem visitProd_steps (hq : F.sq = false) {rec : Visit P} (hr : VisitSteps F rec) :
    Steps F (fun c h r => Item F h r ∧ (Full (c r) ∨ c r = .blank))
      (fun c h r p => (Item F h r ∧ (Full (c r) ∨ c r = .blank)) ∧ Item F h p ∧ (Full (c r) → c p = .full) ∧
        (c r = .blank → c p = .hollow)) (visitProd rec) := by
  intro col r s p s' hs hp h
  unfold visitProd rebuild at h
  cases hm : rec r s with
  | error e => rw [hm] at h; cases h
  | ok y =>
    obtain ⟨y, s1⟩ := y
    rw [hm] at h
    cases h
    obtain ⟨c, k1, k2, k3⟩ := hr col r s y s1 hs hp.1 hm
    have hcr := k1.2 r hp.1.2
    have hpr : Item F s1.heap r ∧ (Full (c r) ∨ c r = .blank) := ⟨hp.1.next k1, by rw [hcr]; exact hp.2⟩
    have kids : ∀ x ∈ (Obj.prod (P := P) [.rule y] 0).children, F.D x ∧ x < s1.heap.length := by
      intro x hx
      simp only [Obj.children, termRules, List.mem_singleton] at hx
      subst hx; exact k3.1
    rcases hpr.2 with hf | hb
    · obtain ⟨c', p1, p2, p3, p4, p5⟩ := k2.alloc (o := .prod [.rule y] 0) .full (by
        refine .inl ⟨by simp, ⟨.inl (.inl ?_), trivial⟩, .inl paint_new⟩
        rw [paint_old k3.1.2]; exact k3.2.full hf) (hT _) kids (fun h => absurd h (hS _))
      have e := p1.2 r hpr.1.2
      refine ⟨c', k1.trans p1, p2, ⟨hpr.1.next p1, by rw [e]; exact hpr.2⟩, ⟨p4, p5⟩, fun _ => p3, fun hb => ?_⟩
      rw [e] at hb
      exact absurd hb (full_not hf).2.2.1
    · obtain ⟨c', p1, p2, p3, p4, p5⟩ := k2.alloc (o := .prod [.rule y] 0) .hollow (by
        refine .inr ⟨paint_new, y, rfl, ?_⟩
        rw [paint_old k3.1.2]
        have := k3.2
        rw [hb] at this
        exact this.blank) (hT _) kids (fun h => absurd h (hS _))
      have e := p1.2 r hpr.1.2
      refine ⟨c', k1.trans p1, p2, ⟨hpr.1.next p1, by rw [e]; exact hpr.2⟩, ⟨p4, p5⟩, fun hf => ?_, fun _ => p3⟩
      rw [e] at hf
      exact absurd hb (full_not hf).2.2.1

theorem or_steps (hq : F.sq = false) : MethodSteps F (orMethod (P := P)) := by
  intro n rec hr col a o s b s' hs hd ho h
  have hlt := (List.getElem?_eq_some_iff.1 ho).1
  have hg := hs.good a o hd ho
  have full : ∀ {c}, Sd F.sq c → Full c := fun h => h.elim id (fun k => by rw [hq] at k; cases k.1)
  unfold orMethod at h
  split at h
  · rename_i rs
    unfold rebuildAll at h
    cases hm : mapSt (visitProd rec) rs s with
    | error e => rw [hm] at h; cases h
    | ok y =>
      obtain ⟨ps, s1⟩ := y
      rw [hm] at h
      cases h
      obtain ⟨c, k1, k2, k3⟩ := mapSt_steps (F := F)
        (Pre := fun c h r => Item F h r ∧ (Full (c r) ∨ c r = .blank))
        (R := fun c h r p => Item F h r ∧ Item F h p ∧ (Full (c r) → c p = .full) ∧ (c r = .blank → c p = .hollow))
        (fun c c' h h' x hn hi => ⟨hi.1.next hn, by rw [hn.2 x hi.1.2]; exact hi.2⟩)
        (fun c c' h h' x y hn hR => ⟨hR.1.next hn, hR.2.1.next hn, by
          rw [hn.2 x hR.1.2, hn.2 y hR.2.1.2]; exact hR.2.2⟩)
        (f := visitProd rec) (fun col x s y s' hs hp hx => by
          obtain ⟨c, q1, q2, q3, q4⟩ := visitProd_steps hT hS hq hr col x s y s' hs hp hx
          exact ⟨c, q1, q2, q3, q3.1, q4⟩) rs col s ps s1 hs (fun x hx => ⟨hg.kids x hx, by
            rcases hg.ok with ⟨_, k⟩ | ⟨_, _, k⟩
            · exact .inl (full (k x hx))
            · exact (k x hx).imp full id⟩) hm
      have hca := k1.2 a hlt
      have hlt' : a < s1.heap.length := Nat.lt_of_lt_of_le hlt k1.1
      have hoka : Ok (P := P) F.sq c a (.or rs) := ok_congr hca (fun x hx => k1.2 x (hg.kids x hx).2) hg.ok
      have hkids : ∀ x ∈ ps, F.D x ∧ x < s1.heap.length := fun x hx => by
        obtain ⟨_, _, hq⟩ := Pass.pointwise_mem_right k3 hx
        exact hq.2.1
      have hl : ps.length = rs.length := by
        clear hm hoka hkids
        clear ho hg
        induction k3 with
        | nil => rfl
        | cons _ _ ih => simp [ih]
      have hnew : OkProds (c a) (ps.map c) := by
        rcases hoka with ⟨h1, h2⟩ | ⟨h1, h2, h3⟩
        · refine .inl ⟨h1, fun x hx => ?_⟩
          obtain ⟨p, hp, rfl⟩ := List.mem_map.1 hx
          obtain ⟨r, hr', q⟩ := Pass.pointwise_mem_right k3 hp
          exact .inl (q.2.2.1 (full (h2 r hr')))
        · refine .inr (.inr (.inl ⟨h1, by simpa [hl] using h2, fun x hx => ?_⟩))
          obtain ⟨p, hp, rfl⟩ := List.mem_map.1 hx
          obtain ⟨r, hr', q⟩ := Pass.pointwise_mem_right k3 hp
          rcases h3 r hr' with w | w
          · exact .inl (.inl (q.2.2.1 (full w)))
          · exact .inr (.inr (q.2.2.2 w))
      obtain ⟨c', p1, p2, p3, p4, p5⟩ := k2.alloc (o := .rule ps) (c a) (by
        simp only [Ok]
        rw [paint_new, List.map_congr_left (l := ps) (g := c) (fun x hx => paint_old (hkids x hx).2)]
        exact hnew) (hT _) hkids (fun h => absurd h (hS _))
      refine ⟨c', k1.trans p1, p2, ⟨p4, p5⟩, .inl ?_⟩
      exact p3.trans (hca.trans ((k1.trans p1).2 a hlt).symm)
  · exact default_steps (hT _) hr hs hd ho (fun ⟨l, hl⟩ => absurd hl (hS l)) h

theorem empty_steps : MethodSteps F (emptyMethod (P := P)) := by
  intro n rec hr col a o s b s' hs hd ho h
  have hlt := (List.getElem?_eq_some_iff.1 ho).1
  have hg := hs.good a o hd ho
  unfold emptyMethod at h
  split at h
  · cases h
    obtain ⟨c, p1, p2, p3, p4, p5⟩ := hs.alloc (o := .emptyProd) .void paint_new (hT _)
      (fun x hx => by cases hx) (fun h => absurd h (hS _))
    obtain ⟨c', q1, q2, q3, q4, q5⟩ := p2.alloc (o := .rule [s.heap.length]) .blank (by
        refine .inr (.inr (.inr ⟨paint_new, ?_⟩))
        simp only [List.map_cons, List.map_nil]
        rw [paint_old p5, p3]) (hT _) (fun x hx => by
          simp only [Obj.children, List.mem_singleton] at hx
          subst hx; exact ⟨p4, p5⟩) (fun h => absurd h (hS _))
    refine ⟨c', p1.trans q1, q2, ⟨q4, q5⟩, .inl ?_⟩
    rw [(p1.trans q1).2 a hlt, show col a = .blank from hg.ok]
    exact q3
  · exact default_steps (hT _) hr hs hd ho (fun ⟨l, hl⟩ => absurd hl (hS l)) h

end extended

/-! ### Rules with one term -/

theorem blank_view {sq : Bool} {a : Nat} {o : Obj P} (ho : Ok sq col a o) (hc : col a = .blank)
    (h1 : o.tag ≠ .empty) (h2 : o.tag ≠ .bnf) : ∃ p, o = .rule [p] ∧ col p = .void := by
  cases o with
  | rule ps =>
    simp only [Ok, OkProds, hc] at ho
    simp only [reduceCtorEq, false_and, true_and, false_or] at ho
    match ps, ho with
    | [p], ho => exact ⟨p, rfl, by simpa using ho⟩
    | [], ho => simp at ho
    | _ :: _ :: _, ho => simp at ho
  | empty => exact absurd rfl h1
  | bnf => exact absurd rfl h2
  | prod ts m => simp [Ok, hc] at ho
  | repeatable r v => simp only [Ok, hc] at ho; split at ho <;> simp at ho
  | _ => simp [Ok, hc] at ho

theorem flattenTerm_steps {rec : Visit P} (hr : VisitSteps F rec) (hq : F.sq = false) :
    ∀ n, Steps F (fun _ h t => TermItem F h t) (fun c h t u => TermGot F c h t u) (flattenTerm rec n) := by
  intro n
  induction n with
  | zero => intro col t s u s' _ _ h; cases h
  | succ n ih =>
    intro col t s u s' hs ht h
    have full : ∀ {c}, Sd F.sq c → Full c := fun h => h.elim id (fun k => by rw [hq] at k; cases k.1)
    cases t with
    | pred p => cases h; exact ⟨col, .refl _ _, hs, _, rfl⟩
    | rule r =>
      simp only [flattenTerm] at h
      split at h
      · rename_i p hc
        have hgr := hs.good r _ ht.1 hc
        have hkp := hgr.kids p (by simp [Obj.children])
        split at h
        · rename_i t' ht'
          -- the only term of the only production
          have hfull : Full (col r) ∧ Full (col p) ∧ (col r = .tail → col p = .tail) := by
            have hp : col p ≠ .void := by
              intro e
              unfold termsAt at ht'
              have hobj := hs.good p
              cases hpo : s.heap[p]? with
              | none => rw [hpo] at ht'; cases ht'
              | some o =>
                have := (hobj o hkp.1 hpo).ok
                rw [hpo] at ht'
                cases o with
                | prod ts m => simp [Ok, e] at this
                | pipeProd v ts => simp [Ok, e] at this
                | _ => cases ht'
            rcases hgr.ok with ⟨h1, h2⟩ | ⟨h1, h2⟩ | ⟨h1, h2, _⟩ | ⟨h1, h2⟩
            · exact ⟨.inl h1, h2 _ (by simp), fun e => by rw [h1] at e; cases e⟩
            · have := h2 (col p) (by simp)
              exact ⟨.inr h1, .inr this, fun _ => this⟩
            · simp at h2
            · simp only [List.map_cons, List.map_nil, List.cons.injEq, and_true] at h2
              exact absurd h2 hp
          have hview : (∃ q, t' = .pred q) ∨ (∃ r', t' = .rule r' ∧ Full (col r') ∧ Item F s.heap r' ∧ col r = .full) := by
            unfold termsAt at ht'
            cases hpo : s.heap[p]? with
            | none => rw [hpo] at ht'; cases ht'
            | some o =>
              have hgp := hs.good p o hkp.1 hpo
              rw [hpo] at ht'
              cases o with
              | prod ts m =>
                simp only at ht'
                subst ht'
                rcases hgp.ok with ⟨_, h2, h3⟩ | ⟨h1, _⟩
                · cases t' with
                  | pred q => exact .inl ⟨q, rfl⟩
                  | rule r' =>
                    refine .inr ⟨r', rfl, full (h2.1.resolve_right (fun h => h.2)),
                      hgp.kids r' (by simp [Obj.children, termRules]), ?_⟩
                    rcases hfull.1 with k | k
                    · exact k
                    · have := hfull.2.2 k
                      rcases h3 with h3 | ⟨_, q, e⟩
                      · rw [this] at h3; cases h3
                      · cases e
                · exact absurd h1 (full_not hfull.2.1).2.2.2.2
              | pipeProd v ts =>
                simp only at ht'
                have : t' ∈ ts.map Term.pred := by rw [ht']; simp
                obtain ⟨q, _, rfl⟩ := List.mem_map.1 this
                exact .inl ⟨q, rfl⟩
              | _ => cases ht'
          rcases hview with ⟨q, rfl⟩ | ⟨r', rfl, hf', hi', hcr⟩
          · cases n with
            | zero => cases h
            | succ n => cases h; exact ⟨col, .refl _ _, hs, .inl ⟨hfull.1, q, rfl⟩⟩
          · obtain ⟨c, k1, k2, k3⟩ := ih col (.rule r') s u s' hs hi' h
            refine ⟨c, k1, k2, ?_⟩
            have e1 := k1.2 r ht.2
            have e2 := k1.2 r' hi'.2
            rcases k3 with ⟨_, k3⟩ | ⟨y, rfl, k3⟩
            · exact .inl ⟨by rw [e1]; exact hfull.1, k3⟩
            · refine .inr ⟨y, rfl, k3.1, ?_⟩
              have : Full (c y) := k3.2.full (by rw [e2]; exact hf')
              rw [e1, hcr]
              rcases this with w | w
              · exact .inl w
              · exact .inr (.inr ⟨rfl, w⟩)
        · exact visitTerm_steps hr col _ s u s' hs ht h
      · exact visitTerm_steps hr col _ s u s' hs ht h

theorem flatten_steps (hq : F.sq = false) (hrule : F.T .rule = true) (he : F.T .empty = false)
    (hb : F.T .bnf = false) : MethodSteps F (flattenMethod (P := P)) := by
  intro n rec hr col a o s b s' hs hd ho h
  have hlt := (List.getElem?_eq_some_iff.1 ho).1
  have hg := hs.good a o hd ho
  unfold flattenMethod at h
  split at h
  · rename_i ts m
    split at h
    · rename_i r
      have hkr := hg.kids r (by simp [Obj.children, termRules])
      split at h
      · rename_i p hc
        have hgr := hs.good r _ hkr.1 hc
        have hkp := hgr.kids p (by simp [Obj.children])
        obtain ⟨c, k1, k2, k3⟩ := hr col p s b s' hs hkp h
        refine ⟨c, k1, k2, k3.1, ?_⟩
        have e1 := k1.2 a hlt
        have e2 := k1.2 p hkp.2
        have himg : Img (col a) (col p) := by
          rcases hg.ok with ⟨_, h2, h3⟩ | ⟨h1, e, h2, h3⟩
          · have hfa : col a = .full := by
              rcases h3 with h3 | ⟨_, q, e⟩
              · exact h3
              · cases e
            have hfr : Full (col r) := (h2.1.resolve_right (fun h => h.2)).elim id
              (fun k => by rw [hq] at k; cases k.1)
            have hfp : Full (col p) := by
              rcases hgr.ok with ⟨_, w⟩ | ⟨_, w⟩ | ⟨w, _⟩ | ⟨w, _⟩
              · exact w _ (by simp)
              · exact .inr (w _ (by simp))
              · exact absurd w (full_not hfr).2.1
              · exact absurd w (full_not hfr).2.2.1
            rw [hfa]
            rcases hfp with w | w
            · exact .inl w
            · exact .inr (.inr ⟨rfl, w⟩)
          · cases h2
            refine .inr (.inl ⟨h1, ?_⟩)
            obtain ⟨p', e', hv⟩ := blank_view hgr.ok h3 (by simp [Obj.tag]) (by simp [Obj.tag])
            cases e'; exact hv
        have := k3.2
        rw [e2] at this
        rw [e1]
        exact himg.trans this
      · rename_i hne
        refine prod_steps (flattenTerm_steps hr hq n) hs hd ho (fun _ e => ?_) h
        rcases hg.ok with ⟨_, _, h3 | h3⟩ | ⟨_, e', h2, h3⟩
        · rw [e] at h3; cases h3
        · rw [e] at h3; cases h3.1
        · cases h2
          have hl := hkr.2
          have hgr := hs.good r _ hkr.1 (List.getElem?_eq_getElem hl)
          obtain ⟨p, e2, _⟩ := blank_view hgr.ok h3
            (fun k => by have := hgr.tag; rw [k, he] at this; cases this)
            (fun k => by have := hgr.tag; rw [k, hb] at this; cases this)
          exact hne p (by rw [List.getElem?_eq_getElem hl, e2])
    · rename_i hne
      refine prod_steps (flattenTerm_steps hr hq n) hs hd ho (fun _ e => ?_) h
      rcases hg.ok with ⟨_, _, h3 | h3⟩ | ⟨_, e', h2, h3⟩
      · rw [e] at h3; cases h3
      · rw [e] at h3; cases h3.1
      · exact hne _ h2
  · rename_i hne
    exact default_steps hrule hr hs hd ho (fun _ => ok_not_hollow hg.ok (fun ts m => hne ts m)) h

end Yargy.Tint
