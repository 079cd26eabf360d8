import Verif.Proofs.SimplePasses
/-!
`ReplaceExtendedTransformator` keeps the words of rules.
-/
namespace Yargy

variable {P : Type} {k : Kind} {I : PassInv P} {H : Heap P}

/-- The words of `y` are those of so many `r`, and cost so much more. -/
structure Pow (k : Kind) (H : Heap P) (y r : Nat) (M : Nat → Prop) (C : Nat → Nat) : Prop where
  forth : ∀ m c w, M m → Gen k H c (List.replicate m (.rule r)) w → Gen k H (C m + c) [.rule y] w
  back : ∀ n w, Gen k H n [.rule y] w → ∃ m c, M m ∧ Gen k H c (List.replicate m (.rule r)) w

theorem equiv_pow {x y r r' : Nat} {o : Obj P} {N : Nat → Prop} {C : Nat → Nat}
    (hx : H[x]? = some o) (hl : o.label k = none) (ho : Quant o r N) (h : Equiv k H r r')
    (hy : Pow k H y r' N C) (hC : ∀ m, N m → C m ≤ stepCost o m) : Equiv k H x y := by
  constructor
  · intro n w g
    obtain ⟨o', us, c, v, ho', hs, hc, hu, rfl⟩ := gen_one.1 g
    rw [hx] at ho'; cases ho'
    obtain ⟨m, hm, rfl⟩ := (ho us).1 hs
    rw [hl]
    have g1 := (gen_terms (pointwise_replicate h m)).1 _ _ hu
    have := hC m hm
    rw [List.length_replicate] at hc
    exact (hy.forth m c v hm g1).mono (by omega)
  · intro n w g
    obtain ⟨m, c, hm, g1⟩ := hy.back n w g
    obtain ⟨c', g2⟩ := (gen_terms (pointwise_replicate h m)).2 _ _ g1
    exact ⟨_, gen_one.2 ⟨o, _, c', w, hx, (ho _).2 ⟨m, hm, rfl⟩, Nat.le_refl _, g2,
      by rw [hl]; rfl⟩⟩

/-! ### Words of the objects made here -/

theorem gen_or {a : Nat} {rs : List Nat} (ha : H[a]? = some (.or rs)) (n : Nat) (w : List (Sym P)) :
    Gen k H n [.rule a] w ↔ ∃ r ∈ rs, Gen k H n [.rule r] w := by
  have hl : (Obj.or rs : Obj P).label k = none := by cases k <;> rfl
  rw [gen_one]
  constructor
  · rintro ⟨o, us, c, v, ho, hs, hc, hu, rfl⟩
    rw [ha] at ho; cases ho
    cases hs with
    | or hm => rw [hl]; exact ⟨_, hm, hu.mono (by omega)⟩
  · rintro ⟨r, hm, g⟩
    exact ⟨_, _, n, w, ha, .or hm, by simp [stepCost], g, by rw [hl]; rfl⟩

theorem gen_forward {a r : Nat} (ha : H[a]? = some (.forward (some r))) (n : Nat)
    (w : List (Sym P)) : Gen k H (n + 1) [.rule a] w ↔ Gen k H n [.rule r] w := by
  rw [gen_one]
  constructor
  · rintro ⟨o, us, c, v, ho, hs, hc, hu, rfl⟩
    rw [ha] at ho; cases ho
    cases hs
    rw [label_forward]
    simp only [stepCost] at hc
    exact hu.mono (by omega)
  · intro g
    exact ⟨_, _, n, w, ha, .forward, by simp [stepCost]; omega, g, by rw [label_forward]; rfl⟩

theorem gen_forward_zero {a : Nat} {r : Option Nat} (ha : H[a]? = some (.forward r))
    (w : List (Sym P)) : ¬ Gen k H 0 [.rule a] w := by
  rw [gen_one]
  rintro ⟨o, us, c, v, ho, hs, hc, hu, rfl⟩
  rw [ha] at ho; cases ho
  simp [stepCost] at hc

theorem gen_empty {a : Nat} (ha : H[a]? = some .empty) (n : Nat) (w : List (Sym P)) :
    Gen k H n [.rule a] w ↔ w = [] := by
  have hl : (Obj.empty : Obj P).label k = none := by cases k <;> rfl
  rw [gen_one]
  constructor
  · rintro ⟨o, us, c, v, ho, hs, hc, hu, rfl⟩
    rw [ha] at ho; cases ho; cases hs
    rw [gen_nil] at hu; subst hu
    rw [hl]; rfl
  · rintro rfl
    exact ⟨_, _, n, [], ha, .empty, by simp [stepCost], .nil, by rw [hl]; rfl⟩

/-- `rule(*items)`. -/
theorem gen_seq {a p : Nat} {ts : List (Term P)} {m : Nat} (ha : H[a]? = some (.rule [p]))
    (hp : H[p]? = some (.prod ts m)) (n : Nat) (w : List (Sym P)) :
    Gen k H n [.rule a] w ↔ Gen k H n ts w :=
  (gen_rule_one ha n w).trans (gen_terms_at hp (.inr (.inl ⟨_, rfl⟩)) n w)

theorem pow_repeatable {t o a p item : Nat} {rs : List Nat} (ht : H[t]? = some (.forward (some o)))
    (ho : H[o]? = some (.or rs)) (hrs : ∀ x, x ∈ rs ↔ x = a ∨ x = item)
    (ha : H[a]? = some (.rule [p])) (hp : H[p]? = some (.prod [.rule item, .rule t] 0)) :
    Pow k H t item (1 ≤ ·) (fun m => m) where
  forth := by
    intro m
    induction m with
    | zero => intro c w h; omega
    | succ m ih =>
      intro c w _ g
      rw [show m + 1 + c = m + c + 1 by omega, gen_forward ht, gen_or ho]
      cases m with
      | zero => exact ⟨item, (hrs _).2 (.inr rfl), by simpa using g⟩
      | succ m =>
        rw [List.replicate_succ, gen_cons] at g
        obtain ⟨c1, c2, v, v', h1, h2, h3, rfl⟩ := g
        refine ⟨a, (hrs _).2 (.inl rfl), (gen_seq ha hp _ _).2 ?_⟩
        have := ih c2 v' (by omega) h3
        exact gen_cons.2 ⟨c1, m + 1 + c2, v, v', by omega, h2, this, rfl⟩
  back := by
    intro n
    induction n using Nat.strongRecOn with
    | _ n ih =>
      intro w g
      cases n with
      | zero => exact (gen_forward_zero ht w g).elim
      | succ n =>
        rw [gen_forward ht, gen_or ho] at g
        obtain ⟨x, hx, g⟩ := g
        rcases (hrs x).1 hx with rfl | rfl
        · rw [gen_seq ha hp, gen_cons] at g
          obtain ⟨c1, c2, v, v', h1, h2, h3, rfl⟩ := g
          obtain ⟨m, c, hm, g'⟩ := ih c2 (by omega) v' h3
          refine ⟨m + 1, c1 + c, by omega, ?_⟩
          rw [List.replicate_succ]
          exact gen_cons.2 ⟨c1, c, v, v', Nat.le_refl _, h2, g', rfl⟩
        · exact ⟨1, n, Nat.le_refl _, g⟩

theorem pow_repOptional {t o e a p item : Nat} {rs : List Nat}
    (ht : H[t]? = some (.forward (some o)))
    (ho : H[o]? = some (.or rs)) (hrs : ∀ x, x ∈ rs ↔ x = e ∨ x = a ∨ x = item)
    (he : H[e]? = some .empty)
    (ha : H[a]? = some (.rule [p])) (hp : H[p]? = some (.prod [.rule item, .rule t] 0)) :
    Pow k H t item (fun _ => True) (fun m => max m 1) where
  forth := by
    intro m
    induction m with
    | zero =>
      intro c w _ g
      simp only [List.replicate_zero] at g
      rw [gen_nil] at g
      subst g
      rw [show max 0 1 + c = c + 1 by omega, gen_forward ht, gen_or ho]
      exact ⟨e, (hrs _).2 (.inl rfl), (gen_empty he _ _).2 rfl⟩
    | succ m ih =>
      intro c w _ g
      rw [show max (m + 1) 1 + c = m + c + 1 by omega, gen_forward ht, gen_or ho]
      cases m with
      | zero => exact ⟨item, (hrs _).2 (.inr (.inr rfl)), by simpa using g⟩
      | succ m =>
        rw [List.replicate_succ, gen_cons] at g
        obtain ⟨c1, c2, v, v', h1, h2, h3, rfl⟩ := g
        refine ⟨a, (hrs _).2 (.inr (.inl rfl)), (gen_seq ha hp _ _).2 ?_⟩
        have := ih c2 v' trivial h3
        exact gen_cons.2 ⟨c1, max (m + 1) 1 + c2, v, v', by omega, h2, this, rfl⟩
  back := by
    intro n
    induction n using Nat.strongRecOn with
    | _ n ih =>
      intro w g
      cases n with
      | zero => exact (gen_forward_zero ht w g).elim
      | succ n =>
        rw [gen_forward ht, gen_or ho] at g
        obtain ⟨x, hx, g⟩ := g
        rcases (hrs x).1 hx with rfl | rfl | rfl
        · rw [gen_empty he] at g
          subst g
          exact ⟨0, 0, trivial, .nil⟩
        · rw [gen_seq ha hp, gen_cons] at g
          obtain ⟨c1, c2, v, v', h1, h2, h3, rfl⟩ := g
          obtain ⟨m, c, hm, g'⟩ := ih c2 (by omega) v' h3
          refine ⟨m + 1, c1 + c, trivial, ?_⟩
          rw [List.replicate_succ]
          exact gen_cons.2 ⟨c1, c, v, v', Nat.le_refl _, h2, g', rfl⟩
        · exact ⟨1, n, trivial, g⟩

theorem pow_optional {o e item : Nat} {rs : List Nat} (ho : H[o]? = some (.or rs))
    (hrs : ∀ x, x ∈ rs ↔ x = e ∨ x = item) (he : H[e]? = some .empty) :
    Pow k H o item (· ≤ 1) (fun _ => 0) where
  forth := by
    intro m c w hm g
    rw [Nat.zero_add, gen_or ho]
    match m, hm with
    | 0, _ =>
      simp only [List.replicate_zero] at g
      rw [gen_nil] at g
      exact ⟨e, (hrs _).2 (.inl rfl), (gen_empty he _ _).2 g⟩
    | 1, _ => exact ⟨item, (hrs _).2 (.inr rfl), by simpa using g⟩
  back := by
    intro n w g
    rw [gen_or ho] at g
    obtain ⟨x, hx, g⟩ := g
    rcases (hrs x).1 hx with rfl | rfl
    · rw [gen_empty he] at g
      subst g
      exact ⟨0, 0, by omega, .nil⟩
    · exact ⟨1, n, by omega, g⟩

theorem pow_one (item : Nat) : Pow k H item item (fun n => 1 ≤ n ∧ n ≤ 1) (fun _ => 0) where
  forth := by
    intro m c w hm g
    obtain rfl : m = 1 := by omega
    rw [Nat.zero_add]; exact g
  back := fun n w g => ⟨1, n, by omega, g⟩

theorem pow_more {o a p inner item n : Nat} {rs : List Nat} (hn : 1 ≤ n)
    (ho : H[o]? = some (.or rs)) (hrs : ∀ x, x ∈ rs ↔ x = a ∨ x = item)
    (ha : H[a]? = some (.rule [p])) (hp : H[p]? = some (.prod [.rule item, .rule inner] 0))
    (hi : Pow k H inner item (fun m => 1 ≤ m ∧ m ≤ n) (fun _ => 0)) :
    Pow k H o item (fun m => 1 ≤ m ∧ m ≤ n + 1) (fun _ => 0) where
  forth := by
    intro m c w hm g
    rw [Nat.zero_add, gen_or ho]
    match m, hm with
    | 1, _ => exact ⟨item, (hrs _).2 (.inr rfl), by simpa using g⟩
    | m + 2, hm =>
      rw [List.replicate_succ, gen_cons] at g
      obtain ⟨c1, c2, v, v', h1, h2, h3, rfl⟩ := g
      have := hi.forth (m + 1) c2 v' (by omega) h3
      rw [Nat.zero_add] at this
      exact ⟨a, (hrs _).2 (.inl rfl), (gen_seq ha hp _ _).2
        (gen_cons.2 ⟨c1, c2, v, v', h1, h2, this, rfl⟩)⟩
  back := by
    intro N w g
    rw [gen_or ho] at g
    obtain ⟨x, hx, g⟩ := g
    rcases (hrs x).1 hx with rfl | rfl
    · rw [gen_seq ha hp, gen_cons] at g
      obtain ⟨c1, c2, v, v', h1, h2, h3, rfl⟩ := g
      obtain ⟨m, c, hm, g'⟩ := hi.back _ _ h3
      refine ⟨m + 1, c1 + c, by omega, ?_⟩
      rw [List.replicate_succ]
      exact gen_cons.2 ⟨c1, c, v, v', Nat.le_refl _, h2, g', rfl⟩
    · exact ⟨1, N, by omega, g⟩

theorem pow_seq {y p t item j : Nat} {M : Nat → Prop} {C : Nat → Nat} (hy : H[y]? = some (.rule [p]))
    (hp : H[p]? = some (.prod ((List.replicate j item ++ [t]).map .rule) 0)) (ht : Pow k H t item M C) :
    Pow k H y item (fun n => j ≤ n ∧ M (n - j)) (fun n => C (n - j)) where
  forth := by
    intro m c w hm g
    rw [gen_seq hy hp, List.map_append, List.map_replicate]
    rw [show m = j + (m - j) by omega, ← List.replicate_append_replicate] at g
    obtain ⟨c1, c2, v, v', h1, h2, h3, rfl⟩ := g.split
    have := ht.forth _ _ _ hm.2 h3
    exact (h2.append this).mono (by omega)
  back := by
    intro n w g
    rw [gen_seq hy hp, List.map_append, List.map_replicate] at g
    obtain ⟨c1, c2, v, v', h1, h2, h3, rfl⟩ := g.split
    obtain ⟨m, c, hm, g'⟩ := ht.back _ _ h3
    refine ⟨j + m, c1 + c, ⟨by omega, by rw [Nat.add_sub_cancel_left]; exact hm⟩, ?_⟩
    rw [← List.replicate_append_replicate]
    exact h2.append g'

/-! ### Making them -/

/-- Several new objects. -/
theorem fine_extend {g : Heap P} {s : St P} (hf : Fine I k g s) (ext : Heap P)
    (hc : ∀ o ∈ ext, ∀ c ∈ o.children, c < g.length + ext.length)
    (hq : ∀ o ∈ ext, ∀ g', I.Q g' o) :
    Fine I k (g ++ ext) { s with heap := s.heap ++ ext } where
  shape := by
    have : ∀ (ext g h : Heap P), Shape k g h → Shape k (g ++ ext) (h ++ ext) := by
      intro ext
      induction ext with
      | nil => intro g h hs; simpa using hs
      | cons o ext ih =>
        intro g h hs
        have := ih _ _ (shape_snoc hs (.refl o))
        simpa using this
    exact this _ _ _ hf.shape
  closed := by
    intro o ho c hcc
    rw [List.length_append]
    rw [List.mem_append] at ho
    rcases ho with ho | ho
    · have := hf.closed o ho c hcc; omega
    · exact hc o ho c hcc
  inv := by
    intro o ho
    rw [List.mem_append] at ho
    rcases ho with ho | ho
    · exact I.Qmono _ _ _ hf.closed ho (hf.inv o ho)
    · exact hq o ho _
  memo := fun e he => (hf.memo e he).mono hf.closed

/-- The builder makes a rule with these words out of `item`. -/
def Builds (I : PassInv P) (k : Kind) (item : Nat) (s : St P) (r : Nat × St P) (M : Nat → Prop)
    (C : Nat → Nat) : Prop :=
  ∃ ext, ∀ g, Fine I k g s → item < g.length →
    Fine I k (g ++ ext) r.2 ∧ r.1 < (g ++ ext).length ∧
      ∀ H, g ++ ext <+: H → Pow k H r.1 item M C

theorem at_ext {g ext : Heap P} (hH : g ++ ext <+: H) (i : Nat) {o : Obj P} (h : ext[i]? = some o) :
    H[g.length + i]? = some o := by
  refine getElem?_prefix hH ?_
  rw [List.getElem?_append_right (by omega), Nat.add_sub_cancel_left]
  exact h

theorem at_ext' {g ext : Heap P} {l : Nat} (hl : l = g.length) (hH : g ++ ext <+: H) (i : Nat)
    {o : Obj P} (h : ext[i]? = some o) : H[l + i]? = some o := hl ▸ at_ext hH i h

theorem builds_repeatable (hI : Copying I k) (item : Nat) (rev : Bool) (s : St P) :
    Builds I k item s (mkRepeatable item rev s) (1 ≤ ·) (fun m => m) := by
  let l := s.heap.length
  refine ⟨[.forward (some (l + 3)), .prod [.rule item, .rule l] 0, .rule [l + 1],
    .or (if rev then [item, l + 2] else [l + 2, item])], fun g hg hi => ?_⟩
  have hl : l = g.length := hg.shape.length.symm
  have e : (mkRepeatable item rev s) = (l, { s with heap := s.heap ++
      [.forward (some (l + 3)), .prod [.rule item, .rule l] 0, .rule [l + 1],
        .or (if rev then [item, l + 2] else [l + 2, item])] }) := by
    simp [mkRepeatable, St.alloc, St.rule, l]
  rw [e]
  refine ⟨fine_extend hg _ ?_ ?_, ?_, fun H hH => ?_⟩
  · intro o ho c hc
    simp only [List.mem_cons, List.not_mem_nil, or_false] at ho
    rcases ho with rfl | rfl | rfl | rfl
    · simp [Obj.children] at hc; simp; omega
    · simp [Obj.children, termRules] at hc; simp; omega
    · simp [Obj.children] at hc; simp; omega
    · cases rev <;> simp [Obj.children] at hc <;> simp <;> omega
  · intro o ho g'
    simp only [List.mem_cons, List.not_mem_nil, or_false] at ho
    rcases ho with rfl | rfl | rfl | rfl <;> exact hI.new _ _ rfl (by simp)
  · simp; omega
  · refine pow_repeatable (o := l + 3) (a := l + 2) (p := l + 1)
      (rs := if rev then [item, l + 2] else [l + 2, item]) ?_ ?_ ?_ ?_ ?_
    · exact at_ext' hl hH 0 rfl
    · exact at_ext' hl hH 3 rfl
    · intro x; cases rev <;> simp [or_comm]
    · exact at_ext' hl hH 2 rfl
    · exact at_ext' hl hH 1 rfl

theorem builds_optional (hI : Copying I k) (item : Nat) (rev : Bool) (s : St P) :
    Builds I k item s (mkOptional item rev s) (· ≤ 1) (fun _ => 0) := by
  let l := s.heap.length
  refine ⟨[.empty, .or (if rev then [item, l] else [l, item])], fun g hg hi => ?_⟩
  have hl : l = g.length := hg.shape.length.symm
  have e : (mkOptional item rev s) = (l + 1, { s with heap := s.heap ++
      [.empty, .or (if rev then [item, l] else [l, item])] }) := by
    simp [mkOptional, St.alloc, l]
  rw [e]
  refine ⟨fine_extend hg _ ?_ ?_, ?_, fun H hH => ?_⟩
  · intro o ho c hc
    simp only [List.mem_cons, List.not_mem_nil, or_false] at ho
    rcases ho with rfl | rfl
    · simp [Obj.children] at hc
    · cases rev <;> simp [Obj.children] at hc <;> simp <;> omega
  · intro o ho g'
    simp only [List.mem_cons, List.not_mem_nil, or_false] at ho
    rcases ho with rfl | rfl <;> exact hI.new _ _ rfl (by simp)
  · simp; omega
  · refine pow_optional (e := l) (rs := if rev then [item, l] else [l, item]) ?_ ?_ ?_
    · exact at_ext' hl hH 1 rfl
    · intro x; cases rev <;> simp [or_comm]
    · exact at_ext' hl hH 0 rfl

theorem mem_repOptionalOrder (a b c : Nat) (rr ro : Bool) (x : Nat) :
    x ∈ repOptionalOrder a b c rr ro ↔ x = a ∨ x = b ∨ x = c := by
  cases rr <;> cases ro <;> simp [repOptionalOrder] <;> omega

theorem builds_repOptional (hI : Copying I k) (item : Nat) (rr ro : Bool) (s : St P) :
    Builds I k item s (mkRepOptional item rr ro s) (fun _ => True) (fun m => max m 1) := by
  let l := s.heap.length
  refine ⟨[.forward (some (l + 4)), .empty, .prod [.rule item, .rule l] 0, .rule [l + 2],
    .or (repOptionalOrder (l + 1) (l + 3) item rr ro)], fun g hg hi => ?_⟩
  have hl : l = g.length := hg.shape.length.symm
  have e : (mkRepOptional item rr ro s) = (l, { s with heap := s.heap ++
      [.forward (some (l + 4)), .empty, .prod [.rule item, .rule l] 0, .rule [l + 2],
        .or (repOptionalOrder (l + 1) (l + 3) item rr ro)] }) := by
    simp [mkRepOptional, St.alloc, St.rule, l]
  rw [e]
  refine ⟨fine_extend hg _ ?_ ?_, ?_, fun H hH => ?_⟩
  · intro o ho c hc
    simp only [List.mem_cons, List.not_mem_nil, or_false] at ho
    rcases ho with rfl | rfl | rfl | rfl | rfl
    · simp [Obj.children] at hc; simp; omega
    · simp [Obj.children] at hc
    · simp [Obj.children, termRules] at hc; simp; omega
    · simp [Obj.children] at hc; simp; omega
    · simp only [Obj.children, mem_repOptionalOrder] at hc; simp; omega
  · intro o ho g'
    simp only [List.mem_cons, List.not_mem_nil, or_false] at ho
    rcases ho with rfl | rfl | rfl | rfl | rfl <;> exact hI.new _ _ rfl (by simp)
  · simp; omega
  · refine pow_repOptional (o := l + 4) (e := l + 1) (a := l + 3) (p := l + 2)
      (rs := repOptionalOrder (l + 1) (l + 3) item rr ro) ?_ ?_ ?_ ?_ ?_ ?_
    · exact at_ext' hl hH 0 rfl
    · exact at_ext' hl hH 4 rfl
    · intro x; exact mem_repOptionalOrder _ _ _ _ _ _
    · exact at_ext' hl hH 1 rfl
    · exact at_ext' hl hH 3 rfl
    · exact at_ext' hl hH 2 rfl

theorem builds_maxBound (hI : Copying I k) (item : Nat) (rev : Bool) : ∀ (n : Nat) (s : St P),
    Builds I k item s (maxBound item rev (n + 1) s) (fun m => 1 ≤ m ∧ m ≤ n + 1) (fun _ => 0) := by
  intro n
  induction n with
  | zero =>
    intro s
    refine ⟨[], fun g hg hi => ?_⟩
    simp only [maxBound, List.append_nil]
    exact ⟨hg, hi, fun H _ => pow_one item⟩
  | succ n ih =>
    intro s
    obtain ⟨e1, he1⟩ := ih s
    generalize hr : maxBound item rev (n + 1) s = r at he1
    obtain ⟨inner, s1⟩ := r
    let l := s1.heap.length
    refine ⟨e1 ++ [.prod [.rule item, .rule inner] 0, .rule [l],
      .or (if rev then [item, l + 1] else [l + 1, item])], fun g hg hi => ?_⟩
    obtain ⟨f1, h1, p1⟩ := he1 g hg hi
    simp only at h1 p1 f1
    have hl : l = (g ++ e1).length := f1.shape.length.symm
    have e : maxBound item rev (n + 1 + 1) s = (l + 2, { s1 with heap := s1.heap ++
        [.prod [.rule item, .rule inner] 0, .rule [l],
          .or (if rev then [item, l + 1] else [l + 1, item])] }) := by
      conv => lhs; unfold maxBound
      simp [hr, St.alloc, St.rule, l]
    rw [e, ← List.append_assoc]
    have hi' : item < (g ++ e1).length := by simp; omega
    refine ⟨fine_extend f1 _ ?_ ?_, ?_, fun H hH => ?_⟩
    · intro o ho c hc
      simp only [List.mem_cons, List.not_mem_nil, or_false] at ho
      rcases ho with rfl | rfl | rfl
      · simp only [Obj.children, termRules, List.mem_cons, List.not_mem_nil, or_false] at hc
        rcases hc with rfl | rfl <;> omega
      · simp [Obj.children] at hc; simp only [List.length_cons, List.length_nil]; omega
      · cases rev <;> simp [Obj.children] at hc <;>
          simp only [List.length_cons, List.length_nil] <;> omega
    · intro o ho g'
      simp only [List.mem_cons, List.not_mem_nil, or_false] at ho
      rcases ho with rfl | rfl | rfl <;> exact hI.new _ _ rfl (by simp)
    · rw [List.length_append]; simp only [List.length_cons, List.length_nil]; omega
    · refine pow_more (n := n + 1) (a := l + 1) (p := l) (inner := inner)
        (rs := if rev then [item, l + 1] else [l + 1, item]) (by omega) ?_ ?_ ?_ ?_ ?_
      · rw [hl]; exact at_ext hH 2 (by rw [← hl]; rfl)
      · intro x; cases rev <;> simp [or_comm]
      · rw [hl]; exact at_ext hH 1 (by rw [← hl]; rfl)
      · rw [hl]; exact at_ext hH 0 rfl
      · exact p1 H ((List.prefix_append _ _).trans hH)

theorem termRules_map (l : List Nat) : termRules (l.map (Term.rule (P := P))) = l := by
  induction l with
  | nil => rfl
  | cons a l ih => simp [termRules, ih]

theorem builds_seq (hI : Copying I k) {item : Nat} {s : St P} {t : Nat} {s1 : St P}
    {M : Nat → Prop} {C : Nat → Nat} (hb : Builds I k item s (t, s1) M C) (j : Nat) :
    Builds I k item s (s1.rule (List.replicate j item ++ [t])) (fun n => j ≤ n ∧ M (n - j))
      (fun n => C (n - j)) := by
  obtain ⟨e1, he1⟩ := hb
  let l := s1.heap.length
  refine ⟨e1 ++ [.prod ((List.replicate j item ++ [t]).map .rule) 0, .rule [l]],
    fun g hg hi => ?_⟩
  obtain ⟨f1, h1, p1⟩ := he1 g hg hi
  simp only at h1 p1 f1
  have hl : l = (g ++ e1).length := f1.shape.length.symm
  have e : s1.rule (List.replicate j item ++ [t]) = (l + 1, { s1 with heap := s1.heap ++
      [.prod ((List.replicate j item ++ [t]).map .rule) 0, .rule [l]] }) := by
    simp [St.alloc, St.rule, l]
  rw [e, ← List.append_assoc]
  have hi' : item < (g ++ e1).length := by simp; omega
  refine ⟨fine_extend f1 _ ?_ ?_, ?_, fun H hH => ?_⟩
  · intro o ho c hc
    simp only [List.mem_cons, List.not_mem_nil, or_false] at ho
    rcases ho with rfl | rfl
    · simp only [Obj.children, termRules_map, List.mem_append, List.mem_replicate,
        List.mem_singleton] at hc
      rcases hc with ⟨_, rfl⟩ | rfl <;> omega
    · simp [Obj.children] at hc; simp only [List.length_cons, List.length_nil]; omega
  · intro o ho g'
    simp only [List.mem_cons, List.not_mem_nil, or_false] at ho
    rcases ho with rfl | rfl <;> exact hI.new _ _ rfl (by simp)
  · rw [List.length_append]; simp only [List.length_cons, List.length_nil]; omega
  · refine pow_seq (p := l) (t := t) ?_ ?_ (p1 H ((List.prefix_append _ _).trans hH))
    · rw [hl]; exact at_ext hH 1 (by rw [← hl]; rfl)
    · rw [hl]; exact at_ext hH 0 rfl

theorem Builds.weaken {item : Nat} {s : St P} {r : Nat × St P} {M N : Nat → Prop} {C : Nat → Nat}
    (h : Builds I k item s r M C) (hMN : ∀ n, M n ↔ N n) : Builds I k item s r N C := by
  obtain ⟨ext, he⟩ := h
  refine ⟨ext, fun g hg hi => ?_⟩
  obtain ⟨h1, h2, h3⟩ := he g hg hi
  exact ⟨h1, h2, fun H hH => ⟨fun m c w hm => (h3 H hH).forth m c w ((hMN m).2 hm), fun n w g' =>
    let ⟨m, c, hm, g''⟩ := (h3 H hH).back n w g'
    ⟨m, c, (hMN m).1 hm, g''⟩⟩⟩

/-- A quantifier replaced by a rule with the same words. -/
theorem builds_ok {rec : Visit P} (hr : VisitOk (baseInv k) k rec) {a r : Nat} {o : Obj P}
    {s : St P} (hfix : o.fixed) (ho : s.heap[a]? = some o) (hl : o.label k = none)
    {N : Nat → Prop} {C : Nat → Nat} (hq : Quant o r N) (hC : ∀ m, N m → C m ≤ stepCost o m)
    (mk : Nat → St P → Nat × St P)
    (hmk : o.bounds → ∀ item s, Builds (baseInv k) k item s (mk item s) N C) {b s'}
    (h : (rec r s).map (fun x => mk x.1 x.2) = .ok (b, s')) :
    ∃ ext, ∀ g, Fine (baseInv k) k g s →
      Fine (baseInv k) k (g ++ ext) s' ∧ Image (baseInv k) k (g ++ ext) a b := by
  cases h1 : rec r s with
  | error e => simp [h1, Except.map] at h
  | ok x =>
    obtain ⟨y, s1⟩ := x
    simp only [h1, Except.map, Except.ok.injEq] at h
    obtain ⟨e1, he1⟩ := hr r s y s1 h1
    by_cases hb : o.bounds
    · obtain ⟨e2, he2⟩ := hmk hb y s1
      refine ⟨e1 ++ e2, fun g hg => ?_⟩
      obtain ⟨f1, i1⟩ := he1 g hg
      obtain ⟨f2, h2, p2⟩ := he2 _ f1 i1.lt'
      rw [h] at f2 h2 p2
      rw [← List.append_assoc]
      refine ⟨f2, ?_, h2, trivial, fun H hH => ?_⟩
      · have := hg.lt ho; simp; omega
      · exact equiv_pow (getElem?_prefix hH (getElem?_append_some (getElem?_append_some
          (hg.same ho hfix)))) hl hq (i1.sem H ((List.prefix_append _ _).trans hH)) (p2 H hH) hC
    · refine ⟨[], fun g hg => ?_⟩
      exact (hb (hg.inv o (List.mem_of_getElem? (hg.same ho hfix))).2).elim

theorem extended_ok : MethodOk (baseInv k : PassInv P) k extendedMethod := by
  intro n rec hr a o s b s' ho h
  cases o with
  | repeatable r rev =>
    exact builds_ok hr (o := .repeatable r rev) trivial ho (by cases k <;> rfl) (quant_repeatable r rev)
      (fun m _ => Nat.le_refl _) (fun x s => mkRepeatable x rev s)
      (fun _ x s => builds_repeatable baseCopying x rev s) h
  | optional r rev =>
    exact builds_ok hr (o := .optional r rev) trivial ho (by cases k <;> rfl) (quant_optional r rev)
      (fun m _ => Nat.zero_le _) (fun x s => mkOptional x rev s)
      (fun _ x s => builds_optional baseCopying x rev s) h
  | repOptional r rr ro =>
    exact builds_ok hr (o := .repOptional r rr ro) trivial ho (by cases k <;> rfl) (quant_repOptional r rr ro)
      (fun m _ => Nat.le_refl _) (fun x s => mkRepOptional x rr ro s)
      (fun _ x s => builds_repOptional baseCopying x rr ro s) h
  | minBounded r min rev =>
    refine builds_ok hr (o := .minBounded r min rev) (C := fun n => n - (min - 1)) trivial ho (by cases k <;> rfl)
      (quant_min r min rev) (fun m _ => ?_)
      (fun x s => (mkRepeatable x rev s).2.rule (List.replicate (min - 1) x ++
        [(mkRepeatable x rev s).1]))
      (fun hb x s => ?_) h
    · simp only [stepCost]; omega
    · have := builds_seq baseCopying (builds_repeatable (I := baseInv k) baseCopying x rev s)
        (min - 1)
      refine this.weaken fun n => ?_
      have : 1 ≤ min := hb
      omega
  | maxBounded r max rev =>
    refine builds_ok hr (o := .maxBounded r max rev) (C := fun _ => 0) trivial ho (by cases k <;> rfl)
      (quant_max r max rev) (fun m _ => Nat.zero_le _) (fun x s => maxBound x rev max s)
      (fun hb x s => ?_) h
    have hb : 1 ≤ max := hb
    obtain ⟨m, rfl⟩ : ∃ m, max = m + 1 := ⟨max - 1, by omega⟩
    exact builds_maxBound baseCopying x rev m s
  | minMaxBounded r min max rev =>
    refine builds_ok hr (o := .minMaxBounded r min max rev) (C := fun _ => 0) trivial ho (by cases k <;> rfl)
      (quant_minMax r min max rev) (fun m _ => Nat.zero_le _)
      (fun x s => (maxBound x rev (max - min + 1) s).2.rule (List.replicate (min - 1) x ++
        [(maxBound x rev (max - min + 1) s).1]))
      (fun hb x s => ?_) h
    have := builds_seq baseCopying (builds_maxBound (I := baseInv k) baseCopying x rev (max - min) s)
      (min - 1)
    refine this.weaken fun n => ?_
    have : 1 ≤ min ∧ min ≤ max := hb
    omega
  | _ => exact base_default_ok (n := n) hr ho h

end Yargy
