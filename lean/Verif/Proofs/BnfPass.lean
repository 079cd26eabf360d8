import Verif.Proofs.Normalize
/-!
`BNFTransformator` keeps the words of rules, names and the like aside.
-/
namespace Yargy

variable {P : Type} {H : Heap P}

theorem label_plain (o : Obj P) : o.label .plain = none := by cases o <;> rfl

abbrev plainInv : PassInv P := baseInv .plain

theorem plain_new (g : Heap P) {o : Obj P} (hq : o.quant = false) : (plainInv : PassInv P).Q g o :=
  ⟨fun _ _ _ _ _ _ => label_plain o, bounds_of_not_quant hq⟩

/-- A `BNFRule` with one production with one rule. -/
theorem equiv_lift {x y p l : Nat} {n i r kind m} (hp : H[p]? = some (.prod [.rule y] m))
    (hl : H[l]? = some (.bnf [p] n i r kind)) (h : Equiv .plain H x y) : Equiv .plain H x l := by
  have h1 := cong_prod_one hp h
  constructor
  · intro c w g
    exact gen_one.2 ⟨_, _, c, w, hl, .bnf List.mem_cons_self, by simp [stepCost], h1.1 c w g,
      by rw [label_plain]; rfl⟩
  · intro c w g
    obtain ⟨o, us, c', v, ho, hs, hc, hu, rfl⟩ := gen_one.1 g
    rw [hl] at ho; cases ho
    cases hs with
    | bnf hm =>
      rw [List.mem_singleton] at hm; subst hm
      exact h1.2 c' w hu

theorem lift_ok {g : Heap P} {s : St P} {a b : Nat} (hf : Fine plainInv .plain g s)
    (hi : Image plainInv .plain g a b) :
    ∀ ext, ext = [.prod [.rule b] 0, .bnf [s.heap.length] none none none none] →
    Fine plainInv .plain (g ++ ext) (s.lift b).2 ∧ Image plainInv .plain (g ++ ext) a (s.lift b).1 := by
  rintro ext rfl
  have e : (s.lift b).2 = { s with heap := s.heap ++
      [.prod [.rule b] 0, .bnf [s.heap.length] none none none none] } := by
    simp [St.lift, St.alloc]
  have e' : (s.lift b).1 = g.length + 1 := by simp [St.lift, St.alloc, hf.shape.length]
  rw [e, e']
  refine ⟨fine_extend hf _ ?_ ?_, ?_, ?_, trivial, ?_⟩
  · intro o ho c hc
    simp only [List.mem_cons, List.not_mem_nil, or_false] at ho
    have := hi.lt'
    rcases ho with rfl | rfl
    · simp only [Obj.children, termRules, List.mem_singleton] at hc
      simp; omega
    · simp only [Obj.children, List.mem_singleton] at hc
      simp [hf.shape.length]; omega
  · intro o ho g'
    simp only [List.mem_cons, List.not_mem_nil, or_false] at ho
    rcases ho with rfl | rfl <;> exact plain_new _ rfl
  · have := hi.lt; simp; omega
  · simp
  · intro H hH
    refine equiv_lift (p := s.heap.length) (m := 0) ?_ (at_ext hH 1 rfl)
      (hi.sem H ((List.prefix_append _ _).trans hH))
    exact at_ext' (i := 0) hf.shape.length.symm hH rfl

theorem shape_like {g h : Heap P} (hs : Shape .plain g h) {b : Nat} {o o' : Obj P}
    (ho : h[b]? = some o) (hl : Like .plain o o') : Shape .plain g (h.set b o') where
  length := by simp [hs.length]
  at_ := by
    intro a x hx
    obtain ⟨y, h1, h2⟩ := hs.at_ a x hx
    by_cases hab : b = a
    · subst hab
      rw [ho] at h1; cases h1
      refine ⟨o', ?_, ?_⟩
      · rw [List.getElem?_set_self (List.getElem?_eq_some_iff.1 ho).1]
      · rcases h2 with h2 | ⟨r, r', h2, h3, h4, h5⟩
        · exact .inl (h2.trans hl)
        · subst h3
          cases hl
          exact .inr ⟨r, r', h2, rfl, h4, h5⟩
    · exact ⟨y, by rw [List.getElem?_set_ne hab]; exact h1, h2⟩

theorem setAttr_ok {g : Heap P} {s : St P} (hf : Fine plainInv .plain g s) (b : Nat) (x : Attr) :
    Fine plainInv .plain g { s with heap := setAttrAt s.heap b x } where
  shape := by
    show Shape .plain g (setAttrAt s.heap b x)
    cases ho : s.heap[b]? with
    | none => simp only [setAttrAt, ho]; exact hf.shape
    | some o =>
      cases o with
      | bnf ps n i r kind =>
        simp only [setAttrAt, ho]
        cases x <;> exact shape_like hf.shape ho (.bnf rfl)
      | _ => simp only [setAttrAt, ho]; exact hf.shape
  closed := hf.closed
  inv := hf.inv
  memo := hf.memo

/-- A wrapper has the words of what it wraps. -/
theorem equiv_wrapper {x r : Nat} {o : Obj P} (hx : H[x]? = some o) (ha : Alts o [r])
    (hcost : stepCost o 1 = 0) : Equiv .plain H x r := by
  constructor
  · intro c w g
    obtain ⟨o', us, c', v, ho, hs, hc, hu, rfl⟩ := gen_one.1 g
    rw [hx] at ho; cases ho
    obtain ⟨p, h1, rfl⟩ := (ha us).1 hs
    rw [List.mem_singleton] at h1; subst h1
    exact hu.mono (by omega)
  · intro c w g
    exact ⟨c, gen_one.2 ⟨o, _, c, w, hx, (ha _).2 ⟨r, by simp, rfl⟩, by simp [hcost], g,
      by rw [label_plain]; rfl⟩⟩

abbrev PlainGoal (a : Nat) (s : St P) (b : Nat) (s' : St P) : Prop :=
  ∃ ext, ∀ g, Fine plainInv .plain g s →
    Fine plainInv .plain (g ++ ext) s' ∧ Image plainInv .plain (g ++ ext) a b

theorem plainGoal_lift {a b : Nat} {s s1 : St P} (h : PlainGoal a s b s1) :
    PlainGoal a s (s1.lift b).1 (s1.lift b).2 := by
  obtain ⟨ext, he⟩ := h
  refine ⟨ext ++ [.prod [.rule b] 0, .bnf [s1.heap.length] none none none none], fun g hg => ?_⟩
  obtain ⟨f1, i1⟩ := he g hg
  rw [← List.append_assoc]
  exact lift_ok f1 i1 _ rfl

theorem visitWrapped_ok {parents : Nat → Nat} {rec : Visit P} (hr : VisitOk plainInv .plain rec)
    {a r : Nat} {o : Obj P} {s : St P} (ho : s.heap[a]? = some o) (fo : o.fixed) (ha : Alts o [r])
    (hch : o.children = [r]) (hcost : stepCost o 1 = 0) {b s'}
    (h : visitWrapped parents rec r s = .ok (b, s')) : PlainGoal a s b s' := by
  have base : ∀ g, Fine plainInv .plain g s → Image plainInv .plain g a r := by
    intro g hg
    have hga := hg.same ho fo
    refine ⟨hg.lt ho, hg.closed o (List.mem_of_getElem? hga) r (by simp [hch]), trivial,
      fun H hH => equiv_wrapper (getElem?_prefix hH hga) ha hcost⟩
  have visited : ∀ {b s'}, rec r s = .ok (b, s') → PlainGoal a s b s' := by
    intro b s' h
    obtain ⟨ext, he⟩ := hr r s b s' h
    refine ⟨ext, fun g hg => ?_⟩
    obtain ⟨f1, i1⟩ := he g hg
    have i0 := (base g hg).mono (e := ext) hg.closed
    exact ⟨f1, i0.lt, i1.lt', trivial, i0.sem.trans i1.sem⟩
  have rest : (if parents r = 0 then (.error .keyError : Except Err (Nat × St P))
      else (rec r s).map (fun x => if 1 < parents r then x.2.lift x.1 else x)) = .ok (b, s') →
      PlainGoal a s b s' := by
    intro h
    by_cases h0 : parents r = 0
    · simp [h0] at h
    · rw [if_neg h0] at h
      cases h1 : rec r s with
      | error e => simp [h1, Except.map] at h
      | ok x =>
        obtain ⟨b1, s1⟩ := x
        simp only [h1, Except.map, Except.ok.injEq] at h
        have g1 := visited h1
        by_cases h2 : 1 < parents r
        · rw [if_pos h2] at h
          have := plainGoal_lift g1
          rw [h] at this
          exact this
        · rw [if_neg h2] at h
          cases h
          exact g1
  unfold visitWrapped at h
  split at h
  · simp only [Except.ok.injEq] at h
    have : PlainGoal a s r s := ⟨[], fun g hg => by rw [List.append_nil]; exact ⟨hg, base g hg⟩⟩
    have := plainGoal_lift this
    rw [h] at this
    exact this
  · exact rest h

theorem visitWrapper_ok {parents : Nat → Nat} {rec : Visit P} (hr : VisitOk plainInv .plain rec)
    {a r : Nat} {o : Obj P} {s : St P} (ho : s.heap[a]? = some o) (fo : o.fixed) (ha : Alts o [r])
    (hch : o.children = [r]) (hcost : stepCost o 1 = 0) {x : Attr} {b s'}
    (h : visitWrapper parents rec r x s = .ok (b, s')) : PlainGoal a s b s' := by
  unfold visitWrapper at h
  cases h1 : visitWrapped parents rec r s with
  | error e => simp [h1] at h
  | ok y =>
    obtain ⟨b1, s1⟩ := y
    simp only [h1] at h
    have g1 := visitWrapped_ok hr ho fo ha hch hcost h1
    have fin : ∀ {b2 s2}, PlainGoal a s b2 s2 →
        PlainGoal a s b2 { s2 with heap := setAttrAt s2.heap b2 x } := by
      rintro b2 s2 ⟨ext, he⟩
      exact ⟨ext, fun g hg => ⟨setAttr_ok (he g hg).1 b2 x, (he g hg).2⟩⟩
    cases h2 : hasAttr s1.heap b1 x with
    | error e => simp [h2] at h
    | ok has =>
      simp only [h2, Except.ok.injEq] at h
      cases has with
      | true =>
        simp only [if_true, Prod.mk.injEq] at h
        obtain ⟨rfl, rfl⟩ := h
        exact fin (plainGoal_lift g1)
      | false =>
        simp only [Bool.false_eq_true, if_false, Prod.mk.injEq] at h
        obtain ⟨rfl, rfl⟩ := h
        exact fin g1

/-! ### Pipelines -/

theorem allocKeys_eq (keys : List (Str × List P)) (s : St P) :
    allocKeys keys s = (List.range' s.heap.length keys.length,
      { s with heap := s.heap ++ keys.map (fun x => .pipeProd x.1 x.2) }) := by
  induction keys generalizing s with
  | nil => simp [allocKeys]
  | cons x keys ih =>
    obtain ⟨v, ts⟩ := x
    simp only [allocKeys, ih, St.alloc, List.length_append, List.length_cons, List.length_nil]
    refine Prod.ext ?_ ?_
    · simp [List.range'_succ]
    · simp

theorem equiv_pipe {x y : Nat} {kind : PipeKind} {keys : List (Str × List P)} {l : Nat}
    (hx : H[x]? = some (.pipe (.keys kind keys)))
    (hy : H[y]? = some (.bnf (List.range' l keys.length) none none none (some kind)))
    (hk : ∀ i, ∀ h : i < keys.length, H[l + i]? = some (.pipeProd keys[i].1 keys[i].2)) :
    Equiv .plain H x y := by
  constructor
  · intro c w g
    obtain ⟨o', us, c', v, ho, hs, hc, hu, rfl⟩ := gen_one.1 g
    rw [hx] at ho; cases ho
    cases hs with
    | pipe hm =>
      obtain ⟨i, hi, rfl⟩ := List.mem_iff_getElem.1 hm
      refine gen_one.2 ⟨_, _, c', w, hy, .bnf (p := l + i) ?_, ?_, ?_, by rw [label_plain]; rfl⟩
      · rw [List.mem_range'_1]; omega
      · simp only [stepCost] at hc ⊢; omega
      · exact gen_one.2 ⟨_, _, c', w, hk i hi, .pipeProd, by simp [stepCost], hu,
          by rw [label_plain]; rfl⟩
  · intro c w g
    obtain ⟨o', us, c', v, ho, hs, hc, hu, rfl⟩ := gen_one.1 g
    rw [hy] at ho; cases ho
    cases hs with
    | bnf hm =>
      rw [List.mem_range'_1] at hm
      rename_i p
      have hi : p - l < keys.length := by omega
      have hp := hk (p - l) hi
      rw [show l + (p - l) = p by omega] at hp
      obtain ⟨o', us, c', v, ho, hs, hc, hu, rfl⟩ := gen_one.1 hu
      rw [hp] at ho; cases ho
      cases hs
      exact ⟨c', gen_one.2 ⟨_, _, c', w, hx, .pipe (List.getElem_mem hi), by simp [stepCost], hu,
        by rw [label_plain]; rfl⟩⟩

theorem pipeBnf_ok {a : Nat} {p : Pipe P} {s : St P} (ho : s.heap[a]? = some (.pipe p)) {b s'}
    (h : pipeBnf p s = .ok (b, s')) : PlainGoal a s b s' := by
  cases p with
  | scheme kind lines => simp [pipeBnf] at h
  | keys kind keys =>
    simp only [pipeBnf] at h
    split at h
    · cases h
    · simp only [allocKeys_eq, St.alloc, Except.ok.injEq, Prod.mk.injEq] at h
      obtain ⟨rfl, rfl⟩ := h
      refine ⟨keys.map (fun x => .pipeProd x.1 x.2) ++
        [.bnf (List.range' s.heap.length keys.length) none none none (some kind)], fun g hg => ?_⟩
      have f1 := fine_extend hg (keys.map (fun x => (.pipeProd x.1 x.2 : Obj P)) ++
        [.bnf (List.range' s.heap.length keys.length) none none none (some kind)]) (by
          intro o ho c hc
          rw [List.mem_append, List.mem_map, List.mem_singleton] at ho
          rcases ho with ⟨x, _, rfl⟩ | rfl
          · simp [Obj.children] at hc
          · simp only [Obj.children, List.mem_range'_1, ← hg.shape.length] at hc
            simp; omega) (by
          intro o ho g'
          rw [List.mem_append, List.mem_map, List.mem_singleton] at ho
          rcases ho with ⟨x, _, rfl⟩ | rfl <;> exact plain_new _ rfl)
      simp only [List.append_assoc] at f1 ⊢
      refine ⟨f1, ?_, ?_, trivial, fun H hH => ?_⟩
      · have := hg.lt ho; simp; omega
      · simp [hg.shape.length]
      · refine equiv_pipe (l := s.heap.length)
          (getElem?_prefix hH (getElem?_append_some (hg.same ho trivial))) ?_ ?_
        · have := at_ext' (l := s.heap.length) (i := keys.length) hg.shape.length.symm hH (o :=
            .bnf (List.range' s.heap.length keys.length) none none none (some kind)) (by
            rw [List.getElem?_append_right (by simp)]; simp)
          simpa using this
        · intro i hi
          refine at_ext' hg.shape.length.symm hH i ?_
          rw [List.getElem?_append_left (by simpa using hi)]
          simp [hi]

theorem bnf_ok (parents : Nat → Nat) : MethodOk (plainInv : PassInv P) .plain (bnfMethod parents) := by
  intro n rec hr a o s b s' ho h
  have alts : ∀ (ps : List Nat) (T : Obj P → Prop), (∀ o', T o' → Alts o' ps ∧ o'.quant = false) →
      (∀ g, Fine plainInv .plain g s → ∃ o', g[a]? = some o' ∧ T o') →
      rebuildAll rec ps (.bnf · none none none none) s = .ok (b, s') → PlainGoal a s b s' := by
    intro ps T hT hg h
    exact alts_copy_ok baseCopying (visit_weaken hr) (o := .rule ps) T hg (fun o' h => (hT o' h).2)
      (fun o' _ qs => by rw [label_plain, label_plain])
      (fun o' h => (hT o' h).1) (fun _ _ _ => Nat.zero_le _) (fun qs => alts_bnf qs _ _ _ _)
      (fun _ => rfl) (fun _ => rfl) (fun g qs => plain_new g rfl) h
  cases o with
  | rule ps =>
    exact alts ps (fun o' => o' = .rule ps) (by rintro _ rfl; exact ⟨alts_rule ps, rfl⟩)
      (fun g hg => ⟨_, hg.same ho trivial, rfl⟩) h
  | bnf ps n i r d =>
    refine alts ps (fun o' => ∃ n i r, o' = .bnf ps n i r d)
      (by rintro _ ⟨_, _, _, rfl⟩; exact ⟨alts_bnf ps _ _ _ _, rfl⟩) (fun g hg => ?_) h
    obtain ⟨o', h1, h2 | ⟨r, r', _, h3, _⟩⟩ := hg.get ho
    · cases h2 with
      | refl => exact ⟨_, h1, _, _, _, rfl⟩
      | bnf _ => exact ⟨_, h1, _, _, _, rfl⟩
    · cases h3
  | or rs => simp [bnfMethod] at h
  | empty => simp [bnfMethod] at h
  | named r n => exact visitWrapper_ok hr ho trivial (alts_named r n) rfl rfl h
  | interp r n => exact visitWrapper_ok hr ho trivial (alts_interp r n) rfl rfl h
  | relation r n => exact visitWrapper_ok hr ho trivial (alts_relation r n) rfl rfl h
  | pipe p => exact pipeBnf_ok ho h
  | _ => exact base_default_ok (n := n) hr ho h

end Yargy
