import Verif.Proofs.TintPasses
/-!
Compiling keeps a rule painted: the last pass, transformators, removal of forward rules, names, activation.
-/
namespace Yargy.Tint

variable {P : Type} {F : Pal} {col : Nat → Color}

/-! ### Compiled rules -/

theorem lift_steps (hT : ∀ t, F.T t = true) {s : St P} (hs : NeatS F col s) {item : Nat}
    (hi : Item F s.heap item) (hf : Full (col item)) :
    ∃ col', Next col col' s.heap (s.lift item).2.heap ∧ NeatS F col' (s.lift item).2 ∧
      Item F (s.lift item).2.heap (s.lift item).1 ∧ col' (s.lift item).1 = .full := by
  obtain ⟨c, p1, p2, p3, p4, p5⟩ := hs.alloc (o := .prod [.rule item] 0) .full (by
    refine .inl ⟨by simp, ⟨.inl (.inl ?_), trivial⟩, .inl paint_new⟩
    rw [paint_old hi.2]; exact hf) (hT _) (fun x hx => by
      simp only [Obj.children, termRules, List.mem_singleton] at hx
      subst hx; exact hi) (fun _ => by simp)
  obtain ⟨c', q1, q2, q3, q4, q5⟩ := p2.alloc (o := .bnf [s.heap.length] none none none none) .full (by
    refine .inl ⟨paint_new, ?_⟩
    intro x hx
    simp only [List.map_cons, List.map_nil, List.mem_singleton] at hx
    subst hx; rw [paint_old p5]; exact .inl p3) (hT _) (fun x hx => by
      simp only [Obj.children, List.mem_singleton] at hx
      subst hx; exact ⟨p4, p5⟩) (fun _ => by simp)
  exact ⟨c', p1.trans q1, q2, ⟨q4, q5⟩, q3⟩

theorem visitWrapped_steps (hT : ∀ t, F.T t = true) {parents : Nat → Nat}
    {rec : Visit P} (hr : VisitSteps F rec) {r : Nat} {s s' : St P} {b : Nat} (hs : NeatS F col s)
    (hi : Item F s.heap r) (hf : Full (col r)) (h : visitWrapped parents rec r s = .ok (b, s')) :
    ∃ col', Next col col' s.heap s'.heap ∧ NeatS F col' s' ∧ Item F s'.heap b ∧ Full (col' b) := by
  unfold visitWrapped at h
  split at h
  · obtain ⟨c, p1, p2, p3, p4⟩ := lift_steps hT hs hi hf
    simp only [Except.ok.injEq] at h
    rw [h] at p1 p2 p3 p4
    exact ⟨c, p1, p2, p3, .inl p4⟩
  · split at h
    · cases h
    · cases hm : rec r s with
      | error e => rw [hm] at h; cases h
      | ok y =>
        obtain ⟨y, s1⟩ := y
        rw [hm] at h
        obtain ⟨c, k1, k2, k3⟩ := hr col r s y s1 hs hi hm
        have hfy : Full (c y) := k3.2.full (by rw [k1.2 r hi.2]; exact hf)
        simp only [Except.map, Except.ok.injEq] at h
        split at h
        · obtain ⟨c', p1, p2, p3, p4⟩ := lift_steps hT k2 k3.1 hfy
          rw [h] at p1 p2 p3 p4
          exact ⟨c', k1.trans p1, p2, p3, .inl p4⟩
        · cases h
          exact ⟨c, k1, k2, k3.1, hfy⟩

theorem Neat.setAttr {h : Heap P} (hs : Neat F col h) (b : Nat) (x : Attr) : Neat F col (setAttrAt h b x) := by
  unfold setAttrAt
  split
  · rename_i hb
    have := fun hd => hs.good b _ hd hb
    cases x <;> exact hs.set (fun hd => ⟨(this hd).ok, (this hd).tag, (this hd).kids⟩)
  · exact hs

theorem setAttr_length (h : Heap P) (b : Nat) (x : Attr) : (setAttrAt h b x).length = h.length := by
  unfold setAttrAt
  split
  · cases x <;> simp
  · rfl

theorem NeatS.setAttr {s : St P} (hs : NeatS F col s) (b : Nat) (x : Attr) :
    NeatS F col { s with heap := setAttrAt s.heap b x } := by
  refine ⟨hs.toNeat.setAttr b x, fun e he => ?_⟩
  have := hs.memo e he
  refine ⟨by simpa [setAttr_length] using this.1, ⟨this.2.1.1, by simpa [setAttr_length] using this.2.1.2⟩, this.2.2⟩

theorem visitWrapper_steps (hT : ∀ t, F.T t = true) {parents : Nat → Nat}
    {rec : Visit P} (hr : VisitSteps F rec) {a r : Nat} {x : Attr} {s s' : St P} {b : Nat} (hs : NeatS F col s)
    (hlt : a < s.heap.length) (ha : col a = .full) (hi : Item F s.heap r) (hf : Full (col r))
    (h : visitWrapper parents rec r x s = .ok (b, s')) : Does F col s s' a b := by
  unfold visitWrapper at h
  split at h
  · cases h
  · rename_i b1 s1 h1
    obtain ⟨c, k1, k2, k3, k4⟩ := visitWrapped_steps hT hr hs hi hf h1
    split at h
    · cases h
    · rename_i has _
      have key : ∀ c b2 (s2 : St P), Next col c s.heap s2.heap → NeatS F c s2 → Item F s2.heap b2 →
          Full (c b2) → Does F col s { s2 with heap := setAttrAt s2.heap b2 x } a b2 := by
        intro c b2 s2 q1 q2 q3 q4
        refine ⟨c, ⟨by simpa [setAttr_length] using q1.1, q1.2⟩, q2.setAttr b2 x,
          ⟨q3.1, by simpa [setAttr_length] using q3.2⟩, ?_⟩
        rw [q1.2 a hlt, ha]
        rcases q4 with w | w
        · exact .inl w
        · exact .inr (.inr ⟨rfl, w⟩)
      cases has with
      | true =>
        cases h
        obtain ⟨c', p1, p2, p3, p4⟩ := lift_steps hT k2 k3 k4
        exact key c' _ _ (k1.trans p1) p2 p3 (.inl p4)
      | false => cases h; exact key c _ _ k1 k2 k3 k4

theorem allocKeys_steps (hT : ∀ t, F.T t = true) : ∀ (keys : List (Str × List P)) (col : Nat → Color) (s : St P),
    NeatS F col s → (∀ k ∈ keys, k.2 ≠ []) →
    ∃ col', Next col col' s.heap (allocKeys keys s).2.heap ∧ NeatS F col' (allocKeys keys s).2 ∧
      ∀ p ∈ (allocKeys keys s).1, Item F (allocKeys keys s).2.heap p ∧ col' p = .tail := by
  intro keys
  induction keys with
  | nil => intro col s hs _; exact ⟨col, .refl _ _, hs, fun p hp => by cases hp⟩
  | cons k keys ih =>
    intro col s hs hk
    obtain ⟨v, ts⟩ := k
    simp only [allocKeys]
    obtain ⟨c, p1, p2, p3, p4, p5⟩ := hs.alloc (o := .pipeProd v ts) .tail
      ⟨hk _ List.mem_cons_self, paint_new⟩ (hT _) (fun x hx => by cases hx) (fun _ => by simp)
    obtain ⟨c', q1, q2, q3⟩ := ih c _ p2 (fun k h => hk k (List.mem_cons_of_mem _ h))
    refine ⟨c', p1.trans q1, q2, fun p hp => ?_⟩
    rcases List.mem_cons.1 hp with rfl | hp
    · exact ⟨Item.next ⟨p4, p5⟩ q1, (q1.2 _ p5).trans p3⟩
    · exact q3 p hp

theorem bnf_steps (hq : F.sq = false) (hT : ∀ t, F.T t = true) (hS : ∀ l, F.S l) (parents : Nat → Nat) :
    MethodSteps F (bnfMethod (P := P) parents) := by
  intro n rec hr col a o s b s' hs hd ho h
  have hlt := (List.getElem?_eq_some_iff.1 ho).1
  have hg := hs.good a o hd ho
  have full : ∀ {c}, Sd F.sq c → Full c := fun h => h.elim id (fun k => by rw [hq] at k; cases k.1)
  unfold bnfMethod at h
  split at h
  · refine rebuildAll_steps (mk := (.bnf · none none none none)) hr hs hd ho rfl (fun _ => rfl) (fun _ => hT _)
      (ok_not_hollow hg.ok (by simp)) ?_ ?_ h
    · intro c h ys l _ ho hp; exact okProds_got hp ho
    · intro c a l ys e ho; simp only [Ok] at ho ⊢; rw [e]; exact ho
  · refine rebuildAll_steps (mk := (.bnf · none none none none)) hr hs hd ho rfl (fun _ => rfl) (fun _ => hT _)
      (ok_not_hollow hg.ok (by simp)) ?_ ?_ h
    · intro c h ys l _ ho hp; exact okProds_got hp ho
    · intro c a l ys e ho; simp only [Ok] at ho ⊢; rw [e]; exact ho
  · cases h
  · cases h
  · exact visitWrapper_steps hT hr hs hlt hg.ok.1 (hg.kids _ (by simp [Obj.children])) (full hg.ok.2) h
  · exact visitWrapper_steps hT hr hs hlt hg.ok.1 (hg.kids _ (by simp [Obj.children])) (full hg.ok.2) h
  · exact visitWrapper_steps hT hr hs hlt hg.ok.1 (hg.kids _ (by simp [Obj.children])) (full hg.ok.2) h
  · unfold pipeBnf at h
    split at h
    · cases h
    · split at h
      · cases h
      · rename_i kind keys he
        cases h
        obtain ⟨c, p1, p2, p3⟩ := allocKeys_steps hT keys col s hs (fun k hk e =>
          he (List.any_eq_true.2 ⟨k, hk, by simp [e]⟩))
        obtain ⟨c', q1, q2, q3, q4, q5⟩ := p2.alloc
          (o := .bnf (allocKeys keys s).1 none none none (some kind)) .tail (by
            refine .inr (.inl ⟨paint_new, fun x hx => ?_⟩)
            obtain ⟨p, hp, rfl⟩ := List.mem_map.1 hx
            rw [paint_old (p3 p hp).1.2]; exact (p3 p hp).2) (hT _) (fun x hx => (p3 x hx).1) (fun _ => by simp)
        refine ⟨c', p1.trans q1, q2, ⟨q4, q5⟩, .inl ?_⟩
        rw [(p1.trans q1).2 a hlt, show col a = .tail from hg.ok]
        exact q3
  · exact default_steps (hT _) hr hs hd ho (fun _ => hs.flat a hd (hS a)) h

/-! ### Transformators -/

theorem enqueue_sub {pid : Nat → Nat} : ∀ (cs queue seen : List Nat) (x : Nat),
    x ∈ (enqueue pid cs queue seen).1 → x ∈ cs ∨ x ∈ queue := by
  intro cs
  induction cs with
  | nil => intro queue seen x hx; exact .inr hx
  | cons c cs ih =>
    intro queue seen x hx
    simp only [enqueue] at hx
    split at hx
    · exact (ih _ _ _ hx).imp (List.mem_cons_of_mem _) id
    · rcases ih _ _ _ hx with h | h
      · exact .inl (List.mem_cons_of_mem _ h)
      · rcases List.mem_append.1 h with h | h
        · exact .inr h
        · rw [List.mem_singleton] at h; subst h; exact .inl List.mem_cons_self

theorem Neat.queue {h : Heap P} (hs : Neat F col h) {a : Nat} {queue seen : List Nat} {pid : Nat → Nat}
    (hq : ∀ x ∈ a :: queue, F.D x) : ∀ x ∈ (enqueue pid (childrenAt h a) queue seen).1, F.D x := by
  intro x hx
  rcases enqueue_sub _ _ _ _ hx with hx | hx
  · unfold childrenAt at hx
    split at hx
    · rename_i o ho
      exact ((hs.good a o (hq a List.mem_cons_self) ho).kids x hx).1
    · cases hx
  · exact hq x (List.mem_cons_of_mem _ hx)

theorem redefine_steps {m : Method P} {pid : Nat → Nat} (hp : ∀ a b, pid a = pid b → a = b)
    (hm : MethodSteps F m) {limit : Nat} : ∀ (n : Nat) (queue seen : List Nat) (col : Nat → Color)
      (s s' : St P), redefine m pid limit n queue seen s = .ok s' → NeatS F col s → (∀ x ∈ queue, F.D x) →
      ∃ col', Next col col' s.heap s'.heap ∧ NeatS F col' s' := by
  intro n
  induction n with
  | zero => intro queue seen col s s' e; cases e
  | succ n ih =>
    intro queue seen col s s' e hs hqu
    cases queue with
    | nil => cases e; exact ⟨col, .refl _ _, hs⟩
    | cons a queue =>
      have hda := hqu a List.mem_cons_self
      simp only [redefine] at e
      split at e
      · rename_i r hr
        have hg := hs.good a _ hda hr
        have hlt := (List.getElem?_eq_some_iff.1 hr).1
        have hkr := hg.kids r (by simp [Obj.children])
        split at e
        · cases e
        · rename_i b s1 hv
          obtain ⟨c, k1, k2, k3⟩ := visit_steps hp hm limit col r s b s1 hs hkr hv
          split at e
          · cases e
          · rename_i g hdef
            have hgset : g = s1.heap.set a (.forward (some b)) := by
              unfold defineForward at hdef
              split at hdef
              · cases hdef
              · cases hdef; rfl
            subst hgset
            have k4 := k2.set (a := a) (o := .forward (some b)) (fun _ => by
              refine ⟨⟨by rw [k1.2 a hlt]; exact hg.ok.1, fun x hx => ?_⟩, hg.tag, fun x hx => ?_⟩
              · cases hx
                exact k3.2.sd (by rw [k1.2 r hkr.2]; exact hg.ok.2 r rfl)
              · simp only [Obj.children, Option.toList_some, List.mem_singleton] at hx
                subst hx; exact k3.1)
            obtain ⟨c', q1, q2⟩ := ih _ _ c _ _ e k4 (k4.toNeat.queue hqu)
            refine ⟨c', k1.trans ⟨?_, ?_⟩, q2⟩
            · simpa using q1.1
            · intro x hx
              exact q1.2 x (by simpa using hx)
      · exact ih _ _ col _ _ e hs (hs.toNeat.queue hqu)

/-- One pass: the heap stays painted, and the result has the colour of the rule. -/
theorem transform_steps {m : Method P} {pid : Nat → Nat} (hp : ∀ a b, pid a = pid b → a = b)
    (hm : MethodSteps F m) {limit root b : Nat} {h h' : Heap P} (hs : Neat F col h) (hr : Item F h root)
    (e : transform m pid limit root h = .ok (b, h')) :
    ∃ col', Neat F col' h' ∧ Item F h' b ∧ Img (col root) (col' b) := by
  unfold transform at e
  split at e
  · cases e
  · rename_i s hre
    obtain ⟨c, k1, k2⟩ := redefine_steps hp hm _ _ _ col { heap := h } s hre ⟨hs, fun e he => by cases he⟩
      (fun x hx => by rw [List.mem_singleton] at hx; subst hx; exact hr.1)
    cases hv : visit m pid limit root s with
    | error x => rw [hv] at e; cases e
    | ok y =>
      obtain ⟨y, s1⟩ := y
      rw [hv] at e
      cases e
      obtain ⟨c', q1, q2, q3⟩ := visit_steps hp hm limit c root s _ _ k2 (hr.next k1) hv
      refine ⟨c', q2.toNeat, q3.1, ?_⟩
      have := q3.2
      rw [(k1.trans q1).2 root hr.2] at this
      exact this

/-! ### Forward rules, names, activation -/

theorem removeTerm_got {h : Heap P} (hs : Neat F col h) {t u : Term P} (ht : TermItem F h t)
    (e : removeTerm h t = .ok u) (hnf : F.sq = false) : TermGot F col h t u := by
  cases t with
  | pred q => cases e; exact ⟨q, rfl⟩
  | rule r =>
    simp only [removeTerm] at e
    split at e
    · cases e
    · rename_i x hx
      cases e
      have hg := hs.good r _ ht.1 hx
      refine .inr ⟨x, rfl, hg.kids x (by simp [Obj.children]), ?_⟩
      rw [hg.ok.1]
      rcases hg.ok.2 x rfl with (w | w) | ⟨w, _⟩
      · exact .inl w
      · exact .inr (.inr ⟨rfl, w⟩)
      · rw [hnf] at w; cases w
    · cases e; exact .inr ⟨r, rfl, ht, .inl rfl⟩

theorem terms_good {len : Nat} {a : Nat} {ts us : List (Term P)} {m : Nat} {h : Heap P} (hl : h.length = len)
    (hg : Good F col len a (.prod ts m)) (hp : Pointwise (TermGot F col h) ts us) :
    Good F col len a (.prod us m) := by
  refine ⟨?_, hg.tag, fun c hc => hl ▸ got_kids hp c hc⟩
  rcases hg.ok with ⟨h1, h2, h3⟩ | ⟨h1, e, rfl, h2⟩
  · refine .inl ⟨?_, placed_got id hp h2, h3.imp id (fun h => ⟨h.1, last_got hp h.2⟩)⟩
    cases hp with
    | nil => exact h1
    | cons _ _ => exact List.cons_ne_nil _ _
  · cases hp with
    | cons q1 q2 =>
      cases q2
      rcases q1 with ⟨q, _⟩ | ⟨y, rfl, q⟩
      · rw [h2] at q; rcases q with q | q <;> cases q
      · exact .inr ⟨h1, y, rfl, (h2 ▸ q.2 : Img .blank (col y)).blank⟩

theorem mem_termRules {ts : List (Term P)} {r : Nat} (h : Term.rule r ∈ ts) : r ∈ termRules ts := by
  induction ts with
  | nil => cases h
  | cons t ts ih =>
    rcases List.mem_cons.1 h with rfl | h'
    · exact List.mem_cons_self
    · cases t with
      | pred q => exact ih h'
      | rule r' => exact List.mem_cons_of_mem _ (ih h')

theorem Good.terms {a m : Nat} {ts : List (Term P)} {h : Heap P} (hg : Good F col h.length a (.prod ts m)) :
    ∀ t ∈ ts, TermItem F h t := by
  intro t ht
  cases t with
  | pred q => trivial
  | rule r => exact hg.kids r (mem_termRules ht)

theorem mapM_pointwise {α β : Type} {f : α → Except Err β} {R : α → β → Prop} : ∀ {xs : List α} {ys : List β},
    (∀ x ∈ xs, ∀ y, f x = .ok y → R x y) → xs.mapM f = .ok ys → Pointwise R xs ys := by
  intro xs
  induction xs with
  | nil => intro ys _ h; rw [List.mapM_nil] at h; cases h; exact .nil
  | cons x xs ih =>
    intro ys hR h
    rw [List.mapM_cons] at h
    cases h1 : f x with
    | error e => rw [h1] at h; cases h
    | ok y =>
      rw [h1] at h
      cases h2 : xs.mapM f with
      | error e => rw [h2] at h; cases h
      | ok ys' =>
        rw [h2] at h; cases h
        exact .cons (hR x List.mem_cons_self y h1) (ih (fun z hz => hR z (List.mem_cons_of_mem _ hz)) h2)

theorem removeForwards_steps (hq : F.sq = false) {pid : Nat → Nat} : ∀ (n : Nat) (queue seen : List Nat)
    (h h' : Heap P), removeForwards pid n queue seen h = .ok h' → Neat F col h →
    Neat F col h' ∧ h'.length = h.length := by
  intro n
  induction n with
  | zero => intro queue seen h h' e hs; cases e; exact ⟨hs, rfl⟩
  | succ n ih =>
    intro queue seen h h' e hs
    cases queue with
    | nil => cases e; exact ⟨hs, rfl⟩
    | cons a queue =>
      simp only [removeForwards] at e
      split at e
      · cases e
      · rename_i ts m ha
        split at e
        · cases e
        · rename_i ts' hts
          obtain ⟨k1, k2⟩ := ih _ _ _ _ e (hs.set (fun hd => by
            have hg := hs.good a _ hd ha
            exact terms_good rfl hg (mapM_pointwise (fun t ht u hu =>
              removeTerm_got hs (hg.terms t ht) hu hq) hts)))
          exact ⟨k1, k2.trans (by simp)⟩
      · exact ih _ _ _ _ e hs

theorem generateNames_steps : ∀ (as : List Nat) (count : Nat) (h : Heap P), Neat F col h →
    Neat F col (generateNames as count h) ∧ (generateNames as count h).length = h.length := by
  intro as
  induction as with
  | nil => intro count h hs; exact ⟨hs, rfl⟩
  | cons a as ih =>
    intro count h hs
    simp only [generateNames]
    split
    · rename_i ps name i r kind ha
      split
      · exact ih _ _ hs
      · obtain ⟨k1, k2⟩ := ih (count + 1) _ (hs.set (o := .bnf ps (some (genName count)) i r kind) (fun hd => by
          have hg := hs.good a _ hd ha
          exact ⟨hg.ok, hg.tag, hg.kids⟩))
        exact ⟨k1, k2.trans (by simp)⟩
    · exact ih _ _ hs

theorem activateTerm_got {A : Activation P} {h : Heap P} {t u : Term P} (ht : TermItem F h t)
    (e : activateTerm A t = .ok u) : TermGot F col h t u := by
  cases t with
  | pred q =>
    simp only [activateTerm] at e
    cases h1 : A.activate q with
    | error x => rw [h1] at e; cases e
    | ok q' => rw [h1] at e; cases e; exact ⟨q', rfl⟩
  | rule r => cases e; exact .inr ⟨r, rfl, ht, .inl rfl⟩

theorem activateRule_steps {A : Activation P} {pid : Nat → Nat} {root : Nat}
    {h h' : Heap P} (e : activateRule A pid root h = .ok h') (hs : Neat F col h) :
    Neat F col h' ∧ h'.length = h.length := by
  have key : ∀ (as : List Nat) (g h' : Heap P), as.foldlM (activateAt A) g = .ok h' →
      Neat F col g → Neat F col h' ∧ h'.length = g.length := by
    intro as
    induction as with
    | nil => intro g h' e hg; cases e; exact ⟨hg, rfl⟩
    | cons a as ih =>
      intro g h' e hg
      rw [List.foldlM_cons] at e
      cases h1 : activateAt A g a with
      | error x => rw [h1] at e; cases e
      | ok g1 =>
        rw [h1] at e
        have : Neat F col g1 ∧ g1.length = g.length := by
          unfold activateAt at h1
          split at h1
          · cases h1; exact ⟨hg, rfl⟩
          · rename_i o ho
            cases h2 : activateObj A o with
            | error x => rw [h2] at h1; cases h1
            | ok o' =>
              rw [h2] at h1
              cases h1
              refine ⟨hg.set (fun hd => ?_), by simp⟩
              have hgo := hg.good a o hd ho
              cases o with
              | prod ts m =>
                simp only [activateObj] at h2
                cases h3 : ts.mapM (activateTerm A) with
                | error x => rw [h3] at h2; cases h2
                | ok us =>
                  rw [h3] at h2; cases h2
                  exact terms_good rfl hgo (mapM_pointwise (fun t ht u hu =>
                    activateTerm_got (hgo.terms t ht) hu) h3)
              | pipe p =>
                simp only [activateObj] at h2
                cases h3 : activatePipe A p with
                | error x => rw [h3] at h2; cases h2
                | ok p' => rw [h3] at h2; cases h2; exact ⟨hgo.ok, hgo.tag, hgo.kids⟩
              | _ => cases h2; exact hgo
        obtain ⟨k1, k2⟩ := ih g1 h' e this.1
        exact ⟨k1, k2.trans this.2⟩
  exact key _ _ _ e hs

/-! ### From one pass to the next -/

theorem Neat.reach {h : Heap P} (hs : Neat F col h) {b x : Nat} (hb : Item F h b) (hx : Reach h b x) :
    Item F h x := by
  induction hx with
  | root => exact hb
  | step _ ho hc ih => exact (hs.good _ _ ih.1 ho).kids _ hc

/-- What matters for the next pass is what is reached. -/
def Pal.next (h : Heap P) (b : Nat) (S : Nat → Prop) (T : Tag → Bool) (sq : Bool) : Pal where
  n := h.length
  D x := h.length ≤ x ∨ Reach h b x
  S := S
  T := T
  sq := sq
  new _ := .inl

theorem item_next {h : Heap P} {b : Nat} (hb : b < h.length) {S : Nat → Prop} {T : Tag → Bool} {sq : Bool} :
    Item (Pal.next h b S T sq) h b := ⟨.inr .root, hb⟩

theorem Neat.next {h : Heap P} (hs : Neat F col h) {b : Nat} (hb : Item F h b) {S : Nat → Prop} {T : Tag → Bool}
    (hT : ∀ (x : Nat) o, Reach h b x → h[x]? = some o → T o.tag = true)
    (hS : ∀ x, Reach h b x → S x → col x ≠ .hollow) : Neat (Pal.next h b S T F.sq) col h := by
  refine ⟨Nat.le_refl _, ?_, ?_, hs.rest⟩
  · intro a o hd ho
    have hlt := (List.getElem?_eq_some_iff.1 ho).1
    have hr : Reach h b a := by
      rcases hd with hd | hd
      · change h.length ≤ a at hd; omega
      · exact hd
    have hg := hs.good a o (hs.reach hb hr).1 ho
    exact ⟨hg.ok, hT a o hr ho, fun c hc => ⟨.inr (.step hr ho hc), (hg.kids c hc).2⟩⟩
  · intro a hd hSa
    rcases hd with hd | hd
    · rw [hs.rest a hd]; simp
    · exact hS a hd hSa

/-- Squashing is over: repetitions are like everything else that is never empty. -/
def settle (col : Nat → Color) : Nat → Color := fun a => if col a = .rep then .full else col a

theorem settle_full {c : Nat → Color} {r : Nat} (h : Full (c r)) : Full (settle c r) ∧ settle c r = c r := by
  have e : settle c r = c r := if_neg (full_not h).1
  exact ⟨by rw [e]; exact h, e⟩

theorem settle_sd {c : Nat → Color} {sq : Bool} {r : Nat} (h : Sd sq (c r)) : Full (settle c r) := by
  rcases h with h | ⟨_, h⟩
  · exact (settle_full h).1
  · exact .inl (by simp [settle, h])

theorem settle_tail {c : Nat → Color} {r : Nat} : settle c r = .tail ↔ c r = .tail := by
  unfold settle
  split
  · rename_i h; rw [h]; simp
  · rfl

theorem settle_other {c : Nat → Color} {r : Nat} (h : c r ≠ .rep) : settle c r = c r := if_neg h

theorem settle_placed {c : Nat → Color} {sq : Bool} : ∀ {ts : List (Term P)} {b b' : Prop}, (b → b') →
    Placed sq c b ts → Placed false (settle c) b' ts := by
  intro ts
  induction ts with
  | nil => intro _ _ _ _; trivial
  | cons t ts ih =>
    intro b b' hb hp
    cases t with
    | pred q => exact ih id hp
    | rule r =>
      refine ⟨?_, ih settle_tail.2 hp.2⟩
      rcases hp.1 with h | ⟨h, h'⟩
      · exact .inl (.inl (settle_sd h))
      · exact .inr ⟨by rw [settle_other (by rw [h]; simp)]; exact h, hb h'⟩

theorem settle_ok {c : Nat → Color} {sq : Bool} {a : Nat} {o : Obj P} (ho : Ok sq c a o) :
    Ok false (settle c) a o := by
  have prods : ∀ ps : List Nat, OkProds (c a) (ps.map c) → OkProds (settle c a) (ps.map (settle c)) := by
    intro ps h
    have e : ∀ {k}, c a = k → k ≠ .rep → settle c a = k := fun h1 h2 => by
      rw [settle_other (by rw [h1]; exact h2)]; exact h1
    rcases h with ⟨h1, h2⟩ | ⟨h1, h2⟩ | ⟨h1, h2, h3⟩ | ⟨h1, h2⟩
    · refine .inl ⟨e h1 (by simp), fun x hx => ?_⟩
      obtain ⟨p, hp, rfl⟩ := List.mem_map.1 hx
      exact (settle_full (h2 _ (List.mem_map_of_mem hp))).1
    · refine .inr (.inl ⟨e h1 (by simp), fun x hx => ?_⟩)
      obtain ⟨p, hp, rfl⟩ := List.mem_map.1 hx
      exact settle_tail.2 (h2 _ (List.mem_map_of_mem hp))
    · refine .inr (.inr (.inl ⟨e h1 (by simp), by simpa using h2, fun x hx => ?_⟩))
      obtain ⟨p, hp, rfl⟩ := List.mem_map.1 hx
      rcases h3 _ (List.mem_map_of_mem hp) with k | k | k
      · exact .inl (settle_full k).1
      · exact .inr (.inl (by rw [settle_other (by rw [k]; simp)]; exact k))
      · exact .inr (.inr (by rw [settle_other (by rw [k]; simp)]; exact k))
    · refine .inr (.inr (.inr ⟨e h1 (by simp), ?_⟩))
      match ps, h2 with
      | [p], h2 =>
        simp only [List.map_cons, List.map_nil, List.cons.injEq, and_true] at h2 ⊢
        rw [settle_other (by rw [h2]; simp)]; exact h2
      | [], h2 => simp at h2
      | _ :: _ :: _, h2 => simp at h2
  have e : ∀ {x k}, c x = k → k ≠ .rep → settle c x = k := fun h1 h2 => by
    rw [settle_other (by rw [h1]; exact h2)]; exact h1
  cases o with
  | prod ts m =>
    rcases ho with ⟨h1, h2, h3⟩ | ⟨h1, x, rfl, h2⟩
    · exact .inl ⟨h1, settle_placed id h2, h3.imp (fun h => e h (by simp)) (fun h => ⟨e h.1 (by simp), h.2⟩)⟩
    · exact .inr ⟨e h1 (by simp), x, rfl, e h2 (by simp)⟩
  | emptyProd => exact e ho (by simp)
  | pipeProd v ts => exact ⟨ho.1, e ho.2 (by simp)⟩
  | rule ps => exact prods ps ho
  | bnf ps => exact prods ps ho
  | or rs =>
    rcases ho with ⟨h1, h2⟩ | ⟨h1, h2, h3⟩
    · exact .inl ⟨e h1 (by simp), fun r hr => .inl (settle_sd (h2 r hr))⟩
    · exact .inr ⟨e h1 (by simp), h2, fun r hr => (h3 r hr).imp (fun h => .inl (settle_sd h))
        (fun h => e h (by simp))⟩
  | optional r v => exact ⟨e ho.1 (by simp), (settle_full ho.2).1⟩
  | repeatable r v =>
    refine ⟨.inl (settle_sd ho.1), ?_⟩
    have := ho.2
    cases sq
    · exact e this (by simp)
    · simp only [if_true] at this; simp [settle, this]
  | repOptional => exact ho.elim
  | minBounded r =>
    rcases ho with ⟨h1, h2⟩ | ⟨_, h1, h2⟩
    · exact .inl ⟨e h1 (by simp), (settle_full h2).1⟩
    · exact .inl ⟨by simp [settle, h1], settle_sd h2⟩
  | maxBounded r =>
    rcases ho with ⟨h1, h2⟩ | ⟨_, h1, h2⟩
    · exact .inl ⟨e h1 (by simp), (settle_full h2).1⟩
    · exact .inl ⟨by simp [settle, h1], settle_sd h2⟩
  | minMaxBounded r =>
    rcases ho with ⟨h1, h2⟩ | ⟨_, h1, h2⟩
    · exact .inl ⟨e h1 (by simp), (settle_full h2).1⟩
    · exact .inl ⟨by simp [settle, h1], settle_sd h2⟩
  | named r => exact ⟨e ho.1 (by simp), .inl (settle_sd ho.2)⟩
  | interp r => exact ⟨e ho.1 (by simp), .inl (settle_sd ho.2)⟩
  | relation r => exact ⟨e ho.1 (by simp), .inl (settle_sd ho.2)⟩
  | forward d => exact ⟨e ho.1 (by simp), fun r hr => .inl (settle_sd (ho.2 r hr))⟩
  | empty => exact e ho (by simp)
  | pipe p => exact e ho (by simp)

theorem Neat.settled {h : Heap P} (hs : Neat F col h) {b : Nat} (hb : Item F h b) :
    Neat (Pal.next h b (fun _ => False) (fun _ => true) false) (settle col) h := by
  have h1 := hs.next hb (S := fun _ => False) (T := fun _ => true) (fun _ _ _ _ => rfl) (fun _ _ h => h.elim)
  refine ⟨Nat.le_refl _, ?_, fun a _ h => h.elim, fun a ha => ?_⟩
  · intro a o hd ho
    have hg := h1.good a o hd ho
    exact ⟨settle_ok hg.ok, rfl, hg.kids⟩
  · have := hs.rest a ha
    rw [settle_other (by rw [this]; simp)]; exact this

end Yargy.Tint
