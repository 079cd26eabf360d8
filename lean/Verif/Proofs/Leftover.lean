import Verif.Model.Leftover
import Verif.Proofs.FrameCompile
import Verif.Proofs.HeapKeeps
import Verif.Proofs.Predicate
/-!
What a compilation that stops with an exception leaves behind.
-/
namespace Yargy

variable {P : Type}

/-- A heap that passes stopped in the middle leave behind. -/
structure Halted (X : P → Prop) (h : Heap P) (root : Nat) (h' : Heap P) : Prop where
  len : h.length ≤ h'.length
  frame : ∀ (a : Nat) o, h[a]? = some o → h'[a]? = some o ∨
    ((∃ c, o = .forward c) ∧ Reach h root a ∧ ∃ r, h'[a]? = some (.forward (some r)))
  sorted : Sorted h'
  new : ∀ (x : Nat) o, h.length ≤ x → h'[x]? = some o → ∀ p ∈ o.preds, X p

theorem Left.halted {T : Tag → Bool} {X : P → Prop} {h h' : Heap P} {a b : Nat} (l : Left T X h a h' b) :
    Halted X h a h' := ⟨l.len, l.frame, l.sorted, l.new⟩

theorem Left.halt {T : Tag → Bool} {X : P → Prop} {h h' h'' : Heap P} {a b : Nat} (h1 : Left T X h a h' b)
    (h2 : Halted X h' b h'') : Halted X h a h'' where
  len := Nat.le_trans h1.len h2.len
  sorted := h2.sorted
  frame := by
    intro x o hx
    have hlt := (List.getElem?_eq_some_iff.1 hx).1
    rcases h1.frame x o hx with k | ⟨k1, k2, r, k3⟩
    · rcases h2.frame x o k with q | ⟨⟨d, rfl⟩, q2, q3⟩
      · exact .inl q
      · rcases h1.fresh x q2 with w | ⟨o', w1, w2⟩ | ⟨_, w⟩
        · omega
        · rw [k] at w1; cases w1; cases w2
        · exact .inr ⟨⟨d, rfl⟩, w, q3⟩
    · rcases h2.frame x _ k3 with q | ⟨_, _, q⟩
      · exact .inr ⟨k1, k2, r, q⟩
      · exact .inr ⟨k1, k2, q⟩
  new := by
    intro x o hx ho
    rcases Nat.lt_or_ge x h'.length with hl | hl
    · rcases h2.frame x _ (List.getElem?_eq_getElem hl) with k | ⟨_, _, r, k⟩
      · rw [ho] at k; cases k
        exact h1.new x _ hx (List.getElem?_eq_getElem hl)
      · rw [ho] at k; cases k
        intro p hp; cases hp
    · exact h2.new x o hl ho

namespace Pass
variable {F : Pass P}

/-- What is known in the middle of a pass. -/
theorem Inv.halted {s : St P} (hi : F.Inv s) (hs : Sorted F.heap) : Halted F.X F.heap F.root s.heap where
  len := hi.len
  frame := by
    intro a o ha
    rcases hi.frame a o ha with k | ⟨⟨c, hc⟩, k2, k3⟩
    · exact .inl k
    · rw [ha] at hc; cases hc
      refine .inr ⟨⟨c, rfl⟩, ?_, k3⟩
      rcases k2 with k2 | k2
      · have := (List.getElem?_eq_some_iff.1 ha).1; omega
      · exact k2
  sorted := by
    have isProd : ∀ c, c < F.heap.length → isProdAt s.heap c = isProdAt F.heap c := by
      intro c hc
      unfold isProdAt
      rcases hi.frame c _ (List.getElem?_eq_getElem hc) with k | ⟨⟨d, hd⟩, _, y, k⟩
      · rw [k, List.getElem?_eq_getElem hc]
      · rw [k, hd]; rfl
    intro x o hx c hc
    by_cases hd : F.Dom x
    · exact ((hi.dom x o hd hx).kids c hc).2
    · have hlt : x < F.heap.length := Nat.lt_of_not_le (fun h => hd (.inl h))
      rcases hi.frame x _ (List.getElem?_eq_getElem hlt) with k | ⟨_, k, _⟩
      · rw [hx] at k
        simp only [Option.some.injEq] at k
        obtain ⟨q1, q2⟩ := hs x o (by rw [List.getElem?_eq_getElem hlt, ← k]) c hc
        exact ⟨Nat.lt_of_lt_of_le q1 hi.len, by rw [isProd c q1]; exact q2⟩
      · exact absurd k hd
  new := fun x o hx hg => (hi.dom x o (.inl hx) hg).preds

theorem redefineLeft_fits {I : Heap P → Prop} {m : Method P} {pid : Nat → Nat} (hp : ∀ a b, pid a = pid b → a = b)
    (hfw : F.outT .forward = true) (hm : F.MethodFits m) (hk : Whole.MethodKeeps I m)
    (hS : ∀ (g : Heap P) (a b : Nat) c, I g → g[a]? = some (.forward c) → I (g.set a (.forward (some b))))
    {limit : Nat} :
    ∀ (n : Nat) (done queue seen : List Nat) (s : St P), F.Walking done queue seen s → I s.heap →
      ∃ s', F.Inv s' ∧ I s'.heap ∧ redefineLeft m pid limit n queue (seen.map pid) s = s'.heap := by
  intro n
  induction n with
  | zero => intro done queue seen s hw hI; exact ⟨s, hw.inv, hI, rfl⟩
  | succ n ih =>
    intro done queue seen s hw hI
    cases queue with
    | nil => exact ⟨s, hw.inv, hI, rfl⟩
    | cons a queue =>
      have ha : F.Item s.heap a := hw.item a (by simp)
      unfold redefineLeft
      split
      · rename_i r hr
        cases h1 : visit m pid limit r s with
        | error e => exact ⟨s, hw.inv, hI, rfl⟩
        | ok y =>
          obtain ⟨b, s1⟩ := y
          have hri := hw.inv.items ha.1 hr r (by simp [Obj.children])
          obtain ⟨i1, e1, r1⟩ := visit_fits hp hm _ r s b s1 hw.inv hri h1
          have I1 := Whole.visit_keeps hk _ r s b s1 hI h1
          have hr1 := e1.get hr (by simp [Obj.tag])
          dsimp only
          cases h2 : defineForward a b s1.heap with
          | error e => exact ⟨s1, i1, I1, rfl⟩
          | ok h' =>
            obtain ⟨new, h3, hw'⟩ := hw.forward hp hfw hm hr h1 h2
            dsimp only
            rw [h3]
            refine ih _ _ _ _ hw' ?_
            unfold defineForward at h2
            split at h2
            · cases h2
            · cases h2; exact hS _ _ _ _ I1 hr1
      · rename_i hn
        obtain ⟨new, h3, hw'⟩ := hw.other hp hn
        dsimp only
        rw [h3]
        exact ih _ _ _ _ hw' hI

theorem redefine_keeps' {I : Heap P → Prop} {m : Method P} {pid : Nat → Nat} (hp : ∀ a b, pid a = pid b → a = b)
    (hfw : F.outT .forward = true) (hm : F.MethodFits m) (hk : Whole.MethodKeeps I m)
    (hS : ∀ (g : Heap P) (a b : Nat) c, I g → g[a]? = some (.forward c) → I (g.set a (.forward (some b))))
    {limit : Nat} :
    ∀ (n : Nat) (done queue seen : List Nat) (s s' : St P), F.Walking done queue seen s → I s.heap →
      redefine m pid limit n queue (seen.map pid) s = .ok s' → I s'.heap := by
  intro n done queue seen s s' hw hI e
  obtain ⟨s2, _, h2, h3⟩ := redefineLeft_fits hp hfw hm hk hS (limit := limit) n done queue seen s hw hI
  have : ∀ (n : Nat) (queue seen : List Nat) (s s' : St P), redefine m pid limit n queue seen s = .ok s' →
      redefineLeft m pid limit n queue seen s = s'.heap := by
    intro n
    induction n with
    | zero => intro queue seen s s' e; cases e
    | succ n ih =>
      intro queue seen s s' e
      cases queue with
      | nil => cases e; rfl
      | cons a queue =>
        simp only [redefine] at e
        simp only [redefineLeft]
        split at e
        · rename_i hr
          rw [hr]
          dsimp only
          split at e
          · cases e
          · rename_i hv
            rw [hv]
            dsimp only
            split at e
            · cases e
            · rename_i hd
              rw [hd]
              exact ih _ _ _ _ e
        · rename_i hn
          split
          · rename_i r hr
            exact absurd hr (hn r)
          · exact ih _ _ _ _ e
  rw [← this _ _ _ _ _ e, h3]
  exact h2

theorem start_walking (ht : Typed F.inT F.X F.heap F.root) :
    F.Walking [] [F.root] [F.root] { heap := F.heap } :=
  ⟨Inv.start ht, by simp, by simp, by
    intro x hx
    simp only [List.nil_append, List.mem_singleton] at hx
    subst hx
    exact ⟨.inr .root, ht.lt⟩, (by intro d hd; cases hd), (by intro d hd; cases hd)⟩

/-- A pass that is stopped. -/
theorem transformLeft_fits {I : Heap P → Prop} {m : Method P} {pid : Nat → Nat}
    (hp : ∀ a b, pid a = pid b → a = b) (hfw : F.outT .forward = true) (hm : F.MethodFits m)
    (hk : Whole.MethodKeeps I m)
    (hS : ∀ (g : Heap P) (a b : Nat) c, I g → g[a]? = some (.forward c) → I (g.set a (.forward (some b))))
    (ht : Typed F.inT F.X F.heap F.root) (hs : Sorted F.heap) (hI : I F.heap) (limit : Nat) :
    Halted F.X F.heap F.root (transformLeft m pid limit F.root F.heap) ∧
      I (transformLeft m pid limit F.root F.heap) := by
  obtain ⟨s, h1, h2, h3⟩ := redefineLeft_fits hp hfw hm hk hS (limit := limit) limit [] [F.root] [F.root]
    { heap := F.heap } (start_walking ht) hI
  unfold transformLeft
  simp only [List.map_cons, List.map_nil] at h3
  rw [h3]
  exact ⟨h1.halted hs, h2⟩

/-- A pass that is not. -/
theorem transform_keeps' {I : Heap P → Prop} {m : Method P} {pid : Nat → Nat}
    (hp : ∀ a b, pid a = pid b → a = b) (hfw : F.outT .forward = true) (hm : F.MethodFits m)
    (hk : Whole.MethodKeeps I m)
    (hS : ∀ (g : Heap P) (a b : Nat) c, I g → g[a]? = some (.forward c) → I (g.set a (.forward (some b))))
    (ht : Typed F.inT F.X F.heap F.root) (hI : I F.heap) {limit b : Nat} {h' : Heap P}
    (e : transform m pid limit F.root F.heap = .ok (b, h')) : I h' := by
  unfold transform at e
  split at e
  · cases e
  · rename_i s hs
    have I1 := redefine_keeps' hp hfw hm hk hS limit [] [F.root] [F.root] { heap := F.heap } s
      (start_walking ht) hI hs
    cases h2 : visit m pid limit F.root s with
    | error er => rw [h2] at e; cases e
    | ok x =>
      rw [h2] at e
      cases e
      exact Whole.visit_keeps hk _ _ _ _ _ I1 h2

end Pass

/-! ### All passes -/

/-- Properties of the heap that compiling keeps. -/
structure Enduring (Ok : Str → Prop) (I : Heap P → Prop) : Prop extends Whole.Lasting Ok I where
  define : ∀ (g : Heap P) (a b : Nat) c, I g → g[a]? = some (.forward c) → I (g.set a (.forward (some b)))
  terms : ∀ (g : Heap P) (a : Nat) ts m ts', I g → g[a]? = some (.prod ts m) → I (g.set a (.prod ts' m))

section passes
variable {Ok : Str → Prop} {I : Heap P → Prop} {X : P → Prop} {pid : Nat → Nat} (hp : ∀ a b, pid a = pid b → a = b)
  {limit root b : Nat} {h h' : Heap P} (hI : Enduring Ok I)
include hp hI

theorem normalizedLeft_halted (ht : Typed (fun _ => true) X h root) (hs : Sorted h)
    (hr : isProdAt h root = false) (hi : I h) :
    Halted X h root (normalizedLeft pid limit root h) ∧ I (normalizedLeft pid limit root h) := by
  unfold normalizedLeft
  split
  · exact Pass.transformLeft_fits (F := ⟨h, root, false, fun _ => true, notBnf, X⟩) hp rfl
      (Pass.squash_fits rfl (fun _ => rfl) (by intro t ht; cases t <;> first | rfl | exact absurd rfl ht))
      (Whole.squash_keeps hI.toLasting) hI.define ht hs hi limit
  · rename_i r1 h1 e1
    have l1 := squash_left hp ht hs hr e1
    have i1 := Pass.transform_keeps' (F := ⟨h, root, false, fun _ => true, notBnf, X⟩) hp rfl
      (Pass.squash_fits rfl (fun _ => rfl) (by intro t ht; cases t <;> first | rfl | exact absurd rfl ht))
      (Whole.squash_keeps hI.toLasting) hI.define ht hi e1
    have fits2 := Pass.extended_fits (F := ⟨h1, r1, true, notBnf, notQuant, X⟩)
      ⟨rfl, (by intro t ht; cases t <;> first | rfl | cases ht), rfl, rfl, rfl, rfl, rfl, rfl⟩
      (by intro t ht hn; cases t <;> first | rfl | exact absurd rfl hn | cases ht) rfl
    split
    · have := Pass.transformLeft_fits (F := ⟨h1, r1, true, notBnf, notQuant, X⟩) hp rfl fits2
        (Whole.extended_keeps hI.toLasting) hI.define l1.typed l1.sorted i1 limit
      exact ⟨l1.halt this.1, this.2⟩
    · rename_i r2 h2 e2
      have l2 := l1.trans (extended_left hp l1.typed l1.sorted l1.prod e2)
      have i2 := Pass.transform_keeps' (F := ⟨h1, r1, true, notBnf, notQuant, X⟩) hp rfl fits2
        (Whole.extended_keeps hI.toLasting) hI.define l1.typed i1 e2
      have fits3 := Pass.or_fits (F := ⟨h2, r2, false, notQuant, notOr, X⟩) rfl
        (by intro t ht; cases t <;> first | rfl | cases ht)
        (by intro t ht hn; cases t <;> first | rfl | exact absurd rfl hn | cases ht) rfl rfl rfl
      split
      · have := Pass.transformLeft_fits (F := ⟨h2, r2, false, notQuant, notOr, X⟩) hp rfl fits3
          (Whole.or_keeps hI.toLasting) hI.define l2.typed l2.sorted i2 limit
        exact ⟨l2.halt this.1, this.2⟩
      · rename_i r3 h3 e3
        have l3 := l2.trans (or_left hp l2.typed l2.sorted l2.prod e3)
        have i3 := Pass.transform_keeps' (F := ⟨h2, r2, false, notQuant, notOr, X⟩) hp rfl fits3
          (Whole.or_keeps hI.toLasting) hI.define l2.typed i2 e3
        have fits4 := Pass.empty_fits (F := ⟨h3, r3, false, notOr, flatTags, X⟩) rfl
          (by intro t ht; cases t <;> first | rfl | cases ht)
          (by intro t ht hn; cases t <;> first | rfl | exact absurd rfl hn | cases ht) rfl rfl rfl
        split
        · have := Pass.transformLeft_fits (F := ⟨h3, r3, false, notOr, flatTags, X⟩) hp rfl fits4
            (Whole.empty_keeps hI.toLasting) hI.define l3.typed l3.sorted i3 limit
          exact ⟨l3.halt this.1, this.2⟩
        · rename_i r4 h4 e4
          have l4 := l3.trans (empty_left hp l3.typed l3.sorted l3.prod e4)
          have i4 := Pass.transform_keeps' (F := ⟨h3, r3, false, notOr, flatTags, X⟩) hp rfl fits4
            (Whole.empty_keeps hI.toLasting) hI.define l3.typed i3 e4
          have := Pass.transformLeft_fits (F := ⟨h4, r4, false, flatTags, flatTags, X⟩) hp rfl
            (Pass.flatten_fits rfl (fun _ => rfl) rfl)
            (Whole.flatten_keeps hI.toLasting) hI.define l4.typed l4.sorted i4 limit
          exact ⟨l4.halt this.1, this.2⟩

theorem normalized_endures (ht : Typed (fun _ => true) X h root) (hs : Sorted h)
    (hr : isProdAt h root = false) (hi : I h) (e : normalized pid limit root h = .ok (b, h')) : I h' := by
  unfold normalized replaced at e
  simp only [bind, Except.bind] at e
  split at e
  · cases e
  rename_i x1 e1
  have l1 := squash_left hp ht hs hr e1
  have i1 := Pass.transform_keeps' (F := ⟨h, root, false, fun _ => true, notBnf, X⟩) hp rfl
    (Pass.squash_fits rfl (fun _ => rfl) (by intro t ht; cases t <;> first | rfl | exact absurd rfl ht))
    (Whole.squash_keeps hI.toLasting) hI.define ht hi e1
  split at e
  · cases e
  rename_i x2 e2
  have l2 := extended_left hp l1.typed l1.sorted l1.prod e2
  have i2 := Pass.transform_keeps' (F := ⟨_, _, true, notBnf, notQuant, X⟩) hp rfl
    (Pass.extended_fits
      ⟨rfl, (by intro t ht; cases t <;> first | rfl | cases ht), rfl, rfl, rfl, rfl, rfl, rfl⟩
      (by intro t ht hn; cases t <;> first | rfl | exact absurd rfl hn | cases ht) rfl)
    (Whole.extended_keeps hI.toLasting) hI.define l1.typed i1 e2
  split at e
  · cases e
  rename_i x3 e3
  have l3 := or_left hp l2.typed l2.sorted l2.prod e3
  have i3 := Pass.transform_keeps' (F := ⟨_, _, false, notQuant, notOr, X⟩) hp rfl
    (Pass.or_fits rfl (by intro t ht; cases t <;> first | rfl | cases ht)
        (by intro t ht hn; cases t <;> first | rfl | exact absurd rfl hn | cases ht) rfl rfl rfl)
    (Whole.or_keeps hI.toLasting) hI.define l2.typed i2 e3
  split at e
  · cases e
  rename_i x4 e4
  have l4 := empty_left hp l3.typed l3.sorted l3.prod e4
  have i4 := Pass.transform_keeps' (F := ⟨_, _, false, notOr, flatTags, X⟩) hp rfl
    (Pass.empty_fits rfl (by intro t ht; cases t <;> first | rfl | cases ht)
          (by intro t ht hn; cases t <;> first | rfl | exact absurd rfl hn | cases ht) rfl rfl rfl)
    (Whole.empty_keeps hI.toLasting) hI.define l3.typed i3 e4
  exact Pass.transform_keeps' (F := ⟨_, _, false, flatTags, flatTags, X⟩) hp rfl
    (Pass.flatten_fits rfl (fun _ => rfl) rfl) (Whole.flatten_keeps hI.toLasting) hI.define l4.typed i4 e

/-! ### Removing forward rules -/

theorem removeForwardsLeft_skipping {H : Heap P} (hH : ClosedHeap H) :
    ∀ (n : Nat) (done queue seen : List Nat) (h : Heap P), Skipping H root done queue seen h → I h →
      (∃ done' queue' seen', Skipping H root done' queue' seen' (removeForwardsLeft pid n queue (seen.map pid) h)) ∧
        I (removeForwardsLeft pid n queue (seen.map pid) h) := by
  intro n
  induction n with
  | zero => intro done queue seen h hs hi; exact ⟨⟨_, _, _, hs⟩, hi⟩
  | succ n ih =>
    intro done queue seen h hs hi
    cases queue with
    | nil => exact ⟨⟨_, _, _, hs⟩, hi⟩
    | cons a queue =>
      simp only [removeForwardsLeft]
      split
      · exact ⟨⟨_, _, _, hs⟩, hi⟩
      · rename_i ts m hat
        split
        · exact ⟨⟨_, _, _, hs⟩, hi⟩
        · rename_i ts' hts
          obtain ⟨new, q1, q2⟩ := hs.prodStep hp hH hat hts
          rw [q1]
          exact ih _ _ _ _ q2 (hI.terms _ _ _ _ _ hi hat)
      · rename_i hn1 hn2
        obtain ⟨new, q1, q2⟩ := hs.otherStep hp hn1 hn2
        rw [q1]
        exact ih _ _ _ _ q2 hi

omit hp hI in
theorem removeForwards_left {pid : Nat → Nat} : ∀ (n : Nat) (queue seen : List Nat) (h h' : Heap P),
    removeForwards pid n queue seen h = .ok h' → removeForwardsLeft pid n queue seen h = h' := by
  intro n
  induction n with
  | zero => intro queue seen h h' e; cases e; rfl
  | succ n ih =>
    intro queue seen h h' e
    cases queue with
    | nil => cases e; rfl
    | cons a queue =>
      simp only [removeForwards] at e
      simp only [removeForwardsLeft]
      split at e
      · cases e
      · rename_i ts m hat
        rw [hat]
        dsimp only
        split at e
        · cases e
        · rename_i ts' hts
          rw [hts]
          exact ih _ _ _ _ e
      · rename_i hn1 hn2
        split
        · rename_i hr; exact absurd hr hn1
        · rename_i hr; exact absurd hr (hn2 _ _)
        · exact ih _ _ _ _ e

omit hp hI in
/-- What is known in the middle of removing the forward rules. -/
theorem Skipping.halted {done queue seen : List Nat} {g : Heap P} (hl : Left bnfOut X h root h' b)
    (hs : Skipping h' b done queue seen g) : Halted X h root g := by
  have isProd : ∀ c, isProdAt g c = isProdAt h' c := by
    intro c
    by_cases hc : c < h'.length
    · rcases hs.at_ c _ (List.getElem?_eq_getElem hc) with ⟨ts, m, ts', _, e1, e2, _⟩ | ⟨e1, _⟩
      · rw [Pass.isProdAt_some e2, Pass.isProdAt_some (List.getElem?_eq_getElem hc), e1]; rfl
      · rw [Pass.isProdAt_some e1, Pass.isProdAt_some (List.getElem?_eq_getElem hc)]
    · unfold isProdAt
      rw [List.getElem?_eq_none (Nat.le_of_not_lt hc), List.getElem?_eq_none (by rw [hs.len]; omega)]
  refine ⟨by rw [hs.len]; exact hl.len, ?_, ?_, ?_⟩
  · intro a o ha
    have hlt := (List.getElem?_eq_some_iff.1 ha).1
    rcases hl.frame a o ha with k | ⟨k1, k2, r, k3⟩
    · rcases hs.at_ a o k with ⟨ts, m, ts', q1, rfl, _⟩ | ⟨q, _⟩
      · rcases hl.fresh a (hs.reach a (by simp [q1])) with w | ⟨o', w1, w2⟩ | ⟨⟨c, w⟩, _⟩
        · omega
        · rw [k] at w1; cases w1; cases w2
        · rw [ha] at w; cases w
      · exact .inl q
    · exact .inr ⟨k1, k2, r, (hs.forward a _).2 k3⟩
  · intro a o ha c hc
    have hlt : a < h'.length := hs.len ▸ (List.getElem?_eq_some_iff.1 ha).1
    rw [hs.len, isProd]
    rcases hs.at_ a _ (List.getElem?_eq_getElem hlt) with ⟨ts, m, ts', _, e1, e2, e3⟩ | ⟨e1, _⟩
    · rw [e2] at ha; cases ha
      have hat : h'[a]? = some (.prod ts m) := by rw [List.getElem?_eq_getElem hlt, e1]
      rcases skipped_rules e3 (termRules_mem.1 hc) with ⟨w, _⟩ | ⟨r, _, w⟩
      · exact hl.sorted a _ hat c (termRules_mem.2 w)
      · exact hl.sorted r _ w c (by simp [Obj.children])
    · rw [ha] at e1; cases e1
      exact hl.sorted a _ (List.getElem?_eq_getElem hlt) c hc
  · intro x o hx ho
    have hlt : x < h'.length := hs.len ▸ (List.getElem?_eq_some_iff.1 ho).1
    have hn := hl.new x _ hx (List.getElem?_eq_getElem hlt)
    rcases hs.at_ x _ (List.getElem?_eq_getElem hlt) with ⟨ts, m, ts', _, e1, e2, e3⟩ | ⟨e1, _⟩
    · rw [e2] at ho; cases ho
      rw [e1] at hn
      exact fun p hp => hn p (Pass.preds_prod.2 (skipped_preds e3 (Pass.preds_prod.1 hp)))
    · rw [ho] at e1; cases e1; exact hn

omit hp hI in
theorem start_skipping (hs : Sorted h') (hb : b < h'.length) : Skipping h' b [] [b] [b] h' :=
  ⟨⟨by simp, by simp, (by intro d hd; cases hd), by simpa using hb⟩, rfl, hs.closed,
    (by intro x hx; simp only [List.nil_append, List.mem_singleton] at hx; rw [hx]; exact .root),
    fun a o ha => .inr ⟨ha, (by intro h; cases h)⟩, (by intro d hd; cases hd)⟩

theorem asBnfLeft_halted (ht : Typed bnfIn X h root) (hs : Sorted h) (hr : isProdAt h root = false) (hi : I h) :
    Halted X h root (asBnfLeft pid limit root h) ∧ I (asBnfLeft pid limit root h) := by
  have fits := Pass.bnf_fits (F := ⟨h, root, false, bnfIn, bnfOut, X⟩)
    ⟨rfl, (by intro t ht; cases t <;> first | rfl | cases ht), rfl, rfl, rfl, rfl, rfl, rfl⟩
    (parentCount pid h root)
  unfold asBnfLeft
  split
  · exact Pass.transformLeft_fits (F := ⟨h, root, false, bnfIn, bnfOut, X⟩) hp rfl fits
      (Whole.bnf_keeps hI.toLasting _) hI.define ht hs hi limit
  · rename_i r1 h1 e1
    have l1 := toBnf_left hp ht hs hr e1
    have i1 := Pass.transform_keeps' (F := ⟨h, root, false, bnfIn, bnfOut, X⟩) hp rfl fits
      (Whole.bnf_keeps hI.toLasting _) hI.define ht hi e1
    obtain ⟨⟨d, q, s, k⟩, k'⟩ := removeForwardsLeft_skipping hp hI (root := r1) l1.sorted.closed (h1.length + 1) [] [r1] [r1] h1
      (start_skipping l1.sorted l1.typed.lt) i1
    exact ⟨k.halted l1, k'⟩

theorem asBnf_endures (ht : Typed bnfIn X h root) (hs : Sorted h) (hr : isProdAt h root = false) (hi : I h)
    (e : asBnf pid limit root h = .ok (b, h')) : ∃ h2, I h2 ∧ h' = generateNames (walk pid h2 b) 0 h2 := by
  have fits := Pass.bnf_fits (F := ⟨h, root, false, bnfIn, bnfOut, X⟩)
    ⟨rfl, (by intro t ht; cases t <;> first | rfl | cases ht), rfl, rfl, rfl, rfl, rfl, rfl⟩
    (parentCount pid h root)
  unfold asBnf at e
  simp only [bind, Except.bind, pure, Except.pure] at e
  split at e
  · cases e
  · rename_i x1 e1
    split at e
    · cases e
    · rename_i x2 e2
      cases e
      have l1 := toBnf_left hp ht hs hr e1
      have i1 := Pass.transform_keeps' (F := ⟨h, root, false, bnfIn, bnfOut, X⟩) hp rfl fits
        (Whole.bnf_keeps hI.toLasting _) hI.define ht hi e1
      have i2 : I x2.2 := by
        unfold removeForward at e2
        split at e2
        · cases e2
        · rename_i g hg
          have k := (removeForwardsLeft_skipping hp hI (root := x1.1) l1.sorted.closed (x1.2.length + 1) [] [x1.1] [x1.1] x1.2
            (start_skipping l1.sorted l1.typed.lt) i1).2
          simp only [List.map_cons, List.map_nil] at k
          rw [removeForwards_left _ _ _ _ _ hg] at k
          split at e2
          · cases e2
          · cases e2; exact k
          · cases e2; exact k
      exact ⟨_, i2, rfl⟩

end passes

/-! ### Activation and all the rest -/

/-- Objects activated before activation stopped. -/
theorem activateLeft_awake {A : Activation P} {h : Heap P} : ∀ (as : List Nat) (S : Nat → Prop) (g : Heap P),
    as.Nodup → (∀ a ∈ as, ¬ S a) → Awake A S h g →
    ∃ S' : Nat → Prop, (∀ a, S' a → S a ∨ a ∈ as) ∧ Awake A S' h (activateLeft A as g) := by
  intro as
  induction as with
  | nil => intro S g _ _ hw; exact ⟨S, fun a h => .inl h, hw⟩
  | cons a as ih =>
    intro S g hn hs hw
    simp only [activateLeft]
    split
    · exact ⟨S, fun a h => .inl h, hw⟩
    · rename_i g1 hg
      rw [List.nodup_cons] at hn
      have hw1 := foldlM_awake [a] S g g1 (by simp) (by simpa using hs a List.mem_cons_self) hw
        (by rw [List.foldlM_cons, hg]; rfl)
      obtain ⟨S', k1, k2⟩ := ih _ g1 hn.2 (by
        intro b hb h1
        rcases h1 with h1 | h1
        · exact hs b (List.mem_cons_of_mem _ hb) h1
        · rw [List.mem_singleton] at h1; subst h1; exact hn.1 hb) hw1
      refine ⟨S', fun b hb => ?_, k2⟩
      rcases k1 b hb with (h | h) | h
      · exact .inl h
      · rw [List.mem_singleton] at h; subst h; exact .inr List.mem_cons_self
      · exact .inr (List.mem_cons_of_mem _ h)

theorem activateLeft_append {A : Activation P} : ∀ (as bs : List Nat) (g : Heap P),
    activateLeft A (as ++ bs) g = (match as.foldlM (activateAt A) g with
      | .error _ => activateLeft A as g
      | .ok g1 => activateLeft A bs g1) := by
  intro as
  induction as with
  | nil => intro bs g; rfl
  | cons a as ih =>
    intro bs g
    rw [List.cons_append, List.foldlM_cons]
    simp only [activateLeft]
    cases h : activateAt A g a with
    | error e => rfl
    | ok g1 => simp only [bind, Except.bind]; exact ih bs g1

/-- What is left when compiling stops. -/
structure Stopped (A : Activation P) (X : P → Prop) (h : Heap P) (root : Nat) (h' : Heap P) : Prop where
  len : h.length ≤ h'.length
  rest : ∀ (a : Nat) o, h[a]? = some o → ¬ Reach h root a → h'[a]? = some o
  done : ∀ (a : Nat) o, h[a]? = some o → Reach h root a → h'[a]? = some o ∨
    (∃ o', activateObj A o = .ok o' ∧ h'[a]? = some o') ∨
    (∃ c, o = .forward c) ∧ ∃ r, h'[a]? = some (.forward (some r))
  sorted : Sorted h'
  new : ∀ (x : Nat) o, h.length ≤ x → h'[x]? = some o → ∀ p ∈ o.preds, X p

theorem Compiled.stopped {A : Activation P} {X : P → Prop} {h h' : Heap P} {root b : Nat}
    (hc : Compiled A X h root h' b) : Stopped A X h root h' where
  len := hc.len
  rest := hc.rest
  done := by
    intro a o ha hr
    obtain ⟨o', k1, k2⟩ := hc.done a o ha hr
    rcases k2 with k2 | k2
    · exact .inr (.inl ⟨o', k1, k2⟩)
    · exact .inr (.inr k2)
  sorted := hc.sorted
  new := hc.new

/-- Activation, complete or not. -/
theorem awake_sorted {A : Activation P} {S : Nat → Prop} {h h1 : Heap P} (hs : Sorted h) (w : Awake A S h h1) :
    Sorted h1 ∧ (∀ c, isProdAt h1 c = isProdAt h c) := by
  have back : ∀ (a : Nat) o, h1[a]? = some o → ∃ o', h[a]? = some o' ∧ o.tag = o'.tag ∧
      o.children = o'.children := by
    intro a o ha
    have hal : a < h.length := w.length ▸ (List.getElem?_eq_some_iff.1 ha).1
    by_cases hra : S a
    · obtain ⟨o', k1, k2⟩ := w.done a _ hra (List.getElem?_eq_getElem hal)
      rw [ha] at k1; cases k1
      have := activateObj_shape k2
      exact ⟨_, List.getElem?_eq_getElem hal, this.1, this.2.1⟩
    · have := w.rest a hra
      rw [ha] at this
      exact ⟨o, this.symm, rfl, rfl⟩
  have isProd : ∀ c, isProdAt h1 c = isProdAt h c := by
    intro c
    by_cases hc : c < h1.length
    · obtain ⟨o', k1, k2, _⟩ := back c _ (List.getElem?_eq_getElem hc)
      rw [Pass.isProdAt_some (List.getElem?_eq_getElem hc), Pass.isProdAt_some k1, k2]
    · unfold isProdAt
      rw [List.getElem?_eq_none (Nat.le_of_not_lt hc), List.getElem?_eq_none (by rw [← w.length]; omega)]
  refine ⟨?_, isProd⟩
  intro a o ha c hc
  obtain ⟨o', k1, k2, k3⟩ := back a o ha
  rw [isProd, w.length, k2]
  exact hs a o' k1 c (k3 ▸ hc)

section
variable {Ok : Str → Prop} {I : Heap P → Prop} {X : P → Prop} {pid : Nat → Nat} (hp : ∀ a b, pid a = pid b → a = b)
  {limit root b : Nat} {h h' : Heap P} {A : Activation P} (hI : Enduring Ok I)
  (hA : ∀ (g : Heap P) (a : Nat) (g' : Heap P), I g → activateAt A g a = .ok g' → I g')
include hp

/-- Activation that stops. -/
theorem activation_stopped (hs : Sorted h) (hlt : root < h.length) (hr : isProdAt h root = false) :
    ∃ S : Nat → Prop, (∀ a, S a → Reach h root a) ∧
      Awake A S h (activateLeft A (walk pid h root ++ [root]) h) := by
  obtain ⟨w1, w2, _, _⟩ := walk_spec hp hs.closed hlt
  rw [activateLeft_append]
  split
  · obtain ⟨S, k1, k2⟩ := activateLeft_awake (A := A) (h := h) (walk pid h root) (fun _ => False) h w1 (by simp)
      ⟨rfl, by simp, fun _ _ => rfl⟩
    exact ⟨S, fun a ha => (reach_iff hp hs.closed hlt a).1 ((k1 a ha).resolve_left id), k2⟩
  · rename_i g hg
    have hw := foldlM_awake (h := h) _ (fun _ => False) h g w1 (by simp) ⟨rfl, by simp, fun _ _ => rfl⟩ hg
    refine ⟨fun a => False ∨ a ∈ walk pid h root, fun a ha => (reach_iff hp hs.closed hlt a).1 (ha.resolve_left id), ?_⟩
    have : activateLeft A [root] g = g := by
      simp only [activateLeft]
      split
      · rfl
      · rename_i g' hg'
        unfold activateAt at hg'
        obtain ⟨o, ho⟩ : ∃ o, h[root]? = some o := ⟨_, List.getElem?_eq_getElem hlt⟩
        obtain ⟨o', ho', ha⟩ := hw.done root o (.inr w2) ho
        rw [ho'] at hg'
        obtain ⟨o'', h1, rfl⟩ := except_map_ok hg'
        have hn : ∀ ts m, o ≠ .prod ts m := by
          rintro ts m rfl
          rw [Pass.isProdAt_some ho] at hr; cases hr
        rw [activateObj_again hn ha h1]
        exact set_same ho'
    rw [this]
    exact hw

omit hp in
theorem activateLeft_keeps (hA : ∀ (g : Heap P) (a : Nat) (g' : Heap P), I g → activateAt A g a = .ok g' → I g') :
    ∀ (as : List Nat) (g : Heap P), I g → I (activateLeft A as g) := by
  intro as
  induction as with
  | nil => intro g h; exact h
  | cons a as ih =>
    intro g h
    simp only [activateLeft]
    split
    · exact h
    · rename_i hg; exact ih _ (hA _ _ _ h hg)

omit hp in
theorem foldlM_keeps (hA : ∀ (g : Heap P) (a : Nat) (g' : Heap P), I g → activateAt A g a = .ok g' → I g') :
    ∀ (as : List Nat) (g g' : Heap P), I g → as.foldlM (activateAt A) g = .ok g' → I g' := by
  intro as
  induction as with
  | nil => intro g g' h e; cases e; exact h
  | cons a as ih =>
    intro g g' h e
    rw [List.foldlM_cons] at e
    cases h1 : activateAt A g a with
    | error x => rw [h1] at e; cases e
    | ok g1 => rw [h1] at e; exact ih _ _ (hA _ _ _ h h1) e

/-- After activation. -/
theorem awake_typed (hs : Sorted h) (hlt : root < h.length) (w : Awake A (Reach h root) h h')
    (hX : ∀ (x : Nat) o o', Reach h root x → h[x]? = some o → activateObj A o = .ok o' → ∀ p ∈ o'.preds, X p) :
    Typed (fun _ => true) X h' root ∧ ∀ x, Reach h' root x → Reach h root x := by
  obtain ⟨hs1, _⟩ := awake_sorted hs w
  have reach : ∀ x, Reach h' root x → Reach h root x := by
    intro x hx
    induction hx with
    | root => exact .root
    | @step a o c _ hu hc ih =>
      have hal : a < h.length := w.length ▸ (List.getElem?_eq_some_iff.1 hu).1
      obtain ⟨o', k1, k2⟩ := w.done a _ ih (List.getElem?_eq_getElem hal)
      rw [hu] at k1; cases k1
      exact .step ih (List.getElem?_eq_getElem hal) ((activateObj_shape k2).2.1 ▸ hc)
  refine ⟨fun x hx => ?_, reach⟩
  have hxl := hs1.reach (by rw [w.length]; exact hlt) hx
  obtain ⟨o', k1, k2⟩ := w.done x _ (reach x hx) (List.getElem?_eq_getElem (w.length ▸ hxl))
  exact ⟨o', k1, rfl, hX x _ o' (reach x hx) (List.getElem?_eq_getElem (w.length ▸ hxl)) k2,
    fun c hc => (hs1 x _ k1 c hc).2⟩

theorem halted_stopped {h1 : Heap P} (w : Awake A (Reach h root) h h1)
    (reach : ∀ x, Reach h1 root x → Reach h root x) (hh : Halted X h1 root h') : Stopped A X h root h' := by
  refine ⟨w.length ▸ hh.len, ?_, ?_, hh.sorted, w.length ▸ hh.new⟩
  · intro a o ha hn
    rcases hh.frame a o (by rw [w.rest a hn]; exact ha) with k | ⟨_, k, _⟩
    · exact k
    · exact absurd (reach a k) hn
  · intro a o ha hr
    obtain ⟨o', k1, k2⟩ := w.done a o hr ha
    rcases hh.frame a o' k1 with k | ⟨⟨c, k⟩, _, q⟩
    · exact .inr (.inl ⟨o', k2, k⟩)
    · exact .inr (.inr ⟨⟨c, (activateObj_shape k2).2.2.2 c k⟩, q⟩)

include hI hA

theorem compileLeft_stopped (hs : Sorted h) (hlt : root < h.length) (hr : isProdAt h root = false)
    (hX : ∀ (x : Nat) o o', Reach h root x → h[x]? = some o → activateObj A o = .ok o' → ∀ p ∈ o'.preds, X p)
    (hi : I h) : Stopped A X h root (compileLeft A pid limit root h) ∧ I (compileLeft A pid limit root h) := by
  unfold compileLeft
  split
  · refine ⟨?_, activateLeft_keeps hA _ _ hi⟩
    obtain ⟨S, k1, w⟩ := activation_stopped (A := A) hp hs hlt hr
    refine ⟨w.length ▸ Nat.le_refl _, fun a o ha hn => ?_, fun a o ha _ => ?_, (awake_sorted hs w).1, ?_⟩
    · rw [w.rest a (fun h => hn (k1 a h))]; exact ha
    · by_cases hS : S a
      · obtain ⟨o', q1, q2⟩ := w.done a o hS ha
        exact .inr (.inl ⟨o', q2, q1⟩)
      · exact .inl (by rw [w.rest a hS]; exact ha)
    · intro x o hx ho
      have := (List.getElem?_eq_some_iff.1 ho).1
      rw [w.length] at this
      omega
  · rename_i h1 e1
    have w := activateRule_awake hp hs.closed hlt (by
      intro ts m hm
      rw [Pass.isProdAt_some hm] at hr; cases hr) e1
    have i1 := foldlM_keeps hA _ _ _ hi e1
    obtain ⟨hs1, isProd⟩ := awake_sorted hs w
    obtain ⟨ht1, reach⟩ := awake_typed hp hs hlt w hX
    have hr1 := (isProd root).trans hr
    split
    · have := normalizedLeft_halted hp hI (limit := limit) ht1 hs1 hr1 i1
      exact ⟨halted_stopped hp w reach this.1, this.2⟩
    · rename_i r2 h2 e2
      have l1 := normalized_left hp ht1 hs1 hr1 e2
      have i2 := normalized_endures hp hI ht1 hs1 hr1 i1 e2
      have := asBnfLeft_halted hp hI (limit := limit) (l1.typed.mono (T' := bnfIn) (by
        intro t ht; cases t <;> first | rfl | cases ht)) l1.sorted l1.prod i2
      exact ⟨halted_stopped hp w reach (l1.halt this.1), this.2⟩

theorem compileRule_endures (hs : Sorted h) (hlt : root < h.length) (hr : isProdAt h root = false)
    (hX : ∀ (x : Nat) o o', Reach h root x → h[x]? = some o → activateObj A o = .ok o' → ∀ p ∈ o'.preds, X p)
    (hi : I h) (e : compileRule A pid limit root h = .ok (b, h')) :
    ∃ h2, I h2 ∧ h' = generateNames (walk pid h2 b) 0 h2 := by
  unfold compileRule at e
  simp only [bind, Except.bind] at e
  split at e
  · cases e
  · rename_i h1 e1
    have w := activateRule_awake hp hs.closed hlt (by
      intro ts m hm
      rw [Pass.isProdAt_some hm] at hr; cases hr) e1
    have i1 := foldlM_keeps hA _ _ _ hi e1
    obtain ⟨hs1, isProd⟩ := awake_sorted hs w
    obtain ⟨ht1, reach⟩ := awake_typed hp hs hlt w hX
    have hr1 := (isProd root).trans hr
    split at e
    · cases e
    · rename_i x2 e2
      have l1 := normalized_left hp ht1 hs1 hr1 e2
      have i2 := normalized_endures hp hI ht1 hs1 hr1 i1 e2
      exact asBnf_endures hp hI (l1.typed.mono (T' := bnfIn) (by
        intro t ht; cases t <;> first | rfl | cases ht)) l1.sorted l1.prod i2 e

end
end Yargy
