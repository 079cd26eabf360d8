import Verif.Proofs.Thin
/-! Squashing repetitions of repetitions adds no words without predicates. -/
namespace Yargy.Thin

variable {P : Type} {N : Nat → Prop} {lt : Nat → Nat → Prop} {h h' : Heap P}

theorem open_replicate {c g : Nat} (hi : ∀ w, Open N h [.rule g] w → Open N h [.rule c] w) (n : Nat) {w : List Nat}
    (ho : Open N h (List.replicate n (.rule g)) w) : Open N h (List.replicate n (.rule c)) w := by
  induction n generalizing w with
  | zero => exact ho
  | succ n ih =>
    rw [List.replicate_succ] at ho ⊢
    obtain ⟨v, v', k1, k2, rfl⟩ := open_cons.1 ho
    exact (hi _ k1).append (ih k2)

/-- A child that gives what is asked for. -/
theorem child_open (he : Ext h h') {c : Nat} {o : Obj P} (ho : h[c]? = some o) (hf : ∀ d, o ≠ .forward d)
    {us : List (Term P)} (hg : Gives o us) {w : List Nat} (hop : Open N h' us w) : Open N h' [.rule c] w := by
  obtain ⟨o', k1, k2⟩ := he.at_ _ _ ho
  exact (open_one k1 (k2.fixed hf)).2 ⟨us, k2.spells hf hg, hop⟩

/-- Visiting something new in place of an object. -/
theorem new_thin {rec : Visit P} (hr : VisitThin N lt rec) {s : St P} (hg : Good N lt s) {a : Nat} {o o' : Obj P}
    (ho : s.heap[a]? = some o) (hf : ∀ c, o ≠ .forward c) (hf' : ∀ c, o' ≠ .forward c)
    (hc : ∀ c ∈ o'.children, c < s.heap.length)
    (hw : ∀ h, Ext s.heap h → ∀ us w, Gives o' us → Open N h us w → ∃ vs, Gives o vs ∧ Open N h vs w)
    (hq : ∀ r, repeated o' = some r → ¬ Open N s.heap [.rule r] []) {b : Nat} {s' : St P}
    (h : visitNew rec o' s = .ok (b, s')) : Makes N lt s s' a b := by
  unfold visitNew at h
  have h1 : Makes N lt s (s.alloc o').2 a (s.alloc o').1 := made hg (Ext.refl _) ho hf hf' hc hw rfl hq
  exact h1.trans (hr _ _ _ _ h1.1 h)

theorem squashBounded_thin {rec : Visit P} (hr : VisitThin N lt rec) {s : St P} (hg : Good N lt s) {a child : Nat}
    {mk : Nat → Obj P} (ho : s.heap[a]? = some (mk child)) (hmf : ∀ y c, mk y ≠ .forward c)
    (hmc : ∀ y, (mk y).children = [y])
    (hm : ∀ y us, Gives (mk y) us ↔ ∃ n, 1 ≤ n ∧ us = List.replicate n (.rule y))
    (hmr : (∀ y, repeated (mk y) = none) ∨ ∀ y, repeated (mk y) = some y) {b : Nat} {s' : St P}
    (h : squashBounded rec child mk s = .ok (b, s')) : Makes N lt s s' a b := by
  have one : ∀ y, Gives (mk y) [.rule y] := fun y => (hm y _).2 ⟨1, Nat.le_refl _, rfl⟩
  unfold squashBounded at h
  split at h
  · rename_i g rev hc
    have hgl : g < s.heap.length := hg.tame.closed _ (List.mem_of_getElem? hc) g (by simp [Obj.children])
    refine new_thin hr hg ho (hmf _) (by intro c e; cases e) ?_ ?_ ?_ h
    · intro c hcc
      have : c = g := by simpa [Obj.children] using hcc
      omega
    · intro k he us w hs hop
      exact ⟨_, one child, child_open he hc (by intro c e; cases e) hs hop⟩
    · intro r e
      cases e
      exact hg.tame.firm _ _ _ hc rfl
  · cases h
  · rename_i g rev hc
    have hgl : g < s.heap.length := hg.tame.closed _ (List.mem_of_getElem? hc) g (by simp [Obj.children])
    have hcn : Open N s.heap [.rule child] [] := (open_one hc (by intro c e; cases e)).2 ⟨_, .none, .nil⟩
    rcases hmr with hmr | hmr
    · -- the bounded rule around `g`
      have g1 : Good N lt (s.alloc (mk g)).2 := hg.alloc (hmf _)
        (by rw [hmc]; intro c e; rw [List.mem_singleton] at e; omega) (by intro r e; rw [hmr] at e; cases e)
      have e1 : Ext s.heap (s.alloc (mk g)).2.heap := Ext.append _ _
      have ht : (s.alloc (mk g)).2.heap[s.heap.length]? = some (mk g) := by simp [St.alloc]
      have ho1 : (s.alloc (mk g)).2.heap[a]? = some (mk child) := getElem?_append_some ho
      have hc1 : (s.alloc (mk g)).2.heap[child]? = some (.optional g rev) := getElem?_append_some hc
      have := new_thin hr g1 ho1 (hmf _) (o' := .optional s.heap.length rev) (by intro c e; cases e)
        (by
          intro c hcc
          have : c = s.heap.length := by simpa [Obj.children] using hcc
          subst this
          simp [St.alloc])
        (by
          intro k he us w hs hop
          cases hs with
          | none => exact ⟨_, one child, child_open he hc1 (by intro c e; cases e) .none hop⟩
          | one =>
            obtain ⟨o2, q1, q2⟩ := he.at_ _ _ ht
            obtain ⟨us, q3, q4⟩ := (open_one q1 (q2.fixed (hmf _))).1 hop
            obtain ⟨n, n1, rfl⟩ := (hm g us).1 (q2.symm.spells (q2.fixed (hmf _)) q3)
            exact ⟨_, (hm child _).2 ⟨n, n1, rfl⟩, open_replicate
              (fun w hw => child_open he hc1 (by intro c e; cases e) .one hw) n q4⟩)
        (by intro r e; cases e) h
      exact ⟨this.1, e1.trans this.2.1, this.2.2⟩
    · exact absurd hcn (hg.tame.firm _ _ _ ho (hmr child))
  · refine around_thin hr hg ho hmf hmc ?_ h ?_
    · intro y us hs
      obtain ⟨n, n1, rfl⟩ := (hm y us).1 hs
      exact ⟨n, rfl, fun r => (hm r _).2 ⟨n, n1, rfl⟩⟩
    · intro y r' e
      rcases hmr with hmr | hmr
      · rw [hmr] at e; cases e
      · rw [hmr] at e; cases e; exact ⟨rfl, hmr _⟩

theorem squash_thin : MethodThin N lt (squashMethod : Method P) := by
  intro k rec hr a o s b s' hg ho h
  -- something that gives any number of `g`
  have deep : ∀ {child g : Nat} {oc o' : Obj P}, (∀ c, o ≠ .forward c) → repeated o = some child →
      s.heap[child]? = some oc → (∀ c, oc ≠ .forward c) → oc.children = [g] → (∀ c, o' ≠ .forward c) →
      o'.children = [g] → repeated o' = some g → Gives oc [.rule g] →
      (∀ us, Gives o' us → us = [] ∧ Gives o [] ∨ Gives oc us ∧ Gives o [.rule child]) →
      visitNew rec o' s = .ok (b, s') → Makes N lt s s' a b := by
    intro child g oc o' hf hro hc hcf hcc hf' hcc' hro' hone hgive h
    have hgl : g < s.heap.length := hg.tame.closed _ (List.mem_of_getElem? hc) g (by rw [hcc]; exact List.mem_singleton.2 rfl)
    refine new_thin hr hg ho hf hf' ?_ ?_ ?_ h
    · intro c e
      rw [hcc', List.mem_singleton] at e
      omega
    · intro k he us w hs hop
      rcases hgive us hs with ⟨rfl, q⟩ | ⟨q1, q2⟩
      · exact ⟨_, q, hop⟩
      · exact ⟨_, q2, child_open he hc hcf q1 hop⟩
    · intro r e hop
      rw [hro'] at e
      cases e
      exact hg.tame.firm _ _ _ ho hro (child_open (Ext.refl _) hc hcf hone hop)
  have nullChild : ∀ {child g : Nat} {v : Bool}, repeated o = some child →
      s.heap[child]? = some (.optional g v) → False := by
    intro child g v hro hc
    exact hg.tame.firm _ _ _ ho hro ((open_one hc (by intro c e; cases e)).2 ⟨_, .none, .nil⟩)
  unfold squashMethod at h
  split at h
  · rename_i child rev
    split at h
    · rename_i hc; exact (nullChild rfl hc).elim
    · cases h
    · rename_i hc
      refine deep (by intro c e; cases e) rfl hc (by intro c e; cases e) rfl (by intro c e; cases e) rfl rfl
        (.repeatable (n := 1) (Nat.le_refl _)) ?_ h
      intro us hs; cases hs with | repeatable hn => exact .inr ⟨.repeatable hn, .repeatable (n := 1) (Nat.le_refl _)⟩
    · rename_i hc
      refine deep (by intro c e; cases e) rfl hc (by intro c e; cases e) rfl (by intro c e; cases e) rfl rfl
        (.minBounded (n := 1) (Nat.le_refl _)) ?_ h
      intro us hs; cases hs with | repeatable hn => exact .inr ⟨.minBounded hn, .repeatable (n := 1) (Nat.le_refl _)⟩
    · rename_i hc
      refine deep (by intro c e; cases e) rfl hc (by intro c e; cases e) rfl (by intro c e; cases e) rfl rfl
        (.maxBounded (n := 1) (Nat.le_refl _)) ?_ h
      intro us hs; cases hs with | repeatable hn => exact .inr ⟨.maxBounded hn, .repeatable (n := 1) (Nat.le_refl _)⟩
    · rename_i hc
      refine deep (by intro c e; cases e) rfl hc (by intro c e; cases e) rfl (by intro c e; cases e) rfl rfl
        (.minMaxBounded (n := 1) (Nat.le_refl _)) ?_ h
      intro us hs; cases hs with | repeatable hn => exact .inr ⟨.minMaxBounded hn, .repeatable (n := 1) (Nat.le_refl _)⟩
    · refine around_thin (mk := (.repeatable · rev)) hr hg ho (by intro _ c e; cases e) (fun _ => rfl) ?_ h ?_
      · intro y us hs; cases hs with | repeatable hn => exact ⟨_, rfl, fun _ => .repeatable hn⟩
      · intro y r' e; cases e; exact ⟨rfl, rfl⟩
  · rename_i child rev
    split at h
    · rename_i g rev' hc
      have hgl : g < s.heap.length := hg.tame.closed _ (List.mem_of_getElem? hc) g (by simp [Obj.children])
      refine new_thin hr hg ho (by intro c e; cases e) (by intro c e; cases e) ?_ ?_ ?_ h
      · intro c hcc
        have : c = g := by simpa [Obj.children] using hcc
        omega
      · intro k he us w hs hop
        cases hs with
        | repOptional n =>
          cases n with
          | zero => exact ⟨_, .none, hop⟩
          | succ n => exact ⟨_, .one, child_open he hc (by intro c e; cases e) (.repeatable (Nat.succ_pos n)) hop⟩
      · intro r e; cases e; exact hg.tame.firm _ _ _ hc rfl
    · cases h
    · rename_i g rev' hc
      have hgl : g < s.heap.length := hg.tame.closed _ (List.mem_of_getElem? hc) g (by simp [Obj.children])
      refine new_thin hr hg ho (by intro c e; cases e) (by intro c e; cases e) ?_ ?_ (by intro r e; cases e) h
      · intro c hcc
        have : c = g := by simpa [Obj.children] using hcc
        omega
      · intro k he us w hs hop
        cases hs with
        | none => exact ⟨_, .none, hop⟩
        | one => exact ⟨_, .one, child_open he hc (by intro c e; cases e) .one hop⟩
    · refine around_thin (mk := (.optional · rev)) hr hg ho (by intro _ c e; cases e) (fun _ => rfl) ?_ h
      intro y us hs
      cases hs with
      | none => exact ⟨0, rfl, fun _ => .none⟩
      | one => exact ⟨1, rfl, fun _ => .one⟩
  · rename_i child rr ro
    have many : ∀ {g : Nat} {oc : Obj P}, (∀ n, 1 ≤ n → Gives oc (List.replicate n (.rule g))) →
        ∀ us : List (Term P), Gives (.repOptional g rr ro) us →
          us = [] ∧ Gives (.repOptional child rr ro : Obj P) [] ∨
            Gives oc us ∧ Gives (.repOptional child rr ro : Obj P) [.rule child] := by
      intro g oc hoc us hs
      cases hs with
      | repOptional n =>
        cases n with
        | zero => exact .inl ⟨rfl, .repOptional 0⟩
        | succ n => exact .inr ⟨hoc _ (Nat.succ_pos n), .repOptional 1⟩
    split at h
    · rename_i hc
      exact deep (by intro c e; cases e) rfl hc (by intro c e; cases e) rfl (by intro c e; cases e) rfl rfl
        (.repeatable (n := 1) (Nat.le_refl _)) (many fun n hn => .repeatable hn) h
    · rename_i hc
      exact deep (by intro c e; cases e) rfl hc (by intro c e; cases e) rfl (by intro c e; cases e) rfl rfl
        (.repOptional 1) (many fun n hn => .repOptional n) h
    · rename_i hc; exact (nullChild rfl hc).elim
    · rename_i hc
      exact deep (by intro c e; cases e) rfl hc (by intro c e; cases e) rfl (by intro c e; cases e) rfl rfl
        (.minBounded (n := 1) (Nat.le_refl _)) (many fun n hn => .minBounded hn) h
    · rename_i hc
      exact deep (by intro c e; cases e) rfl hc (by intro c e; cases e) rfl (by intro c e; cases e) rfl rfl
        (.maxBounded (n := 1) (Nat.le_refl _)) (many fun n hn => .maxBounded hn) h
    · rename_i hc
      exact deep (by intro c e; cases e) rfl hc (by intro c e; cases e) rfl (by intro c e; cases e) rfl rfl
        (.minMaxBounded (n := 1) (Nat.le_refl _)) (many fun n hn => .minMaxBounded hn) h
    · refine around_thin (mk := (.repOptional · rr ro)) hr hg ho (by intro _ c e; cases e) (fun _ => rfl) ?_ h ?_
      · intro y us hs; cases hs with | repOptional n => exact ⟨n, rfl, fun _ => .repOptional n⟩
      · intro y r' e; cases e; exact ⟨rfl, rfl⟩
  · rename_i child min rev
    refine squashBounded_thin (mk := (.minBounded · min rev)) hr hg ho (by intro _ c e; cases e) (fun _ => rfl) ?_
      (.inr fun _ => rfl) h
    intro y us
    constructor
    · intro hs; cases hs with | minBounded hn => exact ⟨_, hn, rfl⟩
    · rintro ⟨n, hn, rfl⟩; exact .minBounded hn
  · rename_i child max rev
    refine squashBounded_thin (mk := (.maxBounded · max rev)) hr hg ho (by intro _ c e; cases e) (fun _ => rfl) ?_
      (.inl fun _ => rfl) h
    intro y us
    constructor
    · intro hs; cases hs with | maxBounded hn => exact ⟨_, hn, rfl⟩
    · rintro ⟨n, hn, rfl⟩; exact .maxBounded hn
  · rename_i child min max rev
    refine squashBounded_thin (mk := (.minMaxBounded · min max rev)) hr hg ho (by intro _ c e; cases e)
      (fun _ => rfl) ?_ (.inl fun _ => rfl) h
    intro y us
    constructor
    · intro hs; cases hs with | minMaxBounded hn => exact ⟨_, hn, rfl⟩
    · rintro ⟨n, hn, rfl⟩; exact .minMaxBounded hn
  · exact default_thin k rec hr a _ s b s' hg ho h

end Yargy.Thin
