import Verif.Spec.Agreement
/-! Lemmas about the agreement check. -/
set_option linter.unusedVariables false
namespace Yargy
open Spec

theorem Form.same_iff {a b : Form} : a.same b = true ↔ a.normalized = b.normalized ∧ a.grams = b.grams := by
  simp [Form.same]

theorem Form.isIn_iff {f : Form} {l : List Form} :
    f.isIn l = true ↔ ∃ g ∈ l, f.normalized = g.normalized ∧ f.grams = g.grams := by
  simp [Form.isIn, Form.same_iff]

theorem mem_addForm {f g : Form} {l : List Form} (h : g ∈ addForm f l) : g = f ∨ g ∈ l := by
  unfold addForm at h
  split at h
  · exact Or.inr h
  · rcases List.mem_append.1 h with h | h
    · exact Or.inr h
    · exact Or.inl (by simpa using h)

theorem subset_addForm {f g : Form} {l : List Form} (h : g ∈ l) : g ∈ addForm f l := by
  unfold addForm
  split
  · exact h
  · exact List.mem_append_left _ h

theorem isIn_addForm (f : Form) (l : List Form) : f.isIn (addForm f l) = true := by
  unfold addForm
  split
  · assumption
  · exact Form.isIn_iff.2 ⟨f, by simp, rfl, rfl⟩

theorem isIn_mono {f : Form} {l l' : List Form} (h : ∀ g ∈ l, g ∈ l') (hf : f.isIn l = true) :
    f.isIn l' = true := by
  obtain ⟨g, hg, h1⟩ := Form.isIn_iff.1 hf
  exact Form.isIn_iff.2 ⟨g, h g hg, h1⟩

/-- what `checkEdge` computes -/
structure Checked (rel : Form → Form → Bool) (fs gs : List Form) (c : List Form × List Form) : Prop where
  left : ∀ f ∈ c.1, f ∈ fs ∧ ∃ g ∈ gs, rel f g = true
  right : ∀ g ∈ c.2, g ∈ gs ∧ ∃ f ∈ fs, rel f g = true
  both : ∀ f ∈ fs, ∀ g ∈ gs, rel f g = true → f.isIn c.1 = true ∧ g.isIn c.2 = true

theorem checkEdge_inner (rel : Form → Form → Bool) (f : Form) (fs : List Form) (hf : f ∈ fs) (gs : List Form) :
    ∀ (gs' : List Form) (acc : List Form × List Form), (∀ g ∈ gs', g ∈ gs) →
      (∀ f ∈ acc.1, f ∈ fs ∧ ∃ g ∈ gs, rel f g = true) →
      (∀ g ∈ acc.2, g ∈ gs ∧ ∃ f ∈ fs, rel f g = true) →
      let r := gs'.foldl (fun acc g => if rel f g then (addForm f acc.1, addForm g acc.2) else acc) acc
      (∀ f ∈ r.1, f ∈ fs ∧ ∃ g ∈ gs, rel f g = true) ∧ (∀ g ∈ r.2, g ∈ gs ∧ ∃ f ∈ fs, rel f g = true) ∧
      (∀ x ∈ acc.1, x ∈ r.1) ∧ (∀ x ∈ acc.2, x ∈ r.2) ∧
      (∀ g ∈ gs', rel f g = true → f.isIn r.1 = true ∧ g.isIn r.2 = true)
  | [], acc, _, h1, h2 => ⟨h1, h2, fun _ h => h, fun _ h => h, by simp⟩
  | g :: gs', acc, hsub, h1, h2 => by
    have hg : g ∈ gs := hsub g List.mem_cons_self
    have hsub' : ∀ x ∈ gs', x ∈ gs := fun x hx => hsub x (List.mem_cons_of_mem _ hx)
    simp only [List.foldl_cons]
    by_cases hr : rel f g = true
    · simp only [hr, if_true]
      obtain ⟨a1, a2, a3, a4, a5⟩ := checkEdge_inner rel f fs hf gs gs' (addForm f acc.1, addForm g acc.2) hsub'
        (by
          intro x hx
          rcases mem_addForm hx with rfl | hx
          · exact ⟨hf, g, hg, hr⟩
          · exact h1 x hx)
        (by
          intro x hx
          rcases mem_addForm hx with rfl | hx
          · exact ⟨hg, f, hf, hr⟩
          · exact h2 x hx)
      refine ⟨a1, a2, fun x hx => a3 x (subset_addForm hx), fun x hx => a4 x (subset_addForm hx), ?_⟩
      intro x hx hrx
      rcases List.mem_cons.1 hx with rfl | hx
      · exact ⟨isIn_mono a3 (isIn_addForm _ _), isIn_mono a4 (isIn_addForm _ _)⟩
      · exact a5 x hx hrx
    · simp only [hr]
      obtain ⟨a1, a2, a3, a4, a5⟩ := checkEdge_inner rel f fs hf gs gs' acc hsub' h1 h2
      refine ⟨a1, a2, a3, a4, ?_⟩
      intro x hx hrx
      rcases List.mem_cons.1 hx with rfl | hx
      · exact absurd hrx hr
      · exact a5 x hx hrx

theorem checkEdge_outer (rel : Form → Form → Bool) (fs gs : List Form) :
    ∀ (fs' : List Form) (acc : List Form × List Form), (∀ f ∈ fs', f ∈ fs) →
      (∀ f ∈ acc.1, f ∈ fs ∧ ∃ g ∈ gs, rel f g = true) →
      (∀ g ∈ acc.2, g ∈ gs ∧ ∃ f ∈ fs, rel f g = true) →
      let r := fs'.foldl (fun acc f => gs.foldl (fun acc g =>
        if rel f g then (addForm f acc.1, addForm g acc.2) else acc) acc) acc
      (∀ f ∈ r.1, f ∈ fs ∧ ∃ g ∈ gs, rel f g = true) ∧ (∀ g ∈ r.2, g ∈ gs ∧ ∃ f ∈ fs, rel f g = true) ∧
      (∀ x ∈ acc.1, x ∈ r.1) ∧ (∀ x ∈ acc.2, x ∈ r.2) ∧
      (∀ f ∈ fs', ∀ g ∈ gs, rel f g = true → f.isIn r.1 = true ∧ g.isIn r.2 = true)
  | [], acc, _, h1, h2 => ⟨h1, h2, fun _ h => h, fun _ h => h, by simp⟩
  | f :: fs', acc, hsub, h1, h2 => by
    simp only [List.foldl_cons]
    obtain ⟨a1, a2, a3, a4, a5⟩ := checkEdge_inner rel f fs (hsub f List.mem_cons_self) gs gs acc
      (fun _ h => h) h1 h2
    obtain ⟨b1, b2, b3, b4, b5⟩ := checkEdge_outer rel fs gs fs' _
      (fun x hx => hsub x (List.mem_cons_of_mem _ hx)) a1 a2
    refine ⟨b1, b2, fun x hx => b3 x (a3 x hx), fun x hx => b4 x (a4 x hx), ?_⟩
    intro x hx g hg hr
    rcases List.mem_cons.1 hx with rfl | hx
    · exact ⟨isIn_mono b3 (a5 g hg hr).1, isIn_mono b4 (a5 g hg hr).2⟩
    · exact b5 x hx g hg hr

theorem checkEdge_spec (rel : Form → Form → Bool) (fs gs : List Form) :
    Checked rel fs gs (checkEdge rel fs gs) := by
  obtain ⟨a1, a2, _, _, a5⟩ := checkEdge_outer rel fs gs fs ([], []) (fun _ h => h) (by simp) (by simp)
  exact ⟨a1, a2, a5⟩

theorem update_same {α} (f : Nat → α) (k : Nat) (v : α) : update f k v k = v := by simp [update]

theorem update_other {α} (f : Nat → α) {k n : Nat} (v : α) (h : n ≠ k) : update f k v n = f n := by
  simp [update, h]

theorem stepEdge_subset (R : Nat → Relation) (forms : Nat → List Form) (e : Nat × Nat × Nat) (w : Nat) :
    ∀ f ∈ stepEdge R forms e w, f ∈ forms w := by
  intro f hf
  have hc := checkEdge_spec (R e.1).call (forms e.2.1) (forms e.2.2)
  unfold stepEdge at hf
  by_cases hb : w = e.2.2
  · subst hb
    rw [update_same] at hf
    exact (hc.right f hf).1
  · rw [update_other _ _ hb] at hf
    by_cases ha : w = e.2.1
    · subst ha
      rw [update_same] at hf
      exact (hc.left f hf).1
    · rw [update_other _ _ ha] at hf
      exact hf

theorem foldEdges_subset (R : Nat → Relation) (w : Nat) : ∀ (es : List (Nat × Nat × Nat))
    (forms : Nat → List Form), ∀ f ∈ es.foldl (stepEdge R) forms w, f ∈ forms w
  | [], forms, f, hf => hf
  | e :: es, forms, f, hf =>
    stepEdge_subset R forms e w f (foldEdges_subset R w es (stepEdge R forms e) f hf)

/-- a form of the choice survives an edge -/
theorem stepEdge_keeps (R : Nat → Relation) (c : Nat → Form) (forms : Nat → List Form)
    (e : Nat × Nat × Nat) (hR : Respects (R e.1).call)
    (he : (R e.1).call (c e.2.1) (c e.2.2) = true) (ha : (c e.2.1).isIn (forms e.2.1) = true)
    (hb : (c e.2.2).isIn (forms e.2.2) = true) (w : Nat) (hw : (c w).isIn (forms w) = true) :
    (c w).isIn (stepEdge R forms e w) = true := by
  have hc := checkEdge_spec (R e.1).call (forms e.2.1) (forms e.2.2)
  obtain ⟨f, hf, f1, f2⟩ := Form.isIn_iff.1 ha
  obtain ⟨g, hg, g1, g2⟩ := Form.isIn_iff.1 hb
  have hfg : (R e.1).call f g = true := by rw [← hR _ _ _ _ f1 f2 g1 g2]; exact he
  obtain ⟨k1, k2⟩ := hc.both f hf g hg hfg
  unfold stepEdge
  by_cases hwb : w = e.2.2
  · subst hwb
    rw [update_same]
    obtain ⟨x, hx, x1, x2⟩ := Form.isIn_iff.1 k2
    exact Form.isIn_iff.2 ⟨x, hx, by rw [g1, x1], by rw [g2, x2]⟩
  · rw [update_other _ _ hwb]
    by_cases hwa : w = e.2.1
    · subst hwa
      rw [update_same]
      obtain ⟨x, hx, x1, x2⟩ := Form.isIn_iff.1 k1
      exact Form.isIn_iff.2 ⟨x, hx, by rw [f1, x1], by rw [f2, x2]⟩
    · rw [update_other _ _ hwa]; exact hw

theorem foldEdges_keeps (R : Nat → Relation) (c : Nat → Form) :
    ∀ (es : List (Nat × Nat × Nat)) (forms : Nat → List Form),
      (∀ e ∈ es, Respects (R e.1).call ∧ (R e.1).call (c e.2.1) (c e.2.2) = true ∧
        (c e.2.1).isIn (forms e.2.1) = true ∧ (c e.2.2).isIn (forms e.2.2) = true) →
      ∀ w, (c w).isIn (forms w) = true → (c w).isIn (es.foldl (stepEdge R) forms w) = true
  | [], forms, _, w, hw => hw
  | e :: es, forms, h, w, hw => by
    obtain ⟨h1, h2, h3, h4⟩ := h e List.mem_cons_self
    have hk := stepEdge_keeps R c forms e h1 h2 h3 h4
    refine foldEdges_keeps R c es (stepEdge R forms e) ?_ w (hk w hw)
    intro e' he'
    obtain ⟨k1, k2, k3, k4⟩ := h e' (List.mem_cons_of_mem _ he')
    exact ⟨k1, k2, hk _ k3, hk _ k4⟩

theorem mem_pairs {α} {l : List α} {R : α → α → Prop} (h : l.Pairwise R) :
    ∀ p ∈ pairs l, R p.1 p.2 ∧ p.1 ∈ l ∧ p.2 ∈ l := by
  induction l with
  | nil => simp [pairs]
  | cons x xs ih =>
    intro p hp
    rw [List.pairwise_cons] at h
    rcases List.mem_append.1 hp with hp | hp
    · obtain ⟨y, hy, rfl⟩ := List.mem_map.1 hp
      exact ⟨h.1 y hy, List.mem_cons_self, List.mem_cons_of_mem _ hy⟩
    · obtain ⟨h1, h2, h3⟩ := ih h.2 p hp
      exact ⟨h1, List.mem_cons_of_mem _ h2, List.mem_cons_of_mem _ h3⟩

theorem pairs_iff {α} {l : List α} {R : α → α → Prop} :
    l.Pairwise R ↔ ∀ p ∈ pairs l, R p.1 p.2 := by
  constructor
  · intro h p hp; exact (mem_pairs h p hp).1
  · induction l with
    | nil => intro _; exact .nil
    | cons x xs ih =>
      intro h
      refine List.pairwise_cons.2 ⟨fun y hy => h (x, y) (List.mem_append_left _ (List.mem_map.2 ⟨y, hy, rfl⟩)),
        ih (fun p hp => h p (List.mem_append_right _ hp))⟩

/-- agreement on a single edge, none of whose words is touched by later edges -/
theorem stepEdge_agree (R : Nat → Relation) (forms : Nat → List Form) (e : Nat × Nat × Nat)
    (hne : e.2.1 ≠ e.2.2) (hR : Respects (R e.1).call) :
    (∀ f ∈ stepEdge R forms e e.2.1, ∃ g ∈ stepEdge R forms e e.2.2, (R e.1).call f g = true) ∧
    (∀ g ∈ stepEdge R forms e e.2.2, ∃ f ∈ stepEdge R forms e e.2.1, (R e.1).call f g = true) := by
  have hc := checkEdge_spec (R e.1).call (forms e.2.1) (forms e.2.2)
  have ea : stepEdge R forms e e.2.1 = (checkEdge (R e.1).call (forms e.2.1) (forms e.2.2)).1 := by
    unfold stepEdge; rw [update_other _ _ hne, update_same]
  have eb : stepEdge R forms e e.2.2 = (checkEdge (R e.1).call (forms e.2.1) (forms e.2.2)).2 := by
    unfold stepEdge; rw [update_same]
  rw [ea, eb]
  constructor
  · intro f hf
    obtain ⟨h1, g, h2, h3⟩ := hc.left f hf
    obtain ⟨x, hx, x1, x2⟩ := Form.isIn_iff.1 (hc.both f h1 g h2 h3).2
    exact ⟨x, hx, by rw [← hR f f g x rfl rfl x1 x2]; exact h3⟩
  · intro g hg
    obtain ⟨h1, f, h2, h3⟩ := hc.right g hg
    obtain ⟨x, hx, x1, x2⟩ := Form.isIn_iff.1 (hc.both f h2 g h1 h3).1
    exact ⟨x, hx, by rw [← hR f x g g x1 x2 rfl rfl]; exact h3⟩

theorem foldEdges_other (R : Nat → Relation) (w : Nat) : ∀ (es : List (Nat × Nat × Nat))
    (forms : Nat → List Form), (∀ e ∈ es, w ≠ e.2.1 ∧ w ≠ e.2.2) → es.foldl (stepEdge R) forms w = forms w
  | [], _, _ => rfl
  | e :: es, forms, h => by
    rw [List.foldl_cons, foldEdges_other R w es _ (fun e' he' => h e' (List.mem_cons_of_mem _ he'))]
    obtain ⟨h1, h2⟩ := h e List.mem_cons_self
    unfold stepEdge
    rw [update_other _ _ h2, update_other _ _ h1]

theorem foldEdges_agree (R : Nat → Relation) : ∀ (es : List (Nat × Nat × Nat))
    (forms : Nat → List Form), Separate es → (∀ e ∈ es, Respects (R e.1).call) →
    ∀ e ∈ es, (∀ f ∈ es.foldl (stepEdge R) forms e.2.1, ∃ g ∈ es.foldl (stepEdge R) forms e.2.2,
        (R e.1).call f g = true) ∧
      (∀ g ∈ es.foldl (stepEdge R) forms e.2.2, ∃ f ∈ es.foldl (stepEdge R) forms e.2.1,
        (R e.1).call f g = true)
  | e0 :: es, forms, hs, hR, e, he => by
    obtain ⟨h1, h2⟩ := hs
    rw [List.pairwise_cons] at h2
    rcases List.mem_cons.1 he with rfl | he
    · rw [List.foldl_cons, foldEdges_other R e.2.1 es _ (fun e' he' => ⟨(h2.1 e' he').1, (h2.1 e' he').2.1⟩),
        foldEdges_other R e.2.2 es _ (fun e' he' => ⟨(h2.1 e' he').2.2.1, (h2.1 e' he').2.2.2⟩)]
      exact stepEdge_agree R forms e (h1 e List.mem_cons_self) (hR e List.mem_cons_self)
    · exact foldEdges_agree R es _ ⟨fun e he => h1 e (List.mem_cons_of_mem _ he), h2.2⟩
        (fun e he => hR e (List.mem_cons_of_mem _ he)) e he

end Yargy
