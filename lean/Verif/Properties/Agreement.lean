import Verif.Proofs.Agreement
/-! C23, C24, C25, C45: agreement relations and the agreement check. -/
set_option linter.unusedVariables false
namespace Yargy
open Spec

/-! ### C23 -/

theorem gender_symmetric : Symmetric genderRel := by
  intro a b
  unfold genderRel
  generalize a.has "plur" = a1, a.has "masc" = a2, a.has "femn" = a3, a.has "neut" = a4,
    a.has "Ms-f" = a5, a.has "ms-f" = a6, a.has "GNdr" = a7
  generalize b.has "plur" = b1, b.has "masc" = b2, b.has "femn" = b3, b.has "neut" = b4,
    b.has "Ms-f" = b5, b.has "ms-f" = b6, b.has "GNdr" = b7
  cases a1 <;> cases a2 <;> cases a3 <;> cases a4 <;> cases a7 <;> cases b1 <;> cases b2 <;>
    cases b3 <;> cases b4 <;> cases b7 <;> simp [Bool.or_comm, Bool.or_left_comm]

theorem number_symmetric : Symmetric numberRel := by
  intro a b
  unfold numberRel
  generalize a.has "sing" = a1, a.has "plur" = a2, a.has "Sgtm" = a3, a.has "Pltm" = a4
  generalize b.has "sing" = b1, b.has "plur" = b2, b.has "Sgtm" = b3, b.has "Pltm" = b4
  revert a1 a2 a3 a4 b1 b2 b3 b4
  decide

theorem case_symmetric : Symmetric caseRel := by
  intro a b
  unfold caseRel
  rw [Bool.beq_comm (a := caseMask a), Bool.or_assoc, Bool.or_assoc, Bool.or_comm (a.has "Fixd")]

/-- C23: every combination of symmetric relations is symmetric; the user-defined parts are the only
ones that need checking. -/
theorem relation_symmetric (r : Relation) (h : UserParts Symmetric r) : Symmetric r.call := by
  refine Relation.rec (motive_1 := fun r => UserParts Symmetric r → Symmetric r.call)
    (motive_2 := fun rs => AllUserParts Symmetric rs →
      Symmetric (Relation.callAll rs) ∧ Symmetric (Relation.callAny rs))
    ?_ ?_ ?_ ?_ ?_ ?_ ?_ ?_ ?_ ?_ r h
  · intro _ a b; simp only [Relation.call]; exact gender_symmetric a b
  · intro _ a b; simp only [Relation.call]; exact number_symmetric a b
  · intro _ a b; simp only [Relation.call]; exact case_symmetric a b
  · intro _ a b
    simp only [Relation.call]
    rw [gender_symmetric a b, number_symmetric a b, case_symmetric a b]
  · intro rs ih h a b
    simp only [UserParts] at h
    simp only [Relation.call]; exact (ih h).1 a b
  · intro rs ih h a b
    simp only [UserParts] at h
    simp only [Relation.call]; exact (ih h).2 a b
  · intro r ih h a b
    simp only [UserParts] at h
    simp only [Relation.call]; rw [ih h a b]
  · intro f h a b
    simp only [UserParts] at h
    simp only [Relation.call]; exact h a b
  · intro _
    exact ⟨fun a b => by simp [Relation.callAll], fun a b => by simp [Relation.callAny]⟩
  · intro r rs ih1 ih2 h
    simp only [AllUserParts] at h
    exact ⟨fun a b => by simp only [Relation.callAll]; rw [ih1 h.1 a b, (ih2 h.2).1 a b],
      fun a b => by simp only [Relation.callAny]; rw [ih1 h.1 a b, (ih2 h.2).2 a b]⟩

/-- A nested combination; without its user-defined part the hypothesis is trivial. -/
example : Symmetric (Relation.and [.gnc, .not (.or [.case, .number]),
    .user (fun a b => decide (a.normalized = b.normalized))]).call :=
  relation_symmetric _ ⟨trivial, ⟨trivial, trivial, trivial⟩,
    fun a b => by simp [eq_comm], trivial⟩

theorem has_congr {a a' : Form} (h : a.grams = a'.grams) : a.has = a'.has := by
  funext g; simp [Form.has, h]

/-- Relations look at the word and the grammemes of a form only. -/
theorem relation_respects (r : Relation) (h : UserParts Respects r) : Respects r.call := by
  refine Relation.rec (motive_1 := fun r => UserParts Respects r → Respects r.call)
    (motive_2 := fun rs => AllUserParts Respects rs →
      Respects (Relation.callAll rs) ∧ Respects (Relation.callAny rs))
    ?_ ?_ ?_ ?_ ?_ ?_ ?_ ?_ ?_ ?_ r h
  · intro _ a a' b b' _ h2 _ h4
    simp only [Relation.call, genderRel, has_congr h2, has_congr h4]
  · intro _ a a' b b' _ h2 _ h4
    simp only [Relation.call, numberRel, has_congr h2, has_congr h4]
  · intro _ a a' b b' _ h2 _ h4
    simp only [Relation.call, caseRel, caseMask, has_congr h2, has_congr h4]
  · intro _ a a' b b' _ h2 _ h4
    simp only [Relation.call, genderRel, numberRel, caseRel, caseMask, has_congr h2, has_congr h4]
  · intro rs ih h a a' b b' h1 h2 h3 h4
    simp only [UserParts] at h
    simp only [Relation.call]; exact (ih h).1 a a' b b' h1 h2 h3 h4
  · intro rs ih h a a' b b' h1 h2 h3 h4
    simp only [UserParts] at h
    simp only [Relation.call]; exact (ih h).2 a a' b b' h1 h2 h3 h4
  · intro r ih h a a' b b' h1 h2 h3 h4
    simp only [UserParts] at h
    simp only [Relation.call]; rw [ih h a a' b b' h1 h2 h3 h4]
  · intro f h
    simp only [UserParts] at h
    intro a a' b b' h1 h2 h3 h4
    simp only [Relation.call]; exact h a a' b b' h1 h2 h3 h4
  · intro _
    exact ⟨fun _ _ _ _ _ _ _ _ => by simp [Relation.callAll], fun _ _ _ _ _ _ _ _ => by simp [Relation.callAny]⟩
  · intro r rs ih1 ih2 h
    simp only [AllUserParts] at h
    exact ⟨fun a a' b b' h1 h2 h3 h4 => by
        simp only [Relation.callAll]; rw [ih1 h.1 a a' b b' h1 h2 h3 h4, (ih2 h.2).1 a a' b b' h1 h2 h3 h4],
      fun a a' b b' h1 h2 h3 h4 => by
        simp only [Relation.callAny]; rw [ih1 h.1 a a' b b' h1 h2 h3 h4, (ih2 h.2).2 a a' b b' h1 h2 h3 h4]⟩

/-! ### C24 -/

/-- Every recorded word is listed under some relation, and conversely. -/
def RelGraph.WF (g : RelGraph) : Prop :=
  ∀ w, w ∈ g.tokens.map Prod.fst ↔ ∃ e ∈ g.items, w ∈ e.2

/-- C24: only forms the word had are kept. -/
theorem validate_subset (R : Nat → Relation) (g : RelGraph) (w : Nat) :
    ∀ f ∈ (g.validate R).1.forms w, f ∈ g.forms w :=
  foldEdges_subset R w g.edges g.forms

/-- C24: a consistent choice of forms is never rejected and never pruned. -/
theorem validate_keeps_consistent (R : Nat → Relation) (g : RelGraph) (hwf : g.WF)
    (hR : ∀ e ∈ g.items, Respects (R e.1).call) (c : Nat → Form)
    (hc : Consistent (fun r => (R r).call) g.items g.forms c) :
    (g.validate R).2 = true ∧ ∀ w ∈ g.tokens.map Prod.fst,
      ∃ f ∈ (g.validate R).1.forms w, (c w).normalized = f.normalized ∧ (c w).grams = f.grams := by
  have hin : ∀ e ∈ g.items, ∀ w ∈ e.2, (c w).isIn (g.forms w) = true :=
    fun e he w hw => Form.isIn_iff.2 ⟨c w, (hc e he).1 w hw, rfl, rfl⟩
  have key : ∀ w ∈ g.tokens.map Prod.fst, (c w).isIn (g.edges.foldl (stepEdge R) g.forms w) = true := by
    intro w hw
    obtain ⟨e, he, hwe⟩ := (hwf w).1 hw
    refine foldEdges_keeps R c g.edges g.forms ?_ w (hin e he w hwe)
    intro e' he'
    obtain ⟨e0, he0, he1⟩ := List.mem_flatMap.1 he'
    obtain ⟨p, hp, rfl⟩ := List.mem_map.1 he1
    obtain ⟨h1, h2, h3⟩ := mem_pairs (hc e0 he0).2 p hp
    exact ⟨hR e0 he0, h1, hin e0 he0 _ h2, hin e0 he0 _ h3⟩
  constructor
  · unfold RelGraph.validate
    rw [List.all_eq_true]
    intro e he
    obtain ⟨f, hf, _⟩ := Form.isIn_iff.1 (key e.1 (List.mem_map.2 ⟨e, he, rfl⟩))
    cases hx : List.foldl (stepEdge R) g.forms g.edges e.1 with
    | nil => rw [hx] at hf; simp at hf
    | cons _ _ => rfl
  · intro w hw
    exact Form.isIn_iff.1 (key w hw)

/-! Forms for the examples. -/

def formOf (gs : List String) : Form := ⟨"слово".toList, gs.map String.toList, 0⟩
def masc := formOf ["masc"]
def femn := formOf ["femn"]
def bi := formOf ["Ms-f"]

def wordOf (fs : List Form) : Token := { value := [], span := (0, 0), type := [], forms := some fs }

/-- A graph in which all the words are listed under relation `0`. -/
def oneGroup (fss : List (List Form)) : RelGraph :=
  { items := [(0, List.range fss.length)]
    tokens := (List.range fss.length).map (fun w => (w, wordOf (fss.getD w [])))
    forms := fun w => fss.getD w [] }

theorem oneGroup_wf (fss : List (List Form)) : (oneGroup fss).WF := by
  intro w
  simp [oneGroup]

/-- Three words, two readings each, one consistent choice. -/
example : (oneGroup [[masc, femn], [bi, femn], [femn]]).WF ∧
    Consistent (fun _ => Relation.gender.call) (oneGroup [[masc, femn], [bi, femn], [femn]]).items
      (oneGroup [[masc, femn], [bi, femn], [femn]]).forms (fun _ => femn) := by
  refine ⟨oneGroup_wf _, ?_⟩
  intro e he
  simp only [oneGroup, List.mem_singleton] at he
  subst he
  refine ⟨?_, ?_⟩
  · intro w hw
    simp only [List.length_cons, List.length_nil, List.mem_range] at hw
    match w, hw with
    | 0, _ => decide
    | 1, _ => decide
    | 2, _ => decide
  · have : Relation.gender.call femn femn = true := by decide +kernel
    simp only [this]
    exact List.pairwise_of_forall (fun _ _ => trivial)

/-! ### C25 -/

/-- C25 (partial): when every word has to agree with at most one other word, after the check every
remaining form has an agreeing partner. Missing: words that have to agree with several others, for
which it is false (`agreement_not_mutual`). -/
theorem validate_mutual_partial (R : Nat → Relation) (g : RelGraph)
    (hs : Separate g.edges) (hR : ∀ e ∈ g.edges, Respects (R e.1).call)
    (r a b : Nat) (he : (r, a, b) ∈ g.edges) :
    (∀ f ∈ (g.validate R).1.forms a, ∃ f' ∈ (g.validate R).1.forms b, (R r).call f f' = true) ∧
    (∀ f' ∈ (g.validate R).1.forms b, ∃ f ∈ (g.validate R).1.forms a, (R r).call f f' = true) :=
  foldEdges_agree R g.edges g.forms hs hR (r, a, b) he

/-- Two words with two readings each. -/
example : Separate (oneGroup [[masc, femn], [bi, femn]]).edges ∧
    (0, 0, 1) ∈ (oneGroup [[masc, femn], [bi, femn]]).edges := by
  refine ⟨⟨?_, ?_⟩, ?_⟩ <;> simp [oneGroup, RelGraph.edges, pairs, List.range, List.range.loop]

/-- C25 is false for three words: with `gender_relation`, words with the readings
feminine / bi-gendered, bi-gendered / masculine, and feminine are accepted, and the bi-gendered
reading of the first word is kept although no remaining reading of the second agrees with it. -/
theorem agreement_not_mutual :
    let g := oneGroup [[femn, bi], [bi, masc], [femn]]
    let v := g.validate (fun _ => .gender)
    g.WF ∧ v.2 = true ∧ (0, 0, 1) ∈ g.edges ∧ bi ∈ v.1.forms 0 ∧
      ∀ f' ∈ v.1.forms 1, Relation.gender.call bi f' = false := by
  refine ⟨oneGroup_wf _, ?_, ?_, ?_, ?_⟩ <;> decide +kernel

/-! ### C45 -/

/-- C45, one direction (all graphs): a phrase with a consistent reading is accepted. The converse
is false in general (`accepted_inconsistent`) and proved for separate pairs of words. -/
theorem accepted_iff_consistent_partial (R : Nat → Relation) (g : RelGraph) (hwf : g.WF)
    (hlen : ∀ e ∈ g.items, 2 ≤ e.2.length)
    (hs : Separate g.edges) (hR : ∀ e ∈ g.items, Respects (R e.1).call) :
    (g.validate R).2 = true ↔ ∃ c, Consistent (fun r => (R r).call) g.items g.forms c := by
  constructor
  · intro h
    have hR' : ∀ e ∈ g.edges, Respects (R e.1).call := by
      intro e he
      obtain ⟨e0, he0, he1⟩ := List.mem_flatMap.1 he
      obtain ⟨p, hp, rfl⟩ := List.mem_map.1 he1
      exact hR e0 he0
    have hne : ∀ w, w ∈ g.tokens.map Prod.fst → ∃ f, f ∈ (g.validate R).1.forms w := by
      intro w hw
      obtain ⟨e, he, rfl⟩ := List.mem_map.1 hw
      have := List.all_eq_true.1 h e he
      cases hx : (g.validate R).1.forms e.1 with
      | nil => simp only [RelGraph.validate] at hx; simp [hx] at this
      | cons f _ => exact ⟨f, by simp⟩
    -- choose for every edge an agreeing pair
    have hedge : ∀ e ∈ g.edges, ∃ p : Form × Form, p.1 ∈ (g.validate R).1.forms e.2.1 ∧
        p.2 ∈ (g.validate R).1.forms e.2.2 ∧ (R e.1).call p.1 p.2 = true := by
      intro e he
      have hw : e.2.1 ∈ g.tokens.map Prod.fst := by
        obtain ⟨e0, he0, he1⟩ := List.mem_flatMap.1 he
        obtain ⟨p, hp, rfl⟩ := List.mem_map.1 he1
        exact (hwf _).2 ⟨e0, he0, (mem_pairs (R := fun _ _ => True)
          (List.pairwise_of_forall (fun _ _ => trivial)) p hp).2.1⟩
      obtain ⟨f, hf⟩ := hne _ hw
      obtain ⟨f', hf', hr⟩ := (foldEdges_agree R g.edges g.forms hs hR' e he).1 f hf
      exact ⟨(f, f'), hf, hf', hr⟩
    have hcl : ∃ c : Nat → Form, ∀ e ∈ g.edges, c e.2.1 ∈ (g.validate R).1.forms e.2.1 ∧
        c e.2.2 ∈ (g.validate R).1.forms e.2.2 ∧ (R e.1).call (c e.2.1) (c e.2.2) = true := by
      obtain ⟨h1, h2⟩ := hs
      generalize (g.validate R).1.forms = F at hedge
      clear hlen hne hwf h hR hR'
      generalize g.edges = es at *
      induction es with
      | nil => exact ⟨fun _ => masc, by simp⟩
      | cons e es ih =>
        rw [List.pairwise_cons] at h2
        obtain ⟨c, hc⟩ := ih (fun e he => h1 e (List.mem_cons_of_mem _ he)) h2.2
          (fun e he => hedge e (List.mem_cons_of_mem _ he))
        obtain ⟨p, p1, p2, p3⟩ := hedge e List.mem_cons_self
        have hab := h1 e List.mem_cons_self
        refine ⟨update (update c e.2.1 p.1) e.2.2 p.2, ?_⟩
        intro e' he'
        rcases List.mem_cons.1 he' with rfl | he'
        · rw [update_same, update_other _ _ hab, update_same]
          exact ⟨p1, p2, p3⟩
        · obtain ⟨k1, k2, k3, k4⟩ := h2.1 e' he'
          rw [update_other _ _ k3.symm, update_other _ _ k1.symm, update_other _ _ k4.symm,
            update_other _ _ k2.symm]
          exact hc e' he'
    obtain ⟨c, hc⟩ := hcl
    refine ⟨c, ?_⟩
    intro e he
    have hmem : ∀ p ∈ pairs e.2, (e.1, p.1, p.2) ∈ g.edges := fun p hp =>
      List.mem_flatMap.2 ⟨e, he, List.mem_map.2 ⟨p, hp, rfl⟩⟩
    refine ⟨?_, pairs_iff.2 (fun p hp => (hc _ (hmem p hp)).2.2)⟩
    intro w hw
    -- every word of a group with at least two words is in some pair
    have hp : ∃ p ∈ pairs e.2, p.1 = w ∨ p.2 = w := by
      have hl := hlen e he
      match hx : e.2 with
      | [] => rw [hx] at hw; simp at hw
      | [a] => rw [hx] at hl; simp at hl
      | a :: b :: l =>
        rw [hx] at hw
        rcases List.mem_cons.1 hw with rfl | hw
        · exact ⟨(w, b), by simp [pairs], Or.inl rfl⟩
        · exact ⟨(a, w), List.mem_append_left _ (List.mem_map.2 ⟨w, hw, rfl⟩), Or.inr rfl⟩
    obtain ⟨p, hp, hpw⟩ := hp
    have := hc _ (hmem p hp)
    rcases hpw with rfl | rfl
    · exact validate_subset R g _ _ this.1
    · exact validate_subset R g _ _ this.2.1
  · rintro ⟨c, hc⟩
    exact (validate_keeps_consistent R g hwf hR c hc).1

/-- The hypotheses are met. -/
example : (∀ e ∈ (oneGroup [[masc, femn], [bi, femn]]).items, 2 ≤ e.2.length) := by
  simp [oneGroup]

/-- C45 is false in general: three words that must pairwise differ in gender, each masculine or
feminine, are accepted although no choice of readings satisfies the relation. -/
theorem accepted_inconsistent :
    let g := oneGroup [[masc, femn], [masc, femn], [masc, femn]]
    let R : Nat → Relation := fun _ => .not .gender
    g.WF ∧ (g.validate R).2 = true ∧
      ¬ ∃ c, Consistent (fun r => (R r).call) g.items g.forms c := by
  refine ⟨oneGroup_wf _, by decide +kernel, ?_⟩
  rintro ⟨c, hc⟩
  obtain ⟨h1, h2⟩ := hc (0, [0, 1, 2]) (by decide)
  have hf : ∀ w, w < 3 → c w = masc ∨ c w = femn := by
    intro w hw
    have := h1 w (by match w, hw with | 0, _ => decide | 1, _ => decide | 2, _ => decide)
    match w, hw with
    | 0, _ => simpa [oneGroup] using this
    | 1, _ => simpa [oneGroup] using this
    | 2, _ => simpa [oneGroup] using this
  have e1 : (Relation.not .gender).call masc masc = false := by decide +kernel
  have e2 : (Relation.not .gender).call femn femn = false := by decide +kernel
  simp only [List.pairwise_cons] at h2
  obtain ⟨ha, hb, _⟩ := h2
  have h01 := ha 1 (by decide)
  have h02 := ha 2 (by decide)
  have h12 := hb 2 (by decide)
  rcases hf 0 (by decide) with h0 | h0 <;> rcases hf 1 (by decide) with h1 | h1 <;>
    rcases hf 2 (by decide) with h2 | h2 <;> simp_all

end Yargy
