import Verif.Proofs.TreeBasics
import Verif.Proofs.Layout
import Verif.Proofs.Yield
import Verif.Proofs.Agreement
import Verif.Model.Parser
import Verif.Properties.Agreement
/-! What `prepare_match` does to one tree. -/
set_option linter.unusedSectionVars false
namespace Yargy
open Spec

variable {P T : Type}

/-! ### leaves of a laid-out tree -/

theorem layout_leaves {home : Home P T} {n : Nat} {t : PTree P T} {i j : Nat}
    (h : Layout home n t i j) : i ≤ j ∧ t.leaves.length = j - i ∧
      ∀ (m : Nat) (l : Nat × T), t.leaves[m]? = some l → ∃ p, home l.1 = some (i + m, p, l.2) := by
  refine Layout.rec (motive_1 := fun t i j _ => i ≤ j ∧ t.leaves.length = j - i ∧
      ∀ (m : Nat) (l : Nat × T), t.leaves[m]? = some l → ∃ p, home l.1 = some (i + m, p, l.2))
    (motive_2 := fun cs i j _ => i ≤ j ∧ (cs.flatMap PTree.leaves).length = j - i ∧
      ∀ (m : Nat) (l : Nat × T), (cs.flatMap PTree.leaves)[m]? = some l → ∃ p, home l.1 = some (i + m, p, l.2))
    ?_ ?_ ?_ ?_ h
  · intro l p t i _ h2
    refine ⟨by omega, by simp [leaves_leaf], ?_⟩
    intro m l' hl
    rw [leaves_leaf] at hl
    cases m with
    | zero => simp at hl; subst hl; exact ⟨p, h2⟩
    | succ m => simp at hl
  · intro x r prod rank cs i j _ ih
    rw [leaves_node]; exact ih
  · intro i; exact ⟨Nat.le_refl _, by simp, by simp⟩
  · intro c cs i j k _ _ ih1 ih2
    obtain ⟨a1, a2, a3⟩ := ih1
    obtain ⟨b1, b2, b3⟩ := ih2
    rw [List.flatMap_cons]
    refine ⟨by omega, by rw [List.length_append]; omega, ?_⟩
    intro m l hl
    by_cases hm : m < j - i
    · rw [List.getElem?_append_left (by omega)] at hl
      exact a3 m l hl
    · rw [List.getElem?_append_right (by omega), a2] at hl
      obtain ⟨p, hp⟩ := b3 _ l hl
      exact ⟨p, by rw [hp]; congr 2; omega⟩

theorem layout_nodup {home : Home P T} {n : Nat} {t : PTree P T} {i j : Nat}
    (h : Layout home n t i j) : (t.leaves.map Prod.fst).Nodup := by
  obtain ⟨_, h2, h3⟩ := layout_leaves h
  rw [List.nodup_iff_pairwise_ne, List.pairwise_map, List.pairwise_iff_getElem]
  intro a b ha hb hab he
  obtain ⟨p, hp⟩ := h3 a t.leaves[a] (by simp [ha])
  obtain ⟨q, hq⟩ := h3 b t.leaves[b] (by simp [hb])
  rw [he, hq] at hp
  simp at hp
  omega

/-! ### the relations graph of a tree -/

theorem addItem_mem (rel leaf rel' w : Nat) (items : List (Nat × List Nat)) :
    (∃ e ∈ addItem rel leaf items, e.1 = rel' ∧ w ∈ e.2) ↔
      (rel' = rel ∧ w = leaf) ∨ ∃ e ∈ items, e.1 = rel' ∧ w ∈ e.2 := by
  induction items with
  | nil =>
    simp only [addItem, List.mem_singleton, List.not_mem_nil, false_and, exists_false, or_false]
    constructor
    · rintro ⟨e, rfl, h1, h2⟩; simp at h1 h2; exact ⟨h1.symm, h2⟩
    · rintro ⟨rfl, rfl⟩; exact ⟨_, rfl, rfl, by simp⟩
  | cons e items ih =>
    obtain ⟨r, ls⟩ := e
    simp only [addItem]
    split
    · rename_i hr
      subst hr
      constructor
      · rintro ⟨e, he, h1, h2⟩
        rcases List.mem_cons.1 he with rfl | he
        · simp only [List.mem_append, List.mem_singleton] at h2
          rcases h2 with h2 | h2
          · exact Or.inr ⟨(r, ls), List.mem_cons_self, h1, h2⟩
          · exact Or.inl ⟨h1.symm, h2⟩
        · exact Or.inr ⟨e, List.mem_cons_of_mem _ he, h1, h2⟩
      · rintro (⟨rfl, rfl⟩ | ⟨e, he, h1, h2⟩)
        · exact ⟨_, List.mem_cons_self, rfl, by simp⟩
        · rcases List.mem_cons.1 he with rfl | he
          · exact ⟨_, List.mem_cons_self, h1, by simp [h2]⟩
          · exact ⟨e, List.mem_cons_of_mem _ he, h1, h2⟩
    · constructor
      · rintro ⟨e, he, h1, h2⟩
        rcases List.mem_cons.1 he with rfl | he
        · exact Or.inr ⟨_, List.mem_cons_self, h1, h2⟩
        · rcases ih.1 ⟨e, he, h1, h2⟩ with h3 | ⟨e, he, h3⟩
          · exact Or.inl h3
          · exact Or.inr ⟨e, List.mem_cons_of_mem _ he, h3⟩
      · rintro (h3 | ⟨e, he, h1, h2⟩)
        · obtain ⟨e, he, h4⟩ := ih.2 (Or.inl h3)
          exact ⟨e, List.mem_cons_of_mem _ he, h4⟩
        · rcases List.mem_cons.1 he with rfl | he
          · exact ⟨_, List.mem_cons_self, h1, h2⟩
          · obtain ⟨e, he, h4⟩ := ih.2 (Or.inr ⟨e, he, h1, h2⟩)
            exact ⟨e, List.mem_cons_of_mem _ he, h4⟩

theorem addItem_keys (rel leaf : Nat) (items : List (Nat × List Nat)) (k : Nat) :
    k ∈ (addItem rel leaf items).map Prod.fst ↔ k = rel ∨ k ∈ items.map Prod.fst := by
  induction items with
  | nil => simp [addItem]
  | cons e items ih =>
    obtain ⟨r, ls⟩ := e
    simp only [addItem]
    split
    · rename_i hr; subst hr; simp
    · simp only [List.map_cons, List.mem_cons, ih]
      constructor
      · rintro (h | h | h) <;> simp [h]
      · rintro (h | h | h) <;> simp [h]

theorem addItem_nodup (rel leaf : Nat) (items : List (Nat × List Nat))
    (h : (items.map Prod.fst).Nodup) : ((addItem rel leaf items).map Prod.fst).Nodup := by
  induction items with
  | nil => simp [addItem]
  | cons e items ih =>
    obtain ⟨r, ls⟩ := e
    simp only [List.map_cons, List.nodup_cons] at h
    simp only [addItem]
    split
    · simpa using h
    · rename_i hr
      simp only [List.map_cons, List.nodup_cons, addItem_keys]
      refine ⟨?_, ih h.2⟩
      rintro (h1 | h1)
      · exact hr h1
      · exact h.1 h1

/-- the graph of the relations of the parts in `seen`, over the words `ws` -/
structure GraphOK (A : Agreement) (ws : List (Nat × Token)) (seen : List (TTree P)) (g : RelGraph) : Prop where
  tok : ∀ e ∈ g.tokens, e ∈ ws ∧ e.2.forms = some (g.forms e.1)
  wf : g.WF
  items : ∀ rel w, (∃ e ∈ g.items, e.1 = rel ∧ w ∈ e.2) ↔
    ∃ n r prod rank cs t, .node n r prod rank cs ∈ seen ∧ A.relationOf r = some rel ∧
      HeadOf (.node n r prod rank cs) w t
  nodup : (g.items.map Prod.fst).Nodup

theorem graphOK_empty (A : Agreement) (ws : List (Nat × Token)) :
    GraphOK (P := P) A ws [] RelGraph.empty := by
  refine ⟨by simp [RelGraph.empty], ?_, by simp [RelGraph.empty], by simp [RelGraph.empty]⟩
  intro w; simp [RelGraph.empty]

theorem GraphOK.mono_leaf {A : Agreement} {ws : List (Nat × Token)} {seen : List (TTree P)} {g : RelGraph}
    (h : GraphOK A ws seen g) {x : TTree P}
    (hx : ∀ n r prod rank cs, x = .node n r prod rank cs → A.relationOf r = none) :
    GraphOK A ws (seen ++ [x]) g := by
  refine ⟨h.tok, h.wf, ?_, h.nodup⟩
  intro rel w
  rw [h.items]
  constructor
  · rintro ⟨n, r, prod, rank, cs, t, h1, h2⟩
    exact ⟨n, r, prod, rank, cs, t, List.mem_append_left _ h1, h2⟩
  · rintro ⟨n, r, prod, rank, cs, t, h1, h2, h3⟩
    rcases List.mem_append.1 h1 with h1 | h1
    · exact ⟨n, r, prod, rank, cs, t, h1, h2, h3⟩
    · simp only [List.mem_singleton] at h1
      have := hx _ _ _ _ _ h1.symm
      rw [this] at h2; simp at h2

theorem GraphOK.visit {A : Agreement} {ws : List (Nat × Token)} (hws : (ws.map Prod.fst).Nodup)
    {seen : List (TTree P)} {g g' : RelGraph} (h : GraphOK A ws seen g) {x : TTree P}
    (hx : ∀ l ∈ x.leaves, l ∈ ws) (hv : visitRelation A g x = .ok g') :
    GraphOK A ws (seen ++ [x]) g' := by
  cases x with
  | leaf l p t =>
    simp only [visitRelation, Except.ok.injEq] at hv
    subst hv
    exact h.mono_leaf (by intro _ _ _ _ _ he; simp at he)
  | node n r prod rank cs =>
    simp only [visitRelation] at hv
    cases hr : A.relationOf r with
    | none =>
      rw [hr] at hv
      simp only [Except.ok.injEq] at hv
      subst hv
      refine h.mono_leaf ?_
      intro _ _ _ _ _ he
      simp only [PTree.node.injEq] at he
      rw [← he.2.1]; exact hr
    | some rel =>
      rw [hr] at hv
      cases hm : (PTree.node n r prod rank cs).main with
      | error e => rw [hm] at hv; simp [Except.bind] at hv
      | ok m =>
        obtain ⟨l, t⟩ := m
        have hhead := main_iff.1 hm
        have hmem := hx _ (head_mem hhead)
        rw [hm] at hv
        simp only [Except.bind] at hv
        unfold RelGraph.add at hv
        cases hf : t.forms with
        | none => rw [hf] at hv; simp at hv
        | some fs =>
          rw [hf] at hv
          simp only [Except.ok.injEq] at hv
          have hitems : ∀ rel' w, (∃ e ∈ addItem rel l g.items, e.1 = rel' ∧ w ∈ e.2) ↔
              ∃ n' r' prod' rank' cs' t', .node n' r' prod' rank' cs' ∈ seen ++ [.node n r prod rank cs] ∧
                A.relationOf r' = some rel' ∧ HeadOf (.node n' r' prod' rank' cs') w t' := by
            intro rel' w
            rw [addItem_mem, h.items]
            constructor
            · rintro (⟨rfl, rfl⟩ | ⟨n', r', prod', rank', cs', t', h1, h2⟩)
              · exact ⟨n, r, prod, rank, cs, t, by simp, hr, hhead⟩
              · exact ⟨n', r', prod', rank', cs', t', List.mem_append_left _ h1, h2⟩
            · rintro ⟨n', r', prod', rank', cs', t', h1, h2, h3⟩
              rcases List.mem_append.1 h1 with h1 | h1
              · exact Or.inr ⟨n', r', prod', rank', cs', t', h1, h2, h3⟩
              · simp only [List.mem_singleton] at h1
                rw [h1] at h3
                simp only [PTree.node.injEq] at h1
                rw [h1.2.1, hr] at h2
                exact Or.inl ⟨(Option.some.inj h2).symm, (head_unique h3 hhead).1⟩
          have hwf' : ∀ w, (∃ e ∈ addItem rel l g.items, w ∈ e.2) ↔ w = l ∨ ∃ e ∈ g.items, w ∈ e.2 := by
            intro w
            constructor
            · rintro ⟨e, he, hw⟩
              rcases (addItem_mem rel l e.1 w g.items).1 ⟨e, he, rfl, hw⟩ with h1 | ⟨e', h1, _, h2⟩
              · exact Or.inl h1.2
              · exact Or.inr ⟨e', h1, h2⟩
            · rintro (rfl | ⟨e', h1, h2⟩)
              · obtain ⟨e, he, _, hw⟩ := (addItem_mem rel w rel w g.items).2 (Or.inl ⟨rfl, rfl⟩)
                exact ⟨e, he, hw⟩
              · obtain ⟨e, he, _, hw⟩ := (addItem_mem rel l e'.1 w g.items).2 (Or.inr ⟨e', h1, rfl, h2⟩)
                exact ⟨e, he, hw⟩
          subst hv
          split
          · rename_i hin
            rw [List.any_eq_true] at hin
            obtain ⟨e, he, hel⟩ := hin
            simp only [beq_iff_eq] at hel
            refine ⟨h.tok, ?_, hitems, addItem_nodup _ _ _ h.nodup⟩
            intro w
            show w ∈ g.tokens.map Prod.fst ↔ ∃ e ∈ addItem rel l g.items, w ∈ e.2
            rw [hwf', h.wf w]
            constructor
            · exact Or.inr
            · rintro (rfl | h1)
              · exact (h.wf w).1 (List.mem_map.2 ⟨e, he, hel⟩)
              · exact h1
          · rename_i hnin
            have hnk : ∀ e ∈ g.tokens, e.1 ≠ l := by
              intro e he hel
              exact hnin (List.any_eq_true.2 ⟨e, he, by simp [hel]⟩)
            refine ⟨?_, ?_, hitems, addItem_nodup _ _ _ h.nodup⟩
            · intro e he
              rcases List.mem_append.1 he with he | he
              · obtain ⟨h1, h2⟩ := h.tok e he
                refine ⟨h1, ?_⟩
                show e.2.forms = some (update g.forms l fs e.1)
                rw [update_other _ _ (hnk e he), h2]
              · simp only [List.mem_singleton] at he
                subst he
                refine ⟨hmem, ?_⟩
                show t.forms = some (update g.forms l fs l)
                rw [update_same, hf]
            · intro w
              show w ∈ (g.tokens ++ [(l, t)]).map Prod.fst ↔ ∃ e ∈ addItem rel l g.items, w ∈ e.2
              rw [hwf', ← h.wf w]
              simp [or_comm]

theorem foldlM_graphOK {A : Agreement} {ws : List (Nat × Token)} (hws : (ws.map Prod.fst).Nodup) :
    ∀ (l seen : List (TTree P)) (g g' : RelGraph), GraphOK A ws seen g →
      (∀ x ∈ l, ∀ w ∈ x.leaves, w ∈ ws) → l.foldlM (visitRelation A) g = .ok g' →
      GraphOK A ws (seen ++ l) g' := by
  intro l
  induction l with
  | nil =>
    intro seen g g' h _ hf
    simp only [List.foldlM_nil, pure, Except.pure, Except.ok.injEq] at hf
    subst hf; simpa using h
  | cons x l ih =>
    intro seen g g' h hx hf
    simp only [List.foldlM_cons, bind, Except.bind] at hf
    cases hv : visitRelation A g x with
    | error e => rw [hv] at hf; simp at hf
    | ok g1 =>
      rw [hv] at hf
      have := ih (seen ++ [x]) g1 g' (h.visit hws (hx x List.mem_cons_self) hv)
        (fun y hy => hx y (List.mem_cons_of_mem _ hy)) hf
      simpa using this

/-- the graph built from a tree -/
theorem treeRelations_ok {A : Agreement} {r : TTree P} {g : RelGraph}
    (hr : (r.leaves.map Prod.fst).Nodup) (h : treeRelations A r = .ok g) :
    (∀ e ∈ g.tokens, e ∈ r.leaves ∧ e.2.forms = some (g.forms e.1)) ∧ g.WF ∧
    (∀ rel w, (∃ e ∈ g.items, e.1 = rel ∧ w ∈ e.2) ↔ ∃ t, Related A r rel w t) ∧
    (g.items.map Prod.fst).Nodup := by
  have hok := foldlM_graphOK hr r.walk [] _ g (graphOK_empty A r.leaves)
    (fun x hx => sub_leaves (mem_walk_iff.1 hx)) h
  rw [List.nil_append] at hok
  refine ⟨hok.tok, hok.wf, ?_, hok.nodup⟩
  intro rel w
  rw [hok.items]
  constructor
  · rintro ⟨n, r', prod, rank, cs, t, h1, h2, h3⟩
    exact ⟨t, n, r', prod, rank, cs, mem_walk_iff.1 h1, h2, h3⟩
  · rintro ⟨t, n, r', prod, rank, cs, h1, h2, h3⟩
    exact ⟨n, r', prod, rank, cs, t, mem_walk_iff.2 h1, h2, h3⟩

/-- an item raises or not whatever the graph -/
def VisitOK (A : Agreement) (x : TTree P) : Prop :=
  ∀ n r prod rank cs, x = .node n r prod rank cs → A.relationOf r ≠ none →
    ∃ l t fs, HeadOf x l t ∧ t.forms = some fs

theorem visit_ok_iff {A : Agreement} {g : RelGraph} {x : TTree P} :
    (∃ g', visitRelation A g x = .ok g') ↔ VisitOK A x := by
  cases x with
  | leaf l p t => simp [visitRelation, VisitOK]
  | node n r prod rank cs =>
    simp only [visitRelation]
    cases hr : A.relationOf r with
    | none =>
      simp only [Except.ok.injEq, exists_eq', true_iff]
      intro _ _ _ _ _ he h
      simp only [PTree.node.injEq] at he
      rw [← he.2.1, hr] at h; simp at h
    | some rel =>
      simp only []
      cases hm : (PTree.node n r prod rank cs).main with
      | error e =>
        simp only [Except.bind, reduceCtorEq, exists_false, false_iff]
        intro hv
        obtain ⟨l, t, fs, h1, _⟩ := hv n r prod rank cs rfl (by simp [hr])
        rw [main_iff.2 h1] at hm; simp at hm
      | ok m =>
        obtain ⟨l, t⟩ := m
        simp only [Except.bind, RelGraph.add]
        cases hf : t.forms with
        | none =>
          simp only [reduceCtorEq, exists_false, false_iff]
          intro hv
          obtain ⟨l', t', fs, h1, h2⟩ := hv n r prod rank cs rfl (by simp [hr])
          rw [main_iff.2 h1] at hm
          simp only [Except.ok.injEq, Prod.mk.injEq] at hm
          rw [hm.2, hf] at h2; simp at h2
        | some fs =>
          simp only [Except.ok.injEq, exists_eq', true_iff]
          intro _ _ _ _ _ _ _
          exact ⟨l, t, fs, main_iff.1 hm, hf⟩

theorem foldlM_ok_iff {A : Agreement} : ∀ (l : List (TTree P)) (g : RelGraph),
    (∃ g', l.foldlM (visitRelation A) g = .ok g') ↔ ∀ x ∈ l, VisitOK A x := by
  intro l
  induction l with
  | nil => intro g; simp [pure, Except.pure]
  | cons x l ih =>
    intro g
    simp only [List.foldlM_cons, bind, Except.bind, List.mem_cons, forall_eq_or_imp]
    rw [← visit_ok_iff (g := g)]
    cases hv : visitRelation A g x with
    | error e => simp
    | ok g1 => simp only [Except.ok.injEq, exists_eq', true_and]; exact ih g1

theorem treeRelations_ok_iff {A : Agreement} {r : TTree P} :
    (∃ g, treeRelations A r = .ok g) ↔ HeadsOK A r := by
  unfold treeRelations
  rw [foldlM_ok_iff]
  constructor
  · intro h n r' prod rank cs hs hr
    exact h _ (mem_walk_iff.2 hs) n r' prod rank cs rfl hr
  · intro h x hx n r' prod rank cs he hr
    subst he
    exact h n r' prod rank cs (mem_walk_iff.1 hx) hr

/-! ### writing tokens back -/

theorem nodup_fst_eq {α β} {ws : List (α × β)} (hws : (ws.map Prod.fst).Nodup) {e l : α × β}
    (he : e ∈ ws) (hl : l ∈ ws) (h : e.1 = l.1) : e = l := by
  induction ws with
  | nil => simp at he
  | cons x ws ih =>
    simp only [List.map_cons, List.nodup_cons, List.mem_map, not_exists, not_and] at hws
    rcases List.mem_cons.1 he with he' | he' <;> rcases List.mem_cons.1 hl with hl' | hl'
    · rw [he', hl']
    · rw [he'] at h; exact absurd h.symm (hws.1 l hl')
    · rw [hl'] at h; exact absurd h (hws.1 e he')
    · exact ih hws.2 he' hl'

/-- the token of a word after the check -/
def newTok (g : RelGraph) (l : Nat × Token) : Token :=
  if l.1 ∈ g.tokens.map Prod.fst then { l.2 with forms := some (g.forms l.1) } else l.2

theorem constrain_eq {ws : List (Nat × Token)} (hws : (ws.map Prod.fst).Nodup) {g : RelGraph}
    (hg : ∀ e ∈ g.tokens, e ∈ ws ∧ ∃ fs, e.2.forms = some fs) {l : Nat × Token} (hl : l ∈ ws) :
    g.constrain l.1 l.2 = .ok (newTok g l) := by
  unfold RelGraph.constrain newTok
  cases hf : g.tokens.find? (fun e => e.1 == l.1) with
  | none =>
    have : l.1 ∉ g.tokens.map Prod.fst := by
      intro h
      obtain ⟨e, he, hel⟩ := List.mem_map.1 h
      have := List.find?_eq_none.1 hf e he
      simp [hel] at this
    simp [this]
  | some e =>
    have he := List.mem_of_find?_eq_some hf
    have hel : e.1 = l.1 := by simpa using List.find?_some hf
    obtain ⟨h1, fs, h2⟩ := hg e he
    have heq : e = l := nodup_fst_eq hws h1 hl hel
    subst heq
    have : e.1 ∈ g.tokens.map Prod.fst := List.mem_map.2 ⟨e, he, rfl⟩
    simp [this, Token.constrained, h2]

theorem treeConstrain_eq {ws : List (Nat × Token)} (hws : (ws.map Prod.fst).Nodup) {g : RelGraph}
    (hg : ∀ e ∈ g.tokens, e ∈ ws ∧ ∃ fs, e.2.forms = some fs) :
    ∀ (ls : List (Nat × Token)) (σ : Store), (∀ l ∈ ls, l ∈ ws) → (ls.map Prod.fst).Nodup →
      ∃ σ', ls.foldlM (visitApply g) σ = .ok σ' ∧
        (∀ l ∈ ls, σ' l.1 = some (newTok g l)) ∧ ∀ w, w ∉ ls.map Prod.fst → σ' w = σ w := by
  intro ls
  induction ls with
  | nil => intro σ _ _; exact ⟨σ, rfl, by simp, fun _ _ => rfl⟩
  | cons l ls ih =>
    intro σ hls hnd
    simp only [List.map_cons, List.nodup_cons] at hnd
    obtain ⟨σ', h1, h2, h3⟩ := ih (update σ l.1 (some (newTok g l)))
      (fun x hx => hls x (List.mem_cons_of_mem _ hx)) hnd.2
    refine ⟨σ', ?_, ?_, ?_⟩
    · simp only [List.foldlM_cons, bind, Except.bind, visitApply,
        constrain_eq hws hg (hls l List.mem_cons_self), Except.map]
      exact h1
    · intro x hx
      rcases List.mem_cons.1 hx with rfl | hx
      · rw [h3 _ hnd.1, update_same]
      · exact h2 x hx
    · intro w hw
      simp only [List.map_cons, List.mem_cons, not_or] at hw
      rw [h3 w hw.2, update_other _ _ hw.1]

/-! ### one tree -/

/-- What `prepareMatch` does with a tree whose pruned and loaded root is `r`. -/
inductive Outcome (A : Agreement) (σ : Store) (range : Nat × Nat) (r : TTree P) :
    Except Err (Option (Match P) × Store) → Prop
  | raised {e} : treeRelations A r = .error e → Outcome A σ range r (.error e)
  | rejected {g} : treeRelations A r = .ok g → (g.validate A.relation).2 = false →
      Outcome A σ range r (.ok (none, σ))
  | accepted {g σ' span} : treeRelations A r = .ok g → (g.validate A.relation).2 = true →
      (∀ l ∈ r.leaves, σ' l.1 = some (newTok (g.validate A.relation).1 l)) →
      (∀ w, w ∉ r.leaves.map Prod.fst → σ' w = σ w) →
      tokensSpan (r.leaves.map (newTok (g.validate A.relation).1)) = .ok span →
      Outcome A σ range r (.ok (some ⟨⟨r, range⟩, r.leaves.map (newTok (g.validate A.relation).1), span⟩, σ'))

theorem tokensSpan_ok {ts : List Token} (h : ts ≠ []) : ∃ span, tokensSpan ts = .ok span := by
  unfold tokensSpan
  cases ts with
  | nil => simp at h
  | cons a ts => simp [List.getLast?_cons]

theorem prepareMatch_empty {A : Agreement} {σ : Store} {tree : Tree P Token}
    (h : tree.root.leaves = []) : prepareMatch A σ tree = .error .valueError := by
  unfold prepareMatch
  rw [prune_load, (prune_none_iff _).2 h]
  rfl

theorem prepareMatch_outcome {A : Agreement} {σ : Store} {tree : Tree P Token}
    (hnd : (tree.root.leaves.map Prod.fst).Nodup) (h : tree.root.leaves ≠ []) :
    ∃ r0, tree.root.prune = some r0 ∧
      Outcome A σ tree.range (r0.load σ) (prepareMatch A σ tree) := by
  cases hp : tree.root.prune with
  | none => exact absurd ((prune_none_iff _).1 hp) h
  | some r0 =>
    refine ⟨r0, rfl, ?_⟩
    have hl : (r0.load σ).leaves = tree.root.leaves.map (cur σ) := by
      rw [leaves_load, prune_leaves_some hp]
    have hids : ((r0.load σ).leaves.map Prod.fst).Nodup := by
      rw [hl, List.map_map]
      exact hnd
    have hne : (r0.load σ).leaves ≠ [] := by
      rw [hl]; simpa using h
    unfold prepareMatch
    rw [prune_load, hp]
    simp only [Option.map_some]
    generalize r0.load σ = r at *
    cases hr : treeRelations A r with
    | error e => exact .raised hr
    | ok g =>
      simp only [bind, Except.bind]
      obtain ⟨h1, _, _, _⟩ := treeRelations_ok hids hr
      cases hv : (g.validate A.relation).2 with
      | false =>
        simp only [Bool.false_eq_true, if_false, pure, Except.pure]
        exact .rejected hr hv
      | true =>
        simp only [if_true, pure, Except.pure]
        obtain ⟨σ', k1, k2, k3⟩ := treeConstrain_eq (g := (g.validate A.relation).1) hids
          (fun e he => ⟨(h1 e he).1, _, (h1 e he).2⟩) r.leaves σ (fun l hl => hl) hids
        have ht : (r.load σ').leaves.map Prod.snd
            = r.leaves.map (newTok (g.validate A.relation).1) := by
          rw [leaves_load, List.map_map]
          refine List.map_congr_left (fun l hl => ?_)
          simp [cur, k2 l hl]
        unfold treeConstrain
        rw [k1]
        simp only []
        rw [ht]
        obtain ⟨span, hs⟩ := tokensSpan_ok (ts := r.leaves.map (newTok (g.validate A.relation).1))
          (by simpa using hne)
        rw [hs]
        exact .accepted hr hv k2 k3 hs

/-! ### narrowing -/

theorem _root_.Yargy.Spec.Narrowed.refl (t : Token) : Narrowed t t :=
  ⟨rfl, rfl, rfl, rfl, id, fun fs h => ⟨fs, h, fun _ h => h, id⟩⟩

theorem _root_.Yargy.Spec.Narrowed.trans {a b c : Token} (h : Narrowed a b) (h' : Narrowed b c) : Narrowed a c := by
  refine ⟨h'.value.trans h.value, h'.span.trans h.span, h'.type.trans h.type, h'.tag.trans h.tag,
    fun x => h'.plain (h.plain x), ?_⟩
  intro fs hfs
  obtain ⟨fs', h1, h2, h3⟩ := h.morph fs hfs
  obtain ⟨fs'', k1, k2, k3⟩ := h'.morph fs' h1
  exact ⟨fs'', k1, fun f hf => h2 f (k2 f hf), fun hn => k3 (h3 hn)⟩

theorem _root_.Yargy.Spec.Narrowed.forms_none {a b : Token} (h : Narrowed a b) : b.forms = none ↔ a.forms = none := by
  constructor
  · intro hb
    cases ha : a.forms with
    | none => rfl
    | some fs => obtain ⟨_, h1, _⟩ := h.morph fs ha; rw [hb] at h1; simp at h1
  · exact h.plain

theorem newTok_narrowed {R : Nat → Relation} {g : RelGraph} {ws : List (Nat × Token)}
    (hws : (ws.map Prod.fst).Nodup)
    (hg : ∀ e ∈ g.tokens, e ∈ ws ∧ e.2.forms = some (g.forms e.1))
    (hv : (g.validate R).2 = true) {l : Nat × Token} (hl : l ∈ ws) :
    Narrowed l.2 (newTok (g.validate R).1 l) := by
  unfold newTok
  split
  · rename_i hin
    obtain ⟨e, he, hel⟩ := List.mem_map.1 hin
    have he' : e ∈ g.tokens := he
    obtain ⟨h1, h2⟩ := hg e he'
    have heq := nodup_fst_eq hws h1 hl hel
    subst heq
    refine ⟨rfl, rfl, rfl, rfl, ?_, ?_⟩
    · intro hn; rw [hn] at h2; simp at h2
    · intro fs hfs
      rw [h2] at hfs
      simp only [Option.some.injEq] at hfs
      subst hfs
      refine ⟨_, rfl, validate_subset R g e.1, fun _ => ?_⟩
      have := List.all_eq_true.1 hv e he'
      simpa [RelGraph.validate] using this
  · exact Narrowed.refl _

/-- what is known about the tokens written so far -/
def StoreOK (home : Home P Token) (σ : Store) : Prop :=
  ∀ w t', σ w = some t' → ∃ i p t, home w = some (i, p, t) ∧ Narrowed t t'

theorem storeOK_init {home : Home P Token} : StoreOK home Store.init := by
  intro w t' h; simp [Store.init] at h

theorem cur_narrowed {home : Home P Token} {n : Nat} {t : TTree P} {i j : Nat} {σ : Store}
    (h : Layout home n t i j) (hσ : StoreOK home σ) {l : Nat × Token} (hl : l ∈ t.leaves) :
    Narrowed l.2 (cur σ l).2 := by
  obtain ⟨m, hm⟩ := List.getElem?_of_mem hl
  obtain ⟨p, hp⟩ := (layout_leaves h).2.2 m l hm
  unfold cur
  cases hs : σ l.1 with
  | none => exact Narrowed.refl _
  | some t' =>
    obtain ⟨i', p', t0, h1, h2⟩ := hσ _ _ hs
    rw [hp] at h1
    simp only [Option.some.injEq, Prod.mk.injEq] at h1
    rw [h1.2.2]; exact h2

/-- the tree's leaves in their current state, checked -/
structure Accepted (A : Agreement) (home : Home P Token) (tree : Tree P Token) (σ σ' : Store)
    (m : Match P) : Prop where
  root : ∃ r0, tree.root.prune = some r0 ∧ m.tree = ⟨r0.load σ, tree.range⟩
  store : StoreOK home σ'
  others : ∀ w, w ∉ tree.root.leaves.map Prod.fst → σ' w = σ w
  written : ∀ l ∈ tree.root.leaves, ∃ t, σ' l.1 = some t ∧ Narrowed (cur σ l).2 t
  tokens : m.tokens = tree.root.leaves.map (fun l => (cur σ' l).2)
  span : tokensSpan m.tokens = .ok m.span
  nonempty : tree.root.leaves ≠ []
  keeps : ∀ w, (σ w).isSome → (σ' w).isSome

theorem prepareMatch_accepted {A : Agreement} {home : Home P Token} {n : Nat} {tree : Tree P Token}
    {i j : Nat} (hl : Layout home n tree.root i j) {σ σ' : Store} (hσ : StoreOK home σ) {m : Match P}
    (h : prepareMatch A σ tree = .ok (some m, σ')) : Accepted A home tree σ σ' m := by
  have hne : tree.root.leaves ≠ [] := by
    intro he
    rw [prepareMatch_empty he] at h; simp at h
  have hnd := layout_nodup hl
  obtain ⟨r0, h0, ho⟩ := prepareMatch_outcome (A := A) (σ := σ) hnd hne
  have hlv : (r0.load σ).leaves = tree.root.leaves.map (cur σ) := by
    rw [leaves_load, prune_leaves_some h0]
  have hids : ((r0.load σ).leaves.map Prod.fst).Nodup := by
    rw [hlv, List.map_map]
    exact hnd
  rw [h] at ho
  cases ho with
  | @accepted g _ span hr hv h1 h2 h3 =>
    obtain ⟨g1, g2, _, _⟩ := treeRelations_ok hids hr
    have hk : (r0.load σ).leaves.map Prod.fst = tree.root.leaves.map Prod.fst := by
      rw [hlv, List.map_map]; rfl
    have hw : ∀ l ∈ tree.root.leaves, σ' l.1 = some (newTok (g.validate A.relation).1 (cur σ l)) ∧
        Narrowed (cur σ l).2 (newTok (g.validate A.relation).1 (cur σ l)) := by
      intro l hl
      have hl' : cur σ l ∈ (r0.load σ).leaves := by rw [hlv]; exact List.mem_map.2 ⟨l, hl, rfl⟩
      exact ⟨h1 _ hl', newTok_narrowed hids g1 hv hl'⟩
    have ho : ∀ w, w ∉ tree.root.leaves.map Prod.fst → σ' w = σ w := by rw [← hk]; exact h2
    refine ⟨⟨r0, h0, rfl⟩, ?_, ho, ?_, ?_, h3, hne, ?_⟩
    · intro w t' ht
      by_cases hw' : w ∈ tree.root.leaves.map Prod.fst
      · obtain ⟨l, hl1, rfl⟩ := List.mem_map.1 hw'
        obtain ⟨k1, k2⟩ := hw l hl1
        rw [k1] at ht
        simp only [Option.some.injEq] at ht
        subst ht
        obtain ⟨m', hm⟩ := List.getElem?_of_mem hl1
        obtain ⟨p, hp⟩ := (layout_leaves hl).2.2 m' l hm
        exact ⟨_, _, _, hp, (cur_narrowed hl hσ hl1).trans k2⟩
      · rw [ho w hw'] at ht
        exact hσ w t' ht
    · intro l hl1
      exact ⟨_, (hw l hl1).1, (hw l hl1).2⟩
    · show (r0.load σ).leaves.map _ = _
      rw [hlv, List.map_map]
      refine List.map_congr_left (fun l hl1 => ?_)
      simp [cur, (hw l hl1).1]
    · intro w hs
      by_cases hw' : w ∈ tree.root.leaves.map Prod.fst
      · obtain ⟨l, hl1, rfl⟩ := List.mem_map.1 hw'
        rw [(hw l hl1).1]; rfl
      · rw [ho w hw']; exact hs

theorem prepareMatch_rejected {A : Agreement} {tree : Tree P Token}
    (hnd : (tree.root.leaves.map Prod.fst).Nodup) {σ σ' : Store}
    (h : prepareMatch A σ tree = .ok (none, σ')) : σ' = σ := by
  have hne : tree.root.leaves ≠ [] := by
    intro he
    rw [prepareMatch_empty he] at h; simp at h
  obtain ⟨r0, h0, ho⟩ := prepareMatch_outcome (A := A) (σ := σ) hnd hne
  rw [h] at ho
  cases ho with
  | rejected => rfl

end Yargy
