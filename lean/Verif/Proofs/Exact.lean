import Verif.Proofs.Front
import Verif.Properties.Pipelines
import Verif.Spec.Exact
/-! Matches of grammars without agreement: the tokens are those of the derivation. -/
set_option linter.unusedSectionVars false
namespace Yargy.Exact
open Spec

variable {P H : Type} [DecidableEq H] {G : Grammar P Token} {A : Agreement} {hash : Key → H}
  {toks : List Token} {all : Bool}

theorem no_relations (hA : ∀ r, A.relationOf r = none) (t : TTree P) : treeRelations A t = .ok RelGraph.empty := by
  unfold treeRelations
  generalize t.walk = l
  induction l with
  | nil => rfl
  | cons x l ih =>
    rw [List.foldlM_cons]
    have : visitRelation A RelGraph.empty x = .ok RelGraph.empty := by
      cases x with
      | leaf => rfl
      | node n r p k cs => simp only [visitRelation, hA]
    rw [this]
    exact ih

/-- The tokens written are those of the leaves. -/
def StoreExact (home : Home P Token) (σ : Store) : Prop :=
  ∀ w t, σ w = some t → ∃ i p, home w = some (i, p, t)

theorem exact_init {home : Home P Token} : StoreExact home Store.init := by
  intro w t h; simp [Store.init] at h

theorem cur_exact {home : Home P Token} {n : Nat} {t : TTree P} {i j : Nat} {σ : Store}
    (h : Layout home n t i j) (hσ : StoreExact home σ) {l : Nat × Token} (hl : l ∈ t.leaves) : cur σ l = l := by
  obtain ⟨m, hm⟩ := List.getElem?_of_mem hl
  obtain ⟨p, hp⟩ := (layout_leaves h).2.2 m l hm
  unfold cur
  cases hs : σ l.1 with
  | none => rfl
  | some t' =>
    obtain ⟨i', p', h1⟩ := hσ _ _ hs
    rw [hp] at h1
    simp only [Option.some.injEq, Prod.mk.injEq] at h1
    rw [← h1.2.2]; rfl

theorem load_exact {σ : Store} {t : TTree P} :
    (∀ l ∈ t.leaves, cur σ l = l) → t.load σ = t := by
  refine ptree_induct (M := fun t : TTree P => (∀ l ∈ t.leaves, cur σ l = l) → t.load σ = t) ?_ ?_ t
  · intro l p t h
    have := h (l, t) List.mem_cons_self
    simp only [cur, Prod.mk.injEq, true_and] at this
    simp [PTree.load, this]
  · intro n r prod k cs ih h
    simp only [PTree.load, loadAll_eq]
    congr 1
    conv => rhs; rw [← List.map_id cs]
    refine List.map_congr_left (fun c hc => ih c hc (fun l hl => h l ?_))
    rw [leaves_node]
    exact List.mem_flatMap.2 ⟨c, hc, hl⟩

/-- One tree. -/
theorem accepted_exact (hA : ∀ r, A.relationOf r = none) {home : Home P Token} {n : Nat} {tree : Tree P Token}
    {i j : Nat} (hl : Layout home n tree.root i j) {σ σ' : Store} (hσ : StoreExact home σ) {m : Match P}
    (h : prepareMatch A σ tree = .ok (some m, σ')) :
    StoreExact home σ' ∧ tree.root.prune = some m.tree.root ∧ m.tree.range = tree.range ∧
      m.tokens = tree.root.leaves.map Prod.snd := by
  have hne : tree.root.leaves ≠ [] := by
    intro he
    rw [prepareMatch_empty he] at h; simp at h
  have hnd := layout_nodup hl
  obtain ⟨r0, h0, ho⟩ := prepareMatch_outcome (A := A) (σ := σ) hnd hne
  have e : r0.load σ = r0 := load_exact (fun l hm => cur_exact hl hσ (by rwa [← prune_leaves_some h0]))
  rw [h, e] at ho
  cases ho with
  | @accepted g _ span hr hv h1 h2 h3 =>
    rw [no_relations hA] at hr
    cases hr
    have ht : ∀ l, newTok (RelGraph.empty.validate A.relation).1 l = l.2 := by
      intro l
      unfold newTok
      rw [if_neg]
      simp [RelGraph.validate, RelGraph.empty]
    rw [prune_leaves_some h0] at h1 h2
    refine ⟨?_, h0, rfl, ?_⟩
    · intro w t hw
      by_cases hw' : w ∈ tree.root.leaves.map Prod.fst
      · obtain ⟨l, hl1, rfl⟩ := List.mem_map.1 hw'
        rw [h1 l hl1, ht] at hw
        cases hw
        obtain ⟨m', hm⟩ := List.getElem?_of_mem hl1
        obtain ⟨p, hp⟩ := (layout_leaves hl).2.2 m' l hm
        exact ⟨_, _, hp⟩
      · rw [h2 w hw'] at hw
        exact hσ w t hw
    · show r0.leaves.map _ = _
      rw [prune_leaves_some h0]
      exact List.map_congr_left (fun l _ => ht l)

theorem loopInv_exact (hA : ∀ r, A.relationOf r = none) (home : Home P Token) (n : Nat) :
    LoopInv A (fun σ ts => StoreExact home σ ∧ ∀ t ∈ ts, Laid home n t) := by
  refine ⟨?_, ?_⟩
  · rintro σ t ts ⟨h1, h2⟩
    exact ⟨h1, fun t' ht' => h2 t' (List.mem_cons_of_mem _ ht')⟩
  · rintro σ t ts x σ' ⟨h1, h2⟩ hp
    refine ⟨?_, fun t' ht' => h2 t' (List.mem_cons_of_mem _ ht')⟩
    cases x with
    | none =>
      rw [prepareMatch_rejected (layout_nodup (h2 t List.mem_cons_self)) hp]; exact h1
    | some m => exact (accepted_exact hA (h2 t List.mem_cons_self) h1 hp).1

/-- What is known of a match. -/
def Kept (home : Home P Token) (t : Tree P Token) (m : Match P) : Prop :=
  t.root.prune = some m.tree.root ∧ m.tree.range = t.range ∧ m.tokens = t.root.leaves.map Prod.snd

/-- The matches of `extract`, `findall` and `match`. -/
theorem returned_kept (hA : ∀ r, A.relationOf r = none) (hG : PredictSound G) (hL : PredictLossless G) {σ : Store}
    {m : Match P} (hm : Returned G A hash toks σ m) :
    ∃ home n t, (∃ all fuel cols, chart G hash toks all fuel = some cols ∧
      t ∈ prepareTrees (chartMatches G.start all cols)) ∧ Laid home n t ∧ StoreExact home σ ∧ Kept home t m := by
  rcases hm with ⟨all, fuel, ms, e, h1, h2⟩ | ⟨fuel, ms, h1, h2⟩ | ⟨fuel, h1⟩
  · obtain ⟨cols, k0, k⟩ := extract_run h1
    obtain ⟨home, n, hl⟩ := chart_laid hG k0
    obtain ⟨picks, k1, k2, k3, ⟨rest, k4, _⟩, _⟩ := prepareMatches_spec (loopInv_exact hA home n)
      (prepareTrees (chartMatches G.start all cols)) Store.init ⟨exact_init, hl⟩
    rw [← k] at k1 k4
    dsimp only at k1
    rw [← k1] at h2
    obtain ⟨x, hx, rfl⟩ := List.mem_map.1 h2
    obtain ⟨post, σ1, σ2, c1, c2⟩ := k3 x hx
    have ht := k2.subset (List.mem_map.2 ⟨x, hx, rfl⟩)
    exact ⟨home, n, x.1, ⟨all, fuel, cols, k0, ht⟩, hl _ ht, k4.1, (accepted_exact hA (hl _ ht) c1.1 c2).2⟩
  · obtain ⟨cols, l, acc, k0, l1, l2, l3, l4⟩ := findall_run hG hL h1
    obtain ⟨home, n, hl⟩ := chart_laid (all := true) hG k0
    have hl' : ∀ t ∈ l, Laid home n t := fun t ht => hl t (l1.mem_iff.1 ht)
    obtain ⟨⟨hσ, _⟩, new, e1, _, _, _, e4, _⟩ := collect_spec (loopInv_exact hA home n) l Store.init [] acc σ
      ⟨exact_init, hl'⟩ l3
    rw [List.nil_append] at e1
    subst e1
    rw [l4] at h2
    obtain ⟨s, hs, hm⟩ := List.mem_filterMap.1 h2
    obtain ⟨e, he, rfl⟩ := Option.map_eq_some_iff.1 hm
    obtain ⟨pre, t, post, σ1, σ2, b1, b2, b3, b4, _⟩ := e4 e (List.mem_of_find?_eq_some he)
    have ht : t ∈ l := by rw [b1]; simp
    exact ⟨home, n, t, ⟨true, fuel, cols, k0, l1.mem_iff.1 ht⟩, hl' t ht, hσ, (accepted_exact hA (hl' t ht) b3.1 b4).2⟩
  · obtain ⟨cols, l, k0, l1, l2, l3⟩ := match_run hG hL h1
    obtain ⟨home, n, hl⟩ := chart_laid (all := false) hG k0
    have hl' : ∀ t ∈ l, Laid home n t := fun t ht => hl t (l1.mem_iff.1 ht)
    obtain ⟨pre, t, post, b1, b2, _⟩ := firstMatch_spec l _ _ _ (fun t ht => layout_nodup (hl' t ht)) l3
    have ht : t ∈ l := by rw [b1]; simp
    obtain ⟨a1, a2⟩ := accepted_exact hA (hl' t ht) exact_init b2
    exact ⟨home, n, t, ⟨false, fuel, cols, k0, l1.mem_iff.1 ht⟩, hl' t ht, a1, a2⟩

/-! ### Leaves -/

theorem pairsAll_eq {P T : Type} (cs : List (DTree P T)) : leafPairsAll cs = cs.flatMap leafPairs := by
  induction cs with
  | nil => rfl
  | cons c cs ih => simp [leafPairsAll, ih]

theorem pairs_prune (t : PTree P Token) :
    leafPairs t.erase = match t.prune with | some t' => leafPairs t'.erase | none => [] := by
  refine ptree_induct (M := fun t => leafPairs t.erase = match t.prune with
    | some t' => leafPairs t'.erase | none => []) ?_ ?_ t
  · intro l p t; rfl
  · intro n r prod k cs ih
    have key : leafPairs (PTree.node n r prod k cs).erase =
        (cs.filterMap PTree.prune).flatMap (fun c => leafPairs c.erase) := by
      simp only [PTree.erase, leafPairs, pairsAll_eq, eraseAll_map, List.flatMap_map]
      induction cs with
      | nil => rfl
      | cons c cs ihc =>
        have h1 := ih c List.mem_cons_self
        have h2 := ihc (fun x hx => ih x (List.mem_cons_of_mem _ hx))
        rw [List.flatMap_cons, h1, h2]
        cases hc : c.prune with
        | none => rw [List.filterMap_cons_none hc]; rfl
        | some c' => rw [List.filterMap_cons_some hc, List.flatMap_cons]
    rw [key, prune_node]
    by_cases he : cs.filterMap PTree.prune = []
    · simp [he]
    · simp [he, PTree.erase, leafPairs, pairsAll_eq, eraseAll_map, List.flatMap_map]

theorem pairs_yield {T : Type} (t : DTree P T) : (leafPairs t).map Prod.snd = t.yield := by
  refine DTree.rec (motive_1 := fun t => (leafPairs t).map Prod.snd = t.yield)
    (motive_2 := fun ts => (leafPairsAll ts).map Prod.snd = yieldAll ts) ?_ ?_ ?_ ?_ t
  · intro p t; rfl
  · intro r prod cs ih; exact ih
  · rfl
  · intro c cs h1 h2
    simp [leafPairsAll, yieldAll, h1, h2]

theorem pairs_reading {T : Type} {lab : Nat → Option Attr} (hn : ∀ r, lab r = none) (t : DTree P T) :
    reading lab t = (leafPairs t).map (fun x => .pred x.1) := by
  refine DTree.rec (motive_1 := fun t => reading lab t = (leafPairs t).map (fun x => .pred x.1))
    (motive_2 := fun ts => readingAll lab ts = (leafPairsAll ts).map (fun x => .pred x.1)) ?_ ?_ ?_ ?_ t
  · intro p t; rfl
  · intro r prod cs ih
    rw [reading, hn, ih]
    rfl
  · rfl
  · intro c cs h1 h2
    simp [leafPairsAll, readingAll, h1, h2]

/-- The leaves of a derivation. -/
inductive From (G : Grammar P Token) (toks : List Token) : Nat → List (P × Token) → Nat → Prop
  | nil {i} : From G toks i [] i
  | cons {i p t l j} : toks[i]? = some t → G.accepts p t = true → From G toks (i + 1) l j →
      From G toks i ((p, G.constrain p t) :: l) j

theorem From.append {i j k : Nat} {a b : List (P × Token)} (h1 : From G toks i a j) (h2 : From G toks j b k) :
    From G toks i (a ++ b) k := by
  induction h1 with
  | nil => exact h2
  | cons g1 g2 _ ih => exact .cons g1 g2 (ih h2)

theorem derives_from {x : Term P} {i j : Nat} {t : DTree P Token} (h : Derives G toks x i j t) :
    From G toks i (leafPairs t) j := by
  refine Derives.rec (motive_1 := fun x i j t _ => From G toks i (leafPairs t) j)
    (motive_2 := fun xs i j ts _ => From G toks i (leafPairsAll ts) j) ?_ ?_ ?_ ?_ h
  · intro p i t ht ha
    exact .cons ht ha .nil
  · intro r i j prod cs _ _ ih
    exact ih
  · intro i
    exact .nil
  · intro x xs i j k t ts _ _ ih1 ih2
    exact ih1.append ih2

/-- A match of a grammar without agreement: its tree is a derivation without the empty nodes, with the tokens that the
predicates leave; these are the tokens of the match. -/
theorem returned_exact (hA : ∀ r, A.relationOf r = none) (hG : PredictSound G) (hL : PredictLossless G) {σ : Store}
    {m : Match P} (hm : Returned G A hash toks σ m) :
    ∃ d, Derives G toks (.rule G.start) m.tree.range.1 m.tree.range.2 d ∧
      leafPairs (m.tree.root.load σ).erase = leafPairs d ∧ m.tokens = d.yield := by
  obtain ⟨home, n, t, ⟨all, fuel, cols, k0, k1⟩, k2, k3, k4, k5, k6⟩ := returned_kept hA hG hL hm
  obtain ⟨s, hs, rfl⟩ := List.mem_map.1 k1
  have hd := chart_matches_sound hG k0 s hs
  change s.node.prune = _ at k4
  have hp := pairs_prune s.node
  rw [k4] at hp
  dsimp only at hp
  rw [load_exact (fun l hl => cur_exact k2 k3 (by rwa [← prune_leaves_some k4])), ← hp, k5]
  exact ⟨s.dtree, hd, rfl, by rw [k6]; exact (yield_erase s.node).symm⟩

end Yargy.Exact
