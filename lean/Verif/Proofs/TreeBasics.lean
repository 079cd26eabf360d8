import Verif.Spec.Match
import Verif.Spec.Erase
/-! Leaves, walks and heads of trees under loading and pruning. -/
set_option linter.unusedSectionVars false
namespace Yargy
open Spec

variable {P T : Type}

/-! ### leaves -/

theorem walkAll_eq (cs : List (PTree P T)) : walkAll cs = cs.flatMap PTree.walk := by
  induction cs with
  | nil => rfl
  | cons c cs ih => simp [walkAll, ih]

theorem leaves_leaf (l : Nat) (p : P) (t : T) : (PTree.leaf l p t).leaves = [(l, t)] := rfl

theorem leaves_node (n r : Nat) (prod : Production P) (k : Nat) (cs : List (PTree P T)) :
    (PTree.node n r prod k cs).leaves = cs.flatMap PTree.leaves := by
  unfold PTree.leaves
  simp only [PTree.walk, walkAll_eq, List.filterMap_cons, PTree.leaf?]
  induction cs with
  | nil => rfl
  | cons c cs ih => simp [List.filterMap_append, ih]

theorem yieldAll_eq (cs : List (DTree P T)) : yieldAll cs = cs.flatMap DTree.yield := by
  induction cs with
  | nil => rfl
  | cons c cs ih => simp [yieldAll, ih]

/-- induction on trees -/
theorem ptree_induct {M : PTree P T → Prop} (hl : ∀ l p t, M (.leaf l p t))
    (hn : ∀ n r prod k cs, (∀ c ∈ cs, M c) → M (.node n r prod k cs)) (t : PTree P T) : M t := by
  refine PTree.rec (motive_1 := M) (motive_2 := fun cs => ∀ c ∈ cs, M c) ?_ ?_ ?_ ?_ t
  · exact hl
  · intro n r prod k cs ih; exact hn n r prod k cs ih
  · simp
  · intro c cs h1 h2 x hx
    rcases List.mem_cons.1 hx with rfl | hx
    · exact h1
    · exact h2 x hx

theorem flatMap_congr' {α β} {f g : α → List β} {l : List α} (h : ∀ a ∈ l, f a = g a) :
    l.flatMap f = l.flatMap g := by
  induction l with
  | nil => rfl
  | cons a l ih =>
    rw [List.flatMap_cons, List.flatMap_cons, h a List.mem_cons_self,
      ih (fun b hb => h b (List.mem_cons_of_mem _ hb))]

theorem eraseAll_map (cs : List (PTree P T)) : eraseAll cs = cs.map PTree.erase := by
  induction cs with
  | nil => rfl
  | cons c cs ih => simp [eraseAll, ih]

theorem yield_erase (t : PTree P T) : t.erase.yield = t.leaves.map Prod.snd := by
  refine ptree_induct (M := fun t => t.erase.yield = t.leaves.map Prod.snd) ?_ ?_ t
  · intro l p t; rfl
  · intro n r prod k cs ih
    simp only [PTree.erase, DTree.yield, leaves_node, yieldAll_eq, eraseAll_map, List.flatMap_map,
      List.map_flatMap]
    exact flatMap_congr' ih

/-- the token a leaf holds now -/
def cur (σ : Store) (l : Nat × Token) : Nat × Token := (l.1, (σ l.1).getD l.2)

theorem loadAll_eq (σ : Store) (cs : List (TTree P)) : loadAll σ cs = cs.map (PTree.load σ) := by
  induction cs with
  | nil => rfl
  | cons c cs ih => simp [loadAll, ih]

theorem leaves_load (σ : Store) (t : TTree P) : (t.load σ).leaves = t.leaves.map (cur σ) := by
  refine ptree_induct (M := fun t : TTree P => (t.load σ).leaves = t.leaves.map (cur σ)) ?_ ?_ t
  · intro l p t; rfl
  · intro n r prod k cs ih
    simp only [PTree.load, leaves_node, loadAll_eq, List.flatMap_map, List.map_flatMap]
    exact flatMap_congr' ih

theorem load_init (t : TTree P) : t.load Store.init = t := by
  refine ptree_induct (M := fun t : TTree P => t.load Store.init = t) ?_ ?_ t
  · intro l p t; simp [PTree.load, Store.init]
  · intro n r prod k cs ih
    simp only [PTree.load, loadAll_eq]
    congr 1
    conv => rhs; rw [← List.map_id cs]
    exact List.map_congr_left ih

theorem load_congr {σ σ' : Store} (t : TTree P) (h : ∀ l ∈ t.leaves, cur σ l = cur σ' l) :
    t.load σ = t.load σ' := by
  refine ptree_induct (M := fun t : TTree P => (∀ l ∈ t.leaves, cur σ l = cur σ' l) →
    t.load σ = t.load σ') ?_ ?_ t h
  · intro l p t h
    have := h (l, t) (by simp [leaves_leaf])
    simp only [cur, Prod.mk.injEq, true_and] at this
    simp [PTree.load, this]
  · intro n r prod k cs ih h
    simp only [PTree.load, loadAll_eq]
    congr 1
    refine List.map_congr_left (fun c hc => ih c hc (fun l hl => h l ?_))
    rw [leaves_node]
    exact List.mem_flatMap.2 ⟨c, hc, hl⟩

/-! ### pruning -/

theorem pruneAll_eq (cs : List (PTree P T)) : pruneAll cs = cs.filterMap PTree.prune := by
  induction cs with
  | nil => rfl
  | cons c cs ih =>
    unfold pruneAll
    rw [List.filterMap_cons]
    cases c.prune <;> simp [ih]

theorem prune_node (n r : Nat) (prod : Production P) (k : Nat) (cs : List (PTree P T)) :
    (PTree.node n r prod k cs).prune =
      if cs.filterMap PTree.prune = [] then none
      else some (.node n r prod k (cs.filterMap PTree.prune)) := by
  unfold PTree.prune
  rw [pruneAll_eq]
  cases cs.filterMap PTree.prune <;> simp

theorem prune_leaves (t : PTree P T) :
    t.leaves = match t.prune with | some t' => t'.leaves | none => [] := by
  refine ptree_induct (M := fun t => t.leaves = match t.prune with | some t' => t'.leaves | none => []) ?_ ?_ t
  · intro l p t; rfl
  · intro n r prod k cs ih
    rw [prune_node]
    have key : cs.flatMap PTree.leaves = (cs.filterMap PTree.prune).flatMap PTree.leaves := by
      clear n r prod k
      induction cs with
      | nil => rfl
      | cons c cs ih2 =>
        rw [List.flatMap_cons, List.filterMap_cons, ih c List.mem_cons_self,
          ih2 (fun c hc => ih c (List.mem_cons_of_mem _ hc))]
        cases c.prune <;> simp
    rw [leaves_node, key]
    by_cases he : cs.filterMap PTree.prune = []
    · simp [he]
    · simp [he, leaves_node]

theorem prune_leaves_some {t t' : PTree P T} (h : t.prune = some t') : t'.leaves = t.leaves := by
  have := prune_leaves t; rw [h] at this; exact this.symm

theorem prune_none_iff (t : PTree P T) : t.prune = none ↔ t.leaves = [] := by
  refine ptree_induct (M := fun t => t.prune = none ↔ t.leaves = []) ?_ ?_ t
  · intro l p t; simp [PTree.prune, leaves_leaf]
  · intro n r prod k cs ih
    rw [prune_node, leaves_node]
    by_cases he : cs.filterMap PTree.prune = []
    · simp only [he, if_true, true_iff]
      rw [List.flatMap_eq_nil_iff]
      intro c hc
      exact (ih c hc).1 (List.filterMap_eq_nil_iff.1 he c hc)
    · simp only [he, if_false, reduceCtorEq, false_iff]
      intro h2
      apply he
      rw [List.flatMap_eq_nil_iff] at h2
      exact List.filterMap_eq_nil_iff.2 (fun c hc => (ih c hc).2 (h2 c hc))

theorem prune_load (σ : Store) (t : TTree P) : (t.load σ).prune = (t.prune).map (PTree.load σ) := by
  refine ptree_induct (M := fun t : TTree P => (t.load σ).prune = (t.prune).map (PTree.load σ)) ?_ ?_ t
  · intro l p t; rfl
  · intro n r prod k cs ih
    simp only [PTree.load, loadAll_eq]
    rw [prune_node, prune_node]
    have key : (cs.map (PTree.load σ)).filterMap PTree.prune
        = (cs.filterMap PTree.prune).map (PTree.load σ) := by
      clear n r prod k
      induction cs with
      | nil => rfl
      | cons c cs ih2 =>
        rw [List.map_cons, List.filterMap_cons, List.filterMap_cons, ih c List.mem_cons_self,
          ih2 (fun c hc => ih c (List.mem_cons_of_mem _ hc))]
        cases c.prune <;> simp
    rw [key]
    by_cases he : cs.filterMap PTree.prune = []
    · simp [he]
    · simp [he, PTree.load, loadAll_eq]

theorem load_load (σ σ' : Store) (t : TTree P)
    (h : ∀ l ∈ t.leaves, ∀ x, σ l.1 = some x → (σ' l.1).isSome) :
    (t.load σ).load σ' = t.load σ' := by
  refine ptree_induct (M := fun t : TTree P => (∀ l ∈ t.leaves, ∀ x, σ l.1 = some x → (σ' l.1).isSome) →
    (t.load σ).load σ' = t.load σ') ?_ ?_ t h
  · intro l p t h
    have := h (l, t) (by simp [leaves_leaf])
    simp only [PTree.load]
    cases h1 : σ l with
    | none => simp
    | some x =>
      have := this x h1
      cases h2 : σ' l with
      | none => rw [h2] at this; simp at this
      | some y => simp
  · intro n r prod k cs ih h
    simp only [PTree.load, loadAll_eq, List.map_map]
    congr 1
    refine List.map_congr_left (fun c hc => ih c hc (fun l hl => h l ?_))
    rw [leaves_node]
    exact List.mem_flatMap.2 ⟨c, hc, hl⟩

/-! ### walks, parts, heads -/

theorem mem_walk_iff {x t : PTree P T} : x ∈ t.walk ↔ Sub x t := by
  refine ptree_induct (M := fun t => x ∈ t.walk ↔ Sub x t) ?_ ?_ t
  · intro l p t
    simp only [PTree.walk, List.mem_singleton]
    constructor
    · rintro rfl; exact .refl
    · intro h; cases h; rfl
  · intro n r prod k cs ih
    simp only [PTree.walk, walkAll_eq, List.mem_cons, List.mem_flatMap]
    constructor
    · rintro (rfl | ⟨c, hc, h⟩)
      · exact .refl
      · exact .child hc ((ih c hc).1 h)
    · intro h
      cases h with
      | refl => exact Or.inl rfl
      | child hc h => exact Or.inr ⟨_, hc, (ih _ hc).2 h⟩

theorem sub_leaves {x t : PTree P T} (h : Sub x t) : ∀ l ∈ x.leaves, l ∈ t.leaves := by
  induction h with
  | refl => exact fun l hl => hl
  | child hc _ ih =>
    intro l hl
    rw [leaves_node]
    exact List.mem_flatMap.2 ⟨_, hc, ih l hl⟩

theorem mainAt_eq (cs : List (PTree P T)) (n : Nat) :
    mainAt cs n = match cs[n]? with | some c => c.main | none => .error .indexError := by
  induction cs generalizing n with
  | nil => simp [mainAt]
  | cons c cs ih =>
    cases n with
    | zero => simp [mainAt]
    | succ n => simp [mainAt, ih]

theorem main_iff {t : PTree P T} {l : Nat} {w : T} : t.main = .ok (l, w) ↔ HeadOf t l w := by
  refine ptree_induct (M := fun t => t.main = .ok (l, w) ↔ HeadOf t l w) ?_ ?_ t
  · intro l' p t'
    simp only [PTree.main, Except.ok.injEq, Prod.mk.injEq]
    constructor
    · rintro ⟨rfl, rfl⟩; exact .leaf
    · intro h; cases h; exact ⟨rfl, rfl⟩
  · intro n r prod k cs ih
    simp only [PTree.main, mainAt_eq]
    constructor
    · intro h
      cases hc : cs[prod.main]? with
      | none => rw [hc] at h; simp at h
      | some c =>
        rw [hc] at h
        exact .node hc ((ih c (List.mem_of_getElem? hc)).1 h)
    · intro h
      cases h with
      | node hc h =>
        rw [hc]
        exact (ih _ (List.mem_of_getElem? hc)).2 h

theorem head_mem {t : PTree P T} {l : Nat} {w : T} (h : HeadOf t l w) : (l, w) ∈ t.leaves := by
  induction h with
  | leaf => simp [leaves_leaf]
  | node hc _ ih =>
    rw [leaves_node]
    exact List.mem_flatMap.2 ⟨_, List.mem_of_getElem? hc, ih⟩

theorem head_unique {t : PTree P T} {l l' : Nat} {w w' : T} (h : HeadOf t l w) (h' : HeadOf t l' w') :
    l = l' ∧ w = w' := by
  have h1 := main_iff.2 h
  have h2 := main_iff.2 h'
  rw [h1] at h2
  simpa using h2

/-! ### heads and parts of loaded trees -/

theorem head_load {σ : Store} {t : TTree P} {l : Nat} {w : Token} :
    HeadOf (t.load σ) l w ↔ ∃ w0, HeadOf t l w0 ∧ w = (σ l).getD w0 := by
  refine ptree_induct (M := fun t : TTree P =>
    HeadOf (t.load σ) l w ↔ ∃ w0, HeadOf t l w0 ∧ w = (σ l).getD w0) ?_ ?_ t
  · intro l' p t'
    simp only [PTree.load]
    constructor
    · intro h; cases h; exact ⟨t', .leaf, rfl⟩
    · rintro ⟨w0, h, rfl⟩; cases h; exact .leaf
  · intro n r prod k cs ih
    simp only [PTree.load, loadAll_eq]
    constructor
    · intro h
      cases h with
      | node hc h =>
        rw [List.getElem?_map] at hc
        obtain ⟨c0, h1, rfl⟩ := Option.map_eq_some_iff.1 hc
        obtain ⟨w0, h2, h3⟩ := (ih c0 (List.mem_of_getElem? h1)).1 h
        exact ⟨w0, .node h1 h2, h3⟩
    · rintro ⟨w0, h, h3⟩
      cases h with
      | node hc h =>
        refine .node (c := PTree.load σ _) (by rw [List.getElem?_map, hc]; rfl)
          ((ih _ (List.mem_of_getElem? hc)).2 ⟨w0, h, h3⟩)

theorem sub_load {σ : Store} {x t : TTree P} : Sub x (t.load σ) ↔ ∃ x0, Sub x0 t ∧ x = x0.load σ := by
  refine ptree_induct (M := fun t : TTree P => Sub x (t.load σ) ↔ ∃ x0, Sub x0 t ∧ x = x0.load σ) ?_ ?_ t
  · intro l' p t'
    simp only [PTree.load]
    constructor
    · intro h; cases h; exact ⟨_, .refl, rfl⟩
    · rintro ⟨w0, h, rfl⟩; cases h; exact .refl
  · intro n r prod k cs ih
    constructor
    · intro h
      simp only [PTree.load, loadAll_eq] at h
      cases h with
      | refl => exact ⟨_, .refl, by simp only [PTree.load, loadAll_eq]⟩
      | child hc h =>
        obtain ⟨c0, h1, rfl⟩ := List.mem_map.1 hc
        obtain ⟨x0, h2, h3⟩ := (ih c0 h1).1 h
        exact ⟨x0, .child h1 h2, h3⟩
    · rintro ⟨x0, h, rfl⟩
      cases h with
      | refl => exact .refl
      | child hc h =>
        simp only [PTree.load, loadAll_eq]
        exact .child (List.mem_map.2 ⟨_, hc, rfl⟩) ((ih _ hc).2 ⟨x0, h, rfl⟩)

end Yargy
