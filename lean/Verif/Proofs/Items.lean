import Verif.Proofs.Collect
import Verif.Properties.Agreement
/-! The words listed under each relation, and heads of pruned trees. -/
set_option linter.unusedSectionVars false
namespace Yargy
open Spec

variable {P : Type}

/-- elements in the same positions are related -/
inductive Pointwise {α β : Type} (R : α → β → Prop) : List α → List β → Prop
  | nil : Pointwise R [] []
  | cons {a b l l'} : R a b → Pointwise R l l' → Pointwise R (a :: l) (b :: l')

def headIs (x : TTree P) (l : Nat) : Prop := ∃ w, HeadOf x l w

structure ItemsOK (A : Agreement) (seen : List (TTree P)) (items : List (Nat × List Nat)) : Prop where
  lists : ∀ e ∈ items, Pointwise headIs (seen.filter (carries A e.1)) e.2
  rest : ∀ rel, rel ∉ items.map Prod.fst → seen.filter (carries A rel) = []

theorem forall₂_snoc {α β : Type} {R : α → β → Prop} {a b x y} (h : Pointwise R a b) (hx : R x y) :
    Pointwise R (a ++ [x]) (b ++ [y]) := by
  induction h with
  | nil => exact .cons hx .nil
  | cons h _ ih => exact .cons h ih

theorem forall₂_pairwise {α β : Type} {R : α → β → Prop} {Q : β → β → Prop} {a b}
    (h : Pointwise R a b) :
    a.Pairwise (fun x y => ∀ u v, R x u → R y v → Q u v) → b.Pairwise Q := by
  induction h with
  | nil => intro _; exact .nil
  | @cons x y a b h1 h2 ih =>
    intro hp
    rw [List.pairwise_cons] at hp ⊢
    refine ⟨?_, ih hp.2⟩
    intro v hv
    have : ∃ x' ∈ a, R x' v := by
      clear ih hp
      induction h2 with
      | nil => simp at hv
      | @cons p q a b k1 k2 ih =>
        rcases List.mem_cons.1 hv with rfl | hv
        · exact ⟨p, List.mem_cons_self, k1⟩
        · obtain ⟨x', h3, h4⟩ := ih hv
          exact ⟨x', List.mem_cons_of_mem _ h3, h4⟩
    obtain ⟨x', h3, h4⟩ := this
    exact hp.1 x' h3 _ _ h1 h4

theorem filter_snoc_none {A : Agreement} {rel : Nat} {seen : List (TTree P)} {x : TTree P}
    (h : carries A rel x = false) : (seen ++ [x]).filter (carries A rel) = seen.filter (carries A rel) := by
  simp [List.filter_append, h]

theorem filter_snoc_some {A : Agreement} {rel : Nat} {seen : List (TTree P)} {x : TTree P}
    (h : carries A rel x = true) :
    (seen ++ [x]).filter (carries A rel) = seen.filter (carries A rel) ++ [x] := by
  simp [List.filter_append, h]

theorem addItem_entries (rel l : Nat) (items : List (Nat × List Nat))
    (hn : (items.map Prod.fst).Nodup) : ∀ e ∈ addItem rel l items,
      (e ∈ items ∧ e.1 ≠ rel) ∨ (e.1 = rel ∧
        ((rel ∉ items.map Prod.fst ∧ e.2 = [l]) ∨ ∃ ls, (rel, ls) ∈ items ∧ e.2 = ls ++ [l])) := by
  induction items with
  | nil => intro e he; simp [addItem] at he; subst he; simp
  | cons x items ih =>
    obtain ⟨r, ls⟩ := x
    intro e he
    simp only [List.map_cons, List.nodup_cons] at hn
    simp only [addItem] at he
    split at he
    · rename_i hr
      subst hr
      rcases List.mem_cons.1 he with rfl | he
      · exact Or.inr ⟨rfl, Or.inr ⟨ls, List.mem_cons_self, rfl⟩⟩
      · refine Or.inl ⟨List.mem_cons_of_mem _ he, ?_⟩
        intro h
        exact hn.1 (List.mem_map.2 ⟨e, he, h⟩)
    · rename_i hr
      rcases List.mem_cons.1 he with rfl | he
      · exact Or.inl ⟨List.mem_cons_self, hr⟩
      · rcases ih hn.2 e he with ⟨h1, h2⟩ | ⟨h1, h2⟩
        · exact Or.inl ⟨List.mem_cons_of_mem _ h1, h2⟩
        · refine Or.inr ⟨h1, ?_⟩
          rcases h2 with ⟨h2, h3⟩ | ⟨ls', h2, h3⟩
          · left; refine ⟨?_, h3⟩
            simp only [List.map_cons, List.mem_cons, not_or]
            exact ⟨fun h => hr h.symm, h2⟩
          · exact Or.inr ⟨ls', List.mem_cons_of_mem _ h2, h3⟩

theorem ItemsOK.visit {A : Agreement} {seen : List (TTree P)} {g g' : RelGraph} {x : TTree P}
    (hn : (g.items.map Prod.fst).Nodup) (h : ItemsOK A seen g.items)
    (hv : visitRelation A g x = .ok g') :
    (g'.items.map Prod.fst).Nodup ∧ ItemsOK A (seen ++ [x]) g'.items := by
  cases x with
  | leaf l p t =>
    simp only [visitRelation, Except.ok.injEq] at hv
    subst hv
    refine ⟨hn, ?_, ?_⟩
    · intro e he; rw [filter_snoc_none rfl]; exact h.lists e he
    · intro rel hr; rw [filter_snoc_none rfl]; exact h.rest rel hr
  | node n r prod rank cs =>
    simp only [visitRelation] at hv
    cases hr : A.relationOf r with
    | none =>
      rw [hr] at hv
      simp only [Except.ok.injEq] at hv
      subst hv
      have hno : ∀ rel, carries A rel (PTree.node n r prod rank cs) = false := by
        intro rel; simp [carries, hr]
      refine ⟨hn, ?_, ?_⟩
      · intro e he; rw [filter_snoc_none (hno _)]; exact h.lists e he
      · intro rel hr; rw [filter_snoc_none (hno _)]; exact h.rest rel hr
    | some rel =>
      rw [hr] at hv
      simp only [] at hv
      obtain ⟨m, hm, hv⟩ : ∃ m, (PTree.node n r prod rank cs).main = .ok m ∧ g.add rel m.1 m.2 = .ok g' := by
        cases hm : (PTree.node n r prod rank cs).main with
        | error e => rw [hm] at hv; simp [Except.bind] at hv
        | ok m => rw [hm] at hv; exact ⟨m, rfl, hv⟩
      have hh : headIs (PTree.node n r prod rank cs) m.1 := ⟨m.2, main_iff.1 hm⟩
      have hi : g'.items = addItem rel m.1 g.items := by
        unfold RelGraph.add at hv
        split at hv
        · simp at hv
        · simp only [Except.ok.injEq] at hv
          subst hv
          split <;> rfl
      rw [hi]
      have hyes : carries A rel (PTree.node n r prod rank cs) = true := by simp [carries, hr]
      have hno : ∀ rel', rel' ≠ rel → carries A rel' (PTree.node n r prod rank cs) = false := by
        intro rel' hne; simp [carries, hr]; exact fun h => hne h.symm
      refine ⟨addItem_nodup _ _ _ hn, ?_, ?_⟩
      · intro e he
        rcases addItem_entries _ _ _ hn e he with ⟨h1, h2⟩ | ⟨h1, h2⟩
        · rw [filter_snoc_none (hno _ h2)]; exact h.lists e h1
        · rw [h1, filter_snoc_some hyes]
          rcases h2 with ⟨h2, h3⟩ | ⟨ls, h2, h3⟩
          · rw [h.rest _ h2, h3]; exact .cons hh .nil
          · rw [h3]; exact forall₂_snoc (h.lists _ h2) hh
      · intro rel' hr'
        rw [addItem_keys, not_or] at hr'
        rw [filter_snoc_none (hno _ hr'.1)]
        exact h.rest _ hr'.2

theorem foldlM_items {A : Agreement} : ∀ (l seen : List (TTree P)) (g g' : RelGraph),
    (g.items.map Prod.fst).Nodup → ItemsOK A seen g.items → l.foldlM (visitRelation A) g = .ok g' →
    ItemsOK A (seen ++ l) g'.items := by
  intro l
  induction l with
  | nil =>
    intro seen g g' _ h hf
    simp only [List.foldlM_nil, pure, Except.pure, Except.ok.injEq] at hf
    subst hf; simpa using h
  | cons x l ih =>
    intro seen g g' hn h hf
    simp only [List.foldlM_cons, bind, Except.bind] at hf
    cases hv : visitRelation A g x with
    | error e => rw [hv] at hf; simp at hf
    | ok g1 =>
      rw [hv] at hf
      obtain ⟨h1, h2⟩ := h.visit hn hv
      have := ih (seen ++ [x]) g1 g' h1 h2 hf
      simpa using this

theorem treeRelations_items {A : Agreement} {r : TTree P} {g : RelGraph}
    (h : treeRelations A r = .ok g) : ItemsOK A r.walk g.items := by
  have := foldlM_items r.walk [] RelGraph.empty g (by simp [RelGraph.empty])
    ⟨by simp [RelGraph.empty], by simp⟩ h
  simpa using this

theorem reading_consistent {A : Agreement} {r : TTree P} {g : RelGraph}
    (hr : (r.leaves.map Prod.fst).Nodup) (h : treeRelations A r = .ok g) (c : Nat → Form) :
    Reading A r c ↔ Consistent (fun rel => (A.relation rel).call) g.items g.forms c := by
  obtain ⟨k1, k2, k3, k4⟩ := treeRelations_ok hr h
  have ki := treeRelations_items h
  have hforms : ∀ rel l w, Related A r rel l w → w.forms = some (g.forms l) := by
    rintro rel l w hrel
    obtain ⟨e, he, _, hl⟩ := (k3 rel l).2 ⟨w, hrel⟩
    obtain ⟨x, hx, hxl⟩ := List.mem_map.1 ((k2 l).2 ⟨e, he, hl⟩)
    obtain ⟨h1, h2⟩ := k1 x hx
    have hw : (l, w) ∈ r.leaves := by
      obtain ⟨n, r', prod, rank, cs, h3, _, h4⟩ := hrel
      exact sub_leaves h3 _ (head_mem h4)
    have := nodup_fst_eq hr h1 hw hxl
    subst this
    exact h2
  constructor
  · intro hR e he
    refine ⟨?_, ?_⟩
    · intro l hl
      obtain ⟨w, hrel⟩ := (k3 e.1 l).1 ⟨e, he, rfl, hl⟩
      exact hR.form _ _ _ _ hrel (hforms _ _ _ hrel)
    · refine forall₂_pairwise (ki.lists e he) ?_
      refine (hR.agree e.1).imp ?_
      rintro x y hxy u v ⟨w, hu⟩ ⟨w', hv⟩
      exact hxy _ _ _ _ hu hv
  · intro hC
    refine ⟨?_, ?_⟩
    · intro rel l w fs hrel hfs
      rw [hforms _ _ _ hrel] at hfs
      cases hfs
      obtain ⟨e, he, _, hl⟩ := (k3 rel l).2 ⟨w, hrel⟩
      exact (hC e he).1 l hl
    · intro rel
      by_cases hk : rel ∈ g.items.map Prod.fst
      · obtain ⟨e, he, rfl⟩ := List.mem_map.1 hk
        have h1 := ki.lists e he
        have h2 := (hC e he).2
        generalize r.walk.filter (carries A e.1) = a at h1
        generalize e.2 = b at h1 h2
        induction h1 with
        | nil => exact .nil
        | @cons x y a b p q ih =>
          rw [List.pairwise_cons] at h2 ⊢
          refine ⟨?_, ih h2.2⟩
          intro x' hx' l w l' w' hl hl'
          obtain ⟨w0, p⟩ := p
          obtain ⟨rfl, _⟩ := head_unique p hl
          refine h2.1 l' ?_
          clear ih h2
          induction q with
          | nil => simp at hx'
          | @cons u v a b s t ih =>
            rcases List.mem_cons.1 hx' with rfl | hx'
            · obtain ⟨w1, s⟩ := s
              obtain ⟨rfl, _⟩ := head_unique s hl'
              simp
            · exact List.mem_cons_of_mem _ (ih hx')
      · rw [ki.rest rel hk]; exact .nil

theorem couples_separate {A : Agreement} {r : TTree P} {g : RelGraph}
    (hr : (r.leaves.map Prod.fst).Nodup) (h : treeRelations A r = .ok g) (hc : Couples A r) :
    (∀ e ∈ g.items, 2 ≤ e.2.length) ∧ Separate g.edges := by
  obtain ⟨k1, k2, k3, k4⟩ := treeRelations_ok hr h
  have ki := treeRelations_items h
  have key : ∀ e ∈ g.items, ∃ a b, e.2 = [a, b] ∧ a ≠ b := by
    intro e he
    have h1 := ki.lists e he
    rcases hc.two e.1 with h2 | ⟨x, y, h2, h3⟩
    · rw [h2] at h1
      cases hb : e.2 with
      | nil =>
        exfalso
        -- every listed relation has a word
        have : ∀ (l : List (TTree P)) (g0 g1 : RelGraph), (∀ e ∈ g0.items, e.2 ≠ []) →
            l.foldlM (visitRelation A) g0 = .ok g1 → ∀ e ∈ g1.items, e.2 ≠ [] := by
          intro l
          induction l with
          | nil =>
            intro g0 g1 hg hf
            simp only [List.foldlM_nil, pure, Except.pure, Except.ok.injEq] at hf
            subst hf; exact hg
          | cons x l ih =>
            intro g0 g1 hg hf
            simp only [List.foldlM_cons, bind, Except.bind] at hf
            cases hv : visitRelation A g0 x with
            | error e => rw [hv] at hf; simp at hf
            | ok g2 =>
              rw [hv] at hf
              refine ih g2 g1 ?_ hf
              cases x with
              | leaf l p t =>
                simp only [visitRelation, Except.ok.injEq] at hv
                subst hv; exact hg
              | node n r prod rank cs =>
                simp only [visitRelation] at hv
                cases hr : A.relationOf r with
                | none =>
                  rw [hr] at hv
                  simp only [Except.ok.injEq] at hv
                  subst hv; exact hg
                | some rel =>
                  rw [hr] at hv
                  simp only [] at hv
                  cases hm : (PTree.node n r prod rank cs).main with
                  | error e => rw [hm] at hv; simp [Except.bind] at hv
                  | ok m =>
                    rw [hm] at hv
                    simp only [Except.bind] at hv
                    unfold RelGraph.add at hv
                    split at hv
                    · simp at hv
                    · simp only [Except.ok.injEq] at hv
                      have hi : g2.items = addItem rel m.1 g0.items := by
                        subst hv
                        split <;> rfl
                      rw [hi]
                      clear hi hv
                      generalize g0.items = items at hg
                      induction items with
                      | nil => intro e he; simp [addItem] at he; subst he; simp
                      | cons y items ih3 =>
                        intro e he
                        simp only [addItem] at he
                        split at he
                        · rcases List.mem_cons.1 he with rfl | he
                          · simp
                          · exact hg e (List.mem_cons_of_mem _ he)
                        · rcases List.mem_cons.1 he with rfl | he
                          · exact hg _ List.mem_cons_self
                          · exact ih3 (fun e he => hg e (List.mem_cons_of_mem _ he)) e he
        exact this r.walk RelGraph.empty g (by simp [RelGraph.empty]) h e he hb
      | cons a b => rw [hb] at h1; cases h1
    · rw [h2] at h1
      generalize e.2 = b at h1
      cases h1 with
      | @cons _ u _ _ p q =>
        cases q with
        | @cons _ v _ _ p' q' =>
          cases q'
          obtain ⟨w, p⟩ := p
          obtain ⟨w', p'⟩ := p'
          exact ⟨u, v, rfl, h3 _ _ _ _ p p'⟩
  refine ⟨?_, ?_, ?_⟩
  · intro e he
    obtain ⟨a, b, h1, _⟩ := key e he
    rw [h1]; simp
  · intro e he
    obtain ⟨e0, he0, he1⟩ := List.mem_flatMap.1 he
    obtain ⟨a, b, h1, h2⟩ := key e0 he0
    rw [h1] at he1
    simp [pairs] at he1
    subst he1
    exact h2
  · unfold RelGraph.edges
    have hrel : ∀ e ∈ g.items, ∀ l ∈ e.2, ∃ w, Related A r e.1 l w :=
      fun e he l hl => (k3 e.1 l).1 ⟨e, he, rfl, hl⟩
    have hap := hc.apart
    generalize g.items = items at key k4 hrel
    clear ki k1 k2 k3
    induction items with
    | nil => exact .nil
    | cons e items ih =>
      simp only [List.map_cons, List.nodup_cons] at k4
      obtain ⟨a, b, h1, h2⟩ := key e List.mem_cons_self
      rw [List.flatMap_cons, List.pairwise_append]
      refine ⟨by rw [h1]; simp [pairs], ih (fun e he => key e (List.mem_cons_of_mem _ he)) k4.2
        (fun e he => hrel e (List.mem_cons_of_mem _ he)), ?_⟩
      intro x hx y hy
      rw [h1] at hx
      simp [pairs] at hx
      subst hx
      obtain ⟨e', he', hy⟩ := List.mem_flatMap.1 hy
      obtain ⟨a', b', h1', h2'⟩ := key e' (List.mem_cons_of_mem _ he')
      rw [h1'] at hy
      simp [pairs] at hy
      subst hy
      have hne : e.1 ≠ e'.1 := fun h => k4.1 (List.mem_map.2 ⟨e', he', h.symm⟩)
      have hdiff : ∀ u ∈ e.2, ∀ v ∈ e'.2, u ≠ v := by
        rintro u hu v hv rfl
        obtain ⟨w, hw⟩ := hrel e List.mem_cons_self u hu
        obtain ⟨w', hw'⟩ := hrel e' (List.mem_cons_of_mem _ he') u hv
        exact hne (hap _ _ _ _ _ hw hw')
      rw [h1, h1'] at hdiff
      exact ⟨hdiff a (by simp) a' (by simp), hdiff a (by simp) b' (by simp),
        hdiff b (by simp) a' (by simp), hdiff b (by simp) b' (by simp)⟩

/-! ### heads of pruned trees -/

theorem filterMap_get_prefix {α β} (f : α → Option β) : ∀ (l : List α) (n : Nat) (a : α) (b : β),
    l[n]? = some a → f a = some b → (∀ k x, k < n → l[k]? = some x → f x ≠ none) →
    (l.filterMap f)[n]? = some b
  | [], _, _, _, h, _, _ => by simp at h
  | x :: l, 0, a, b, h, hb, _ => by
    simp at h; subst h
    rw [List.filterMap_cons_some hb]; rfl
  | x :: l, n + 1, a, b, h, hb, hk => by
    have := hk 0 x (by omega) rfl
    cases hx : f x with
    | none => exact absurd hx this
    | some y =>
      rw [List.filterMap_cons_some hx]
      simp only [List.getElem?_cons_succ] at h ⊢
      exact filterMap_get_prefix f l n a b h hb (fun k x' hk' hx' => hk (k + 1) x' (by omega) hx')

theorem head_prune {T : Type} {t : PTree P T} (hs : HeadSafe t) :
    ∃ t' l w, t.prune = some t' ∧ HeadOf t l w ∧ HeadOf t' l w := by
  induction hs with
  | leaf => exact ⟨_, _, _, rfl, .leaf, .leaf⟩
  | @node n r prod rank cs c hc hb _ ih =>
    obtain ⟨c', l, w, h1, h2, h3⟩ := ih
    have hg := filterMap_get_prefix PTree.prune cs prod.main c c' hc h1 (by
      intro k x hk hx hn
      exact hb k x hk hx ((prune_none_iff x).1 hn))
    have hne : cs.filterMap PTree.prune ≠ [] := by
      intro he; rw [he] at hg; simp at hg
    refine ⟨.node n r prod rank (cs.filterMap PTree.prune), l, w, ?_, .node hc h2, .node hg h3⟩
    rw [prune_node]; simp [hne]

theorem sub_prune {T : Type} {x t t' : PTree P T} (h : t.prune = some t') :
    Sub x t' ↔ ∃ x0, Sub x0 t ∧ x0.prune = some x := by
  refine ptree_induct (M := fun t : PTree P T => ∀ t', t.prune = some t' →
    (Sub x t' ↔ ∃ x0, Sub x0 t ∧ x0.prune = some x)) ?_ ?_ t t' h
  · intro l p w t' h
    simp only [PTree.prune, Option.some.injEq] at h
    subst h
    constructor
    · intro hs; cases hs; exact ⟨_, .refl, rfl⟩
    · rintro ⟨x0, h1, h2⟩
      cases h1
      simp only [PTree.prune, Option.some.injEq] at h2
      subst h2; exact .refl
  · intro n r prod rank cs ih t' h
    have h' := h
    rw [prune_node] at h
    split at h
    · simp at h
    · simp only [Option.some.injEq] at h
      subst h
      constructor
      · intro hs
        cases hs with
        | refl => exact ⟨_, .refl, h'⟩
        | child hc hs =>
          obtain ⟨c0, h1, h2⟩ := List.mem_filterMap.1 hc
          obtain ⟨x0, h3, h4⟩ := (ih c0 h1 _ h2).1 hs
          exact ⟨x0, .child h1 h3, h4⟩
      · rintro ⟨x0, h1, h2⟩
        cases h1 with
        | refl =>
          rw [h'] at h2
          simp only [Option.some.injEq] at h2
          subst h2; exact .refl
        | @child _ _ _ _ _ c hc hs =>
          cases hp : c.prune with
          | none =>
            exfalso
            have hl := (prune_none_iff c).1 hp
            have : x0.leaves = [] := by
              cases hx : x0.leaves with
              | nil => rfl
              | cons a b =>
                have := sub_leaves hs a (by rw [hx]; simp)
                rw [hl] at this; simp at this
            rw [(prune_none_iff x0).2 this] at h2; simp at h2
          | some c' =>
            exact .child (List.mem_filterMap.2 ⟨c, hc, hp⟩) ((ih c hc c' hp).2 ⟨x0, hs, h2⟩)

end Yargy
