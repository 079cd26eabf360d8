import Verif.Spec.RuleDot
/-!
Walks and line numbers of drawings.
-/
namespace Yargy.Picture
open Yargy Spec.Picture

/-! ### Numbers -/

theorem find_zipIdx {xs : List Nat} (hn : xs.Nodup) : ∀ {n a : Nat} (k : Nat), xs[n]? = some a →
    (xs.zipIdx k).find? (fun e => decide (e.1 = a)) = some (a, n + k) := by
  induction xs with
  | nil => intro n a k h; cases h
  | cons x xs ih =>
    intro n a k h
    rw [List.nodup_cons] at hn
    rw [List.zipIdx_cons, List.find?_cons]
    cases n with
    | zero =>
      cases h
      simp
    | succ n =>
      have hne : x ≠ a := fun e => hn.1 (e ▸ List.mem_of_getElem? h)
      simp only [hne, decide_false]
      rw [ih hn.2 (k + 1) h]
      congr 2
      omega

theorem graphId_old {xs : List Nat} (hn : xs.Nodup) {n a : Nat} (h : xs[n]? = some a) :
    graphId xs.zipIdx a = (n, xs.zipIdx) := by
  unfold graphId
  rw [find_zipIdx hn 0 h]
  rfl

theorem graphId_new {xs : List Nat} {a : Nat} (h : a ∉ xs) :
    graphId xs.zipIdx a = (xs.length, (xs ++ [a]).zipIdx) := by
  unfold graphId
  have : (xs.zipIdx).find? (fun e => decide (e.1 = a)) = none := by
    rw [List.find?_eq_none]
    intro e he
    simp only [decide_eq_true_eq]
    intro e1
    exact h (e1 ▸ (List.mem_zipIdx' he).2 ▸ List.getElem_mem _)
  rw [this]
  simp [List.zipIdx_append]

theorem nodeLines_new : ∀ (ns : List (Nat × Option Style)) (xs : List Nat), (xs ++ ns.map Prod.fst).Nodup →
    nodeLines xs.zipIdx ns = (ns.mapIdx (fun k e => .node (k + xs.length) e.2), (xs ++ ns.map Prod.fst).zipIdx) := by
  intro ns
  induction ns with
  | nil => intro xs _; simp [nodeLines]
  | cons e ns ih =>
    intro xs hn
    obtain ⟨a, s⟩ := e
    have ha : a ∉ xs := by
      intro hx
      exact (List.nodup_append.1 hn).2.2 a hx a (by simp) rfl
    have hn' : ((xs ++ [a]) ++ ns.map Prod.fst).Nodup := by simpa using hn
    rw [nodeLines, graphId_new ha]
    simp only
    rw [ih _ hn']
    simp only [List.length_append, List.length_cons, List.length_nil, List.mapIdx_cons, List.map_cons,
      List.append_assoc, List.cons_append, List.nil_append]
    refine Prod.ext ?_ rfl
    refine List.cons_eq_cons.2 ⟨by simp, ?_⟩
    refine List.ext_getElem (by simp) ?_
    intro i h1 h2
    simp
    omega

/-- The number of an item. -/
def place (xs : List Nat) (a : Nat) : Nat := xs.findIdx (fun b => decide (b = a))

theorem place_get {xs : List Nat} (hn : xs.Nodup) {n a : Nat} (h : xs[n]? = some a) : place xs a = n := by
  unfold place
  obtain ⟨hl, e⟩ := List.getElem?_eq_some_iff.1 h
  rw [List.findIdx_eq hl]
  refine ⟨by simp [e], ?_⟩
  intro j hj
  simp only [decide_eq_false_iff_not]
  intro e'
  exact (List.pairwise_iff_getElem.1 hn) j n (by omega) hl hj (by rw [e, e'])

theorem edgeLines_old {xs : List Nat} (hn : xs.Nodup) : ∀ (es : List (Nat × Nat × Option Style)),
    (∀ e ∈ es, e.1 ∈ xs ∧ e.2.1 ∈ xs) →
    edgeLines xs.zipIdx es = (es.map (fun e => .edge (place xs e.1) (place xs e.2.1) e.2.2), xs.zipIdx) := by
  intro es
  induction es with
  | nil => intro _; rfl
  | cons e es ih =>
    intro h
    obtain ⟨a, b, s⟩ := e
    obtain ⟨h1, h2⟩ := h _ List.mem_cons_self
    obtain ⟨n, hn1⟩ := List.mem_iff_getElem?.1 h1
    obtain ⟨m, hm1⟩ := List.mem_iff_getElem?.1 h2
    rw [edgeLines, graphId_old hn hn1]
    simp only
    rw [graphId_old hn hm1]
    simp only
    rw [ih (fun e he => h e (List.mem_cons_of_mem _ he))]
    simp [place_get hn hn1, place_get hn hm1]

theorem lines_of {α : Type} {ident : α → Nat} {items : List α} (hn : (items.map ident).Nodup) {look : α → Style}
    {g : Graph} (h1 : g.nodes = items.map (fun x => (ident x, some (look x))))
    (h2 : ∀ e ∈ g.edges, e.1 ∈ items.map ident ∧ e.2.1 ∈ items.map ident) :
    (g.lines []).1 = items.mapIdx (fun n x => .node n (some (look x))) ++
      g.edges.map (fun e => .edge (place (items.map ident) e.1) (place (items.map ident) e.2.1) e.2.2) := by
  unfold Graph.lines
  have hm : g.nodes.map Prod.fst = items.map ident := by rw [h1, List.map_map]; rfl
  have e := nodeLines_new g.nodes [] (by simpa [hm] using hn)
  simp only [List.zipIdx_nil, List.nil_append, List.length_nil, Nat.add_zero, hm] at e
  rw [e]
  simp only
  rw [edgeLines_old hn _ h2]
  simp only
  rw [h1]
  congr 1
  exact List.ext_getElem (by simp) (by intros; simp)

/-! ### Walking -/

section
variable {α : Type} {ident : α → Nat} {children : α → List α}

theorem enqueueItems_spec {Z : α → Prop} (hp : ∀ a b, Z a → Z b → ident a = ident b → a = b) :
    ∀ (cs queue seen : List α), (∀ c ∈ cs, Z c) → (∀ c ∈ seen, Z c) →
    ∃ new, enqueueItems ident cs queue (seen.map ident) = (queue ++ new, (new.reverse ++ seen).map ident) ∧
      new.Nodup ∧ (∀ c ∈ new, c ∈ cs ∧ c ∉ seen) ∧ ∀ c ∈ cs, c ∈ new ∨ c ∈ seen := by
  intro cs
  induction cs with
  | nil => intro queue seen _ _; exact ⟨[], by simp [enqueueItems], by simp, by simp, by simp⟩
  | cons c cs ih =>
    intro queue seen hz1 hz2
    have hm : ident c ∈ seen.map ident ↔ c ∈ seen := by
      rw [List.mem_map]
      exact ⟨fun ⟨x, h1, h2⟩ => hp _ _ (hz2 x h1) (hz1 c List.mem_cons_self) h2 ▸ h1, fun h => ⟨c, h, rfl⟩⟩
    have hz1' : ∀ c ∈ cs, Z c := fun x hx => hz1 x (List.mem_cons_of_mem _ hx)
    by_cases hc : c ∈ seen
    · obtain ⟨new, h1, h2, h3, h4⟩ := ih queue seen hz1' hz2
      refine ⟨new, by rw [enqueueItems, if_pos (hm.2 hc), h1], h2, ?_, ?_⟩
      · intro x hx; exact ⟨List.mem_cons_of_mem _ (h3 x hx).1, (h3 x hx).2⟩
      · intro x hx
        rw [List.mem_cons] at hx
        rcases hx with rfl | hx
        · exact .inr hc
        · exact h4 x hx
    · obtain ⟨new, h1, h2, h3, h4⟩ := ih (queue ++ [c]) (c :: seen) hz1' (by
        intro x hx
        rw [List.mem_cons] at hx
        rcases hx with rfl | hx
        · exact hz1 _ List.mem_cons_self
        · exact hz2 x hx)
      refine ⟨c :: new, ?_, ?_, ?_, ?_⟩
      · rw [enqueueItems, if_neg (fun h => hc (hm.1 h))]
        rw [List.map_cons] at h1
        rw [h1]
        simp
      · rw [List.nodup_cons]
        exact ⟨fun hx => (h3 c hx).2 List.mem_cons_self, h2⟩
      · intro x hx
        rw [List.mem_cons] at hx
        rcases hx with rfl | hx
        · exact ⟨List.mem_cons_self, hc⟩
        · exact ⟨List.mem_cons_of_mem _ (h3 x hx).1,
            fun h => (h3 x hx).2 (List.mem_cons_of_mem _ h)⟩
      · intro x hx
        rw [List.mem_cons] at hx
        rcases hx with rfl | hx
        · exact .inl List.mem_cons_self
        · rcases h4 x hx with h | h
          · exact .inl (List.mem_cons_of_mem _ h)
          · rw [List.mem_cons] at h
            rcases h with rfl | h
            · exact .inl List.mem_cons_self
            · exact .inr h

/-- What is known between two steps of the walk. -/
structure Inv (children : α → List α) (Z : α → Prop) (done queue seen : List α) : Prop where
  nodup : (done ++ queue).Nodup
  seen_iff : ∀ x, x ∈ seen ↔ x ∈ done ++ queue
  closed : ∀ d ∈ done, ∀ c ∈ children d, c ∈ done ++ queue
  inside : ∀ x ∈ done ++ queue, Z x

theorem Inv.step {Z : α → Prop} (hp : ∀ a b, Z a → Z b → ident a = ident b → a = b)
    (hz : ∀ x, Z x → ∀ c ∈ children x, Z c) {done queue seen : List α} {a : α} (hi : Inv children Z done (a :: queue) seen) :
    ∃ new, enqueueItems ident (children a) queue (seen.map ident) = (queue ++ new, (new.reverse ++ seen).map ident) ∧
      Inv children Z (done ++ [a]) (queue ++ new) (new.reverse ++ seen) := by
  have ha : Z a := hi.inside a (by simp)
  obtain ⟨new, h1, h2, h3, h4⟩ := enqueueItems_spec hp (children a) queue seen (hz a ha)
    (fun c hc => hi.inside c ((hi.seen_iff c).1 hc))
  have e : done ++ [a] ++ (queue ++ new) = (done ++ a :: queue) ++ new := by simp
  refine ⟨new, h1, ⟨?_, ?_, ?_, ?_⟩⟩
  · rw [e, List.nodup_append]
    refine ⟨hi.nodup, h2, ?_⟩
    intro x hx y hy hxy
    subst hxy
    exact (h3 x hy).2 ((hi.seen_iff x).2 hx)
  · intro x
    rw [e, List.mem_append, List.mem_append, List.mem_reverse, hi.seen_iff]
    exact Or.comm
  · intro d hd c hcd
    rw [e, List.mem_append]
    rw [List.mem_append, List.mem_singleton] at hd
    rcases hd with hd | rfl
    · exact .inl (hi.closed d hd c hcd)
    · rcases h4 c hcd with h | h
      · exact .inr h
      · exact .inl ((hi.seen_iff c).1 h)
  · intro x hx
    rw [e, List.mem_append] at hx
    rcases hx with hx | hx
    · exact hi.inside x hx
    · exact hz a ha x (h3 x hx).1

theorem bfsItems_spec {Z : α → Prop} (hp : ∀ a b, Z a → Z b → ident a = ident b → a = b)
    (hz : ∀ x, Z x → ∀ c ∈ children x, Z c) {all : List α} (hall : ∀ x, Z x → x ∈ all) :
    ∀ (n : Nat) (done queue seen : List α), Inv children Z done queue seen → all.length + 1 ≤ done.length + n →
      ∃ S, Inv children Z (done ++ bfsItems ident children n queue (seen.map ident)) [] S ∧
        ∀ x ∈ queue, x ∈ bfsItems ident children n queue (seen.map ident) := by
  intro n
  induction n with
  | zero =>
    intro done queue seen hi hn
    have := List.Nodup.length_le_of_subset (List.nodup_append.1 hi.nodup).1
      (fun x hx => hall x (hi.inside x (List.mem_append_left _ hx)))
    omega
  | succ n ih =>
    intro done queue seen hi hn
    cases queue with
    | nil => exact ⟨seen, by simpa [bfsItems] using hi, by simp⟩
    | cons a queue =>
      obtain ⟨new, h1, h2⟩ := hi.step hp hz
      obtain ⟨S, h4, h5⟩ := ih _ _ _ h2 (by simp; omega)
      have e : bfsItems ident children (n + 1) (a :: queue) (seen.map ident) =
          a :: bfsItems ident children n (queue ++ new) ((new.reverse ++ seen).map ident) := by
        rw [bfsItems, h1]
      refine ⟨S, ?_, ?_⟩
      · rw [e]; simpa using h4
      · intro x hx
        rw [e]
        rw [List.mem_cons] at hx ⊢
        rcases hx with rfl | hx
        · exact .inl rfl
        · exact .inr (h5 x (List.mem_append_left _ hx))

/-- The walk shows what can be reached, each once, the root first. -/
theorem bfs_walk {Z : α → Prop} (hp : ∀ a b, Z a → Z b → ident a = ident b → a = b)
    (hz : ∀ x, Z x → ∀ c ∈ children x, Z c) {all : List α} (hall : ∀ x, Z x → x ∈ all) {root : α} (hr : Z root)
    {n : Nat} (hn : all.length + 1 ≤ n) :
    let w := bfsItems ident children n [root] [ident root]
    w.Nodup ∧ w[0]? = some root ∧ (∀ x ∈ w, Z x ∧ ∀ c ∈ children x, c ∈ w) := by
  have hi : Inv children Z [] [root] [root] := ⟨by simp, by simp, by simp, by simpa using hr⟩
  obtain ⟨S, h1, h2⟩ := bfsItems_spec hp hz hall n [] [root] [root] hi (by simpa using hn)
  simp only [List.map_cons, List.map_nil, List.nil_append] at h1 h2
  refine ⟨by simpa using h1.nodup, ?_, fun x hx => ⟨h1.inside x (by simpa using hx), fun c hc => by
    simpa using h1.closed x hx c hc⟩⟩
  cases n with
  | zero => omega
  | succ n => rw [bfsItems]; rfl

end

/-! ### Drawings -/

section
variable {α : Type} {ident : α → Nat} {children : α → List α}

/-- The edges of an item. -/
def rowOf (ident : α → Nat) (children : α → List α) (markOf : α → Nat → Option Style) (x : α) :
    List (Nat × Nat × Option Style) :=
  (children x).mapIdx (fun k c => (ident x, ident c, markOf x k))

/-- The line of an edge. -/
def lineOf (xs : List Nat) (e : Nat × Nat × Option Style) : DotLine := .edge (place xs e.1) (place xs e.2.1) e.2.2

theorem drawing_of {holds : α → Nat → α → Prop} {looks : α → Style → Prop} {mark : α → Nat → Option Style → Prop}
    {root : α} {items : List α} {look : α → Style} {markOf : α → Nat → Option Style}
    (h1 : items.Nodup) (h2 : items[0]? = some root) (hc : ∀ x ∈ items, ∀ c ∈ children x, c ∈ items)
    (hin : ∀ x ∈ items, Inside holds root x)
    (hinj : ∀ a b, a ∈ items → b ∈ items → ident a = ident b → a = b)
    (hh : ∀ x k c, holds x k c ↔ (children x)[k]? = some c) (hl : ∀ x ∈ items, looks x (look x))
    (hm : ∀ x ∈ items, ∀ k c, holds x k c → ∀ s, mark x k s ↔ s = markOf x k) {g : Graph}
    {more : List (Nat × Nat × Option Style)} (hmore : ∀ e ∈ more, e.1 ∈ items.map ident ∧ e.2.1 ∈ items.map ident)
    (hg1 : g.nodes = items.map (fun x => (ident x, some (look x))))
    (hg2 : g.edges = items.flatMap (rowOf ident children markOf) ++ more) :
    ∃ nodes arrows, (g.lines []).1 = nodes ++ arrows ++ more.map (lineOf (items.map ident)) ∧
      Drawing holds looks mark root items nodes arrows := by
  have hn : (items.map ident).Nodup := by
    rw [List.nodup_iff_pairwise_ne, List.pairwise_map]
    rw [List.nodup_iff_pairwise_ne] at h1
    exact h1.imp_of_mem (fun ha hb hne e => hne (hinj _ _ ha hb e))
  have hed : ∀ e ∈ g.edges, e.1 ∈ items.map ident ∧ e.2.1 ∈ items.map ident := by
    intro e he
    rw [hg2, List.mem_append] at he
    rcases he with he | he
    · obtain ⟨x, hx, he⟩ := List.mem_flatMap.1 he
      obtain ⟨k, hk⟩ := List.mem_iff_getElem?.1 he
      unfold rowOf at hk
      rw [List.getElem?_mapIdx] at hk
      obtain ⟨c, hc1, rfl⟩ := Option.map_eq_some_iff.1 hk
      exact ⟨List.mem_map_of_mem hx, List.mem_map_of_mem (hc x hx c (List.mem_of_getElem? hc1))⟩
    · exact hmore e he
  have hlines := lines_of hn hg1 hed
  rw [hg2, List.map_append, ← List.append_assoc] at hlines
  refine ⟨_, _, hlines, h1, h2, ?_, by simp, ?_, ?_⟩
  · intro x
    refine ⟨hin x, fun hx => ?_⟩
    induction hx with
    | root => exact List.mem_of_getElem? h2
    | step _ hk ih => exact hc _ ih _ (List.mem_of_getElem? ((hh _ _ _).1 hk))
  · intro n x hx
    refine ⟨look x, hl x (List.mem_of_getElem? hx), ?_⟩
    rw [List.getElem?_mapIdx, hx]
    rfl
  · refine ⟨items.map (fun x => (rowOf ident children markOf x).map (lineOf (items.map ident))), by simp, ?_, ?_⟩
    · rw [← List.flatMap_def, List.map_flatMap]
      rfl
    · intro n x hx
      have hxm := List.mem_of_getElem? hx
      refine ⟨_, by rw [List.getElem?_map, hx]; rfl, ?_⟩
      intro k l
      have hpx : place (items.map ident) (ident x) = n := place_get hn (by rw [List.getElem?_map, hx]; rfl)
      unfold rowOf
      rw [List.getElem?_map, List.getElem?_mapIdx]
      constructor
      · intro hk
        simp only [Option.map_map, Option.map_eq_some_iff] at hk
        obtain ⟨c, hk1, rfl⟩ := hk
        obtain ⟨m, hm1⟩ := List.mem_iff_getElem?.1 (hc x hxm c (List.mem_of_getElem? hk1))
        have hpc : place (items.map ident) (ident c) = m := place_get hn (by rw [List.getElem?_map, hm1]; rfl)
        have hk2 := (hh x k c).2 hk1
        refine ⟨m, c, markOf x k, hk2, hm1, (hm x hxm k c hk2 _).2 rfl, ?_⟩
        show DotLine.edge (place _ (ident x)) (place _ (ident c)) _ = _
        rw [hpx, hpc]
      · rintro ⟨m, c, s, hk2, hm1, hs, rfl⟩
        have hpc : place (items.map ident) (ident c) = m := place_get hn (by rw [List.getElem?_map, hm1]; rfl)
        rw [(hh x k c).1 hk2, (hm x hxm k c hk2 s).1 hs]
        show some (DotLine.edge (place _ (ident x)) (place _ (ident c)) _) = _
        rw [hpx, hpc]

end

end Yargy.Picture
