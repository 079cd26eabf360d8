import Verif.Proofs.Picture
import Verif.Spec.Rules
/-!
Drawings of rules.
-/
namespace Yargy.Picture
open Yargy Spec.Picture

variable {P : Type} {N : Labels P} {ident : DotItem P → Nat} {which : Nat → Nat → Nat} {h : Heap P}

theorem termItems_get (f : Nat → Nat) : ∀ (ts : List (Term P)) (j k : Nat),
    (termItems f j ts)[k]? = (ts[k]?).map (fun t => match t with
      | .pred p => .pred (f (j + k)) p
      | .rule r => .obj r) := by
  intro ts
  induction ts with
  | nil => intro j k; rfl
  | cons t ts ih =>
    intro j k
    cases k with
    | zero => cases t <;> rfl
    | succ k =>
      have e : j + 1 + k = j + (k + 1) := by omega
      cases t <;> simp only [termItems, List.getElem?_cons_succ, ih, e]

theorem termItems_length (f : Nat → Nat) : ∀ (ts : List (Term P)) (j : Nat), (termItems f j ts).length = ts.length := by
  intro ts
  induction ts with
  | nil => intro j; rfl
  | cons t ts ih => intro j; cases t <;> simp [termItems, ih]

theorem objs_get {ps : List Nat} {k : Nat} {c : DotItem P} :
    (ps.map DotItem.obj)[k]? = some c ↔ ∃ a, c = .obj a ∧ ps[k]? = some a := by
  rw [List.getElem?_map, Option.map_eq_some_iff]
  exact ⟨fun ⟨a, h1, h2⟩ => ⟨a, h2.symm, h1⟩, fun ⟨a, h1, h2⟩ => ⟨a, h2, h1.symm⟩⟩

theorem one_get {r k : Nat} {c : DotItem P} : [DotItem.obj (P := P) r][k]? = some c ↔ k = 0 ∧ c = .obj r := by
  cases k with
  | zero => simp [eq_comm]
  | succ k => simp

theorem wraps_items {o : Obj P} {r : Nat} {f : Nat → Nat} (hw : Wraps o r) : o.items f = [.obj r] := by
  cases hw <;> rfl

theorem holds_iff (x : DotItem P) (k : Nat) (c : DotItem P) :
    Holds which h x k c ↔ (dotChildren which h x)[k]? = some c := by
  constructor
  · intro hh
    cases hh with
    | term h1 h2 => simp only [dotChildren, h1, Obj.items, termItems_get, h2]; rfl
    | pred h1 h2 => simp only [dotChildren, h1, Obj.items, termItems_get, h2, Nat.zero_add]; rfl
    | word h1 h2 =>
      simp only [dotChildren, h1, Obj.items, termItems_get, List.getElem?_map, h2, Nat.zero_add]
      rfl
    | production h1 h2 => simp only [dotChildren, h1, Obj.items]; exact objs_get.2 ⟨_, rfl, h2⟩
    | alternative h1 h2 => simp only [dotChildren, h1, Obj.items]; exact objs_get.2 ⟨_, rfl, h2⟩
    | compiled h1 h2 => simp only [dotChildren, h1, Obj.items]; exact objs_get.2 ⟨_, rfl, h2⟩
    | inner h1 h2 => simp only [dotChildren, h1, wraps_items h2]; rfl
  · intro hh
    cases x with
    | pred q p => cases hh
    | obj a =>
      unfold dotChildren at hh
      cases ho : h[a]? with
      | none => simp only [ho] at hh; cases hh
      | some o =>
        simp only [ho] at hh
        have wrap : ∀ r, Wraps o r → [DotItem.obj (P := P) r][k]? = some c → Holds which h (.obj a) k c := by
          intro r hw hr
          obtain ⟨rfl, rfl⟩ := one_get.1 hr
          exact .inner ho hw
        cases o with
        | prod ts m =>
          simp only [Obj.items, termItems_get, Nat.zero_add] at hh
          obtain ⟨t, ht, e⟩ := Option.map_eq_some_iff.1 hh
          cases t with
          | pred p => cases e; exact .pred ho ht
          | rule r => cases e; exact .term ho ht
        | pipeProd v ps =>
          simp only [Obj.items, termItems_get, Nat.zero_add, List.getElem?_map] at hh
          obtain ⟨t, ht, e⟩ := Option.map_eq_some_iff.1 hh
          obtain ⟨p, hp, rfl⟩ := Option.map_eq_some_iff.1 ht
          cases e
          exact .word ho hp
        | emptyProd => cases hh
        | empty => cases hh
        | pipe p => cases hh
        | rule ps => obtain ⟨b, rfl, hb⟩ := objs_get.1 hh; exact .production ho hb
        | or ps => obtain ⟨b, rfl, hb⟩ := objs_get.1 hh; exact .alternative ho hb
        | bnf ps n i r d => obtain ⟨b, rfl, hb⟩ := objs_get.1 hh; exact .compiled ho hb
        | forward r =>
          cases r with
          | none => cases hh
          | some r => exact wrap r .forward hh
        | optional r v => exact wrap r .optional hh
        | repeatable r v => exact wrap r .repeatable hh
        | repOptional r v w => exact wrap r .repOptional hh
        | minBounded r n v => exact wrap r .minBounded hh
        | maxBounded r n v => exact wrap r .maxBounded hh
        | minMaxBounded r n m v => exact wrap r .minMaxBounded hh
        | named r s => exact wrap r .named hh
        | interp r i => exact wrap r .interp hh
        | relation r i => exact wrap r .relation hh

/-! ### Styles -/

/-- The style of an item. -/
def lookOf (N : Labels P) (h : Heap P) : DotItem P → Style
  | .pred _ p => [labelled (N.pred p)]
  | .obj a =>
    match h[a]? with
    | some o => objStyle N o
    | none => []

/-- The style of an edge. -/
def markOf (h : Heap P) (x : DotItem P) (k : Nat) : Option Style :=
  match x with
  | .pred _ _ => none
  | .obj a =>
    match h[a]? with
    | some (.prod _ m) => if m > 0 ∧ m = k then some [("color".toList, dotDarkgray.toList)] else none
    | _ => none

theorem looks_of {x : DotItem P} (hx : ∀ a, x = .obj a → a < h.length) : Looks N h x (lookOf N h x) := by
  cases x with
  | pred q p => exact .pred
  | obj a =>
    have ho := List.getElem?_eq_getElem (hx a rfl)
    generalize h[a]'(hx a rfl) = o at ho
    unfold lookOf
    simp only [ho]
    have go : ∀ {text colour}, Caption N o text → Colour o colour → objStyle N o = attributes text colour →
        Looks N h (.obj a) (objStyle N o) := fun h1 h2 e => e ▸ .obj ho h1 h2
    cases o with
    | prod ts m => exact go .prod .prod rfl
    | emptyProd => exact go .emptyProd .emptyProd rfl
    | pipeProd v ps => exact go .pipeProd .pipeProd rfl
    | rule ps => exact go .rule .rule rfl
    | or ps => exact go .or .or rfl
    | optional r v => exact go .optional .optional rfl
    | repeatable r v => exact go .repeatable .repeatable rfl
    | repOptional r v w => exact go .repOptional .repOptional rfl
    | minBounded r n v => exact go .minBounded .minBounded rfl
    | maxBounded r n v => exact go .maxBounded .maxBounded rfl
    | minMaxBounded r n m v => exact go .minMaxBounded .minMaxBounded rfl
    | named r s => exact go .named .named rfl
    | interp r i => exact go .interp .interp rfl
    | relation r i => exact go .relation .relation rfl
    | forward r => exact go .forward .forward rfl
    | empty => exact go .empty .empty rfl
    | pipe p =>
      cases p with
      | scheme k ls => exact go .scheme .pipe (by cases k <;> rfl)
      | keys k ls => exact go .keys .pipe (by cases k <;> rfl)
    | bnf ps n i r d =>
      cases i with
      | some i =>
        cases r with
        | some r => exact go .factRelation .bnf rfl
        | none => exact go .fact .bnf rfl
      | none =>
        cases n with
        | some n =>
          cases r with
          | some r => exact go .titledRelation .bnf rfl
          | none => exact go .titled .bnf rfl
        | none =>
          cases r with
          | some r => exact go .unnamedRelation .bnf rfl
          | none => exact go .unnamed .bnf rfl

theorem marks_of {x : DotItem P} {k : Nat} {c : DotItem P} (hx : Holds which h x k c) (s : Option Style) :
    Mark h x k s ↔ s = markOf h x k := by
  have ha : ∃ a o, x = .obj a ∧ h[a]? = some o := by
    cases hx <;> exact ⟨_, _, rfl, by assumption⟩
  obtain ⟨a, o, rfl, ho⟩ := ha
  by_cases hp : ∃ ts m, o = .prod ts m
  · obtain ⟨ts, m, rfl⟩ := hp
    unfold markOf
    simp only [ho]
    constructor
    · intro hm
      cases hm with
      | main h1 h2 => rw [ho] at h1; cases h1; rw [if_pos ⟨h2, rfl⟩]; rfl
      | first => rw [if_neg (by omega)]
      | other h1 h2 => rw [ho] at h1; cases h1; rw [if_neg (fun e => h2 e.2.symm)]
      | plain h1 h2 => rw [ho] at h1; cases h1; exact absurd rfl (h2 ts m)
    · rintro rfl
      by_cases hc : m > 0 ∧ m = k
      · obtain ⟨h1, rfl⟩ := hc
        rw [if_pos ⟨h1, rfl⟩]
        exact .main ho h1
      · rw [if_neg hc]
        by_cases hk : k = m
        · subst hk
          have : k = 0 := by omega
          subst this
          exact .first
        · exact .other ho hk
  · have e : markOf h (.obj a) k = none := by
      unfold markOf
      simp only [ho]
      split
      · rename_i heq; cases heq; exact absurd ⟨_, _, rfl⟩ hp
      · rfl
    rw [e]
    constructor
    · intro hm
      cases hm with
      | main h1 h2 => rw [ho] at h1; cases h1; exact absurd ⟨_, _, rfl⟩ hp
      | first => rfl
      | other h1 h2 => rfl
      | plain h1 h2 => rfl
    · rintro rfl
      exact .plain ho (fun ts m e => hp ⟨ts, m, e⟩)

/-! ### The graph -/

theorem style_graph {α : Type} (ident : α → Nat) (x : α) (s : Style) : ∀ (cs : List α) (g : Graph),
    (g.style ident x cs s).nodes = g.nodes ++ [(ident x, some s)] ∧
      (g.style ident x cs s).edges = g.edges ++ cs.map (fun c => (ident x, ident c, none)) := by
  intro cs g
  unfold Graph.style
  have key : ∀ (cs : List α) (g : Graph), (cs.foldl (fun g c => g.addEdge (ident x) (ident c) none) g).nodes = g.nodes ∧
      (cs.foldl (fun g c => g.addEdge (ident x) (ident c) none) g).edges =
        g.edges ++ cs.map (fun c => (ident x, ident c, none)) := by
    intro cs
    induction cs with
    | nil => intro g; simp
    | cons c cs ih =>
      intro g
      obtain ⟨h1, h2⟩ := ih (g.addEdge (ident x) (ident c) none)
      rw [List.foldl_cons, h1, h2]
      simp [Graph.addEdge]
  obtain ⟨h1, h2⟩ := key cs (g.addNode (ident x) (some s))
  rw [h1, h2]
  exact ⟨rfl, rfl⟩

theorem production_graph {α : Type} (ident : α → Nat) (x : α) (main : Nat) : ∀ (cs : List α) (j : Nat) (g : Graph),
    (productionEdges ident main x j cs g).nodes = g.nodes ∧
      (productionEdges ident main x j cs g).edges = g.edges ++ cs.mapIdx (fun k c => (ident x, ident c,
        if main > 0 ∧ main = k + j then some [("color".toList, dotDarkgray.toList)] else none)) := by
  intro cs
  induction cs with
  | nil => intro j g; simp [productionEdges]
  | cons c cs ih =>
    intro j g
    rw [productionEdges]
    obtain ⟨h1, h2⟩ := ih (j + 1) (g.addEdge (ident x) (ident c)
        (if main > 0 ∧ main = j then some [("color".toList, dotDarkgray.toList)] else none))
    rw [h1, h2]
    refine ⟨rfl, ?_⟩
    rw [List.mapIdx_cons]
    simp only [Graph.addEdge, List.append_assoc, List.cons_append, List.nil_append, Nat.zero_add]
    congr 2
    refine List.ext_getElem (by simp) ?_
    intro i h1 h2
    simp only [List.getElem_mapIdx]
    rw [show i + (j + 1) = i + 1 + j by omega]

theorem map_mapIdx {α β : Type} {f : Nat → α → β} {g : α → β} (l : List α) (hfg : ∀ k x, f k x = g x) :
    l.map g = l.mapIdx f := by
  refine List.ext_getElem (by simp) ?_
  intro i h1 h2
  simp [hfg]

theorem visitDot_graph (g : Graph) {x : DotItem P} (hx : ∀ a, x = .obj a → a < h.length) :
    (visitDot N ident which h g x).nodes = g.nodes ++ [(ident x, some (lookOf N h x))] ∧
      (visitDot N ident which h g x).edges = g.edges ++ rowOf ident (dotChildren which h) (markOf h) x := by
  cases x with
  | pred q p =>
    obtain ⟨h1, h2⟩ := style_graph ident (.pred q p) [labelled (N.pred p)] [] g
    exact ⟨h1, h2⟩
  | obj a =>
    have ho := List.getElem?_eq_getElem (hx a rfl)
    generalize h[a]'(hx a rfl) = o at ho
    by_cases hp : ∃ ts m, o = .prod ts m
    · obtain ⟨ts, m, rfl⟩ := hp
      simp only [visitDot, ho]
      obtain ⟨h1, h2⟩ := production_graph ident (.obj a) m (Obj.items (which a) (.prod ts m)) 0
        (g.addNode (ident (.obj a)) (some (objStyle N (.prod ts m))))
      rw [h1, h2]
      refine ⟨by simp only [lookOf, ho]; rfl, ?_⟩
      unfold rowOf
      simp only [dotChildren, ho, markOf]
      rfl
    · have e : visitDot N ident which h g (.obj a) = g.style ident (.obj a) (o.items (which a)) (objStyle N o) := by
        unfold visitDot
        simp only [ho]
        split
        · rename_i heq; cases heq; exact absurd ⟨_, _, rfl⟩ hp
        · rename_i heq; cases heq; rfl
        · rename_i heq; cases heq
      rw [e]
      obtain ⟨h1, h2⟩ := style_graph ident (.obj a) (objStyle N o) (o.items (which a)) g
      rw [h1, h2]
      refine ⟨by simp only [lookOf, ho], ?_⟩
      unfold rowOf
      simp only [dotChildren, ho]
      congr 1
      refine map_mapIdx _ (fun k c => ?_)
      unfold markOf
      simp only [ho]
      split
      · rename_i heq; cases heq; exact absurd ⟨_, _, rfl⟩ hp
      · rfl

theorem draw_graph : ∀ (items : List (DotItem P)) (g : Graph), (∀ x ∈ items, ∀ a, x = .obj a → a < h.length) →
    (items.foldl (visitDot N ident which h) g).nodes = g.nodes ++ items.map (fun x => (ident x, some (lookOf N h x))) ∧
      (items.foldl (visitDot N ident which h) g).edges =
        g.edges ++ items.flatMap (rowOf ident (dotChildren which h) (markOf h)) := by
  intro items
  induction items with
  | nil => intro g _; simp
  | cons x items ih =>
    intro g hx
    obtain ⟨h1, h2⟩ := visitDot_graph (N := N) (ident := ident) (which := which) g (hx x List.mem_cons_self)
    obtain ⟨h3, h4⟩ := ih (visitDot N ident which h g x) (fun y hy => hx y (List.mem_cons_of_mem _ hy))
    rw [List.foldl_cons, h3, h4, h1, h2]
    simp

/-! ### Everything there is -/

/-- Objects and the terms of productions. -/
def allItems (which : Nat → Nat → Nat) (h : Heap P) : List (DotItem P) :=
  (List.range h.length).map .obj ++ (h.zipIdx.flatMap (fun e => match e.1 with
    | .prod ts _ => termItems (which e.2) 0 ts
    | .pipeProd _ ps => termItems (which e.2) 0 (ps.map .pred)
    | _ => []))

theorem allItems_length : (allItems which h).length + 2 = dotFuel h := by
  unfold allItems dotFuel
  rw [List.length_append, List.length_map, List.length_range]
  congr 2
  have key : ∀ (l : Heap P) (j : Nat), ((l.zipIdx j).flatMap (fun e => match e.1 with
      | .prod ts _ => termItems (which e.2) 0 ts
      | .pipeProd _ ps => termItems (which e.2) 0 (ps.map .pred)
      | _ => [])).length = (l.map Obj.termCount).sum := by
    intro l
    induction l with
    | nil => intro j; rfl
    | cons o l ih =>
      intro j
      rw [List.zipIdx_cons, List.flatMap_cons, List.length_append, ih, List.map_cons, List.sum_cons]
      congr 1
      cases o <;> simp [termItems_length, Obj.termCount]
  exact key h 0

theorem inside_all (hc : ClosedHeap h) {root : Nat} (hr : root < h.length) {x : DotItem P}
    (hx : Inside (Holds which h) (.obj root) x) : x ∈ allItems which h := by
  have lt : ∀ a, a < h.length → DotItem.obj a ∈ allItems which h := by
    intro a ha
    exact List.mem_append_left _ (List.mem_map_of_mem (List.mem_range.2 ha))
  have child : ∀ {a : Nat} {o : Obj P} {c : Nat}, h[a]? = some o → c ∈ o.children → DotItem.obj c ∈ allItems which h :=
    fun ho hcc => lt _ (hc _ (List.mem_of_getElem? ho) _ hcc)
  have zip : ∀ {a : Nat} {o : Obj P}, h[a]? = some o → (o, a) ∈ h.zipIdx := by
    intro a o ho
    rw [List.mem_zipIdx_iff_getElem?]
    exact ho
  cases hx with
  | root => exact lt root hr
  | step _ hh =>
    cases hh with
    | term h1 h2 =>
      refine List.mem_append_right _ (List.mem_flatMap.2 ⟨_, zip h1, ?_⟩)
      exact List.mem_of_getElem? (by rw [termItems_get, h2]; rfl)
    | pred h1 h2 =>
      refine List.mem_append_right _ (List.mem_flatMap.2 ⟨_, zip h1, ?_⟩)
      exact List.mem_of_getElem? (by rw [termItems_get, h2, Nat.zero_add]; rfl)
    | word h1 h2 =>
      refine List.mem_append_right _ (List.mem_flatMap.2 ⟨_, zip h1, ?_⟩)
      exact List.mem_of_getElem? (by rw [termItems_get, List.getElem?_map, h2, Nat.zero_add]; rfl)
    | production h1 h2 => exact child h1 (List.mem_of_getElem? h2)
    | alternative h1 h2 => exact child h1 (List.mem_of_getElem? h2)
    | compiled h1 h2 => exact child h1 (List.mem_of_getElem? h2)
    | inner h1 h2 => exact child h1 (by cases h2 <;> simp [Obj.children])

theorem termRules_mem {r : Nat} : ∀ {ts : List (Term P)} {k : Nat}, ts[k]? = some (.rule r) → r ∈ termRules ts := by
  intro ts
  induction ts with
  | nil => intro k hk; cases hk
  | cons t ts ih =>
    intro k hk
    cases k with
    | zero => cases hk; exact List.mem_cons_self
    | succ k =>
      cases t with
      | pred p => exact ih hk
      | rule r' => exact List.mem_cons_of_mem _ (ih hk)

theorem inside_lt (hc : ClosedHeap h) {root : Nat} (hr : root < h.length) {x : DotItem P}
    (hx : Inside (Holds which h) (.obj root) x) : ∀ a, x = .obj a → a < h.length := by
  have child : ∀ {a : Nat} {o : Obj P} {c : Nat}, h[a]? = some o → c ∈ o.children → c < h.length :=
    fun ho hcc => hc _ (List.mem_of_getElem? ho) _ hcc
  intro a e
  cases hx with
  | root => cases e; exact hr
  | step _ hh =>
    cases hh with
    | term h1 h2 => cases e; exact child h1 (termRules_mem h2)
    | pred h1 h2 => cases e
    | word h1 h2 => cases e
    | production h1 h2 => cases e; exact child h1 (List.mem_of_getElem? h2)
    | alternative h1 h2 => cases e; exact child h1 (List.mem_of_getElem? h2)
    | compiled h1 h2 => cases e; exact child h1 (List.mem_of_getElem? h2)
    | inner h1 h2 => cases e; exact child h1 (by cases h2 <;> simp [Obj.children])

theorem rule_drawing (hc : ClosedHeap h) {root : Nat} (hr : root < h.length)
    (hid : ∀ x y, Inside (Holds which h) (.obj root) x → Inside (Holds which h) (.obj root) y → ident x = ident y → x = y) :
    ∃ items nodes arrows, ((ruleDot N ident which h root).lines []).1 = nodes ++ arrows ∧
      Drawing (Holds which h) (Looks N h) (Mark h) (.obj root) items nodes arrows := by
  obtain ⟨w1, w2, w3⟩ := bfs_walk (ident := ident) (children := dotChildren which h)
    (Z := Inside (Holds which h) (.obj root)) hid (fun x hx c hcx => by
      obtain ⟨k, hk⟩ := List.mem_iff_getElem?.1 hcx
      exact .step hx ((holds_iff _ _ _).2 hk)) (all := allItems which h) (fun x hx => inside_all hc hr hx) .root
    (n := dotFuel h) (by rw [← allItems_length (which := which)]; omega)
  obtain ⟨g1, g2⟩ := draw_graph (N := N) (ident := ident) (which := which) (h := h) (dotWalk ident which h root) {}
    (fun x hx => inside_lt hc hr (w3 x hx).1)
  obtain ⟨nodes, arrows, e, d⟩ := drawing_of (ident := ident) (children := dotChildren which h) (looks := Looks N h)
    (mark := Mark h) (look := lookOf N h) (markOf := markOf h) (more := []) w1 w2
    (fun x hx => (w3 x hx).2) (fun x hx => (w3 x hx).1) (fun a b ha hb => hid a b (w3 a ha).1 (w3 b hb).1)
    holds_iff (fun x hx => looks_of (inside_lt hc hr (w3 x hx).1)) (fun x _ k c hh => marks_of hh)
    (fun e he => by cases he) (g := ruleDot N ident which h root) (by exact g1) (by
      rw [List.append_nil]
      exact g2)
  exact ⟨_, nodes, arrows, by simpa using e, d⟩

end Yargy.Picture
