import Verif.Proofs.TreePicture
import Verif.Properties.EndToEnd
import Mathlib.Data.Nat.Pairing
/-!
C62, C63: drawings of rules and of trees.
-/
namespace Yargy
open Spec Spec.Picture

section
variable {α : Type} {holds : α → Nat → α → Prop} {looks : α → Style → Prop} {mark : α → Nat → Option Style → Prop}
  {root : α} {items : List α} {nodes arrows : List DotLine}

/-- The arrow starts at the line. -/
def startsAt (n : Nat) : DotLine → Bool
  | .edge s _ _ => decide (s = n)
  | .node _ _ => false

theorem filter_rows {n : Nat} : ∀ (rows : List (List DotLine)) (j : Nat),
    (∀ (i : Nat) row, rows[i]? = some row → ∀ l ∈ row, ∃ m s, l = .edge (j + i) m s) → j ≤ n →
    rows.flatten.filter (startsAt n) = (rows[n - j]?).getD [] := by
  intro rows
  induction rows with
  | nil => intro j _ _; rfl
  | cons row rows ih =>
    intro j h hj
    rw [List.flatten_cons, List.filter_append]
    have hrest : ∀ (i : Nat) row, rows[i]? = some row → ∀ l ∈ row, ∃ m s, l = .edge (j + 1 + i) m s := by
      intro i row hr l hl
      obtain ⟨m, s, e⟩ := h (i + 1) row hr l hl
      exact ⟨m, s, by rw [e, show j + (i + 1) = j + 1 + i by omega]⟩
    by_cases hjn : j = n
    · subst hjn
      have h1 : row.filter (startsAt j) = row := by
        rw [List.filter_eq_self]
        intro l hl
        obtain ⟨m, s, rfl⟩ := h 0 row rfl l hl
        simp [startsAt]
      have h2 : rows.flatten.filter (startsAt j) = [] := by
        rw [List.filter_eq_nil_iff]
        intro l hl
        obtain ⟨r, hr, hl⟩ := List.mem_flatten.1 hl
        obtain ⟨i, hi⟩ := List.mem_iff_getElem?.1 hr
        obtain ⟨m, s, rfl⟩ := hrest i r hi l hl
        simp [startsAt]
        omega
      rw [h1, h2]
      simp
    · have h1 : row.filter (startsAt n) = [] := by
        rw [List.filter_eq_nil_iff]
        intro l hl
        obtain ⟨m, s, rfl⟩ := h 0 row rfl l hl
        simp [startsAt]
        omega
      rw [h1, ih (j + 1) hrest (by omega), show n - j = (n - (j + 1)) + 1 by omega]
      rfl

/-- What a drawing tells: number `k` among the arrows that start at a line goes to the part number `k`. -/
theorem picture_arrow (d : Drawing holds looks mark root items nodes arrows) {n m : Nat} {x y : α} (hx : items[n]? = some x)
    (hy : items[m]? = some y) (k : Nat) :
    (∃ s, (arrows.filter (startsAt n))[k]? = some (.edge n m s)) ↔ (∃ s, mark x k s) ∧ holds x k y := by
  obtain ⟨rows, h1, rfl, h3⟩ := d.arrow
  have hrows : ∀ (i : Nat) row, rows[i]? = some row → ∀ l ∈ row, ∃ m s, l = .edge (0 + i) m s := by
    intro i row hr l hl
    have hi : i < items.length := by rw [← h1]; exact (List.getElem?_eq_some_iff.1 hr).1
    obtain ⟨row', e, h⟩ := h3 i _ (List.getElem?_eq_getElem hi)
    cases hr.symm.trans e
    obtain ⟨k, hk⟩ := List.mem_iff_getElem?.1 hl
    obtain ⟨m, c, s, _, _, _, rfl⟩ := (h k l).1 hk
    exact ⟨m, s, by rw [Nat.zero_add]⟩
  rw [filter_rows rows 0 hrows (Nat.zero_le _)]
  obtain ⟨row, e, h⟩ := h3 n x hx
  rw [Nat.sub_zero, e]
  constructor
  · rintro ⟨s, hs⟩
    obtain ⟨m', c, s', q1, q2, q3, q4⟩ := (h k _).1 hs
    cases q4
    rw [hy] at q2
    cases q2
    exact ⟨⟨_, q3⟩, q1⟩
  · rintro ⟨⟨s, hs⟩, hh⟩
    exact ⟨s, (h k _).2 ⟨m, y, s, hh, hy, hs, rfl⟩⟩

end

/-! ### Rules -/

section
variable {L : Lang} {setOrder : List Str → List Str} {h h' : Heap Pred} {root : Nat} {N : Labels Pred}
  {ident : DotItem Pred → Nat} {which : Nat → Nat → Nat}

/-- C62: whatever the program did before, `rule.as_dot` ends and shows every rule, production and predicate that can
be reached from the rule, each once, with its kind, and an arrow to each of its parts in order; the arrow to a main term
that is not the first one is dark. Different objects have different addresses. -/
theorem rule_picture (hrun : Run L setOrder [] h) (hr : RuleAt h root)
    (hid : ∀ x y, Inside (Holds which h) (.obj root) x → Inside (Holds which h) (.obj root) y → ident x = ident y → x = y) :
    ∃ items nodes arrows, ((ruleDot N ident which h root).lines []).1 = nodes ++ arrows ∧
      Drawing (Holds which h) (Looks N h) (Spec.Picture.Mark h) (.obj root) items nodes arrows :=
  Picture.rule_drawing (run_healthy hrun healthy_nil).sorted.closed (rule_at hr).1 hid

/-- If every place has its own predicate object, addresses can be told apart. -/
theorem own_idents {P : Type} {h : Heap P} {which : Nat → Nat → Nat} {ident : DotItem P → Nat} {root : DotItem P}
    (hw : ∀ a k b j, which a k = which b j → a = b ∧ k = j)
    (h1 : ∀ a b, ident (.obj a) = ident (.obj b) → a = b) (h2 : ∀ a q p, ident (.obj a) ≠ ident (.pred q p))
    (h3 : ∀ q p q' p', ident (.pred q p) = ident (.pred q' p') → q = q') (hroot : ∃ a, root = .obj a) :
    ∀ x y, Inside (Holds which h) root x → Inside (Holds which h) root y → ident x = ident y → x = y := by
  have key : ∀ {q p}, Inside (Holds which h) root (.pred q p) → ∃ a k, q = which a k ∧
      ((∃ ts m, h[a]? = some (.prod ts m) ∧ ts[k]? = some (.pred p)) ∨
        ∃ v ps, h[a]? = some (.pipeProd v ps) ∧ ps[k]? = some p) := by
    intro q p hx
    generalize hz : DotItem.pred q p = z at hx
    cases hx with
    | root => obtain ⟨a, rfl⟩ := hroot; cases hz
    | step _ hh =>
      subst hz
      cases hh with
      | pred e1 e2 => exact ⟨_, _, rfl, .inl ⟨_, _, e1, e2⟩⟩
      | word e1 e2 => exact ⟨_, _, rfl, .inr ⟨_, _, e1, e2⟩⟩
  intro x y hx hy e
  cases x with
  | obj a =>
    cases y with
    | obj b => rw [h1 a b e]
    | pred q p => exact absurd e (h2 a q p)
  | pred q p =>
    cases y with
    | obj b => exact absurd e.symm (h2 b q p)
    | pred q' p' =>
      have hq := h3 _ _ _ _ e
      subst hq
      obtain ⟨a, k, rfl, c1⟩ := key hx
      obtain ⟨b, j, e2, c2⟩ := key hy
      obtain ⟨rfl, rfl⟩ := hw _ _ _ _ e2
      rcases c1 with ⟨ts, m, u1, u2⟩ | ⟨v, ps, u1, u2⟩ <;> rcases c2 with ⟨ts', m', w1, w2⟩ | ⟨v', ps', w1, w2⟩
      · rw [u1] at w1; cases w1; rw [u2] at w2; cases w2; rfl
      · rw [u1] at w1; cases w1
      · rw [u1] at w1; cases w1
      · rw [u1] at w1; cases w1; rw [u2] at w2; cases w2; rfl

end

/-- C62: two rules with the same drawing are built in the same way: there is a numbering of what is inside of the one and
the other such that things with the same number look the same and have the same parts. -/
theorem same_picture {h g : Heap Pred} {root start : Nat} {N M : Labels Pred} {ident jdent : DotItem Pred → Nat}
    {which whose : Nat → Nat → Nat} (hrun : Run L setOrder [] h) (hr : RuleAt h root)
    (hid : ∀ x y, Inside (Holds which h) (.obj root) x → Inside (Holds which h) (.obj root) y → ident x = ident y → x = y)
    (grun : Run L setOrder [] g) (gr : RuleAt g start)
    (gid : ∀ x y, Inside (Holds whose g) (.obj start) x → Inside (Holds whose g) (.obj start) y → jdent x = jdent y → x = y)
    (e : ((ruleDot N ident which h root).lines []).1 = ((ruleDot M jdent whose g start).lines []).1) :
    ∃ xs ys : List (DotItem Pred), xs.Nodup ∧ ys.Nodup ∧ xs.length = ys.length ∧
      xs[0]? = some (.obj root) ∧ ys[0]? = some (.obj start) ∧
      (∀ x, x ∈ xs ↔ Inside (Holds which h) (.obj root) x) ∧ (∀ y, y ∈ ys ↔ Inside (Holds whose g) (.obj start) y) ∧
      (∀ (n : Nat) x y, xs[n]? = some x → ys[n]? = some y → ∃ s, Looks N h x s ∧ Looks M g y s) ∧
      ∀ (n m : Nat) x x' y y', xs[n]? = some x → xs[m]? = some x' → ys[n]? = some y → ys[m]? = some y' →
        ∀ k, Holds which h x k x' ↔ Holds whose g y k y' := by
  obtain ⟨xs, nodes, arrows, e1, d⟩ := rule_picture (N := N) hrun hr hid
  obtain ⟨ys, nodes', arrows', e2, d'⟩ := rule_picture (N := M) grun gr gid
  have isNode : ∀ {α : Type} {holds : α → Nat → α → Prop} {looks : α → Style → Prop} {mark : α → Nat → Option Style → Prop}
      {root : α} {items : List α} {nodes arrows : List DotLine}, Drawing holds looks mark root items nodes arrows →
      (nodes ++ arrows).filter (fun l => match l with | .node _ _ => true | .edge _ _ _ => false) = nodes ∧
      (nodes ++ arrows).filter (fun l => match l with | .node _ _ => false | .edge _ _ _ => true) = arrows := by
    intro α holds looks mark root items nodes arrows d
    have n1 : ∀ l ∈ nodes, ∃ n s, l = .node n s := by
      intro l hl
      obtain ⟨n, hn⟩ := List.mem_iff_getElem?.1 hl
      have hlt : n < items.length := by rw [← d.lines]; exact (List.getElem?_eq_some_iff.1 hn).1
      obtain ⟨s, _, hs⟩ := d.node n _ (List.getElem?_eq_getElem hlt)
      rw [hn] at hs
      cases hs
      exact ⟨_, _, rfl⟩
    have n2 : ∀ l ∈ arrows, ∃ n m s, l = .edge n m s := by
      intro l hl
      obtain ⟨rows, q1, rfl, q3⟩ := d.arrow
      obtain ⟨row, hrow, hl⟩ := List.mem_flatten.1 hl
      obtain ⟨i, hi⟩ := List.mem_iff_getElem?.1 hrow
      have hlt : i < items.length := by rw [← q1]; exact (List.getElem?_eq_some_iff.1 hi).1
      obtain ⟨row', e, q⟩ := q3 i _ (List.getElem?_eq_getElem hlt)
      cases hi.symm.trans e
      obtain ⟨k, hk⟩ := List.mem_iff_getElem?.1 hl
      obtain ⟨m, c, s, _, _, _, rfl⟩ := (q k l).1 hk
      exact ⟨_, _, _, rfl⟩
    rw [List.filter_append, List.filter_append]
    refine ⟨?_, ?_⟩
    · rw [List.filter_eq_self.2 (by intro l hl; obtain ⟨_, _, rfl⟩ := n1 l hl; rfl),
        List.filter_eq_nil_iff.2 (by intro l hl; obtain ⟨_, _, _, rfl⟩ := n2 l hl; simp), List.append_nil]
    · rw [List.filter_eq_nil_iff.2 (by intro l hl; obtain ⟨_, _, rfl⟩ := n1 l hl; simp),
        List.filter_eq_self.2 (by intro l hl; obtain ⟨_, _, _, rfl⟩ := n2 l hl; rfl), List.nil_append]
  rw [e1, e2] at e
  obtain ⟨f1, f2⟩ := isNode d
  obtain ⟨f1', f2'⟩ := isNode d'
  have en : nodes = nodes' := by rw [← f1, ← f1', e]
  have ea : arrows = arrows' := by rw [← f2, ← f2', e]
  subst en ea
  refine ⟨xs, ys, d.once, d'.once, by rw [← d.lines, d'.lines], d.first, d'.first, d.shown, d'.shown, ?_, ?_⟩
  · intro n x y hx hy
    obtain ⟨s, h1, h2⟩ := d.node n x hx
    obtain ⟨s', h3, h4⟩ := d'.node n y hy
    rw [h2] at h4
    cases h4
    exact ⟨s, h1, h3⟩
  · intro n m x x' y y' hx hx' hy hy' k
    have p1 := picture_arrow d hx hx' k
    have p2 := picture_arrow d' hy hy' k
    constructor
    · intro hh
      exact (p2.1 (p1.2 ⟨⟨_, (Picture.marks_of hh _).2 rfl⟩, hh⟩)).2
    · intro hh
      exact (p1.1 (p2.2 ⟨⟨_, (Picture.marks_of hh _).2 rfl⟩, hh⟩)).2

/-- `X = forward(); X.define(rule('a', main(X)))` -/
def drawnSource : Heap Pred :=
  [.forward (some 2), .prod [.pred (.eq "a".toList), .rule 0] 1, .rule [1]]

/-- Addresses of objects and predicates. -/
def drawnIdent : DotItem Pred → Nat
  | .obj a => 2 * a
  | .pred q _ => 2 * q + 1

/-- The predicate at a place of the example. -/
def drawnWhich (a k : Nat) : Nat := Nat.pair a k

/-- Texts of the example. -/
def drawnLabels : Labels Pred := ⟨fun _ => "eq('a')".toList, fun _ => [], fun _ => []⟩

/-- The hypotheses of `rule_picture` are met by a recursive rule. -/
example : Run sampleLang sampleOrder [] drawnSource ∧ RuleAt drawnSource 2 ∧
    (∀ x y, Inside (Holds drawnWhich drawnSource) (.obj 2) x → Inside (Holds drawnWhich drawnSource) (.obj 2) y →
      drawnIdent x = drawnIdent y → x = y) ∧
    ((ruleDot drawnLabels drawnIdent drawnWhich drawnSource 2).lines []).1.map (fun l => String.ofList l.text) =
      ["0 [label=\"Rule\", fillcolor=\"#aec7e8\"];", "1 [label=\"Production\", fillcolor=\"#aec7e8\"];",
        "2 [label=\"eq('a')\"];", "3 [label=\"Forward\", fillcolor=\"#f7b6d2\"];", "0 -> 1;", "1 -> 2;",
        "1 -> 3 [color=\"#888888\"];", "3 -> 0;"] :=
  ⟨fresh_run (fresh_trans (fresh_makes (g := []) (os := .forward none :: drawnSource.tail) (by decide +kernel))
    (.cons (.define (a := 0) (c := none) (r := 2) rfl ⟨.rule [1], rfl, rfl⟩) .nil)), ⟨_, rfl, rfl⟩,
    own_idents (fun a k b j e => Nat.pair_eq_pair.1 e) (fun a b e => by simp only [drawnIdent] at e; omega)
      (fun a q p e => by simp only [drawnIdent] at e; omega) (fun q p q' p' e => by simp only [drawnIdent] at e; omega)
      ⟨2, rfl⟩, by decide +kernel⟩

/-! ### Trees -/

/-- C63: the drawing of a tree shows every node and leaf once, with its word or the label of its rule, an arrow to every
child in order, and one dashed line between any two nodes under the same relation object. Different nodes have different
addresses. -/
theorem tree_picture {P : Type} {N : TreeLabels} {ident : List Nat → Nat} (t : TTree P)
    (hid : ∀ x y, (∃ s, At t x s) → (∃ s, At t y s) → ident x = ident y → x = y) :
    ∃ (items : List (List Nat)) (nodes arrows : List DotLine) (joins : List (Nat × Nat × Nat)),
      ((treeDot N ident t).lines []).1 = nodes ++ arrows ++ joins.map (fun j =>
        .edge j.2.1 j.2.2 (some [("label".toList, N.relation j.1), ("dir".toList, "none".toList),
          ("style".toList, "dashed".toList)])) ∧
      Drawing (TreeHolds t) (TreeLooks N t) (fun _ _ s => s = none) [] items nodes arrows ∧
      joins.Nodup ∧ ∀ rel n m, (rel, n, m) ∈ joins ↔
        n < m ∧ (∃ x, items[n]? = some x ∧ Carries N t x rel) ∧ ∃ y, items[m]? = some y ∧ Carries N t y rel :=
  Picture.tree_drawing t hid

/-- A tree with two nodes under one relation. -/
def drawnTree : TTree Pred :=
  .node 0 0 ⟨0, [], 0, none⟩ 0 [.node 1 1 ⟨0, [], 0, none⟩ 0 [.leaf 2 (.eq "a".toList) { value := "a".toList, span := (0, 1), type := [] }],
    .node 3 1 ⟨0, [], 0, none⟩ 0 [.leaf 4 (.eq "b".toList) { value := "b".toList, span := (1, 2), type := [] }]]

/-- Addresses of the nodes of the example. -/
def drawnPlace (path : List Nat) : Nat := path.foldl (fun n k => 3 * n + k + 1) 0

/-- The hypothesis of `tree_picture` is met. -/
example : (∀ x y, (∃ s, At drawnTree x s) → (∃ s, At drawnTree y s) → drawnPlace x = drawnPlace y → x = y) ∧
    ((treeDot ⟨fun r => some (if r = 0 then "R0".toList else "R1".toList), fun _ => false,
      fun r => if r = 1 then some 7 else none, fun _ => "gnc".toList⟩ drawnPlace
      drawnTree).lines []).1.map (fun l => String.ofList l.text) =
    ["0 [label=\"R0\", fillcolor=\"#aec7e8\"];", "1 [label=\"R1\", fillcolor=\"#aec7e8\"];", "2 [label=\"a\"];",
      "3 [label=\"R1\", fillcolor=\"#aec7e8\"];", "4 [label=\"b\"];", "0 -> 1;", "0 -> 3;", "1 -> 2;", "3 -> 4;",
      "1 -> 3 [label=\"gnc\", dir=\"none\", style=\"dashed\"];"] := by
  refine ⟨?_, by decide +kernel⟩
  rintro x y ⟨s, hx⟩ ⟨s', hy⟩ e
  have key : ∀ x ∈ (Picture.flat [] drawnTree).map TreeItem.path, ∀ y ∈ (Picture.flat [] drawnTree).map TreeItem.path,
      drawnPlace x = drawnPlace y → x = y := by decide +kernel
  exact key x (List.mem_map_of_mem (Picture.at_flat hx)) y (List.mem_map_of_mem (Picture.at_flat hy)) e

end Yargy
