import Verif.Model.RuleDot
/-!
What drawings of rules and trees show, described without walking.
-/
namespace Yargy.Spec.Picture
open Yargy

variable {P : Type}

/-- What can be reached: `holds x k c` says that `c` is number `k` among the parts of `x`. -/
inductive Inside {α : Type} (holds : α → Nat → α → Prop) (root : α) : α → Prop
  | root : Inside holds root root
  | step {x k c} : Inside holds root x → holds x k c → Inside holds root c

/-- The lines of a drawing: a line for every thing inside of the root, each once, the root first; the number of a
thing is the number of its line. Then, thing by thing, an arrow to every part, in order. -/
structure Drawing {α : Type} (holds : α → Nat → α → Prop) (looks : α → Style → Prop) (mark : α → Nat → Option Style → Prop)
    (root : α) (items : List α) (nodes arrows : List DotLine) : Prop where
  once : items.Nodup
  first : items[0]? = some root
  shown : ∀ x, x ∈ items ↔ Inside holds root x
  lines : nodes.length = items.length
  node : ∀ (n : Nat) x, items[n]? = some x → ∃ s, looks x s ∧ nodes[n]? = some (.node n (some s))
  arrow : ∃ rows : List (List DotLine), rows.length = items.length ∧ arrows = rows.flatten ∧
    ∀ (n : Nat) x, items[n]? = some x → ∃ row, rows[n]? = some row ∧ ∀ (k : Nat) l, row[k]? = some l ↔
      ∃ (m : Nat) (c : α) (s : Option Style), holds x k c ∧ items[m]? = some c ∧ mark x k s ∧ l = .edge n m s

/-! ### Rules -/

/-- Rules around one other rule. -/
inductive Wraps : Obj P → Nat → Prop
  | optional {r v} : Wraps (.optional r v) r
  | repeatable {r v} : Wraps (.repeatable r v) r
  | repOptional {r v w} : Wraps (.repOptional r v w) r
  | minBounded {r n v} : Wraps (.minBounded r n v) r
  | maxBounded {r n v} : Wraps (.maxBounded r n v) r
  | minMaxBounded {r n m v} : Wraps (.minMaxBounded r n m v) r
  | named {r s} : Wraps (.named r s) r
  | interp {r i} : Wraps (.interp r i) r
  | relation {r i} : Wraps (.relation r i) r
  | forward {r} : Wraps (.forward (some r)) r

/-- Number `k` among the parts of an item. -/
inductive Holds (which : Nat → Nat → Nat) (h : Heap P) : DotItem P → Nat → DotItem P → Prop
  | term {a ts m k r} : h[a]? = some (.prod ts m) → ts[k]? = some (.rule r) → Holds which h (.obj a) k (.obj r)
  | pred {a ts m k p} : h[a]? = some (.prod ts m) → ts[k]? = some (.pred p) →
      Holds which h (.obj a) k (.pred (which a k) p)
  | word {a v ps k p} : h[a]? = some (.pipeProd v ps) → ps[k]? = some p → Holds which h (.obj a) k (.pred (which a k) p)
  | production {a ps k c} : h[a]? = some (.rule ps) → ps[k]? = some c → Holds which h (.obj a) k (.obj c)
  | alternative {a ps k c} : h[a]? = some (.or ps) → ps[k]? = some c → Holds which h (.obj a) k (.obj c)
  | compiled {a ps n i r d k c} : h[a]? = some (.bnf ps n i r d) → ps[k]? = some c → Holds which h (.obj a) k (.obj c)
  | inner {a o c} : h[a]? = some o → Wraps o c → Holds which h (.obj a) 0 (.obj c)

/-- The text on a rule or production. -/
inductive Caption (N : Labels P) : Obj P → Str → Prop
  | prod {ts m} : Caption N (.prod ts m) "Production".toList
  | emptyProd : Caption N .emptyProd "EmptyProduction".toList
  | pipeProd {v ps} : Caption N (.pipeProd v ps) "PipelineProduction".toList
  | rule {ps} : Caption N (.rule ps) "Rule".toList
  | or {rs} : Caption N (.or rs) "Or".toList
  | optional {r v} : Caption N (.optional r v) "Optional".toList
  | repeatable {r v} : Caption N (.repeatable r v) "Repeatable".toList
  | repOptional {r v w} : Caption N (.repOptional r v w) "RepeatableOptional".toList
  | minBounded {r n v} : Caption N (.minBounded r n v) ("MinBounded >=".toList ++ (toString n).toList)
  | maxBounded {r n v} : Caption N (.maxBounded r n v) ("MaxBounded <=".toList ++ (toString n).toList)
  | minMaxBounded {r n m v} : Caption N (.minMaxBounded r n m v)
      ("MinMaxBounded [".toList ++ (toString n).toList ++ ", ".toList ++ (toString m).toList ++ "]".toList)
  | named {r s} : Caption N (.named r s) s
  | interp {r i} : Caption N (.interp r i) (N.interp i)
  | relation {r i} : Caption N (.relation r i) (N.relation i)
  | forward {r} : Caption N (.forward r) "Forward".toList
  | empty : Caption N .empty "Empty".toList
  | scheme {k ls} : Caption N (.pipe (.scheme k ls)) (match k with
      | .exact => "[pipeline]" | .caseless => "[caseless_pipeline]" | .morph => "[morph_pipeline]").toList
  | keys {k ls} : Caption N (.pipe (.keys k ls)) (match k with
      | .exact => "Pipeline" | .caseless => "CaselessPipeline" | .morph => "MorphPipeline").toList
  | unnamed {ps d} : Caption N (.bnf ps none none none d) "None".toList
  | titled {ps s d} : Caption N (.bnf ps (some s) none none d) s
  | fact {ps n i d} : Caption N (.bnf ps n (some i) none d) (N.interp i)
  | unnamedRelation {ps r d} : Caption N (.bnf ps none none (some r) d) ("None^".toList ++ N.relation r)
  | titledRelation {ps s r d} : Caption N (.bnf ps (some s) none (some r) d) (s ++ '^' :: N.relation r)
  | factRelation {ps n i r d} : Caption N (.bnf ps n (some i) (some r) d) (N.interp i ++ '^' :: N.relation r)

/-- Colours: blue for what is made of parts, orange for quantifiers, red for names, green for what gives facts
and for compiled rules, purple for relations, forward rules and gazetteers. -/
inductive Colour : Obj P → Option String → Prop
  | prod {ts m} : Colour (.prod ts m) (some "#aec7e8")
  | pipeProd {v ps} : Colour (.pipeProd v ps) (some "#aec7e8")
  | rule {ps} : Colour (.rule ps) (some "#aec7e8")
  | or {rs} : Colour (.or rs) (some "#aec7e8")
  | optional {r v} : Colour (.optional r v) (some "#ffbb78")
  | repeatable {r v} : Colour (.repeatable r v) (some "#ffbb78")
  | repOptional {r v w} : Colour (.repOptional r v w) (some "#ffbb78")
  | minBounded {r n v} : Colour (.minBounded r n v) (some "#ffbb78")
  | maxBounded {r n v} : Colour (.maxBounded r n v) (some "#ffbb78")
  | minMaxBounded {r n m v} : Colour (.minMaxBounded r n m v) (some "#ffbb78")
  | named {r s} : Colour (.named r s) (some "#ff9896")
  | interp {r i} : Colour (.interp r i) (some "#dbdb8d")
  | relation {r i} : Colour (.relation r i) (some "#f7b6d2")
  | forward {r} : Colour (.forward r) (some "#f7b6d2")
  | pipe {p} : Colour (.pipe p) (some "#f7b6d2")
  | bnf {ps n i r d} : Colour (.bnf ps n i r d) (some "#dbdb8d")
  | emptyProd : Colour .emptyProd none
  | empty : Colour .empty none

/-- The attributes of a thing with a text and maybe a colour. -/
def attributes (text : Str) (colour : Option String) : Style :=
  ("label".toList, text) :: (colour.map (fun c => ("fillcolor".toList, c.toList))).toList

/-- How an item looks. -/
inductive Looks (N : Labels P) (h : Heap P) : DotItem P → Style → Prop
  | pred {q p} : Looks N h (.pred q p) (attributes (N.pred p) none)
  | obj {a o text colour} : h[a]? = some o → Caption N o text → Colour o colour →
      Looks N h (.obj a) (attributes text colour)

/-- The arrow to the main term of a production, unless it is the first one, is dark; others are plain. -/
inductive Mark (h : Heap P) : DotItem P → Nat → Option Style → Prop
  | main {a ts m} : h[a]? = some (.prod ts m) → 0 < m → Mark h (.obj a) m (some [("color".toList, "#888888".toList)])
  | first {x} : Mark h x 0 none
  | other {a ts m k} : h[a]? = some (.prod ts m) → k ≠ m → Mark h (.obj a) k none
  | plain {a o k} : h[a]? = some o → (∀ ts m, o ≠ .prod ts m) → Mark h (.obj a) k none

/-! ### Trees -/

/-- `At t path s`: following `path`, the last step first, leads from the root of `t` to `s`. -/
inductive At (t : TTree P) : List Nat → TTree P → Prop
  | root : At t [] t
  | child {path i r p k cs n c} : At t path (.node i r p k cs) → cs[n]? = some c → At t (n :: path) c

/-- Number `k` among the children of the node at a place. -/
def TreeHolds (t : TTree P) (path : List Nat) (k : Nat) (c : List Nat) : Prop :=
  c = k :: path ∧ ∃ s, At t c s

/-- How an item of a tree looks: leaves show their words, nodes the label of their rule, green if it gives facts. -/
inductive TreeLooks (N : TreeLabels) (t : TTree P) : List Nat → Style → Prop
  | leaf {path i p tok} : At t path (.leaf i p tok) → TreeLooks N t path (attributes tok.value none)
  | node {path i r p k cs} : At t path (.node i r p k cs) → TreeLooks N t path
      (attributes ((N.label r).getD "None".toList) (some (if N.interpreted r = true then "#dbdb8d" else "#aec7e8")))

/-- The place carries the relation. -/
def Carries (N : TreeLabels) (t : TTree P) (path : List Nat) (rel : Nat) : Prop :=
  ∃ i r p k cs, At t path (.node i r p k cs) ∧ N.relationOf r = some rel

end Yargy.Spec.Picture
