import Verif.Model.Api
import Verif.Spec.History
import Verif.Spec.Outline
import Verif.Spec.Choices
/-!
What the calls of a program mean, in terms of their arguments: the words of the rules they return, the
labels put around them, the calls that are refused.
-/
namespace Yargy.Spec

/-- The arguments of a call. -/
def args : Call → List Arg
  | .rule items | .and_ items | .or_ items | .pipeline _ items => items
  | .empty | .forward | .agreement _ | .interpretator _ => []
  | .not_ x | .main x | .morph x _ | .const x _ | .custom x _ => [x]
  | .optional x reverse => x :: reverse.toList
  | .repeatable x min max reverse => [x, min, max, reverse]
  | .named x y | .interpretation x y | .match_ x y => [x, y]
  | .define x items => x :: items

/-- What a program can hold: objects that are there. -/
def Holds (w : World) : Arg → Prop
  | .rule a | .main (.rule a) => RuleAt w.heap a
  | .relation r => r < w.rels.length
  | .interpretator i => i < w.its.length
  | _ => True

/-- A program: calls with what it holds, some of which raise (and are caught), and, if allowed, parsers
built from rules, with or without success. The calls that succeeded are listed with what they returned. -/
inductive Does (L : Lang) (setOrder : List Str → List Str) (builds : Prop) :
    World → List (Call × Arg) → World → Prop
  | nil {w} : Does L setOrder builds w [] w
  | call {w c x w' log w''} : (∀ y ∈ args c, Holds w y) → c.apply w = .ok (x, w') →
      Does L setOrder builds w' log w'' → Does L setOrder builds w ((c, x) :: log) w''
  | raised {w c e log w'} : (∀ y ∈ args c, Holds w y) → c.apply w = .error e →
      Does L setOrder builds w log w' → Does L setOrder builds w log w'
  | build {w c split relation pid limit root b h log w'} : builds → (∀ a b : Nat, pid a = pid b → a = b) →
      RuleAt w.heap root → buildParser L setOrder c split relation pid limit root w.heap = .ok (b, h) →
      Does L setOrder builds { w with heap := h } log w' → Does L setOrder builds w log w'
  | failed {w c split relation pid limit root e log w'} : builds → (∀ a b : Nat, pid a = pid b → a = b) →
      RuleAt w.heap root → buildParser L setOrder c split relation pid limit root w.heap = .error e →
      Does L setOrder builds { w with heap := compileLeft (c.activation L split) pid limit root w.heap } log w' →
      Does L setOrder builds w log w'

/-! ### Words -/

/-- The words of an argument, as an item of a rule: those of a rule; a predicate; anything else is
compared with the token. -/
def ArgWord (A : Activation Pred) (k : Kind) (h : Heap Pred) : Arg → List (Sym Pred) → Prop
  | .rule a, w | .main (.rule a), w => Reads A k h [.rule a] w
  | .pred p, w | .main (.pred p), w => ∃ q, A.activate p = .ok q ∧ w = [.pred q]
  | .str s, w => w = [.pred (.eq s)]
  | _, w => w = [.pred (.in_ [])]

/-- The words of several arguments in a row. -/
inductive ArgWords (A : Activation Pred) (k : Kind) (h : Heap Pred) : List Arg → List (Sym Pred) → Prop
  | nil : ArgWords A k h [] []
  | cons {x xs u v} : ArgWord A k h x u → ArgWords A k h xs v → ArgWords A k h (x :: xs) (u ++ v)

/-- `None`, `0`, `False` and the empty string are no bounds. -/
def given : Arg → Bool
  | .none | .int 0 | .bool false | .str [] => false
  | _ => true

/-- The bound an argument is. -/
def bound : Arg → Option Int
  | .int n => some n
  | .bool b => some (if b then 1 else 0)
  | _ => none

/-- How often something may be repeated: from the first bound, or once, to the second bound, if there is
one. -/
def Often (min max : Arg) (n : Nat) : Prop :=
  (given min = true → ∃ b, bound min = some b ∧ b ≤ n) ∧ (given min = false → 1 ≤ n) ∧
  (given max = true → ∃ b, bound max = some b ∧ (n : Int) ≤ b)

/-- The words a call says its rule has, apart from labels. -/
def CallWords (A : Activation Pred) (k : Kind) (h : Heap Pred) : Call → List (Sym Pred) → Prop
  | .rule items, w => ArgWords A k h items w
  | .empty, w => w = []
  | .or_ items, w => ∃ x ∈ items, ArgWord A k h x w
  | .optional x _, w => w = [] ∨ ArgWord A k h x w
  | .repeatable x min max _, w => ∃ n, Often min max n ∧ ArgWords A k h (List.replicate n x) w
  | .named x _, w | .interpretation x _, w | .match_ x _, w => ArgWord A k h x w
  | .define _ items, w => ArgWords A k h items w
  | .pipeline kind lines, w => ∃ line, .str line ∈ lines ∧ ∃ ps, A.key kind line = .ok ps ∧ w = ps.map .pred
  | _, _ => False

/-- The interpretator that the argument of `interpretation` stands for. -/
def Target (w : World) : Arg → Nat → Prop
  | .interpretator i, j => j = i
  | .fact cls, j => w.its[j]? = some (.fact cls)
  | .attr cls name, j | .repeatableAttr cls name, j => w.its[j]? = some (.attr cls name)
  | .normAttr cls name n, j => w.its[j]? = some (.attrNorm cls name n)
  | .normalizer n, j => w.its[j]? = some (.norm n)
  | _, _ => False

/-- The label a call puts around the words. -/
def Label (w : World) : Kind → Call → Option Attr → Prop
  | .name, .named _ (.str n), b => b = realName n
  | .interp, .interpretation _ x, b => ∃ i, Target w x i ∧ b = some (.interp i)
  | .relation, .match_ _ (.relation r), b => b = some (.relation r)
  | _, _, b => b = none

/-- Items marked by `main`. -/
def marked : Arg → Bool
  | .main _ => true
  | _ => false

/-- The number of the item that is marked as the main one; the first one if none is. -/
def mainItem (items : List Arg) : Nat := (items.findIdx? marked).getD 0

/-- The structures of an argument as an item of a rule. -/
def ArgForm (A : Activation Pred) (h : Heap Pred) : Arg → Outline Pred → Prop
  | .rule a, s | .main (.rule a), s => Forms A h (.rule a) s
  | .pred p, s | .main (.pred p), s => ∃ q, A.activate p = .ok q ∧ s = .leaf q
  | .str v, s => s = .leaf (.eq v)
  | _, s => s = .leaf (.in_ [])

/-- The same of several arguments. -/
inductive ArgForms (A : Activation Pred) (h : Heap Pred) : List Arg → List (Outline Pred) → Prop
  | nil : ArgForms A h [] []
  | cons {x xs s ss} : ArgForm A h x s → ArgForms A h xs ss → ArgForms A h (x :: xs) (s :: ss)

/-- The words with choices of an argument as an item of a rule. -/
def ArgPick (A : Activation Pred) (h : Heap Pred) : Arg → List (Mark Pred) → Prop
  | .rule a, w | .main (.rule a), w => Picks A h [.rule a] w
  | .pred p, w | .main (.pred p), w => ∃ q, A.activate p = .ok q ∧ w = [.pred q]
  | .str s, w => w = [.pred (.eq s)]
  | _, w => w = [.pred (.in_ [])]

/-- How often something is repeated at least, and at most. -/
def least (min : Arg) : Nat := if given min then ((bound min).getD 1).toNat else 1
def most (max : Arg) : Option Nat := if given max then (bound max).map Int.toNat else none

/-- A rule stands for an argument: it is that rule, or one made of that predicate. -/
inductive Stands (h : Heap Pred) : Arg → Nat → Prop
  | rule {a} : Stands h (.rule a) a
  | pred {p} {r q : Nat} : h[r]? = some (.rule [q]) → h[q]? = some (.prod [.pred p] 0) → Stands h (.pred p) r

/-! ### Forward rules -/

/-- The forward rule inside optional, repeated, named, interpreted rules and rules with agreement. -/
inductive Carries (h : Heap Pred) : Nat → Nat → Prop
  | forward {f : Nat} {c} : h[f]? = some (.forward c) → Carries h f f
  | wrapper {a r f : Nat} {o} : h[a]? = some o →
      (∃ v, o = .optional r v ∨ o = .repeatable r v) ∨ (∃ v u, o = .repOptional r v u) ∨
      (∃ n v, o = .minBounded r n v ∨ o = .maxBounded r n v) ∨ (∃ n m v, o = .minMaxBounded r n m v) ∨
      (∃ n, o = .named r n) ∨ (∃ i, o = .interp r i) ∨ (∃ x, o = .relation r x) →
      Carries h r f → Carries h a f

/-! ### Relations -/

/-- Whether two forms agree by a relation. -/
def agrees (w : World) (f g : Form) : Arg → Bool
  | .relation r => match w.rels[r]? with
    | some x => x.call f g
    | none => false
  | _ => false

/-! ### Calls that are refused -/

/-- More than one of the items is marked. -/
def TwoHeads (items : List Arg) : Prop := 2 ≤ (items.filter marked).length

/-- A bound that is given must be a number from 1. -/
def boundFault (x : Arg) : Option Err :=
  if given x then
    match bound x with
    | none => some .typeError
    | some n => if n < 1 then some .valueError else none
  else none

/-- The bounds, if both are given, must be in order. -/
def orderFault (min max : Arg) : Option Err :=
  if given min && given max then
    match bound min, bound max with
    | some lo, some hi => if hi < lo then some .valueError else none
    | _, _ => none
  else none

/-- `reverse` must be `True` or `False`. -/
def reverseFault : Arg → Option Err
  | .bool _ => none
  | _ => some .typeError

/-- What has the methods of a rule. -/
def ruleLike : Arg → Bool
  | .rule _ | .pred _ => true
  | _ => false

/-- What can be the argument of `interpretation` on a predicate. -/
def tokenTarget : Arg → Bool
  | .attr _ _ | .repeatableAttr _ _ | .normAttr _ _ _ | .normalizer _ => true
  | _ => false

/-- What can be the argument of `interpretation` on a rule. -/
def ruleTarget : Arg → Bool
  | .interpretator _ | .fact _ => true
  | x => tokenTarget x

/-- Normalizers with a method `custom`. -/
def extensible : Normalizer → Bool
  | .morph _ | .fn _ => true
  | _ => false

/-- The calls that raise, and what. -/
inductive Refused (w : World) : Call → Err → Prop
  | heads {items} : TwoHeads items → Refused w (.rule items) .valueError
  | and_ {items} : (∃ x ∈ items, x.isPred = false) → (∃ x ∈ items, x.isRelation = false) →
      Refused w (.and_ items) .typeError
  | or_ {items} : (∃ x ∈ items, x.isPred = false) → (∃ x ∈ items, x.isRelation = false) →
      (∃ x ∈ items, x.isRule = false) → Refused w (.or_ items) .typeError
  | not_ {x} : x.isPred = false → x.isRelation = false → Refused w (.not_ x) .typeError
  | main {x} : ruleLike x = false → Refused w (.main x) .typeError
  | optional {x v} : ruleLike x = false → Refused w (.optional x v) .attributeError
  | optionalPred {p v} : Refused w (.optional (.pred p) (some v)) .typeError
  | optionalRule {a v e} : reverseFault v = some e → Refused w (.optional (.rule a) (some v)) e
  | repeatable {x min max v} : ruleLike x = false → Refused w (.repeatable x min max v) .attributeError
  | repeatableFault {x min max v e} : ruleLike x = true →
      (reverseFault v <|> boundFault min <|> boundFault max <|> orderFault min max) = some e →
      Refused w (.repeatable x min max v) e
  | named {x n} : ruleLike x = false → Refused w (.named x n) .attributeError
  | name {x n} : ruleLike x = true → (∀ s, n ≠ .str s) → Refused w (.named x n) .typeError
  | match_ {x r} : ruleLike x = false → Refused w (.match_ x r) .attributeError
  | relation {x r} : ruleLike x = true → r.isRelation = false → Refused w (.match_ x r) .typeError
  | interpretation {x t} : ruleLike x = false → Refused w (.interpretation x t) .attributeError
  | tokenTarget {p t} : tokenTarget t = false → Refused w (.interpretation (.pred p) t) .typeError
  | ruleTarget {a t} : ruleTarget t = false → Refused w (.interpretation (.rule a) t) .typeError
  | define {x items} : x.isRule = false → Refused w (.define x items) .attributeError
  | noForward {a items} : (∀ f, ¬ Carries w.heap a f) → Refused w (.define (.rule a) items) .attributeError
  | noItems {a f} : Carries w.heap a f → Refused w (.define (.rule a) []) .typeError
  | forward {a f r : Nat} {c} : Carries w.heap a f → w.heap[r]? = some (.forward c) →
      Refused w (.define (.rule a) [.rule r]) .valueError
  | definitionHeads {a f items} : Carries w.heap a f → TwoHeads items →
      Refused w (.define (.rule a) items) .valueError
  | pipeline {k lines} : (∃ x ∈ lines, ∀ s, x ≠ .str s) → Refused w (.pipeline k lines) .typeError
  | morph {x m} : (∀ c n, x ≠ .attr c n) → Refused w (.morph x m) .attributeError
  | const {x v} : (∀ c n, x ≠ .attr c n) → Refused w (.const x v) .attributeError
  | custom {x f} : (∀ c n, x ≠ .attr c n) → (∀ c n m, x = .normAttr c n m → extensible m = false) →
      (∀ m, x = .normalizer m → extensible m = false) → Refused w (.custom x f) .attributeError

end Yargy.Spec
