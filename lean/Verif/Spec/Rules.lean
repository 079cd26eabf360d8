import Verif.Model.Heap
/-!
What a rule means: the sequences of predicates it allows, with the names, interpretators and relations
put around parts of them. This is said about the rule objects a user builds, without mention of how
they are transformed.
-/
namespace Yargy

variable {P : Type}

/-- Which of the things put around parts of a rule are looked at. -/
inductive Kind where
  | plain
  | name
  | interp
  | relation
  deriving DecidableEq

/-- A word is made of predicates and brackets around parts of the word. -/
inductive Sym (P : Type) where
  | pred (p : P)
  | opn (x : Attr)
  | cls (x : Attr)
  deriving DecidableEq

/-- A name like those the parser gives to rules that have none: `R` and a number. -/
def generated : Str → Bool
  | 'R' :: c :: cs => (c :: cs).all Char.isDigit
  | _ => false

/-- A name that counts: Python takes the empty one for none, and names like those the parser gives
itself do not tell whether they were given. -/
def realName (n : Str) : Option Attr := if n = [] ∨ generated n = true then none else some (.name n)

/-- What an object itself puts around its words. -/
def Obj.label : Kind → Obj P → Option Attr
  | .name, .named _ n => realName n
  | .interp, .interp _ i => some (.interp i)
  | .relation, .relation _ r => some (.relation r)
  | .name, .bnf _ n _ _ _ => n.bind realName
  | .interp, .bnf _ _ i _ _ => i.map .interp
  | .relation, .bnf _ _ _ r _ => r.map .relation
  | _, _ => none

/-- A word inside brackets. -/
def wrap : Option Attr → List (Sym P) → List (Sym P)
  | none, w => w
  | some x, w => .opn x :: w ++ [.cls x]

/-- What an object may be replaced by: the parts of a rule, in order. -/
inductive Spells : Obj P → List (Term P) → Prop
  | prod {ts m} : Spells (.prod ts m) ts
  | emptyProd : Spells .emptyProd []
  | pipeProd {v ts} : Spells (.pipeProd v ts) (ts.map .pred)
  | rule {ps p} : p ∈ ps → Spells (.rule ps) [.rule p]
  | or {rs r} : r ∈ rs → Spells (.or rs) [.rule r]
  | none {r v} : Spells (.optional r v) []
  | one {r v} : Spells (.optional r v) [.rule r]
  | repeatable {r v n} : 1 ≤ n → Spells (.repeatable r v) (List.replicate n (.rule r))
  | repOptional {r v u} (n) : Spells (.repOptional r v u) (List.replicate n (.rule r))
  | minBounded {r min v n} : min ≤ n → Spells (.minBounded r min v) (List.replicate n (.rule r))
  | maxBounded {r max v n} : 1 ≤ n → n ≤ max →
      Spells (.maxBounded r max v) (List.replicate n (.rule r))
  | minMaxBounded {r min max v n} : min ≤ n → n ≤ max →
      Spells (.minMaxBounded r min max v) (List.replicate n (.rule r))
  | named {r n} : Spells (.named r n) [.rule r]
  | interp {r i} : Spells (.interp r i) [.rule r]
  | relation {r x} : Spells (.relation r x) [.rule r]
  | forward {r} : Spells (.forward (some r)) [.rule r]
  | empty : Spells .empty []
  | pipe {kind keys key} : key ∈ keys → Spells (.pipe (.keys kind keys)) (key.2.map .pred)
  | bnf {ps n i r kind p} : p ∈ ps → Spells (.bnf ps n i r kind) [.rule p]

/-- The words of a sequence of terms. -/
inductive Says (k : Kind) (h : Heap P) : List (Term P) → List (Sym P) → Prop
  | nil : Says k h [] []
  | pred {p ts w} : Says k h ts w → Says k h (.pred p :: ts) (.pred p :: w)
  | rule {a o us ts w v} : h[a]? = some o → Spells o us → Says k h us w → Says k h ts v →
      Says k h (.rule a :: ts) (wrap (o.label k) w ++ v)

/-- The words of a rule. -/
def Words (k : Kind) (h : Heap P) (a : Nat) (w : List (Sym P)) : Prop := Says k h [.rule a] w

/-- All references lead somewhere. -/
def ClosedHeap (h : Heap P) : Prop := ∀ o ∈ h, ∀ c ∈ o.children, c < h.length

/-- Compiled rules, if any, carry nothing that is looked at. -/
def Obj.bare (k : Kind) (o : Obj P) : Prop :=
  ∀ ps n i r d, o = .bnf ps n i r d → o.label k = none

/-- The bounds of a repetition are what the constructors check
(`yargy/rule/constructors.py:219-243`). -/
def Obj.bounds : Obj P → Prop
  | .minBounded _ min _ => 1 ≤ min
  | .maxBounded _ max _ => 1 ≤ max
  | .minMaxBounded _ min max _ => 1 ≤ min ∧ min ≤ max
  | _ => True

/-- A repetition that asks for two or more, possibly below other repetitions. -/
inductive Demands (h : Heap P) : Nat → Prop
  | min {a r min v} : h[a]? = some (.minBounded r min v) → 2 ≤ min → Demands h a
  | minMax {a r min max v} : h[a]? = some (.minMaxBounded r min max v) → 2 ≤ min → Demands h a
  | optional {a r v} : h[a]? = some (.optional r v) → Demands h r → Demands h a
  | repeatable {a r v} : h[a]? = some (.repeatable r v) → Demands h r → Demands h a
  | repOptional {a r v u} : h[a]? = some (.repOptional r v u) → Demands h r → Demands h a
  | minBounded {a r min v} : h[a]? = some (.minBounded r min v) → Demands h r → Demands h a
  | maxBounded {a r max v} : h[a]? = some (.maxBounded r max v) → Demands h r → Demands h a
  | minMaxBounded {a r min max v} : h[a]? = some (.minMaxBounded r min max v) → Demands h r →
      Demands h a

/-- Something optional or repeatable without a bound, possibly below repetitions with bounds. -/
inductive Loose (h : Heap P) : Nat → Prop
  | optional {a r v} : h[a]? = some (.optional r v) → Loose h a
  | repeatable {a r v} : h[a]? = some (.repeatable r v) → Loose h a
  | repOptional {a r v u} : h[a]? = some (.repOptional r v u) → Loose h a
  | minBounded {a r min v} : h[a]? = some (.minBounded r min v) → Loose h r → Loose h a
  | maxBounded {a r max v} : h[a]? = some (.maxBounded r max v) → Loose h r → Loose h a
  | minMaxBounded {a r min max v} : h[a]? = some (.minMaxBounded r min max v) → Loose h r →
      Loose h a

/-- No repetition asking for two or more is repeated directly, and none directly repeats something
optional or repeatable. -/
def Obj.calm (h : Heap P) : Obj P → Prop
  | .repeatable r _ => ¬ Demands h r
  | .repOptional r _ _ => ¬ Demands h r
  | .minBounded r min _ => 2 ≤ min → ¬ Loose h r
  | .minMaxBounded r min _ _ => 2 ≤ min → ¬ Loose h r
  | _ => True

/-- A heap as the constructors make it, with every repetition calm. -/
structure Calm (h : Heap P) : Prop where
  bounds : ∀ o ∈ h, o.bounds
  calm : ∀ o ∈ h, o.calm h

end Yargy
