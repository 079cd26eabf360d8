import Verif.Spec.Rules
import Verif.Spec.Compile
/-!
Rules that use up tokens: what is left of a rule when no predicate may be used. Forward rules are taken as
letters here, so this is said without unfolding them.
-/
namespace Yargy.Thin

variable {P : Type}

/-- What an object may be replaced by, counts of repetitions aside. Gazetteers are left out: every line of
theirs is made of predicates. -/
inductive Gives : Obj P → List (Term P) → Prop
  | prod {ts m} : Gives (.prod ts m) ts
  | emptyProd : Gives .emptyProd []
  | rule {ps p} : p ∈ ps → Gives (.rule ps) [.rule p]
  | or {rs r} : r ∈ rs → Gives (.or rs) [.rule r]
  | none {r v} : Gives (.optional r v) []
  | one {r v} : Gives (.optional r v) [.rule r]
  | repeatable {r v n} : 1 ≤ n → Gives (.repeatable r v) (List.replicate n (.rule r))
  | repOptional {r v u} (n) : Gives (.repOptional r v u) (List.replicate n (.rule r))
  | minBounded {r min v n} : 1 ≤ n → Gives (.minBounded r min v) (List.replicate n (.rule r))
  | maxBounded {r max v n} : 1 ≤ n → Gives (.maxBounded r max v) (List.replicate n (.rule r))
  | minMaxBounded {r min max v n} : 1 ≤ n → Gives (.minMaxBounded r min max v) (List.replicate n (.rule r))
  | named {r n} : Gives (.named r n) [.rule r]
  | interp {r i} : Gives (.interp r i) [.rule r]
  | relation {r x} : Gives (.relation r x) [.rule r]
  | empty : Gives .empty []
  | bnf {ps n i r kind p} : p ∈ ps → Gives (.bnf ps n i r kind) [.rule p]

/-- The words without predicates of a sequence of terms, forward rules being letters. Those in `N` may also be
left out. -/
inductive Open (N : Nat → Prop) (h : Heap P) : List (Term P) → List Nat → Prop
  | nil : Open N h [] []
  | letter {a c ts w} : h[a]? = some (.forward c) → Open N h ts w → Open N h (.rule a :: ts) (a :: w)
  | skip {a c ts w} : h[a]? = some (.forward c) → N a → Open N h ts w → Open N h (.rule a :: ts) w
  | rule {a o us ts w v} : h[a]? = some o → (∀ c, o ≠ .forward c) → Gives o us → Open N h us w →
      Open N h ts v → Open N h (.rule a :: ts) (w ++ v)

/-- The rule that is repeated without an upper bound. -/
def repeated : Obj P → Option Nat
  | .repeatable r _ => some r
  | .repOptional r _ _ => some r
  | .minBounded r _ _ => some r
  | _ => none

end Yargy.Thin

namespace Yargy.Spec
open Thin

variable {P : Type}

/-- A rule uses up tokens, as `lev` and `N` show. `N` contains the forward rules that may be empty. What is
repeated without bound may not be empty. A forward rule that is in the place of another one, with no token beside
it, is lower. -/
structure UsesTokens (N : Nat → Prop) (lev : Nat → Nat) (h : Heap P) (root : Nat) : Prop where
  down : ∀ (a c : Nat), Reach h root a → h[a]? = some (.forward (some c)) →
    ∀ b, Open N h [.rule c] [b] → lev b < lev a
  null : ∀ (a c : Nat), Reach h root a → h[a]? = some (.forward (some c)) → Open N h [.rule c] [] → N a
  firm : ∀ (a : Nat) o r, Reach h root a → h[a]? = some o → repeated o = some r → ¬ Open N h [.rule r] []

/-- No part of the rule repeats something that may be empty, and no rule stands for itself without using a
token. -/
def Consumes (h : Heap P) (root : Nat) : Prop := ∃ N lev, UsesTokens N lev h root

/-- A rule all of whose parts are alternatives for it, or are repeated at least once. -/
def needsParts : Obj P → Bool
  | .rule _ | .or _ | .repeatable _ _ | .minBounded _ _ _ | .maxBounded _ _ _ | .minMaxBounded _ _ _ _ | .named _ _
  | .interp _ _ | .relation _ _ => true
  | _ => false

/-- Whatever the rule stands for has a token, even if forward rules have none: in every alternative there is a
predicate that is not optional. -/
inductive HasToken (h : Heap P) : Nat → Prop
  | token {a ts m p} : h[a]? = some (.prod ts m) → .pred p ∈ ts → HasToken h a
  | part {a ts m r} : h[a]? = some (.prod ts m) → .rule r ∈ ts → HasToken h r → HasToken h a
  | parts {a o} : h[a]? = some o → needsParts o = true → (∀ c ∈ o.children, HasToken h c) → HasToken h a
  | pipe {a p} : h[a]? = some (.pipe p) → HasToken h a

end Yargy.Spec
