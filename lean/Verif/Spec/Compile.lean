import Verif.Spec.Rules
import Verif.Model.Predicate
/-!
What a rule means in a context: its predicates activated, its gazetteers split into words.
-/
namespace Yargy

variable {P : Type}

/-- A term with its predicate activated. -/
inductive Activated (A : Activation P) : Term P → Term P → Prop
  | pred {p q} : A.activate p = .ok q → Activated A (.pred p) (.pred q)
  | rule (r) : Activated A (.rule r) (.rule r)

/-- The same of a sequence of terms. -/
inductive ActivatedAll (A : Activation P) : List (Term P) → List (Term P) → Prop
  | nil : ActivatedAll A [] []
  | cons {t u ts us} : Activated A t u → ActivatedAll A ts us → ActivatedAll A (t :: ts) (u :: us)

/-- What an object may be replaced by in a context. Only the terms of ordinary productions are
activated; the words of a gazetteer come from the context. -/
inductive Opens (A : Activation P) : Obj P → List (Term P) → Prop
  | prod {ts us m} : ActivatedAll A ts us → Opens A (.prod ts m) us
  | line {kind lines l ps} : l ∈ lines → A.key kind l = .ok ps →
      Opens A (.pipe (.scheme kind lines)) (ps.map .pred)
  | other {o us} : (∀ ts m, o ≠ .prod ts m) → Spells o us → Opens A o us

/-- The words of a sequence of terms, of which the predicates are activated already, in a context. -/
inductive Reads (A : Activation P) (k : Kind) (h : Heap P) : List (Term P) → List (Sym P) → Prop
  | nil : Reads A k h [] []
  | pred {p ts w} : Reads A k h ts w → Reads A k h (.pred p :: ts) (.pred p :: w)
  | rule {a o us ts w v} : h[a]? = some o → Opens A o us → Reads A k h us w → Reads A k h ts v →
      Reads A k h (.rule a :: ts) (wrap (o.label k) w ++ v)

/-- What can be reached from a rule. -/
inductive Reach (h : Heap P) (root : Nat) : Nat → Prop
  | root : Reach h root root
  | step {a o c} : Reach h root a → h[a]? = some o → c ∈ o.children → Reach h root c

/-- The tokens `i, …, j-1` fit a word: its predicates accept them one by one. -/
inductive Fits (accepts : P → Token → Bool) (toks : List Token) :
    List (Sym P) → Nat → Nat → Prop
  | nil {i} : Fits accepts toks [] i i
  | pred {p w t i j} : toks[i]? = some t → accepts p t = true → Fits accepts toks w (i + 1) j →
      Fits accepts toks (.pred p :: w) i j
  | opn {x w i j} : Fits accepts toks w i j → Fits accepts toks (.opn x :: w) i j
  | cls {x w i j} : Fits accepts toks w i j → Fits accepts toks (.cls x :: w) i j

/-- The tokens `i, …, j-1` are what a rule says, in a context. -/
def Accepts (L : Lang) (A : Activation Pred) (h : Heap Pred) (root : Nat) (toks : List Token)
    (i j : Nat) : Prop :=
  ∃ w, Reads A .plain h [.rule root] w ∧ Fits (Pred.accepts L) toks w i j

end Yargy
