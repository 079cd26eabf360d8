import Verif.Spec.Derivation
/-!
Specification of the preference between derivations: at the leftmost place where two derivations
of the same rule from the same token differ, the one that uses the alternative offered earlier is
preferred.
-/
namespace Yargy.Spec

variable {P T : Type}

/-- The alternatives of rule `r` offered at token `i`, in order: those selected by the next
token, all of them at the end of the text. For an ordinary rule these are its productions. -/
def offered (G : Grammar P T) (toks : List T) (i r : Nat) : List (Production P) :=
  match toks[i]? with
  | some t => G.predict r t
  | none => G.productions r

/-- `a` is offered before `b`: the first occurrence of `a` comes before every occurrence of `b`. -/
def OfferedBefore (l : List (Production P)) (a b : Production P) : Prop :=
  ∃ n : Nat, l[n]? = some a ∧ ∀ m : Nat, l[m]? = some b → n < m

mutual
/-- `Earlier G toks i d d'`: `d` is preferred to `d'`, both starting at token `i`. -/
inductive Earlier (G : Grammar P T) (toks : List T) : Nat → DTree P T → DTree P T → Prop
  | here {i r a b cs cs'} : OfferedBefore (offered G toks i r) a b →
      Earlier G toks i (.node r a cs) (.node r b cs')
  | inside {i r a cs cs'} : EarlierAll G toks i cs cs' →
      Earlier G toks i (.node r a cs) (.node r a cs')
inductive EarlierAll (G : Grammar P T) (toks : List T) :
    Nat → List (DTree P T) → List (DTree P T) → Prop
  | head {i c c' cs cs'} : Earlier G toks i c c' → EarlierAll G toks i (c :: cs) (c' :: cs')
  | tail {i c cs cs'} : EarlierAll G toks (i + c.yield.length) cs cs' →
      EarlierAll G toks i (c :: cs) (c :: cs')
end

/-- The order of reported parses: earlier start, then longer range, then preference. -/
inductive Preferred (G : Grammar P T) (toks : List T) :
    (Nat × Nat) × DTree P T → (Nat × Nat) × DTree P T → Prop
  | start {a b} : a.1.1 < b.1.1 → Preferred G toks a b
  | longer {a b} : a.1.1 = b.1.1 → b.1.2 < a.1.2 → Preferred G toks a b
  | same {a b} : a.1 = b.1 → Earlier G toks a.1.1 a.2 b.2 → Preferred G toks a b

end Yargy.Spec
