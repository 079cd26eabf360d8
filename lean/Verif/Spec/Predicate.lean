import Verif.Model.Predicate
/-! What the predicates of `yargy.predicates` are documented to mean. -/
namespace Yargy.Spec

/-- `n` is a normal form of the token: of one of its forms, or its lower-cased text when it has
none. -/
def NormalForm (L : Lang) (t : Token) (n : Str) : Prop :=
  match t.forms with
  | some fs => ∃ f ∈ fs, f.normalized = n
  | none => n = L.lower t.value

/-- Some form of the token has the property; false for tokens without forms. -/
def SomeForm (t : Token) (q : Form → Prop) : Prop := ∃ fs, t.forms = some fs ∧ ∃ f ∈ fs, q f

/-- The token is a number that satisfies the condition. -/
def Numeric (L : Lang) (t : Token) (q : Int → Prop) : Prop :=
  t.type = intType ∧ ∃ v, L.parseInt t.value = some v ∧ q v

mutual
/-- The documented meaning of a predicate as the user writes it. -/
def Means (L : Lang) (c : Context) (t : Token) : Pred → Prop
  | .true => True
  | .isLower => L.isLower t.value = true
  | .isUpper => L.isUpper t.value = true
  | .isTitle => L.isTitle t.value = true
  | .isCapitalized => ∃ ch rest, t.value = ch :: rest ∧ L.isUpper [ch] = true
  | .eq v => t.value = v
  | .lengthEq n => (t.value.length : Int) = n
  | .gte n => Numeric L t (fun v => v ≥ n)
  | .lte n => Numeric L t (fun v => v ≤ n)
  | .caseless v => L.lower t.value = v
  | .in_ vs => t.value ∈ vs
  | .inCaseless vs => L.lower t.value ∈ vs
  | .normalized v => ∃ m n, c.morph = some m ∧ n ∈ m.normalized v ∧ NormalForm L t n
  | .dictionary vs => ∃ m v n, c.morph = some m ∧ v ∈ vs ∧ n ∈ m.normalized v ∧ NormalForm L t n
  | .dict vs => ∃ n ∈ vs, NormalForm L t n
  | .gram g | .gramP g => SomeForm t (fun f => g ∈ f.grams)
  | .type v | .typeP v => t.type = v
  | .tag v | .tagP v => t.tag = some v
  | .isSingle => SomeForm t (fun f => "sing".toList ∈ f.grams ∨ "Sgtm".toList ∈ f.grams)
  | .custom f types | .customP f types =>
    (types = [] ∨ t.type ∈ types) ∧ L.fn f t.value = .ok true
  | .and_ ps => MeansAll L c t ps
  | .or_ ps => MeansAny L c t ps
  | .not_ p => ¬ Means L c t p
def MeansAll (L : Lang) (c : Context) (t : Token) : List Pred → Prop
  | [] => True
  | p :: ps => Means L c t p ∧ MeansAll L c t ps
def MeansAny (L : Lang) (c : Context) (t : Token) : List Pred → Prop
  | [] => False
  | p :: ps => Means L c t p ∨ MeansAny L c t ps
end

/-- `q` is `p` or one of the predicates it is made of. -/
inductive PredPart : Pred → Pred → Prop
  | refl {p} : PredPart p p
  | and_ {q p ps} : p ∈ ps → PredPart q p → PredPart q (.and_ ps)
  | or_ {q p ps} : p ∈ ps → PredPart q p → PredPart q (.or_ ps)
  | not_ {q p} : PredPart q p → PredPart q (.not_ p)

/-- A scheme: must be activated before it can be called. -/
def Scheme : Pred → Prop
  | .normalized _ | .dictionary _ | .gram _ | .type _ | .tag _ | .custom _ _ => True
  | _ => False

/-- What a scheme refers to exists in the context. -/
def Known (c : Context) : Pred → Prop
  | .normalized _ => ∃ m, c.morph = some m
  | .dictionary vs => vs = [] ∨ ∃ m, c.morph = some m
  | .gram g => ∃ m, c.morph = some m ∧ m.known g = true
  | .type v => v ∈ c.types
  | .custom _ types => ∀ v ∈ types, v ∈ c.types
  | _ => True

end Yargy.Spec
