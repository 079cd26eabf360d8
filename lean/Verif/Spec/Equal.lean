import Verif.Model.Equal
import Verif.Spec.Interp
/-! Specification: when two values are alike. -/
namespace Yargy.Spec

mutual
/-- Two values are alike: the same string, equal objects, lists of alike values, facts of the same class with
alike attributes. `e` says which of the objects that yargy has not made are equal. -/
inductive EqualVal (e : Nat → Nat → Bool) : Val → Val → Prop where
  | none : EqualVal e .none .none
  | str (s : Str) : EqualVal e (.str s) (.str s)
  | obj {a b : Nat} : e a b = true → EqualVal e (.obj a) (.obj b)
  | list {vs ws : List Val} : EqualVals e vs ws → EqualVal e (.list vs) (.list ws)
  | fact (c : Nat) {as bs : List (Str × Val)} : EqualAttrs e as bs → EqualVal e (.fact c as) (.fact c bs)
/-- Lists of the same length; the same object twice is good enough, even if it is not equal to itself. -/
inductive EqualVals (e : Nat → Nat → Bool) : List Val → List Val → Prop where
  | nil : EqualVals e [] []
  | cons {v w : Val} {vs ws : List Val} : EqualVal e v w → EqualVals e vs ws → EqualVals e (v :: vs) (w :: ws)
  | same (n : Nat) {vs ws : List Val} : EqualVals e vs ws → EqualVals e (.obj n :: vs) (.obj n :: ws)
inductive EqualAttrs (e : Nat → Nat → Bool) : List (Str × Val) → List (Str × Val) → Prop where
  | nil : EqualAttrs e [] []
  | cons (k : Str) {v w : Val} {as bs : List (Str × Val)} : EqualVal e v w → EqualAttrs e as bs →
      EqualAttrs e ((k, v) :: as) ((k, w) :: bs)
end

mutual
/-- The facts in a value have the attributes of their classes, in order. -/
def Framed (F : Facts) : Val → Prop
  | .none => True
  | .str _ => True
  | .obj _ => True
  | .list vs => FramedAll F vs
  | .fact c as => as.map Prod.fst = names F c ∧ FramedAttrs F as
def FramedAll (F : Facts) : List Val → Prop
  | [] => True
  | v :: vs => Framed F v ∧ FramedAll F vs
def FramedAttrs (F : Facts) : List (Str × Val) → Prop
  | [] => True
  | a :: as => FramedAttr F a ∧ FramedAttrs F as
def FramedAttr (F : Facts) : Str × Val → Prop
  | (_, v) => Framed F v
end

/-- The values put in by the grammar itself (constants, results of user functions) have well-made facts. -/
def FramedFn (F : Facts) (f : Val → Except Err Val) : Prop := ∀ v w, f v = .ok w → Framed F w

def FramedNormalizer (F : Facts) : Normalizer → Prop
  | .morph _ => True
  | .const v => Framed F v
  | .fn f => FramedFn F f
  | .fnfn _ g => FramedFn F g
  | .morphFn _ f => FramedFn F f

def FramedInterpretator (F : Facts) : Interpretator → Prop
  | .norm n => FramedNormalizer F n
  | .attrNorm _ _ n => FramedNormalizer F n
  | _ => True

def FramedDefaults (F : Facts) : Prop := ∀ cls key d, (key, AttrKind.single d) ∈ F.attrs cls → Framed F d

/-- What an attribute of `Cls(**kwargs)` is meant to be: what was given for it, else an empty list if it is
repeatable, else its default. -/
inductive Expected (F : Facts) (c : Nat) (kwargs : List (Str × Val)) (key : Str) : Val → Prop where
  | given {v : Val} : (key, v) ∈ kwargs → Expected F c kwargs key v
  | repeatable : key ∉ kwargs.map Prod.fst → (key, AttrKind.repeatable) ∈ F.attrs c →
      Expected F c kwargs key (.list [])
  | default {d : Val} : key ∉ kwargs.map Prod.fst → (key, AttrKind.single d) ∈ F.attrs c →
      Expected F c kwargs key d

mutual
/-- A value that may be hashed: no list in it, and only objects that have a hash themselves. -/
def Hashed (hashable : Nat → Prop) : Val → Prop
  | .none => True
  | .str _ => True
  | .obj n => hashable n
  | .list _ => False
  | .fact _ as => HashedAttrs hashable as
def HashedAttrs (hashable : Nat → Prop) : List (Str × Val) → Prop
  | [] => True
  | a :: as => HashedAttr hashable a ∧ HashedAttrs hashable as
def HashedAttr (hashable : Nat → Prop) : Str × Val → Prop
  | (_, v) => Hashed hashable v
end

end Yargy.Spec
