import Verif.Model.Interp
/-!
Comparing values: `==` and `hash` of facts and of what they hold (`yargy/record.py:6-22`).

What Python's own values do is part of the model: strings are equal if they have the same characters, lists
if they have the same length and their elements are the same object or equal. Objects that are not made by
yargy are numbered; when two of them are equal and what their hash is are given. Not modelled: such an object
being equal to a string, a list or a fact; the same fact object being in two lists (its parts are compared,
which makes a difference only if it holds something that is not equal to itself).
-/
namespace Yargy.Equal

/-- `a is b`, for the objects that are numbered. -/
def sameObj : Val → Val → Bool
  | .obj a, .obj b => a == b
  | _, _ => false

mutual
/-- `v == w`; for facts `Record.__eq__` (`yargy/record.py:6-13`): the same class, and the attributes of the
class are equal. -/
def veq (e : Nat → Nat → Bool) : Val → Val → Bool
  | .none, .none => true
  | .str s, .str t => s == t
  | .obj a, .obj b => e a b
  | .list vs, .list ws => leq e vs ws
  | .fact c as, .fact d bs => c == d && aeq e as bs
  | _, _ => false
/-- `==` of lists. -/
def leq (e : Nat → Nat → Bool) : List Val → List Val → Bool
  | [], [] => true
  | v :: vs, w :: ws => (sameObj v w || veq e v w) && leq e vs ws
  | _, _ => false
/-- The loop over `self.__attributes__` (`record.py:9-12`); the first list are the attributes of `self`, the
second those of `other`. -/
def aeq (e : Nat → Nat → Bool) : List (Str × Val) → List (Str × Val) → Bool
  | [], _ => true
  | a :: as, bs => aeq1 e a bs && aeq e as bs
def aeq1 (e : Nat → Nat → Bool) : Str × Val → List (Str × Val) → Bool
  | (k, v), bs =>
    match lookupVal k bs with
    | some w => veq e v w
    | none => false
end

mutual
/-- `hash(v)`, or nothing if it raises `TypeError`: lists have no hash, a fact has that of the tuple of its
attributes (`yargy/record.py:18-22`). The hash of `None`, of a string and of a tuple are given, and that of
the numbered objects (which may have none). -/
def vhash {H : Type} (hnone : H) (hstr : Str → H) (hobj : Nat → Option H) (htuple : List H → H) : Val → Option H
  | .none => some hnone
  | .str s => some (hstr s)
  | .obj n => hobj n
  | .list _ => none
  | .fact _ as => (ahash hnone hstr hobj htuple as).map htuple
def ahash {H : Type} (hnone : H) (hstr : Str → H) (hobj : Nat → Option H) (htuple : List H → H) :
    List (Str × Val) → Option (List H)
  | [] => some []
  | a :: as =>
    match ahash1 hnone hstr hobj htuple a, ahash hnone hstr hobj htuple as with
    | some x, some xs => some (x :: xs)
    | _, _ => none
def ahash1 {H : Type} (hnone : H) (hstr : Str → H) (hobj : Nat → Option H) (htuple : List H → H) :
    Str × Val → Option H
  | (_, v) => vhash hnone hstr hobj htuple v
end

/-- `fact.as_json` (`yargy/interpretation/fact.py:32-34`) given `fact._raw`: facts made by calling the class
have none, and asking them raises `AttributeError`. -/
def factJson (F : Facts) : Option Result → Except Err Json
  | some raw => raw.asJson F
  | none => .error .attributeError

end Yargy.Equal
