import Verif.Model.Interp
/-! Specification: what interpretation means. -/
namespace Yargy.Spec

variable {P : Type}

/-! ### Fact classes -/

/-- Fact classes as `fact(name, attributes)` makes them: attribute names differ, a subclass has
the attributes of its base, and every class is a subclass of itself. -/
structure SaneFacts (F : Facts) : Prop where
  nodup : ∀ c, ((F.attrs c).map Prod.fst).Nodup
  inherits : ∀ a b, F.sub a b = true → F.attrs a = F.attrs b
  refl : ∀ a, F.sub a a = true

/-- The names of the attributes of a class. -/
def names (F : Facts) (cls : Nat) : List Str := (F.attrs cls).map Prod.fst

/-- Attributes are taken from the classes: `Cls.name`. -/
def OwnAttribute (F : Facts) : Interpretator → Prop
  | .attr cls name => name ∈ names F cls
  | .attrNorm cls name _ => name ∈ names F cls
  | _ => True

/-! ### Filling a fact -/

/-- The results held by an attribute of a fact. -/
def Held (attrs : List (Str × Slot)) (key : Str) (rs : List Result) : Prop :=
  ∃ slot, (key, slot) ∈ attrs ∧
    ((∃ v, slot = .default v ∧ rs = []) ∨ (∃ r, slot = .one r ∧ rs = [r]) ∨ slot = .many rs)

/-- What a part assigns to the attribute `key` of a fact of class `cls`: a part interpreted as that
attribute (of this class or of a base of it) its value; a part that is a fact of this class (or of a
subclass) the values it has itself been assigned; any other part nothing. -/
inductive Assigns (F : Facts) (cls : Nat) (key : Str) : Item → List Result → Prop where
  | attr {v acls} : F.sub cls acls = true → Assigns F cls key (.result (.attr v acls key)) [v]
  | fact {fcls attrs modified rs} : F.sub fcls cls = true → key ∈ modified → Held attrs key rs →
      Assigns F cls key (.result (.fact fcls attrs modified)) rs
  | token {t} : Assigns F cls key (.token t) []
  | otherAttr {v acls name} : F.sub cls acls = false ∨ name ≠ key →
      Assigns F cls key (.result (.attr v acls name)) []
  | otherFact {fcls attrs modified} : F.sub fcls cls = false ∨ key ∉ modified →
      Assigns F cls key (.result (.fact fcls attrs modified)) []
  | norm {v input} : Assigns F cls key (.result (.norm v input)) []
  | chain {tokens k} : Assigns F cls key (.result (.chain tokens k)) []

/-- What a sequence of parts assigns, in text order. -/
inductive AssignsAll (F : Facts) (cls : Nat) (key : Str) : List Item → List Result → Prop where
  | nil : AssignsAll F cls key [] []
  | cons {x xs rs ss} : Assigns F cls key x rs → AssignsAll F cls key xs ss →
      AssignsAll F cls key (x :: xs) (rs ++ ss)

/-- The part is a fact to be merged that assigns `key`. -/
def MergesKey (F : Facts) (cls : Nat) (key : Str) : Item → Prop
  | .result (.fact fcls _ modified) => F.sub fcls cls = true ∧ key ∈ modified
  | _ => False

/-! ### The order of interpretation -/

/-- Reading a tree from left to right: an interpretation opens, a token, the innermost open
interpretation closes. -/
inductive Event where
  | opens (i : Interpretator) (key : Option Str)
  | token (t : Token)
  | closes

mutual
/-- The events of a tree: only interpreted rules open and close. -/
def events (I : Nat → Option Interpretator) : TTree P → List Event
  | .leaf _ _ t => [.token t]
  | .node _ r p _ cs =>
    match I r with
    | some i => .opens i p.key :: (eventsAll I cs ++ [.closes])
    | none => eventsAll I cs
def eventsAll (I : Nat → Option Interpretator) : List (TTree P) → List Event
  | [] => []
  | c :: cs => events I c ++ eventsAll I cs
end

/-- An open interpretation and what it has received so far. -/
structure Frame where
  interpretator : Interpretator
  key : Option Str
  items : List Item

def Event.token? : Event → Option Token
  | .token t => some t
  | _ => none

/-- Hand an item to the innermost open interpretation (the end of the list is the innermost one), or
to the outside. -/
def deliver (x : Item) : List Frame → List Item → List Frame × List Item
  | [], out => ([], out ++ [x])
  | f :: fs, out => ({ f with items := f.items ++ [x] } :: fs, out)

/-- Follow the events: tokens go to the innermost open interpretation, and so does the result of an
interpretation when it closes. The frames are listed innermost first. -/
def follow (F : Facts) : List Event → List Frame → List Item → Except Err (List Frame × List Item)
  | [], fs, out => .ok (fs, out)
  | .token t :: es, fs, out =>
    follow F es (deliver (.token t) fs out).1 (deliver (.token t) fs out).2
  | .opens i key :: es, fs, out => follow F es (⟨i, key, []⟩ :: fs) out
  | .closes :: es, f :: fs, out =>
    match f.interpretator.call F f.key f.items with
    | .ok r => follow F es (deliver (.result r) fs out).1 (deliver (.result r) fs out).2
    | .error e => .error e
  | .closes :: _, [], _ => .error .typeError

/-! ### JSON -/

mutual
/-- A value without facts inside. -/
def Plain : Val → Prop
  | .none => True
  | .str _ => True
  | .obj _ => True
  | .list vs => PlainAll vs
  | .fact _ _ => False
def PlainAll : List Val → Prop
  | [] => True
  | v :: vs => Plain v ∧ PlainAll vs
end

mutual
/-- A value as it is, a list value being the list of its elements. -/
def valJson : Val → Json
  | .none => .val .none
  | .str s => .val (.str s)
  | .obj n => .val (.obj n)
  | .list vs => .list (valJsons vs)
  | .fact c attrs => .val (.fact c attrs)
def valJsons : List Val → List Json
  | [] => []
  | v :: vs => valJson v :: valJsons vs
end

mutual
/-- The same JSON; a list made by a user function is not told apart from a list of values. -/
def cleanJson : Json → Json
  | .val v => valJson v
  | .list js => .list (cleanJsons js)
  | .obj fields => .obj (cleanFields fields)
def cleanJsons : List Json → List Json
  | [] => []
  | j :: js => cleanJson j :: cleanJsons js
def cleanFields : List (Str × Json) → List (Str × Json)
  | [] => []
  | (k, j) :: rest => (k, cleanJson j) :: cleanFields rest
end

mutual
/-- The JSON form of a value: facts become dictionaries of the attributes that are not `None`, in
their order; lists become lists. -/
def toJson : Val → Json
  | .none => .val .none
  | .str s => .val (.str s)
  | .obj n => .val (.obj n)
  | .list vs => .list (toJsons vs)
  | .fact _ attrs => .obj (toFields attrs)
def toJsons : List Val → List Json
  | [] => []
  | v :: vs => toJson v :: toJsons vs
def toFields : List (Str × Val) → List (Str × Json)
  | [] => []
  | a :: rest =>
    match toField a with
    | some f => f :: toFields rest
    | none => toFields rest
def toField : Str × Val → Option (Str × Json)
  | (_, .none) => none
  | (k, v) => some (k, toJson v)
end

/-- The values put in by the grammar itself (constants, defaults, results of user functions) are
plain. -/
def PlainFn (f : Val → Except Err Val) : Prop := ∀ v w, f v = .ok w → Plain w

def PlainNormalizer : Normalizer → Prop
  | .morph _ => True
  | .const v => Plain v
  | .fn f => PlainFn f
  | .fnfn _ g => PlainFn g
  | .morphFn _ f => PlainFn f

def PlainInterpretator : Interpretator → Prop
  | .norm n => PlainNormalizer n
  | .attrNorm _ _ n => PlainNormalizer n
  | _ => True

def PlainDefaults (F : Facts) : Prop := ∀ cls key d, (key, AttrKind.single d) ∈ F.attrs cls → Plain d

/-! ### Spans -/

/-- No interpretation by a constant. -/
def NoConst : Interpretator → Prop
  | .norm (.const _) => False
  | .attrNorm _ _ (.const _) => False
  | _ => True

mutual
/-- Every node has something below it. -/
def Bushy {T : Type} : PTree P T → Prop
  | .leaf _ _ _ => True
  | .node _ _ _ _ cs => cs ≠ [] ∧ BushyAll cs
def BushyAll {T : Type} : List (PTree P T) → Prop
  | [] => True
  | c :: cs => Bushy c ∧ BushyAll cs
end

/-! ### Normal forms -/

/-- The normal form of a word: of its first form, or in lower case if it has no forms. -/
inductive BaseForm (lower : Str → Str) (t : Token) : Str → Prop where
  | plain : t.forms = none → BaseForm lower t (lower t.value)
  | morph {f fs} : t.forms = some (f :: fs) → BaseForm lower t f.normalized

/-- The inflected form of a word: of its first form (its normal form if it cannot be inflected so),
or in lower case if it has no forms. -/
inductive BentForm (lower : Str → Str) (inflect : Form → List Str → Option Str)
    (grams : List Str) (t : Token) : Str → Prop where
  | plain : t.forms = none → BentForm lower inflect grams t (lower t.value)
  | done {f fs s} : t.forms = some (f :: fs) → inflect f grams = some s →
      BentForm lower inflect grams t s
  | not {f fs} : t.forms = some (f :: fs) → inflect f grams = none →
      BentForm lower inflect grams t f.normalized

/-- `us` are the tokens `ts` with other texts, `R` telling which. -/
inductive Reworded (R : Token → Str → Prop) : List Token → List Token → Prop where
  | nil : Reworded R [] []
  | cons {t u ts us} : R t u.value → u.span = t.span → Reworded R ts us →
      Reworded R (t :: ts) (u :: us)

end Yargy.Spec
