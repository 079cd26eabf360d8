import Verif.Model.Parser
import Verif.Model.Predicate
/-!
`==` and `hash` of spans, tokens and matches (`yargy/record.py:6-22`, `yargy/span.py:5-20`), and the order of spans.
-/
namespace Yargy.Compare

/-- What a span may be compared with: a span, a tuple of numbers, something else. -/
inductive Item where
  | span (start stop : Nat)
  | tuple (values : List Nat)
  | other (id : Nat)
  deriving DecidableEq

/-- `type(x)`; nothing is known about other objects. -/
inductive Cls where
  | span | tuple | other (id : Nat)
  deriving DecidableEq

/-- `type(x)`. -/
def Item.cls : Item → Cls
  | .span _ _ => .span
  | .tuple _ => .tuple
  | .other i => .other i

/-- `tuple(x)` of a span: its attributes (`yargy/record.py:18-19`). -/
def Item.values : Item → List Nat
  | .span a b => [a, b]
  | .tuple vs => vs
  | .other _ => []

/-- `Record.__eq__` (`yargy/record.py:6-13`) with a span as `self`. -/
def recordEq (a b : Nat) (x : Item) : Bool :=
  match x with
  | .span c d => a == c && b == d
  | _ => false

/-- `Span.__eq__` (`yargy/span.py:12-15`). -/
def spanEq (a b : Nat) (x : Item) : Bool :=
  if x.cls = .tuple then decide ([a, b] = x.values) else recordEq a b x

/-- `x == y`: the method of `x`; tuples do not know spans, so that the method of the span is used. Other objects are
equal to nothing but themselves. -/
def Item.eq : Item → Item → Bool
  | .span a b, y => spanEq a b y
  | .tuple vs, .tuple ws => vs == ws
  | .tuple vs, .span a b => spanEq a b (.tuple vs)
  | .tuple _, .other _ => false
  | .other _, .span _ _ => false
  | .other _, .tuple _ => false
  | .other i, .other j => i == j

/-- `<` of tuples. -/
def tupleLt : List Nat → List Nat → Bool
  | [], [] => false
  | [], _ :: _ => true
  | _ :: _, [] => false
  | a :: as, b :: bs => if a = b then tupleLt as bs else decide (a < b)

/-- `Span.__lt__` (`yargy/span.py:17-18`) on spans. -/
def spanLt (s t : Nat × Nat) : Bool := tupleLt [s.1, s.2] [t.1, t.2]

/-- The classes of tokens (`yargy/token.py:6-88`). -/
inductive TokenCls where
  | token | morphToken | tagToken | morphTagToken
  deriving DecidableEq

/-- `type(token)`. -/
def tokenCls (t : Token) : TokenCls :=
  match t.isMorph, t.isTag with
  | false, false => .token
  | true, false => .morphToken
  | false, true => .tagToken
  | true, true => .morphTagToken

/-- `==` of lists of forms; the elements are compared with `Record.__eq__`. -/
def formsEq : List Form → List Form → Bool
  | [], [] => true
  | f :: fs, g :: gs => f.same g && formsEq fs gs
  | _, _ => false

/-- `token == other` (`yargy/record.py:6-13`) on the attributes of the class (`yargy/token.py:7,36,65,77`). -/
def tokenEq (t u : Token) : Bool :=
  decide (tokenCls t = tokenCls u) && decide (t.value = u.value) &&
    (Item.span t.span.1 t.span.2).eq (.span u.span.1 u.span.2) && decide (t.type = u.type) &&
    (match t.tag, u.tag with
      | some a, some b => decide (a = b)
      | _, _ => true) &&
    (match t.forms, u.forms with
      | some fs, some gs => formsEq fs gs
      | _, _ => true)

/-- `==` of lists of tokens. -/
def tokensEq : List Token → List Token → Bool
  | [], [] => true
  | t :: ts, u :: us => tokenEq t u && tokensEq ts us
  | _, _ => false

/-- `match == other` (`yargy/parser.py:177`): tokens and span. -/
def matchEq {P : Type} (m n : Match P) : Bool :=
  tokensEq m.tokens n.tokens && (Item.span m.span.1 m.span.2).eq (.span n.span.1 n.span.2)

/-! ### Hashes -/

/-- The classes made with `Record`. -/
inductive RecordCls where
  | record | span | grams | form | token | morphToken | tagToken | morphTagToken | match_
  deriving DecidableEq

/-- The order in which methods are looked up (`yargy/span.py:5`, `yargy/morph.py:60,91`, `yargy/token.py:6,35,64,76`,
`yargy/parser.py:176`), without `object`. -/
def RecordCls.mro : RecordCls → List RecordCls
  | .record => [.record]
  | .span => [.span, .record]
  | .grams => [.grams, .record]
  | .form => [.form, .record]
  | .token => [.token, .record]
  | .morphToken => [.morphToken, .token, .record]
  | .tagToken => [.tagToken, .token, .record]
  | .morphTagToken => [.morphTagToken, .morphToken, .tagToken, .token, .record]
  | .match_ => [.match_, .record]

/-- Which classes define `__eq__` (`yargy/record.py:6`, `yargy/span.py:12`). -/
def RecordCls.definesEq : RecordCls → Bool
  | .record => true
  | .span => true
  | _ => false

/-- Which classes define `__hash__` (`yargy/record.py:21`). -/
def RecordCls.definesHash : RecordCls → Bool
  | .record => true
  | _ => false

/-- What Python does with it: a class with `__eq__` and without `__hash__` gets `__hash__ = None`. -/
def RecordCls.hashable (c : RecordCls) : Bool :=
  match c.mro.find? (fun d => d.definesHash || d.definesEq) with
  | some d => d.definesHash
  | none => true

/-- The values that are attributes of records. -/
inductive Val where
  | str (s : Str)
  | num (n : Nat)
  | frozen (ss : List Str)
  | list (vs : List Val)
  | record (cls : RecordCls) (attributes : List Val)

section
variable {H : Type} (hstr : Str → H) (hnum : Nat → H) (hset : List Str → H) (htuple : List H → H)

mutual
/-- `hash(x)`: lists have none; records have that of the tuple of their attributes (`yargy/record.py:18-22`). -/
def Val.hash : Val → Except Err H
  | .str s => .ok (hstr s)
  | .num n => .ok (hnum n)
  | .frozen ss => .ok (hset ss)
  | .list _ => .error .typeError
  | .record c vs => if c.hashable then (hashAll vs).map htuple else .error .typeError
/-- The hashes of the elements of a tuple, from left to right. -/
def hashAll : List Val → Except Err (List H)
  | [] => .ok []
  | v :: vs => do
    let x ← v.hash
    let xs ← hashAll vs
    return x :: xs
end

end

/-- A span as a record (`yargy/span.py:6`). -/
def spanVal (s : Nat × Nat) : Val := .record .span [.num s.1, .num s.2]

/-- A form as a record (`yargy/morph.py:61,92`); the grammemes of the analyzer are a frozen set. -/
def formVal (f : Form) : Val := .record .form [.str f.normalized, .record .grams [.frozen f.grams]]

/-- A token as a record (`yargy/token.py:7,36,65,77`). -/
def tokenVal (t : Token) : Val :=
  let own := [.str t.value, spanVal t.span, .str t.type]
  match t.tag, t.forms with
  | none, none => .record .token own
  | none, some fs => .record .morphToken (own ++ [.list (fs.map formVal)])
  | some g, none => .record .tagToken (own ++ [.str g])
  | some g, some fs => .record .morphTagToken (own ++ [.str g, .list (fs.map formVal)])

/-- A match as a record (`yargy/parser.py:177`). -/
def matchVal {P : Type} (m : Match P) : Val := .record .match_ [.list (m.tokens.map tokenVal), spanVal m.span]

end Yargy.Compare
