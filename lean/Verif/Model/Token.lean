import Verif.Model.Basic
/-! Tokens and their morphological forms (`yargy/token.py`, data classes of `yargy/morph.py`). -/
namespace Yargy

/-- `Form` (`yargy/morph.py:91-97`). `grams` is the set of grammemes (`Grams`,
`yargy/morph.py:60-79`), written as a list that is the same for equal sets; `raw` identifies the
analyzer's own record, which `Record.__eq__` does not compare. -/
structure Form where
  normalized : Str
  grams : List Str
  raw : Nat := 0
  deriving DecidableEq

/-- `form == other` (`Record.__eq__`, `yargy/record.py:6-13`, on `normalized` and `grams`). -/
def Form.same (a b : Form) : Bool := decide (a.normalized = b.normalized ∧ a.grams = b.grams)

/-- `form in forms` (`yargy/relations/graph.py:60-63`). -/
def Form.isIn (f : Form) (l : List Form) : Bool := l.any (fun g => f.same g)

/-- `Token`, `MorphToken`, `TagToken`, `MorphTagToken` (`yargy/token.py:6-88`). The class is told
by which of `tag` and `forms` are present. -/
structure Token where
  value : Str
  span : Nat × Nat
  type : Str
  tag : Option Str := none
  forms : Option (List Form) := none
  deriving DecidableEq

/-- `is_morph_token` (`yargy/token.py:60-61`). -/
def Token.isMorph (t : Token) : Bool := t.forms.isSome

/-- `is_tag_token` (`yargy/token.py:72-73`). -/
def Token.isTag (t : Token) : Bool := t.tag.isSome

/-- `Token.morphed` (`yargy/token.py:18-22`). It is called on plain tokens only; a tag token
would lose its tag. -/
def Token.morphed (t : Token) (forms : List Form) : Token :=
  { value := t.value, span := t.span, type := t.type, tag := none, forms := some forms }

/-- `Token.tagged`, `MorphToken.tagged` (`yargy/token.py:24-28,47-51`). -/
def Token.tagged (t : Token) (tag : Str) : Token := { t with tag := some tag }

/-- `MorphToken.constrained`, `MorphTagToken.constrained` (`yargy/token.py:53-57,84-88`). Other
tokens have no such method. -/
def Token.constrained (t : Token) (forms : List Form) : Except Err Token :=
  match t.forms with
  | some _ => .ok { t with forms := some forms }
  | none => .error .attributeError

section
variable (lower : Str → Str)

/-- `Token.normalized` and `MorphToken.normalized` (`yargy/token.py:15-16,43-45`);
`lower` is `str.lower`. -/
def Token.normalized (t : Token) : Except Err Str :=
  match t.forms with
  | none => .ok (lower t.value)
  | some (f :: _) => .ok f.normalized
  | some [] => .error .indexError

/-- The loop of `format_tokens` (`yargy/token.py:91-100`); `previous` is the stop of the previous
token. -/
def formatTokens : Option Nat → List Token → List Str
  | _, [] => []
  | previous, t :: ts =>
    match previous with
    | some stop =>
      if t.span.1 > stop then [' '] :: t.value :: formatTokens (some t.span.2) ts
      else t.value :: formatTokens (some t.span.2) ts
    | none => t.value :: formatTokens (some t.span.2) ts

/-- `join_tokens` (`yargy/token.py:103-104`). -/
def joinTokens (ts : List Token) : Str := (formatTokens none ts).flatten

/-- `normalize_token` (`yargy/token.py:107-112`). -/
def normalizeToken (t : Token) : Except Err Token :=
  (t.normalized lower).map (fun v => { value := v, span := t.span, type := t.type })

/-- `join_normalized_tokens` (`yargy/token.py:115-119`). -/
def joinNormalized (ts : List Token) : Except Err Str :=
  (ts.mapM (normalizeToken lower)).map joinTokens

variable (inflect : Form → List Str → Option Str)

/-- `Form.inflect` (`yargy/morph.py:99-103`); `inflect` is the analyzer's own inflection. -/
def Form.inflected (f : Form) (grams : List Str) : Str := (inflect f grams).getD f.normalized

/-- `inflect_token` (`yargy/token.py:122-132`). -/
def inflectToken (grams : List Str) (t : Token) : Except Err Token :=
  match t.forms with
  | some (f :: _) => .ok { value := f.inflected inflect grams, span := t.span, type := t.type }
  | some [] => .error .indexError
  | none => .ok { value := lower t.value, span := t.span, type := t.type }

/-- `join_inflected_tokens` (`yargy/token.py:135-139`). -/
def joinInflected (grams : List Str) (ts : List Token) : Except Err Str :=
  (ts.mapM (inflectToken lower inflect grams)).map joinTokens

end

/-- `get_tokens_span` (`yargy/token.py:142-144`). -/
def tokensSpan (ts : List Token) : Except Err (Nat × Nat) :=
  match ts.head?, ts.getLast? with
  | some a, some b => .ok (a.span.1, b.span.2)
  | _, _ => .error .indexError

end Yargy
