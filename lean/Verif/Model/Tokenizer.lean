import Verif.Model.Token
/-! Tokenizers (`yargy/tokenizer.py`) and taggers (`yargy/tagger.py`). -/
namespace Yargy

/-! ### Regular expressions -/

/-- The part of the pattern language used by the token rules of the library. Case folding
(`re.IGNORECASE`, `yargy/tokenizer.py:95`) is part of the character classes. -/
inductive Re where
  /-- one character of a class -/
  | cls (p : Char → Bool)
  | seq (a b : Re)
  /-- `a?` -/
  | opt (a : Re)
  /-- `a{min,max}`; `none` for no upper bound -/
  | rep (a : Re) (min : Nat) (max : Option Nat)

/-- Greedy repetition: the lengths a repeated pattern can take at the beginning of `s`, in the
order in which the backtracking engine tries them. At most `max` rounds. -/
def repEnds (body : Str → List Nat) : Nat → Nat → Str → List Nat
  | min, 0, _ => if min = 0 then [0] else []
  | min, max + 1, s =>
    ((body s).flatMap (fun k => (repEnds body (min - 1) max (s.drop k)).map (k + ·)))
      ++ if min = 0 then [0] else []

/-- The lengths the pattern can take at the beginning of `s`, in the order in which Python's
backtracking engine tries them. Without an upper bound `len(s)` rounds are made, which is all
there can be when the repeated pattern is not empty (as in every rule of the library). -/
def Re.ends : Re → Str → List Nat
  | .cls _, [] => []
  | .cls p, c :: _ => if p c then [1] else []
  | .seq a b, s => (a.ends s).flatMap (fun k => (b.ends (s.drop k)).map (k + ·))
  | .opt a, s => a.ends s ++ [0]
  | .rep a min max, s => repEnds a.ends min (max.getD s.length) s

/-! ### Token rules -/

/-- `TokenRule` (`yargy/tokenizer.py:10-15`). `id` is the identity of the object. `ends text i`
are the lengths of the matches of the pattern at position `i` of `text`, in the order in which the
engine prefers them; any function is allowed, so that patterns looking around or behind are
covered. -/
structure TokenRule where
  id : Nat
  type : Str
  ends : Str → Nat → List Nat

/-- A rule with a pattern of the class `Re`. -/
def Re.rule (id : Nat) (type : Str) (re : Re) : TokenRule :=
  ⟨id, type, fun text i => re.ends (text.drop i)⟩

/-- The character classes of the engine; `russian` and `latin` are `[а-яё]` and `[a-z]` under
`re.IGNORECASE`. -/
structure Classes where
  /-- `\s` -/
  space : Char → Bool
  /-- `\d` -/
  digit : Char → Bool
  russian : Char → Bool
  latin : Char → Bool

/-- `RUSSIAN` … `OTHER` (`yargy/tokenizer.py:18-23`). -/
def ruType : Str := "RU".toList
def latinType : Str := "LATIN".toList
def intTokenType : Str := "INT".toList
def punctType : Str := "PUNCT".toList
def eolType : Str := "EOL".toList
def otherType : Str := "OTHER".toList

/-- The characters of the `PUNCT` pattern (`yargy/tokenizer.py:44-47`). -/
def punctuation : Str := "-\\/!#$%&()[]*+,.:;<=>?@^_`{|}~№…\"'«»„“ʼʻ”".toList

/-- `[...]+` -/
def Re.plus (p : Char → Bool) : Re := .rep (.cls p) 1 none

/-- `RULES` (`yargy/tokenizer.py:40-50`). -/
def defaultRules (C : Classes) : List TokenRule :=
  [ (Re.plus C.russian).rule 0 ruType
  , (Re.plus C.latin).rule 1 latinType
  , (Re.plus C.digit).rule 2 intTokenType
  , (Re.cls (fun c => punctuation.contains c)).rule 3 punctType
  , (Re.plus (fun c => c == '\n' || c == '\r')).rule 4 eolType
  , (Re.cls (fun c => !C.space c)).rule 5 otherType ]

/-- `[0-9]` -/
def asciiDigit (c : Char) : Bool := "0123456789".toList.contains c

/-- `EMAIL_RULE` (`yargy/tokenizer.py:25-28`). -/
def emailRe (C : Classes) : Re :=
  .seq (Re.plus (fun c => C.latin c || asciiDigit c || "_.+-".toList.contains c))
    (.seq (.cls (· == '@'))
      (.seq (Re.plus (fun c => C.latin c || asciiDigit c || c == '-'))
        (.seq (.cls (· == '.'))
          (Re.plus (fun c => C.latin c || asciiDigit c || "-.".toList.contains c)))))

/-- `[-\s_()]` -/
def phoneFiller (C : Classes) (c : Char) : Bool := C.space c || "-_()".toList.contains c

/-- `PHONE_RULE` (`yargy/tokenizer.py:30-33`). -/
def phoneRe (C : Classes) : Re :=
  .seq (.opt (.cls (· == '+')))
    (.rep (.seq (.opt (.cls (phoneFiller C))) (.seq (.cls C.digit) (.opt (.cls (phoneFiller C)))))
      10 (some 14))

/-! ### `re.finditer` -/

/-- A match found by the compiled pattern: type of the rule whose group matched, start, length. -/
structure Found where
  type : Str
  start : Nat
  len : Nat
  deriving DecidableEq

/-- All ways in which `rule_1|rule_2|…` (`yargy/tokenizer.py:84-95`) matches at position `i`, in
the order of preference of the engine. -/
def candidates (rules : List TokenRule) (text : Str) (i : Nat) : List Found :=
  rules.flatMap (fun r => (r.ends text i).map (fun k => ⟨r.type, i, k⟩))

/-- The match at position `i`. `adv`: an empty match is not accepted here (the engine's
`must_advance`, set after an empty match at `i`). -/
def matchAt (rules : List TokenRule) (text : Str) (adv : Bool) (i : Nat) : Option Found :=
  (candidates rules text i).find? (fun f => !(adv && f.len == 0))

/-- `regexp.search` from position `i`: the first of the next `n` positions with a match. -/
def search (rules : List TokenRule) (text : Str) (adv : Bool) (i : Nat) : Nat → Option Found
  | 0 => none
  | n + 1 =>
    match matchAt rules text adv i with
    | some f => some f
    | none => search rules text false (i + 1) n

/-- `re.finditer` (`yargy/tokenizer.py:99`): search again from the end of the previous match; right
after an empty match the next one must not be empty. Every match either advances or is followed by
one that does, hence `2 * len(text) + 2` rounds suffice. -/
def finditer (rules : List TokenRule) (text : Str) : Nat → Bool → Nat → List Found
  | 0, _, _ => []
  | fuel + 1, adv, i =>
    match search rules text adv i (text.length + 1 - i) with
    | none => []
    | some f => f :: finditer rules text fuel (f.len == 0) (f.start + f.len)

/-! ### `Tokenizer` -/

/-- `Tokenizer` (`yargy/tokenizer.py:53-61`). `compiled` are the rules of `regexp` and `mapping`;
`types` is `self.types`. -/
structure Tokenizer where
  rules : List TokenRule
  compiled : List TokenRule
  types : List Str

/-- `Tokenizer.compile` (`yargy/tokenizer.py:80-96`). Group names are made from the identities of
the rules; the regular expression compiler refuses a repeated name. -/
def compileRules (rules : List TokenRule) : Except Err (List TokenRule × List Str) :=
  if (rules.map (·.id)).Nodup then .ok (rules, rules.map (·.type)) else .error .reError

/-- `Tokenizer.reset` (`yargy/tokenizer.py:57-61`): `self.rules` is assigned before compiling. -/
def Tokenizer.reset (t : Tokenizer) (rules : List TokenRule) : Tokenizer × Except Err Unit :=
  match compileRules rules with
  | .ok (c, ts) => (⟨rules, c, ts⟩, .ok ())
  | .error e => ({ t with rules := rules }, .error e)

/-- `Tokenizer.__init__` (`yargy/tokenizer.py:54-55`). -/
def Tokenizer.new (rules : List TokenRule) : Except Err Tokenizer :=
  match compileRules rules with
  | .ok (c, ts) => .ok ⟨rules, c, ts⟩
  | .error e => .error e

/-- `Tokenizer.add_rules` (`yargy/tokenizer.py:63-65`). -/
def Tokenizer.addRules (t : Tokenizer) (rules : List TokenRule) : Tokenizer × Except Err Unit :=
  t.reset (rules ++ t.rules)

/-- `Tokenizer.check_type` (`yargy/tokenizer.py:76-78`). -/
def Tokenizer.checkType (t : Tokenizer) (type : Str) : Except Err Unit :=
  if t.types.contains type then .ok () else .error .valueError

/-- `Tokenizer.remove_types` (`yargy/tokenizer.py:67-74`). -/
def Tokenizer.removeTypes (t : Tokenizer) (types : List Str) : Tokenizer × Except Err Unit :=
  match types.forM t.checkType with
  | .ok _ => t.reset (t.rules.filter (fun r => !types.contains r.type))
  | .error e => (t, .error e)

/-- The token made of a match (`yargy/tokenizer.py:100-105`). -/
def Found.token (text : Str) (f : Found) : Token :=
  { value := (text.drop f.start).take f.len, span := (f.start, f.start + f.len), type := f.type }

/-- `Tokenizer.__call__` (`yargy/tokenizer.py:98-105`), all tokens at once. Without rules the
pattern is empty and has no group: the first match, at the beginning, has no name in `mapping`. -/
def Tokenizer.call (t : Tokenizer) (text : Str) : Except Err (List Token) :=
  if t.compiled.isEmpty then .error .keyError
  else .ok ((finditer t.compiled text (2 * text.length + 2) false 0).map (Found.token text))

/-- `Tokenizer.split` (`yargy/tokenizer.py:107-108`). -/
def Tokenizer.split (t : Tokenizer) (text : Str) : Except Err (List Str) :=
  (t.call text).map (fun ts => ts.map (·.value))

/-- `MorphTokenizer.__call__` (`yargy/tokenizer.py:119-126`); `morph` is `self.morph`. -/
def Tokenizer.morphCall (morph : Str → List Form) (t : Tokenizer) (text : Str) :
    Except Err (List Token) :=
  (t.call text).map (fun ts =>
    ts.map (fun k => if k.type = ruType then k.morphed (morph k.value) else k))

/-! ### Taggers -/

/-- `Tagger` and its subclasses (`yargy/tagger.py:3-31`). `user` is a subclass written by the
user: its attribute `tags` and its `__call__`; `base` is `Tagger` itself. -/
inductive Tagger where
  | base
  | pass
  | compose (taggers : List Tagger)
  | user (tags : List Str) (call : List Token → Except Err (List Token))

mutual
/-- `Tagger.__call__`, `PassTagger.__call__`, `TaggersComposition.__call__`
(`yargy/tagger.py:6-7,14-16,23-26`), on the whole sequence at once. -/
def Tagger.call : Tagger → List Token → Except Err (List Token)
  | .base, _ => .error .notImplemented
  | .pass, ts => .ok ts
  | .compose taggers, ts => Tagger.callAll taggers ts
  | .user _ f, ts => f ts
/-- The loop of `TaggersComposition.__call__` (`yargy/tagger.py:24-26`). -/
def Tagger.callAll : List Tagger → List Token → Except Err (List Token)
  | [], ts => .ok ts
  | t :: rest, ts => t.call ts >>= Tagger.callAll rest
end

mutual
/-- `Tagger.check_tag`, `TaggersComposition.check_tag` (`yargy/tagger.py:9-10,28-32`). -/
def Tagger.checkTag : Tagger → Str → Bool
  | .base, _ => false
  | .pass, _ => false
  | .compose taggers, tag => Tagger.checkAny taggers tag
  | .user tags _, tag => tags.contains tag
/-- `any(_.check_tag(tag) for _ in self.taggers)` (`yargy/tagger.py:29-32`). -/
def Tagger.checkAny : List Tagger → Str → Bool
  | [], _ => false
  | t :: rest, tag => t.checkTag tag || Tagger.checkAny rest tag
end

end Yargy
