import Verif.Model.Compile
import Verif.Model.Parser
import Verif.Model.Tokenizer
/-!
`Parser` on strings (`yargy/parser.py:232-303`): tokenizer and tagger, the context that rules see, and the methods
that take a text.
-/
namespace Yargy

/-- `MorphAnalyzer` (`yargy/morph.py:118-133`): what it knows, and `__call__`. -/
structure Analyzer where
  /-- `raw.TagClass.grammeme_is_known` -/
  known : Str → Bool
  /-- `[prepare_form(_) for _ in raw.parse(word)]` -/
  parse : Str → List Form

/-- `MorphAnalyzer.normalized` (`yargy/morph.py:132-133`), the set as a list. -/
def Analyzer.normalized (a : Analyzer) (word : Str) : List Str := (a.parse word).map Form.normalized

/-- An analyzer as schemes see it. -/
def Analyzer.morph (a : Analyzer) : Morph := ⟨a.known, a.normalized⟩

/-- How a parser reads texts (`yargy/parser.py:241-250`): its tokenizer, with an analyzer if it is a
`MorphTokenizer`, and its tagger. -/
structure Reader where
  tokenizer : Tokenizer
  analyzer : Option Analyzer
  tagger : Tagger

/-- `self.tokenizer(text)`: `Tokenizer.__call__` or `MorphTokenizer.__call__`
(`yargy/tokenizer.py:98-105,119-126`). -/
def Reader.tokenize (r : Reader) (text : Str) : Except Err (List Token) :=
  match r.analyzer with
  | none => r.tokenizer.call text
  | some a => r.tokenizer.morphCall a.parse text

/-- The first lines of `Parser.chart` (`yargy/parser.py:258-260`): the tokens of a text. -/
def Reader.tokens (r : Reader) (text : Str) : Except Err (List Token) :=
  r.tokenize text >>= r.tagger.call

/-- `tokenizer.split(line)` (`yargy/tokenizer.py:107-108`) with the tokenizer of the parser. Where it raises,
which is on every text if the tokenizer has no rules and never otherwise, the model has no words; theorems ask for
rules. -/
def Reader.split (r : Reader) (line : Str) : List Str :=
  match r.tokenize line with
  | .ok ts => ts.map (·.value)
  | .error _ => []

/-- `Context(tokenizer, tagger)` (`yargy/parser.py:232-237,252`). -/
def Reader.context (r : Reader) : Context where
  types := r.tokenizer.types
  morph := r.analyzer.map Analyzer.morph
  hasTag := r.tagger.checkTag

/-- `Parser` (`yargy/parser.py:240-255`). -/
structure TextParser where
  reader : Reader
  built : Built

/-- `Parser(rule, tokenizer, tagger)` (`yargy/parser.py:241-255`). -/
def newParser (L : Lang) (setOrder : List Str → List Str) (r : Reader) (relation : Nat → Relation) (pid : Nat → Nat)
    (limit root : Nat) (h : Heap Pred) : Except Err (TextParser × Heap Pred) :=
  (buildParser L setOrder r.context r.split relation pid limit root h).map (fun x => (⟨r, x.1⟩, x.2))

section
variable {H : Type} [DecidableEq H] (hash : Key → H) (p : TextParser)

/-- `parser.extract(text, all)` (`yargy/parser.py:283-286`), consumed to its end: what was returned, or the
exception with what had been returned before. -/
def TextParser.extract (text : Str) (all : Bool) (fuel : Nat) : Option (List (Match Pred) × Store × Option Err) :=
  match p.reader.tokens text with
  | .error e => some ([], Store.init, some e)
  | .ok toks => Yargy.extract p.built.grammar p.built.agreement hash toks all fuel

/-- `parser.findall(text)` (`yargy/parser.py:288-292`). -/
def TextParser.findall (text : Str) (fuel : Nat) : Option (Except Err (List (Match Pred) × Store)) :=
  match p.reader.tokens text with
  | .error e => some (.error e)
  | .ok toks => Yargy.findall p.built.grammar p.built.agreement hash toks fuel

/-- `parser.find(text)` (`yargy/parser.py:294-296`). -/
def TextParser.find (text : Str) (fuel : Nat) : Option (Except Err (Option (Match Pred))) :=
  match p.reader.tokens text with
  | .error e => some (.error e)
  | .ok toks => Yargy.find p.built.grammar p.built.agreement hash toks fuel

/-- `parser.match(text)` (`yargy/parser.py:298-303`). -/
def TextParser.match (text : Str) (fuel : Nat) : Option (Except Err (Option (Match Pred) × Store)) :=
  match p.reader.tokens text with
  | .error e => some (.error e)
  | .ok toks => Yargy.matchText p.built.grammar p.built.agreement hash toks fuel

end

end Yargy
