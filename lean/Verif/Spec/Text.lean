import Verif.Spec.Tokenizer
import Verif.Spec.Pipeline
import Verif.Model.Text
/-!
What a user of `Parser` sees, said of strings.
-/
namespace Yargy.Spec

/-- The words of a text are those of a line, one by one: equal (`pipeline`), equal in lower case
(`caseless_pipeline`), with a normal form in common (`morph_pipeline`). -/
def SameLine (L : Lang) (normalized : Str → List Str) (kind : PipeKind) (words : List Str) (toks : List Token) : Prop :=
  toks.length = words.length ∧ WordsMatch L normalized kind toks 0 words

/-- The analyzer knows at least one reading of every word of the lines, and where a word is not looked up in a text
(it is no Russian one) the word in lower case is among its normal forms. -/
def Reliable (L : Lang) (t : Tokenizer) (a : Analyzer) (lines : List Str) : Prop :=
  ∀ l ∈ lines, ∀ ts, t.call l = .ok ts → ∀ x ∈ ts, a.parse x.value ≠ [] ∧
    (x.type ≠ "RU".toList → ∃ f ∈ a.parse x.value, f.normalized = L.lower x.value)

/-- A reader that answers: its tokenizer has rules, and its tagger raises on no sequence of tokens and only adds
tags. -/
structure Answers (r : Reader) : Prop where
  rules : r.tokenizer.compiled ≠ []
  tags : ∀ ts, ∃ us, r.tagger.call ts = .ok us ∧ SameTexts ts us

/-- A match describes a piece of the text: its tokens are in it one after another, each with its own text; it begins
and ends with a token; between its tokens there is white space only, and no line break. -/
structure PieceOf (space : Char → Bool) (text : Str) (m : Match Pred) : Prop where
  inside : m.span.1 < m.span.2 ∧ m.span.2 ≤ text.length
  first : ∃ t, m.tokens.head? = some t ∧ t.span.1 = m.span.1
  last : ∃ t, m.tokens.getLast? = some t ∧ t.span.2 = m.span.2
  tokens : ∀ t ∈ m.tokens, m.span.1 ≤ t.span.1 ∧ t.span.1 < t.span.2 ∧ t.span.2 ≤ m.span.2 ∧
    t.value = (text.take t.span.2).drop t.span.1
  ordered : m.tokens.Pairwise (fun a b => a.span.2 ≤ b.span.1)
  gaps : ∀ i c, m.span.1 ≤ i → i < m.span.2 → text[i]? = some c →
    (∀ t ∈ m.tokens, ¬ (t.span.1 ≤ i ∧ i < t.span.2)) → space c = true ∧ c ≠ '\n' ∧ c ≠ '\r'

end Yargy.Spec
