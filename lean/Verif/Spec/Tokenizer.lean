import Verif.Model.Tokenizer
/-! Specification: what tokenization means. -/
namespace Yargy.Spec

/-- `n` copies of a language. -/
inductive Copies (M : Str → Prop) : Nat → Str → Prop where
  | zero : Copies M 0 []
  | succ {n u v} : M u → Copies M n v → Copies M (n + 1) (u ++ v)

/-- The language of a pattern. -/
def ReMatches : Re → Str → Prop
  | .cls p, w => ∃ c, p c = true ∧ w = [c]
  | .seq a b, w => ∃ u v, w = u ++ v ∧ ReMatches a u ∧ ReMatches b v
  | .opt a, w => w = [] ∨ ReMatches a w
  | .rep a min max, w => ∃ n, min ≤ n ∧ (∀ m, max = some m → n ≤ m) ∧ Copies (ReMatches a) n w

/-- No unbounded repetition of something that can be empty. -/
def ReProper : Re → Prop
  | .cls _ => True
  | .seq a b => ReProper a ∧ ReProper b
  | .opt a => ReProper a
  | .rep a _ max => ReProper a ∧ (max = none → ¬ ReMatches a [])

/-- The rule finds matches inside the text only. -/
def Inside (r : TokenRule) : Prop :=
  ∀ text i, i ≤ text.length → ∀ k ∈ r.ends text i, i + k ≤ text.length

/-- The rule never matches the empty text. -/
def NonEmpty (r : TokenRule) : Prop := ∀ text i, ∀ k ∈ r.ends text i, k ≠ 0

/-- A list of rules is applied at position `i` by priority: `f` comes from the first rule that has an
acceptable match there, and is the acceptable match preferred by that rule. When `adv` is set, only
non-empty matches are acceptable. -/
def Chooses (rules : List TokenRule) (text : Str) (adv : Prop) (i : Nat) (f : Found) : Prop :=
  ∃ pre r post better k worse, rules = pre ++ r :: post ∧
    (∀ q ∈ pre, ∀ j ∈ q.ends text i, adv ∧ j = 0) ∧
    r.ends text i = better ++ k :: worse ∧ (∀ j ∈ better, adv ∧ j = 0) ∧ ¬ (adv ∧ k = 0) ∧
    f = ⟨r.type, i, k⟩

/-- No rule has an acceptable match at position `i`. -/
def Skips (rules : List TokenRule) (text : Str) (adv : Prop) (i : Nat) : Prop :=
  ∀ r ∈ rules, ∀ j ∈ r.ends text i, adv ∧ j = 0

/-- The text from position `i` on is cut into matches from left to right: every match is at the
first position where there is one, and chosen by priority. `adv`: the last match was empty. -/
inductive Cut (rules : List TokenRule) (text : Str) : Prop → Nat → List Found → Prop where
  | done {adv i} : (∀ p, i ≤ p → p ≤ text.length → Skips rules text (adv ∧ p = i) p) →
      Cut rules text adv i []
  | next {adv i p f rest} : i ≤ p → p ≤ text.length →
      (∀ q, i ≤ q → q < p → Skips rules text (adv ∧ q = i) q) →
      Chooses rules text (adv ∧ p = i) p f →
      Cut rules text (f.len = 0) (p + f.len) rest →
      Cut rules text adv i (f :: rest)

/-- Tokens lie in the text one after another, each with its own text, and the characters outside
all of them are white space other than line breaks. -/
structure Covers (space : Char → Bool) (text : Str) (ts : List Token) : Prop where
  inside : ∀ t ∈ ts, t.span.1 < t.span.2 ∧ t.span.2 ≤ text.length
  value : ∀ t ∈ ts, t.value = (text.take t.span.2).drop t.span.1
  ordered : ts.Pairwise (fun a b => a.span.2 ≤ b.span.1)
  rest : ∀ i c, text[i]? = some c → (∀ t ∈ ts, ¬ (t.span.1 ≤ i ∧ i < t.span.2)) →
    space c = true ∧ c ≠ '\n' ∧ c ≠ '\r'

/-- `value` is a run of characters of a class that cannot be continued by the character `after`. -/
def MaximalRun (p : Char → Bool) (value : Str) (after : Option Char) : Prop :=
  value ≠ [] ∧ (∀ c ∈ value, p c = true) ∧ ∀ c, after = some c → p c = false

/-- What a token of the default tokenizer looks like. -/
def DefaultToken (C : Classes) (type value : Str) (after : Option Char) : Prop :=
  (type = "RU".toList ∧ MaximalRun C.russian value after) ∨
  (type = "LATIN".toList ∧ MaximalRun C.latin value after) ∨
  (type = "INT".toList ∧ MaximalRun C.digit value after) ∨
  (type = "EOL".toList ∧ MaximalRun (fun c => c == '\n' || c == '\r') value after) ∨
  (type = "PUNCT".toList ∧ ∃ c, value = [c] ∧ c ∈ punctuation) ∨
  (type = "OTHER".toList ∧ ∃ c, value = [c] ∧ C.space c = false ∧ c ∉ punctuation ∧
    C.russian c = false ∧ C.latin c = false ∧ C.digit c = false)

/-- Letters, digits and punctuation are not white space. -/
structure SaneClasses (C : Classes) : Prop where
  russian : ∀ c, C.russian c = true → C.space c = false
  latin : ∀ c, C.latin c = true → C.space c = false
  digit : ∀ c, C.digit c = true → C.space c = false
  punct : ∀ c ∈ punctuation, C.space c = false

/-- Two sequences of tokens with the same texts, spans, types (and forms), one by one. -/
inductive SameTexts : List Token → List Token → Prop where
  | nil : SameTexts [] []
  | cons {a b as bs} : a.value = b.value → a.span = b.span → a.type = b.type → a.forms = b.forms →
      SameTexts as bs → SameTexts (a :: as) (b :: bs)

/-- The pieces of text and the gaps between them: `Joined ts s` when `s` is the texts of `ts` in
order, with one space between two neighbours exactly when the second starts after the end of the
first. -/
inductive Joined : List Token → Str → Prop where
  | nil : Joined [] []
  | one (t) : Joined [t] t.value
  | gap {t u ts s} : t.span.2 < u.span.1 → Joined (u :: ts) s →
      Joined (t :: u :: ts) (t.value ++ " ".toList ++ s)
  | next {t u ts s} : u.span.1 ≤ t.span.2 → Joined (u :: ts) s →
      Joined (t :: u :: ts) (t.value ++ s)

/-- One operation on a tokenizer. -/
inductive TokOp where
  | add (rules : List TokenRule)
  | remove (types : List Str)

/-- The rules in force after a history of operations: added rules go in front, removed types are
taken out. -/
def rulesAfter : List TokenRule → List TokOp → List TokenRule
  | rules, [] => rules
  | rules, .add new :: ops => rulesAfter (new ++ rules) ops
  | rules, .remove types :: ops => rulesAfter (rules.filter (fun r => decide (r.type ∉ types))) ops

end Yargy.Spec
