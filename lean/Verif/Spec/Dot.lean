import Verif.Model.Dot
/-!
How Graphviz reads quoted strings and attribute lists, written down independently of the printer.

In a quoted string `\"` stands for a quote, `\\` is kept as it is, a backslash at the end of a line
joins the lines, any other character stands for itself; a quote ends the string (the scanner of
Graphviz, `lib/cgraph/scan.l`).
-/
namespace Yargy.Spec
open Yargy

/-- Reads up to the closing quote: the contents and the rest. -/
def scan : Str → Option (Str × Str)
  | [] => none
  | c :: s =>
    if c = '"' then some ([], s)
    else if c = '\\' then
      match s with
      | [] => none
      | d :: s' =>
        if d = '"' then (scan s').map (fun x => ('"' :: x.1, x.2))
        else if d = '\\' then (scan s').map (fun x => ('\\' :: '\\' :: x.1, x.2))
        else if d = '\n' then scan s'
        else (scan s').map (fun x => ('\\' :: d :: x.1, x.2))
    else (scan s).map (fun x => (c :: x.1, x.2))

/-- Reads a quoted string. -/
def readString : Str → Option (Str × Str)
  | [] => none
  | c :: s => if c = '"' then scan s else none

/-- Reads a name up to the character `=`. -/
def readName : Str → Option (Str × Str)
  | [] => none
  | c :: s => if c = '=' then some ([], s) else (readName s).map (fun x => (c :: x.1, x.2))

/-- Reads `name="value"`. -/
def readAttr (s : Str) : Option ((Str × Str) × Str) :=
  match readName s with
  | none => none
  | some (name, s1) =>
    match readString s1 with
    | none => none
    | some (value, s2) => some ((name, value), s2)

/-- Reads attributes separated by `, `, at most `n` of them, up to something else. -/
def readAttrs : Nat → Str → Option (List (Str × Str) × Str)
  | 0, _ => none
  | n + 1, s =>
    match readAttr s with
    | none => none
    | some (a, s1) =>
      match s1 with
      | ',' :: ' ' :: s2 => (readAttrs n s2).map (fun x => (a :: x.1, x.2))
      | _ => some ([a], s1)

/-- Line breaks are written `\n` and `\r`, which Graphviz shows as line breaks. -/
def breaksWritten (s : Str) : Str :=
  s.flatMap (fun c => if c = '\n' then ['\\', 'n'] else if c = '\r' then ['\\', 'r'] else [c])

/-- The backslashes right before a quote or the end of the text come in pairs. -/
inductive Paired : Str → Prop where
  | nil : Paired []
  | other {c s} : c ≠ '\\' → Paired s → Paired (c :: s)
  | pair {s} : Paired s → Paired ('\\' :: '\\' :: s)
  | single {c s} : c ≠ '\\' → c ≠ '"' → Paired s → Paired ('\\' :: c :: s)

end Yargy.Spec
