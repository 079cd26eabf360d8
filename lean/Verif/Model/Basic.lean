/-! Shared basics: strings, exceptions. -/
namespace Yargy

/-- A Python `str`: a sequence of code points. -/
abbrev Str := List Char

/-- Python exceptions raised by the modelled code. -/
inductive Err where
  | valueError
  | typeError
  | attributeError
  | indexError
  | keyError
  | recursionError
  | notImplemented
  | reError
  deriving DecidableEq, Repr

end Yargy
