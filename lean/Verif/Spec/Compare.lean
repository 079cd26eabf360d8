import Verif.Model.Compare
/-! Specification: when tokens and matches are the same for a reader. -/
namespace Yargy.Spec
open Compare

/-- Two forms with the same normal form and the same grammemes. -/
structure SameForm (f g : Form) : Prop where
  normalized : f.normalized = g.normalized
  grams : f.grams = g.grams

/-- Both have none, or both have the same, one by one. -/
inductive SameForms : Option (List Form) → Option (List Form) → Prop
  | none : SameForms none none
  | nil : SameForms (some []) (some [])
  | cons {f g fs gs} : SameForm f g → SameForms (some fs) (some gs) → SameForms (some (f :: fs)) (some (g :: gs))

/-- The same text at the same place, of the same type, with the same tag and the same forms. -/
structure SameToken (t u : Token) : Prop where
  value : t.value = u.value
  span : t.span = u.span
  type : t.type = u.type
  tag : t.tag = u.tag
  forms : SameForms t.forms u.forms

end Yargy.Spec
