import Verif.Model.Relation
/-! Specification: gender, number and case of a form, and which of them agree. Grammemes are those of
OpenCorpora, used by pymorphy2. -/
namespace Yargy.Spec

/-- The form has the grammeme. -/
def Has (f : Form) (g : String) : Prop := g.toList ∈ f.grams

/-- Gender of a form: one of the three, common (masculine or feminine: `сирота`), not expressed but
open (`GNdr`), or none at all (verbs in the present tense). -/
inductive Gender where
  | masculine | feminine | neuter | common | open | none
  deriving DecidableEq

/-- The form has just this gender. -/
def HasGender (f : Form) : Gender → Prop
  | .masculine => Has f "masc" ∧ ¬Has f "femn" ∧ ¬Has f "neut" ∧ ¬Has f "Ms-f" ∧ ¬Has f "ms-f" ∧ ¬Has f "GNdr"
  | .feminine => ¬Has f "masc" ∧ Has f "femn" ∧ ¬Has f "neut" ∧ ¬Has f "Ms-f" ∧ ¬Has f "ms-f" ∧ ¬Has f "GNdr"
  | .neuter => ¬Has f "masc" ∧ ¬Has f "femn" ∧ Has f "neut" ∧ ¬Has f "Ms-f" ∧ ¬Has f "ms-f" ∧ ¬Has f "GNdr"
  | .common => ¬Has f "masc" ∧ ¬Has f "femn" ∧ ¬Has f "neut" ∧ (Has f "Ms-f" ∨ Has f "ms-f") ∧ ¬Has f "GNdr"
  | .open => Has f "GNdr"
  | .none => ¬Has f "masc" ∧ ¬Has f "femn" ∧ ¬Has f "neut" ∧ ¬Has f "Ms-f" ∧ ¬Has f "ms-f" ∧ ¬Has f "GNdr"

/-- Two genders agree if there is one gender of the three both can stand for. -/
inductive Gender.StandsFor : Gender → Gender → Prop
  | self {g} : g = .masculine ∨ g = .feminine ∨ g = .neuter → StandsFor g g
  | common {g} : g = .masculine ∨ g = .feminine → StandsFor .common g
  | open {g} : StandsFor .open g

/-- Number of a form. -/
inductive Number where
  | singular | plural | none
  deriving DecidableEq

/-- The form has just this number; `Sgtm`, `Pltm` mark words that have no other one. -/
def HasNumber (f : Form) : Number → Prop
  | .singular => Has f "sing" ∧ ¬Has f "plur" ∧ ¬Has f "Pltm"
  | .plural => ¬Has f "sing" ∧ Has f "plur" ∧ ¬Has f "Sgtm"
  | .none => ¬Has f "sing" ∧ ¬Has f "plur" ∧ ¬Has f "Sgtm" ∧ ¬Has f "Pltm"

/-- The cases that are told apart. -/
inductive Case where
  | nominative | genitive | dative | accusative | instrumental | locative | vocative | none
  deriving DecidableEq

/-- The grammeme of a case. -/
def Case.gram : Case → Option String
  | .nominative => some "nomn"
  | .genitive => some "gent"
  | .dative => some "datv"
  | .accusative => some "accs"
  | .instrumental => some "ablt"
  | .locative => some "loct"
  | .vocative => some "voct"
  | .none => Option.none

/-- The form has just this case. -/
def HasCase (f : Form) (c : Case) : Prop := ∀ (c' : Case) (g : String), c'.gram = some g → (Has f g ↔ c' = c)

end Yargy.Spec
