import Verif.Proofs.Agreement
import Verif.Spec.Features
/-! C57: what agreement in gender, number and case means. -/
namespace Yargy
open Spec

theorem has_iff {f : Form} {g : String} : f.has g = true ↔ Has f g := by
  simp [Form.has, Has]

theorem has_eq (f : Form) (g : String) [Decidable (Has f g)] : f.has g = decide (Has f g) := by
  by_cases h : Has f g
  · rw [has_iff.2 h, decide_eq_true h]
  · rw [decide_eq_false h]
    cases e : f.has g with
    | true => exact absurd (has_iff.1 e) h
    | false => rfl

theorem has_false {f : Form} {g : String} (h : ¬Has f g) : f.has g = false := by
  cases e : f.has g with
  | true => exact absurd (has_iff.1 e) h
  | false => rfl

/-- C57: two forms of the plural agree in gender whatever they are. -/
theorem gender_plural {f g : Form} (hf : Has f "plur") (hg : Has g "plur") : Relation.gender.call f g = true := by
  simp [Relation.call, genderRel, has_iff.2 hf, has_iff.2 hg]

/-- The table of genders that agree. -/
def genders : Gender → Gender → Bool
  | .open, _ => true
  | _, .open => true
  | .common, .masculine => true
  | .common, .feminine => true
  | .masculine, .common => true
  | .feminine, .common => true
  | .masculine, .masculine => true
  | .feminine, .feminine => true
  | .neuter, .neuter => true
  | _, _ => false

theorem gender_table {f g : Form} {a b : Gender} (hf : HasGender f a) (hg : HasGender g b)
    (hp : ¬(Has f "plur" ∧ Has g "plur")) : Relation.gender.call f g = genders a b := by
  have hp' : (f.has "plur" && g.has "plur") = false := by
    cases e : f.has "plur" with
    | false => rfl
    | true => exact has_false (fun h => hp ⟨has_iff.1 e, h⟩)
  have main : ∀ (x : Form) (c : Gender), HasGender x c →
      (c = .open ∧ x.has "GNdr" = true) ∨
      (c = .common ∧ x.has "masc" = false ∧ x.has "femn" = false ∧ x.has "neut" = false ∧
        (x.has "Ms-f" || x.has "ms-f") = true ∧ x.has "GNdr" = false) ∨
      (x.has "masc" = decide (c = .masculine) ∧ x.has "femn" = decide (c = .feminine) ∧
        x.has "neut" = decide (c = .neuter) ∧ (x.has "Ms-f" || x.has "ms-f") = false ∧
        x.has "GNdr" = false ∧ c ≠ .open ∧ c ≠ .common) := by
    intro x c h
    cases c with
    | «open» => exact Or.inl ⟨rfl, has_iff.2 h⟩
    | common =>
      obtain ⟨h1, h2, h3, h4, h5⟩ := h
      refine Or.inr (Or.inl ⟨rfl, has_false h1, has_false h2, has_false h3, ?_, has_false h5⟩)
      rcases h4 with h4 | h4 <;> simp [has_iff.2 h4]
    | masculine =>
      obtain ⟨h1, h2, h3, h4, h5, h6⟩ := h
      exact Or.inr (Or.inr ⟨has_iff.2 h1, has_false h2, has_false h3, by simp [has_false h4, has_false h5],
        has_false h6, by decide, by decide⟩)
    | feminine =>
      obtain ⟨h1, h2, h3, h4, h5, h6⟩ := h
      exact Or.inr (Or.inr ⟨has_false h1, has_iff.2 h2, has_false h3, by simp [has_false h4, has_false h5],
        has_false h6, by decide, by decide⟩)
    | neuter =>
      obtain ⟨h1, h2, h3, h4, h5, h6⟩ := h
      exact Or.inr (Or.inr ⟨has_false h1, has_false h2, has_iff.2 h3, by simp [has_false h4, has_false h5],
        has_false h6, by decide, by decide⟩)
    | none =>
      obtain ⟨h1, h2, h3, h4, h5, h6⟩ := h
      exact Or.inr (Or.inr ⟨has_false h1, has_false h2, has_false h3, by simp [has_false h4, has_false h5],
        has_false h6, by decide, by decide⟩)
  simp only [Relation.call, genderRel, hp', Bool.false_eq_true, if_false]
  rcases main f a hf with ⟨rfl, h1⟩ | ⟨rfl, h1, h2, h3, h4, h5⟩ | ⟨h1, h2, h3, h4, h5, h6, h7⟩
  · rw [h1]; cases b <;> simp [genders]
  · rcases main g b hg with ⟨rfl, k1⟩ | ⟨rfl, k1, k2, k3, k4, k5⟩ | ⟨k1, k2, k3, k4, k5, k6, k7⟩
    · rw [k1]; simp [genders]
    · rw [h1, h2, h3, h4, h5, k1, k2, k3, k4, k5]; rfl
    · rw [h1, h2, h3, h4, h5, k1, k2, k3, k4, k5]
      cases b <;> first | rfl | exact absurd rfl k6 | exact absurd rfl k7
  · rcases main g b hg with ⟨rfl, k1⟩ | ⟨rfl, k1, k2, k3, k4, k5⟩ | ⟨k1, k2, k3, k4, k5, k6, k7⟩
    · rw [k1]; cases a <;> simp [genders]
    · rw [h1, h2, h3, h4, h5, k1, k2, k3, k4, k5]
      cases a <;> first | rfl | exact absurd rfl h6 | exact absurd rfl h7
    · rw [h1, h2, h3, h4, h5, k1, k2, k3, k4, k5]
      cases a <;> cases b <;> first
        | rfl | exact absurd rfl h6 | exact absurd rfl h7 | exact absurd rfl k6 | exact absurd rfl k7

/-- C57 (gender): forms that are not both plural agree if one of the three genders is common to what
both can stand for. Not provable for two words of common gender: see `common_gender_disagrees`. An
open gender even agrees with a form that has none. -/
theorem gender_agrees_partial {f g : Form} {a b : Gender} (hf : HasGender f a) (hg : HasGender g b)
    (hp : ¬(Has f "plur" ∧ Has g "plur")) (hc : ¬(a = .common ∧ b = .common)) :
    Relation.gender.call f g = true ↔ (∃ c, a.StandsFor c ∧ b.StandsFor c) ∨ a = .open ∨ b = .open := by
  rw [gender_table hf hg hp]
  constructor
  · intro h
    cases a <;> cases b <;> first
      | exact Or.inr (Or.inl rfl)
      | exact Or.inr (Or.inr rfl)
      | exact absurd h (by decide)
      | exact Or.inl ⟨_, .self (by simp), .self (by simp)⟩
      | exact Or.inl ⟨_, .common (by simp), .self (by simp)⟩
      | exact Or.inl ⟨_, .self (by simp), .common (by simp)⟩
  · rintro (⟨c, h1, h2⟩ | rfl | rfl)
    · cases h1 with
      | self h1 =>
        cases h2 with
        | self _ => rcases h1 with rfl | rfl | rfl <;> rfl
        | common h2 => rcases h2 with rfl | rfl <;> rfl
        | «open» => rcases h1 with rfl | rfl | rfl <;> rfl
      | common h1 =>
        cases h2 with
        | self h2 => rcases h1 with rfl | rfl <;> rfl
        | common h2 => exact absurd ⟨rfl, rfl⟩ hc
        | «open» => rfl
      | «open» => rfl
    · rfl
    · cases a <;> rfl

/-- C57 is false for two words of common gender: they do not agree with each other in the singular
(nor does such a word agree with itself), though both may be masculine or feminine. -/
theorem common_gender_disagrees {f g : Form} (hf : HasGender f .common) (hg : HasGender g .common)
    (hp : ¬(Has f "plur" ∧ Has g "plur")) : Relation.gender.call f g = false :=
  gender_table hf hg hp

/-- C57 (number): forms agree in number if it is the same. -/
theorem number_agrees {f g : Form} {a b : Number} (hf : HasNumber f a) (hg : HasNumber g b) :
    Relation.number.call f g = true ↔ a = b ∧ a ≠ .none := by
  have main : ∀ (x : Form) (c : Number), HasNumber x c →
      x.has "sing" = decide (c = .singular) ∧ x.has "plur" = decide (c = .plural) ∧
        (c ≠ .singular → x.has "Sgtm" = false) ∧ (c ≠ .plural → x.has "Pltm" = false) := by
    intro x c h
    cases c with
    | singular =>
      obtain ⟨h1, h2, h3⟩ := h
      exact ⟨has_iff.2 h1, has_false h2, fun e => absurd rfl e, fun _ => has_false h3⟩
    | plural =>
      obtain ⟨h1, h2, h3⟩ := h
      exact ⟨has_false h1, has_iff.2 h2, fun _ => has_false h3, fun e => absurd rfl e⟩
    | none =>
      obtain ⟨h1, h2, h3, h4⟩ := h
      exact ⟨has_false h1, has_false h2, fun _ => has_false h3, fun _ => has_false h4⟩
  obtain ⟨h1, h2, h3, h4⟩ := main f a hf
  obtain ⟨k1, k2, k3, k4⟩ := main g b hg
  simp only [Relation.call, numberRel, h1, h2, k1, k2]
  cases a <;> cases b <;> simp_all

/-- C57 (case): a word that is not inflected agrees with every form. -/
theorem case_fixed {f g : Form} (h : Has f "Fixd" ∨ Has g "Fixd") : Relation.case.call f g = true := by
  rcases h with h | h <;> simp [Relation.call, caseRel, has_iff.2 h]

theorem has_case {f : Form} {a : Case} (h : HasCase f a) {c : Case} {s : String} (hs : c.gram = some s) :
    f.has s = decide (c = a) := by
  by_cases e : c = a
  · rw [decide_eq_true e]; exact has_iff.2 ((h c s hs).2 e)
  · rw [decide_eq_false e]; exact has_false (fun hh => e ((h c s hs).1 hh))

/-- C57 (case): other forms agree in case if it is the same, or both have none. -/
theorem case_agrees {f g : Form} {a b : Case} (hf : HasCase f a) (hg : HasCase g b) (nf : ¬Has f "Fixd")
    (ng : ¬Has g "Fixd") : Relation.case.call f g = true ↔ a = b := by
  simp only [Relation.call, caseRel, has_false nf, has_false ng, Bool.or_false, caseMask, List.map,
    has_case hf (c := .nominative) rfl, has_case hf (c := .genitive) rfl, has_case hf (c := .dative) rfl,
    has_case hf (c := .accusative) rfl, has_case hf (c := .instrumental) rfl,
    has_case hf (c := .locative) rfl, has_case hf (c := .vocative) rfl,
    has_case hg (c := .nominative) rfl, has_case hg (c := .genitive) rfl, has_case hg (c := .dative) rfl,
    has_case hg (c := .accusative) rfl, has_case hg (c := .instrumental) rfl,
    has_case hg (c := .locative) rfl, has_case hg (c := .vocative) rfl]
  cases a <;> cases b <;> decide

/-- C57: `gnc_relation` asks for all three. -/
theorem gnc_agrees (f g : Form) : Relation.gnc.call f g = true ↔
    Relation.gender.call f g = true ∧ Relation.number.call f g = true ∧ Relation.case.call f g = true := by
  simp only [Relation.call, Bool.and_eq_true, and_assoc]

/-- `сирота` (common gender, singular, nominative). -/
def orphan : Form := ⟨"сирота".toList, ["NOUN", "anim", "ms-f", "sing", "nomn"].map (·.toList), 0⟩
/-- `круглый` (masculine, singular, nominative). -/
def round : Form := ⟨"круглый".toList, ["ADJF", "masc", "sing", "nomn"].map (·.toList), 0⟩
/-- `боже` (masculine, singular, vocative). -/
def god : Form := ⟨"бог".toList, ["NOUN", "anim", "masc", "sing", "voct"].map (·.toList), 0⟩
/-- `быстро` (no gender, number or case). -/
def quickly : Form := ⟨"быстро".toList, ["ADVB"].map (·.toList), 0⟩

instance (f : Form) (g : String) : Decidable (Has f g) := inferInstanceAs (Decidable (_ ∈ _))
instance (f : Form) (g : Gender) : Decidable (HasGender f g) := by
  cases g <;> unfold HasGender <;> infer_instance
instance (f : Form) (n : Number) : Decidable (HasNumber f n) := by
  cases n <;> unfold HasNumber <;> infer_instance

/-- Forms with the features the theorems ask for. -/
example : HasGender orphan .common ∧ HasGender round .masculine ∧ HasGender quickly .none ∧
    ¬Has orphan "plur" ∧ HasNumber orphan .singular ∧ HasNumber quickly .none ∧ ¬Has round "Fixd" := by
  decide +kernel

example : HasCase god .vocative ∧ HasCase quickly .none := by
  constructor <;> intro c s e <;> cases c <;> cases e <;> decide +kernel

end Yargy
