import Verif.Proofs.EarleyIds
import Verif.Model.Tree
/-! Leaf objects: every leaf has one place in the text and one predicate and token. -/
set_option linter.unusedSectionVars false
namespace Yargy
open Spec

variable {P T H : Type} [DecidableEq H] {G : Grammar P T} {hash : Key → H} {toks : List T} {all : Bool}

/-- position, predicate and token of a leaf -/
abbrev Home (P T : Type) := Nat → Option (Nat × P × T)

mutual
/-- the leaves of the tree stand at the positions `i, …, j-1`, as `home` says; their numbers are
below `n` -/
inductive Layout (home : Home P T) (n : Nat) : PTree P T → Nat → Nat → Prop
  | leaf {l p t i} : l < n → home l = some (i, p, t) → Layout home n (.leaf l p t) i (i + 1)
  | node {x r prod rank cs i j} : LayoutAll home n cs i j → Layout home n (.node x r prod rank cs) i j
inductive LayoutAll (home : Home P T) (n : Nat) : List (PTree P T) → Nat → Nat → Prop
  | nil {i} : LayoutAll home n [] i i
  | cons {c cs i j k} : Layout home n c i j → LayoutAll home n cs j k → LayoutAll home n (c :: cs) i k
end

theorem layout_mono {home home' : Home P T} {n n' : Nat} (hn : n ≤ n')
    (hh : ∀ l, l < n → home' l = home l) {t : PTree P T} {i j : Nat} (h : Layout home n t i j) :
    Layout home' n' t i j := by
  refine Layout.rec (motive_1 := fun t i j _ => Layout home' n' t i j)
    (motive_2 := fun cs i j _ => LayoutAll home' n' cs i j) ?_ ?_ ?_ ?_ h
  · intro l p t i h1 h2; exact .leaf (by omega) (by rw [hh l h1, h2])
  · intro x r prod rank cs i j _ ih; exact .node ih
  · intro i; exact .nil
  · intro c cs i j k _ _ ih1 ih2; exact .cons ih1 ih2

theorem layoutAll_mono {home home' : Home P T} {n n' : Nat} (hn : n ≤ n')
    (hh : ∀ l, l < n → home' l = home l) {cs : List (PTree P T)} {i j : Nat}
    (h : LayoutAll home n cs i j) : LayoutAll home' n' cs i j := by
  induction cs generalizing i with
  | nil => cases h; exact .nil
  | cons c cs ih =>
    cases h with
    | cons h1 h2 => exact .cons (layout_mono hn hh h1) (ih h2)

theorem LayoutAll.snoc {home : Home P T} {n : Nat} {cs : List (PTree P T)} {c : PTree P T}
    {i j k : Nat} (h : LayoutAll home n cs i j) (hc : Layout home n c j k) :
    LayoutAll home n (cs ++ [c]) i k := by
  induction cs generalizing i with
  | nil => cases h; exact .cons hc .nil
  | cons c' cs ih =>
    cases h with
    | cons h1 h2 => exact .cons h1 (ih h2)

def LayoutCols (home : Home P T) (n : Nat) (cols : List (Column P T H)) : Prop :=
  ∀ k s, InCol cols k s → LayoutAll home n s.children s.start k

theorem LayoutCols.append {home home' : Home P T} {n n' : Nat} {cols : List (Column P T H)}
    (h : LayoutCols home n cols) (hn : n ≤ n') (hh : ∀ l, l < n → home' l = home l) {k : Nat}
    {s : State P T} (hs : LayoutAll home' n' s.children s.start k) :
    LayoutCols home' n' (appendAt hash cols k s) := by
  intro k' s' hs'
  rcases inCol_appendAt hs' with h1 | ⟨rfl, rfl⟩
  · exact layoutAll_mono hn hh (h _ _ h1)
  · exact hs

theorem layout_trans (c c' : Config P T H) (ht : Trans G hash toks all c c')
    (hS : SoundInv G toks c) (h : ∃ home, LayoutCols home c.ctr c.cols) :
    ∃ home, LayoutCols home c'.ctr c'.cols := by
  have hpred : ∀ (cols : List (Column P T H)) ctr k r, (∃ home, LayoutCols home ctr cols) →
      ∃ home, LayoutCols home (Yargy.predict G hash toks k r cols ctr).2
        (Yargy.predict G hash toks k r cols ctr).1 := by
    intro cols ctr k r hc
    refine predict_induct (M := fun cols ctr => ∃ home, LayoutCols home ctr cols)
      G hash toks k r cols ctr hc ?_
    rintro cols ctr prod rank _ ⟨home, hc⟩
    exact ⟨home, hc.append (Nat.le_succ _) (fun _ _ => rfl) .nil⟩
  cases ht with
  | enterPredict => exact hpred _ _ _ _ h
  | enterSkip => exact h
  | nextColumn => exact h
  | finish => exact h
  | startComplete => exact h
  | predictRule => exact hpred _ _ _ _ h
  | @scanAccept cols ctr k i col s p t hc hs hn ht ha =>
    obtain ⟨home, h⟩ := h
    have hin := inCol_of_get hc hs
    have hl := h _ _ hin
    refine ⟨update home ctr (some (k, p, G.constrain p t)), ?_⟩
    have hh : ∀ l, l < ctr → update home ctr (some (k, p, G.constrain p t)) l = home l := by
      intro l hl
      have : l ≠ ctr := by omega
      simp [update, this]
    refine h.append (n' := ctr + 2) (by dsimp only; omega) hh ?_
    exact (layoutAll_mono (by omega) hh hl).snoc (.leaf (by omega) (by simp [update]))
  | scanReject => exact h
  | @completeNext cols ctr k i s j p hp =>
    obtain ⟨home, h⟩ := h
    obtain ⟨h1, _⟩ := hS.phase i s j rfl
    obtain ⟨h3, _⟩ := hS.cols.mem_parents (List.mem_of_getElem? hp)
    refine ⟨home, h.append (n' := ctr + 1) (by dsimp only; omega) (fun _ _ => rfl) ?_⟩
    exact layoutAll_mono (Nat.le_succ _) (fun _ _ => rfl)
      ((h _ _ h3).snoc (.node (h _ _ h1)))
  | completeEnd => exact h
  | done => exact h

theorem layout_runN (hG : PredictSound G) (n : Nat) :
    ∃ home, LayoutCols home (runN G hash toks all n).ctr (runN G hash toks all n).cols :=
  (runN_induct (M := fun c => SoundInv G toks c ∧ ∃ home, LayoutCols home c.ctr c.cols) G hash toks all
    ⟨soundInv_init, fun _ => none, fun _ _ h => absurd h not_inCol_init⟩
    (fun c c' ht h => ⟨soundInv_trans hG _ _ ht h.1, layout_trans _ _ ht h.1 h.2⟩) n).2

end Yargy
