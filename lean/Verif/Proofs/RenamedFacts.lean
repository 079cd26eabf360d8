import Verif.Proofs.Mirror
import Verif.Spec.Locality
/-!
Facts do not depend on the numbers of the rules.
-/
namespace Yargy
open Spec

section
variable {P : Type} {S : Nat → Prop}

mutual
/-- All rules of a tree belong to a set. -/
def Spec.DTree.rulesIn {T : Type} (S : Nat → Prop) : DTree P T → Prop
  | .leaf _ _ => True
  | .node r _ cs => S r ∧ allRulesIn S cs
def allRulesIn {T : Type} (S : Nat → Prop) : List (DTree P T) → Prop
  | [] => True
  | c :: cs => c.rulesIn S ∧ allRulesIn S cs
end

mutual
theorem derives_rulesIn {T : Type} {G : Grammar P T} {toks : List T}
    (hcl : ∀ r, S r → ∀ p ∈ G.productions r, ∀ x, .rule x ∈ p.terms → S x) {x : Term P} {i j : Nat}
    {d : DTree P T} (h : Derives G toks x i j d) (hx : ∀ r, x = .rule r → S r) : d.rulesIn S := by
  cases h with
  | leaf => trivial
  | @node r _ _ prod cs h1 h2 =>
    have hr := hx r rfl
    exact ⟨hr, derivesAll_rulesIn hcl h2 (fun y hy => hcl r hr prod h1 y hy)⟩
theorem derivesAll_rulesIn {T : Type} {G : Grammar P T} {toks : List T}
    (hcl : ∀ r, S r → ∀ p ∈ G.productions r, ∀ x, .rule x ∈ p.terms → S x) {xs : List (Term P)} {i j : Nat}
    {ds : List (DTree P T)} (h : DerivesAll G toks xs i j ds) (hx : ∀ r, .rule r ∈ xs → S r) :
    allRulesIn S ds := by
  cases h with
  | nil => trivial
  | cons h1 h2 =>
    exact ⟨derives_rulesIn hcl h1 (fun r e => hx r (e ▸ List.mem_cons_self)),
      derivesAll_rulesIn hcl h2 (fun r hr => hx r (List.mem_cons_of_mem _ hr))⟩
end

mutual
theorem trims_rulesIn {d d' : DTree P Token} (h : Trims d d') (hd : d.rulesIn S) : d'.rulesIn S := by
  cases h with
  | leaf => trivial
  | node h1 _ => exact ⟨hd.1, trimsAll_rulesIn h1 hd.2⟩
theorem trimsAll_rulesIn {ds ds' : List (DTree P Token)} (h : TrimsAll ds ds') (hd : allRulesIn S ds) :
    allRulesIn S ds' := by
  cases h with
  | nil => trivial
  | keep h1 h2 => exact ⟨trims_rulesIn h1 hd.1, trimsAll_rulesIn h2 hd.2⟩
  | drop _ h2 => exact trimsAll_rulesIn h2 hd.2
end

variable {F : Facts} {I I' : Nat → Option Interpretator} {f : Nat → Nat}

theorem renameAll_append {T : Type} : ∀ xs ys : List (PTree P T),
    renameAll f (xs ++ ys) = renameAll f xs ++ renameAll f ys
  | [], ys => by simp only [List.nil_append, renameAll]
  | x :: xs, ys => by simp only [List.cons_append, renameAll, renameAll_append xs ys]

theorem eraseAll_append {T : Type} : ∀ xs ys : List (PTree P T), eraseAll (xs ++ ys) = eraseAll xs ++ eraseAll ys
  | [], ys => by simp only [List.nil_append, eraseAll]
  | x :: xs, ys => by simp only [List.cons_append, eraseAll, eraseAll_append xs ys]

theorem allRulesIn_append {T : Type} : ∀ {xs ys : List (DTree P T)}, allRulesIn S xs → allRulesIn S ys →
    allRulesIn S (xs ++ ys)
  | [], _, _, h => h
  | _ :: _, _, h, h' => ⟨h.1, allRulesIn_append h.2 h'⟩

mutual
theorem keep_rename (hI : ∀ r, S r → I' (f r) = I r) : ∀ (t : TTree P), t.erase.rulesIn S →
    PTree.keep I' (t.rename f) = renameAll f (PTree.keep I t)
  | .leaf _ _ _, _ => by simp only [PTree.rename, PTree.keep, renameAll]
  | .node _ r _ _ cs, h => by
    simp only [PTree.erase, DTree.rulesIn] at h
    simp only [PTree.rename, PTree.keep, hI r h.1, keepAll_rename hI cs h.2]
    cases I r with
    | none => rfl
    | some it => simp only [renameAll, PTree.rename]
theorem keepAll_rename (hI : ∀ r, S r → I' (f r) = I r) : ∀ (cs : List (TTree P)), allRulesIn S (eraseAll cs) →
    keepAll I' (renameAll f cs) = renameAll f (keepAll I cs)
  | [], _ => by simp only [renameAll, keepAll]
  | c :: cs, h => by
    simp only [eraseAll, allRulesIn] at h
    simp only [renameAll, keepAll, keep_rename hI c h.1, keepAll_rename hI cs h.2, renameAll_append]
end

mutual
theorem keep_rulesIn : ∀ (t : TTree P), t.erase.rulesIn S → allRulesIn S (eraseAll (PTree.keep I t))
  | .leaf _ _ _, _ => by simp only [PTree.keep, eraseAll, PTree.erase, allRulesIn, DTree.rulesIn, and_self]
  | .node _ r _ _ cs, h => by
    simp only [PTree.erase, DTree.rulesIn] at h
    simp only [PTree.keep]
    cases I r with
    | none => exact keepAll_rulesIn cs h.2
    | some it =>
      simp only [eraseAll, PTree.erase, allRulesIn, DTree.rulesIn]
      exact ⟨⟨h.1, keepAll_rulesIn cs h.2⟩, trivial⟩
theorem keepAll_rulesIn : ∀ (cs : List (TTree P)), allRulesIn S (eraseAll cs) →
    allRulesIn S (eraseAll (keepAll I cs))
  | [], _ => by simp only [keepAll, eraseAll, allRulesIn]
  | c :: cs, h => by
    simp only [eraseAll, allRulesIn] at h
    simp only [keepAll, eraseAll_append]
    exact allRulesIn_append (keep_rulesIn c h.1) (keepAll_rulesIn cs h.2)
end

mutual
theorem interp_rename (hI : ∀ r, S r → I' (f r) = I r) : ∀ (t : TTree P), t.erase.rulesIn S →
    PTree.interp F I' (t.rename f) = PTree.interp F I t
  | .leaf _ _ _, _ => by simp only [PTree.rename, PTree.interp]
  | .node _ r _ _ cs, h => by
    simp only [PTree.erase, DTree.rulesIn] at h
    simp only [PTree.rename, PTree.interp, hI r h.1, interpAll_rename hI cs h.2, Production.rename]
theorem interpAll_rename (hI : ∀ r, S r → I' (f r) = I r) : ∀ (cs : List (TTree P)), allRulesIn S (eraseAll cs) →
    interpAll F I' (renameAll f cs) = interpAll F I cs
  | [], _ => by simp only [renameAll, interpAll]
  | c :: cs, h => by
    simp only [eraseAll, allRulesIn] at h
    simp only [renameAll, interpAll, interp_rename hI c h.1, interpAll_rename hI cs h.2]
end

/-- The fact of a tree with other numbers. -/
theorem matchFact_rename (hI : ∀ r, S r → I' (f r) = I r) {t : TTree P} (h : t.erase.rulesIn S) :
    matchFact F I' (t.rename f) = matchFact F I t := by
  unfold matchFact interpretTree
  cases t with
  | leaf => simp only [PTree.rename]
  | node n r p k cs =>
    have e := keep_rename hI (.node n r p k cs) h
    have e2 := keep_rulesIn (I := I) (.node n r p k cs) h
    simp only [PTree.rename] at e ⊢
    have hr : S r := by simp only [PTree.erase, DTree.rulesIn] at h; exact h.1
    rw [hI r hr, e]
    cases I r with
    | none => rfl
    | some it =>
      simp only
      generalize PTree.keep I (.node n r p k cs) = ts at e2 ⊢
      match ts, e2 with
      | [], _ => simp only [renameAll]
      | [t], e2 =>
        simp only [eraseAll, allRulesIn] at e2
        simp only [renameAll, interp_rename hI t e2.1]
      | _ :: _ :: _, _ => simp only [renameAll]
end

end Yargy
