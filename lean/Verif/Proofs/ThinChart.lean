import Verif.Proofs.ThinEnd
import Verif.Proofs.Congruence
import Verif.Proofs.GrammarWords
import Verif.Proofs.Keeps
import Verif.Proofs.Cut
import Verif.Spec.Cycle
/-!
From compiled rules that do not contain themselves without a token to derivations that do not contain
themselves, rules outside of the parser put aside.
-/
namespace Yargy.Thin
open Spec

/-- Lines of gazetteers have words. -/
def lined {P : Type} : Obj P → Prop
  | .pipeProd _ ts => ts ≠ []
  | _ => True

theorem lined_stable {P : Type} : Stable (lined (P := P)) where
  terms _ _ := trivial
  prod _ _ _ := trivial
  pipeProd _ _ _ _ := by simp [lined]
  rule _ := trivial
  or _ := trivial
  forward _ := trivial
  repeatable _ _ := trivial
  pipe _ _ := trivial
  pipeBnf _ _ := trivial
  optional _ _ _ := trivial
  both _ _ _ _ := trivial
  repOptional _ _ _ _ := trivial
  empty _ := trivial
  empty' _ := trivial
  emptyProd _ := trivial
  minBounded _ _ := trivial
  maxBounded _ _ := trivial
  minMaxBounded _ _ := trivial
  named _ _ := trivial
  interp _ _ := trivial
  relation _ _ := trivial
  bnf _ := trivial
  setName _ _ := trivial
  setInterp _ _ := trivial
  setRelation _ _ := trivial

section
variable {L : Lang} {h g : Heap Pred} {G : Grammar Pred Token} {Z : Nat → Prop} {toks : List Token}

theorem prod_view (hB : Belongs L h G Z) (hl : ∀ (x : Nat) o, Z x → h[x]? = some o → lined o) {r : Nat}
    {prod : Production Pred} (hz : Z r) (hpr : prod ∈ G.productions r) :
    ∃ ps n i x k p, h[r]? = some (.bnf ps n i x k) ∧ p ∈ ps ∧ Z p ∧
      (TermsOf h p prod.terms ∨ (prod.terms ≠ [] ∧ ∀ y, Term.rule y ∉ prod.terms)) := by
  cases hr : isBnf h r with
  | false => rw [hB.none r hr] at hpr; cases hpr
  | true =>
    unfold isBnf at hr
    split at hr
    · rename_i ps n x y d ho
      rw [hB.productions r ps n x y d ho] at hpr
      obtain ⟨p, hpm, rfl⟩ := List.mem_map.1 hpr
      obtain ⟨hzp, hip⟩ := hB.bnf r ps n x y d hz ho p hpm
      refine ⟨ps, n, x, y, d, p, ho, hpm, hzp, ?_⟩
      unfold isProduction at hip
      unfold productionAt
      split at hip
      · rename_i ts m hm
        rw [hm]
        exact .inl (.prod hm)
      · rename_i hm
        rw [hm]
        exact .inl (.empty hm)
      · rename_i v ts hm
        rw [hm]
        refine .inr ⟨?_, ?_⟩
        · have : ts ≠ [] := hl _ _ hzp hm
          simpa using this
        · intro y hy
          obtain ⟨q, _, e⟩ := List.mem_map.1 hy
          cases e
      · cases hip
    · cases hr

theorem TermsOf.congr {p : Nat} (e : g[p]? = h[p]?) {us : List (Term Pred)} (ht : TermsOf h p us) : TermsOf g p us := by
  cases ht with
  | prod hm => exact .prod (e.trans hm)
  | empty hm => exact .empty (e.trans hm)

theorem derives_null (hB : Belongs L h G Z) (hl : ∀ (x : Nat) o, Z x → h[x]? = some o → lined o)
    (hcl : ∀ r prod, Z r → prod ∈ G.productions r → ∀ x, .rule x ∈ prod.terms → Z x)
    (hg : ∀ a, Z a → g[a]? = h[a]?) {xs : List (Term Pred)} {i j : Nat} {ds : List (DTree Pred Token)}
    (hd : DerivesAll G toks xs i j ds) : (∀ r, .rule r ∈ xs → Z r) → i ≤ j ∧ (i = j → Null g xs) := by
  refine DerivesAll.rec
    (motive_1 := fun x i j _ _ => (∀ r, x = .rule r → Z r) → i ≤ j ∧ (i = j → Null g [x]))
    (motive_2 := fun xs i j _ _ => (∀ r, .rule r ∈ xs → Z r) → i ≤ j ∧ (i = j → Null g xs)) ?_ ?_ ?_ ?_ hd
  · intro p i t _ _ _
    exact ⟨Nat.le_succ i, fun e => absurd e (by omega)⟩
  · intro r i j prod cs hp _ ih hz
    have hzr := hz r rfl
    obtain ⟨k1, k2⟩ := ih (hcl r prod hzr hp)
    refine ⟨k1, fun e => ?_⟩
    have k2 := k2 e
    obtain ⟨ps, n, a, x, k, p, q1, q2, q3, q4⟩ := prod_view hB hl hzr hp
    rcases q4 with q4 | ⟨q4, q5⟩
    · exact .cons ((hg r hzr).trans q1) q2 (q4.congr (hg p q3)) k2 .nil
    · generalize prod.terms = us at k2 q4 q5
      cases k2 with
      | nil => exact absurd rfl q4
      | cons => exact absurd List.mem_cons_self (q5 _)
  · intro i _
    exact ⟨Nat.le_refl i, fun _ => .nil⟩
  · intro x xs i j k t ts _ _ ih1 ih2 hz
    have a1 := ih1 (fun r e => hz r (by rw [e]; exact List.mem_cons_self))
    have a2 := ih2 (fun r e => hz r (List.mem_cons_of_mem _ e))
    refine ⟨Nat.le_trans a1.1 a2.1, fun e => ?_⟩
    have e1 : i = j := by omega
    have e2 : j = k := by omega
    have n1 := a1.2 e1
    have n2 := a2.2 e2
    cases n1 with
    | cons h1 h2 h3 h4 _ => exact .cons h1 h2 h3 h4 n2

theorem above_edge (hB : Belongs L h G Z) (hl : ∀ (x : Nat) o, Z x → h[x]? = some o → lined o)
    (hcl : ∀ r prod, Z r → prod ∈ G.productions r → ∀ x, .rule x ∈ prod.terms → Z x)
    (hg : ∀ a, Z a → g[a]? = h[a]?) {i j r r' : Nat} (hz : Z r) (ha : Above G toks i j r r') :
    Edge g r r' ∧ Z r' := by
  obtain ⟨prod, hp, pre, post, e, ⟨d1, h1⟩, _, ⟨d2, h2⟩⟩ := ha
  have hc := hcl r prod hz hp
  have hmem : Term.rule r' ∈ prod.terms := by rw [e]; simp
  obtain ⟨ps, n, a, x, k, p, q1, q2, q3, q4⟩ := prod_view hB hl hz hp
  rcases q4 with q4 | ⟨_, q5⟩
  · refine ⟨⟨ps, n, a, x, k, p, _, pre, post, (hg r hz).trans q1, q2, q4.congr (hg p q3), e, ?_, ?_⟩, hc r' hmem⟩
    · exact (derives_null hB hl hcl hg h1 (fun y hy => hc y (by rw [e]; exact List.mem_append_left _ hy))).2 rfl
    · exact (derives_null hB hl hcl hg h2
        (fun y hy => hc y (by rw [e]; exact List.mem_append_right _ (List.mem_cons_of_mem _ hy)))).2 rfl
  · exact absurd hmem (q5 _)

end

/-! ### The grammar without the rules that the parser does not use -/

section
variable {P T : Type}

open Classical in
/-- Rules outside of the set lose their productions. -/
noncomputable def restrict (Z : Nat → Prop) (G : Grammar P T) : Grammar P T where
  rules := G.rules.mapIdx (fun r x => if Z r then x else ⟨[], fun _ => []⟩)
  start := G.start
  accepts := G.accepts
  constrain := G.constrain

theorem restrict_productions {Z : Nat → Prop} {G : Grammar P T} {r : Nat} {prod : Production P}
    (h : prod ∈ (restrict Z G).productions r) : Z r ∧ prod ∈ G.productions r := by
  unfold Grammar.productions restrict at *
  simp only [List.getElem?_mapIdx] at h
  cases hr : G.rules[r]? with
  | none => rw [hr] at h; simp at h
  | some x =>
    rw [hr] at h
    by_cases hz : Z r
    · simp only [Option.map_some, hz, if_true] at h; exact ⟨hz, h⟩
    · simp [hz] at h

theorem restrict_predict {Z : Nat → Prop} {G : Grammar P T} {r : Nat} {t : T} {prod : Production P}
    (h : prod ∈ (restrict Z G).predict r t) : Z r ∧ prod ∈ G.predict r t := by
  unfold Grammar.predict restrict at *
  simp only [List.getElem?_mapIdx] at h
  cases hr : G.rules[r]? with
  | none => rw [hr] at h; simp at h
  | some x =>
    rw [hr] at h
    by_cases hz : Z r
    · simp only [Option.map_some, hz, if_true] at h; exact ⟨hz, h⟩
    · simp [hz] at h

theorem restrict_inside {Z : Nat → Prop} {G : Grammar P T} {r : Nat} (hz : Z r) :
    (restrict Z G).productions r = G.productions r ∧ ∀ t, (restrict Z G).predict r t = G.predict r t := by
  unfold Grammar.productions Grammar.predict restrict
  simp only [List.getElem?_mapIdx]
  cases hr : G.rules[r]? with
  | none => simp
  | some x => simp [hz]

theorem restrict_sound {Z : Nat → Prop} {G : Grammar P T} (hG : PredictSound G) : PredictSound (restrict Z G) := by
  intro r t p hp
  obtain ⟨h1, h2⟩ := restrict_predict hp
  rw [(restrict_inside h1).1]
  exact hG r t p h2

theorem restrict_same {Z : Nat → Prop} {G : Grammar P T} (hG : PredictSound G) (hz : Z G.start)
    (hcl : ∀ r prod, Z r → prod ∈ G.productions r → ∀ x, .rule x ∈ prod.terms → Z x) : SameOn Z G (restrict Z G) where
  start := rfl
  root := hz
  accepts := rfl
  constrain := rfl
  productions _ hr := (restrict_inside hr).1
  predict _ t hr := (restrict_inside hr).2 t
  closed r hr p hp x hx := hcl r p hr hp x hx
  closed' r t hr p hp x hx := hcl r p hr (hG r t p hp) x hx

theorem restrict_all {Z : Nat → Prop} {G : Grammar P T} {toks : List T} {xs : List (Term P)} {i j : Nat}
    {ds : List (DTree P T)} (hd : DerivesAll (restrict Z G) toks xs i j ds) : DerivesAll G toks xs i j ds := by
  refine DerivesAll.rec
    (motive_1 := fun x i j d _ => Derives G toks x i j d)
    (motive_2 := fun xs i j ds _ => DerivesAll G toks xs i j ds) ?_ ?_ ?_ ?_ hd
  · intro p i t h1 h2; exact .leaf h1 h2
  · intro r i j prod cs hp _ ih; exact .node (restrict_productions hp).2 ih
  · intro i; exact .nil
  · intro x xs i j k t ts _ _ h1 h2; exact .cons h1 h2

theorem restrict_above {Z : Nat → Prop} {G : Grammar P T} {toks : List T} {i j r r' : Nat}
    (ha : Above (restrict Z G) toks i j r r') : Z r ∧ Above G toks i j r r' := by
  obtain ⟨prod, hp, pre, post, e, ⟨d1, h1⟩, ⟨d, h2⟩, ⟨d2, h3⟩⟩ := ha
  obtain ⟨hz, hp⟩ := restrict_productions hp
  have h2' : DerivesAll G toks [.rule r'] i j [d] := restrict_all (.cons h2 .nil)
  refine ⟨hz, prod, hp, pre, post, e, ⟨d1, restrict_all h1⟩, ⟨d, ?_⟩, ⟨d2, restrict_all h3⟩⟩
  cases h2' with
  | cons k1 k2 => cases k2; exact k1

end

theorem acc_loop {α : Type} {R : α → α → Prop} {a : α} (h : Acc R a) : ¬ Relation.TransGen R a a := by
  have h' : Acc (Relation.TransGen R) a := h.transGen
  clear h
  induction h' with
  | intro a _ ih => exact fun k => ih a k k

/-- Derivations from the rules of a parser do not contain themselves. -/
theorem restrict_acyclic {L : Lang} {h g : Heap Pred} {G : Grammar Pred Token} {Z : Nat → Prop} {toks : List Token}
    (hB : Belongs L h G Z) (hl : ∀ (x : Nat) o, Z x → h[x]? = some o → lined o)
    (hcl : ∀ r prod, Z r → prod ∈ G.productions r → ∀ x, .rule x ∈ prod.terms → Z x)
    (hg : ∀ a, Z a → g[a]? = h[a]?) (hw : ∀ a, Acc (fun b a => Edge g a b) a) : Acyclic (restrict Z G) toks := by
  intro i j r ht
  have key : ∀ {a b}, Relation.TransGen (Above (restrict Z G) toks i j) a b →
      Relation.TransGen (fun b a => Edge g a b) b a := by
    intro a b hab
    induction hab with
    | single h1 =>
      obtain ⟨k1, k2⟩ := restrict_above h1
      exact .single (above_edge hB hl hcl hg k1 k2).1
    | tail _ h2 ih =>
      obtain ⟨k1, k2⟩ := restrict_above h2
      exact Relation.TransGen.trans (.single (above_edge hB hl hcl hg k1 k2).1) ih
  exact acc_loop (hw r) (key ht)

end Yargy.Thin
