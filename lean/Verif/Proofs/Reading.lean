import Verif.Spec.Labels
import Verif.Spec.Match
import Verif.Proofs.GrammarWords
import Verif.Proofs.LabelWords
/-!
The derivations of the grammar show the words of the compiled rules, labels included.
-/
namespace Yargy
open Spec

variable {L : Lang} {k : Kind} {h : Heap Pred} {toks : List Token}

theorem readingAll_append {P T : Type} {lab : Nat → Option Attr} (cs ds : List (DTree P T)) :
    readingAll lab (cs ++ ds) = readingAll lab cs ++ readingAll lab ds := by
  induction cs with
  | nil => rfl
  | cons c cs ih => simp [readingAll, ih]

theorem fits_wrap {P : Type} {accepts : P → Token → Bool} {l : Option Attr} {w : List (Sym P)} {i j : Nat} :
    Fits accepts toks (wrap l w) i j ↔ Fits accepts toks w i j := by
  cases l with
  | none => exact Iff.rfl
  | some x =>
    constructor
    · intro h
      cases h with
      | opn h =>
        obtain ⟨m, h1, h2⟩ := fits_append.1 h
        cases h2 with | cls h3 => cases h3; exact h1
    · intro h
      exact .opn (fits_append.2 ⟨j, h, .cls .nil⟩)

theorem carried_label {P : Type} {h : Heap P} {a : Nat} {ps : List Nat} {n i r d}
    (ho : h[a]? = some (.bnf ps n i r d)) : carried k h a = (Obj.bnf (P := P) ps n i r d).label k := by
  cases k with
  | plain => rfl
  | name => simp only [carried, nameAt, ho, Obj.label]
  | interp => simp only [carried, interpretatorAt, ho, Obj.label]
  | relation => simp only [carried, relationAt, ho, Obj.label]

section
variable {G : Grammar Pred Token} {Z : Nat → Prop}

theorem prod_spells' {p : Nat} (hp : isProduction h p = true) :
    ∃ o, h[p]? = some o ∧ (∀ us, Spells o us ↔ us = (productionAt h p).terms) ∧ o.label k = none := by
  obtain ⟨o, h1, h2, _⟩ := prod_spells hp
  refine ⟨o, h1, h2, ?_⟩
  unfold isProduction at hp
  rw [h1] at hp
  cases o <;> first | (cases hp; done) | (cases k <;> rfl)

/-- What a term of the heap covers, and how it reads. -/
def CoversAs (k : Kind) (h : Heap Pred) (G : Grammar Pred Token) (toks : List Token) :
    Term Pred → List (Sym Pred) → Nat → Nat → Prop
  | .pred p, w, i, j => w = [.pred p] ∧ ∃ d, Derives G toks (.pred p) i j d
  | .rule r, w, i, j =>
    (isBnf h r = true → ∃ d, Derives G toks (.rule r) i j d ∧ reading (carried k h) d = w) ∧
      (isProduction h r = true → ∃ cs, DerivesAll G toks (productionAt h r).terms i j cs ∧
        readingAll (carried k h) cs = w)

inductive CoversAllAs (k : Kind) (h : Heap Pred) (G : Grammar Pred Token) (toks : List Token) :
    List (Term Pred) → List (Sym Pred) → Nat → Nat → Prop
  | nil {i} : CoversAllAs k h G toks [] [] i i
  | cons {t ts w v i j l} : CoversAs k h G toks t w i j → CoversAllAs k h G toks ts v j l →
      CoversAllAs k h G toks (t :: ts) (w ++ v) i l

theorem coversAllAs_derives {ts : List (Term Pred)} {w : List (Sym Pred)} {i j : Nat}
    (hc : CoversAllAs k h G toks ts w i j) (ht : ∀ r, .rule r ∈ ts → isBnf h r = true) :
    ∃ cs, DerivesAll G toks ts i j cs ∧ readingAll (carried k h) cs = w := by
  induction hc with
  | nil => exact ⟨[], .nil, rfl⟩
  | @cons t ts w v i j l h1 _ ih =>
    obtain ⟨cs, hcs, rfl⟩ := ih (fun r hr => ht r (List.mem_cons_of_mem _ hr))
    cases t with
    | pred p =>
      obtain ⟨rfl, d, hd⟩ := h1
      refine ⟨d :: cs, .cons hd hcs, ?_⟩
      cases hd
      rfl
    | rule r =>
      obtain ⟨d, hd, rfl⟩ := h1.1 (ht r List.mem_cons_self)
      exact ⟨d :: cs, .cons hd hcs, rfl⟩

theorem says_coversAs (hb : Belongs L h G Z) {ts : List (Term Pred)} {w : List (Sym Pred)}
    (s : Says k h ts w) : (∀ r, .rule r ∈ ts → Z r) → ∀ i j, Fits (Pred.accepts L) toks w i j →
      CoversAllAs k h G toks ts w i j := by
  induction s with
  | nil => intro _ i j hf; cases hf; exact .nil
  | @pred p ts w _ ih =>
    intro hz i j hf
    cases hf with
    | pred h1 h2 h3 =>
      exact .cons (w := [.pred p]) (j := i + 1) ⟨rfl, _, .leaf h1 (by rw [hb.accepts]; exact h2)⟩
        (ih (fun r hr => hz r (List.mem_cons_of_mem _ hr)) _ _ h3)
  | @rule a o us ts w v ho hs _ _ ih1 ih2 =>
    intro hz i l hf
    obtain ⟨j, hf1, hf2⟩ := fits_append.1 hf
    replace hf1 := fits_wrap.1 hf1
    have hza := hz a List.mem_cons_self
    refine .cons ⟨fun hbnf => ?_, fun hprod => ?_⟩
      (ih2 (fun r hr => hz r (List.mem_cons_of_mem _ hr)) _ _ hf2)
    · unfold isBnf at hbnf
      rw [ho] at hbnf
      cases o with
      | bnf ps n x r d =>
        cases hs with
        | @bnf _ _ _ _ _ p hp =>
          obtain ⟨hzp, hpp⟩ := hb.bnf a ps n x r d hza ho p hp
          have hcov := ih1 (by simpa using hzp) i j hf1
          cases hcov with
          | cons h1 h2 =>
            cases h2
            obtain ⟨cs, hcs, rfl⟩ := h1.2 hpp
            refine ⟨_, .node (by rw [hb.productions a ps n x r d ho]; exact List.mem_map.2 ⟨p, hp, rfl⟩) hcs, ?_⟩
            simp only [reading, List.append_nil, carried_label ho]
      | _ => cases hbnf
    · obtain ⟨o', ho', hsp, hlab⟩ := prod_spells' (k := k) hprod
      rw [ho] at ho'; cases ho'
      have := (hsp us).1 hs
      subst this
      rw [hlab]
      exact coversAllAs_derives (ih1 (fun r hr => (prod_terms hb hza r hr).1) i j hf1)
        (fun r hr => (prod_terms hb hza r hr).2)

theorem derives_reads (hb : Belongs L h G Z) {x : Term Pred} {i j : Nat}
    {d : DTree Pred Token} (hd : Derives G toks x i j d) : (∀ r, x = .rule r → Z r ∧ isBnf h r = true) →
      Says k h [x] (reading (carried k h) d) ∧
        Fits (Pred.accepts L) toks (reading (carried k h) d) i j := by
  refine Derives.rec
    (motive_1 := fun x i j d _ => (∀ r, x = .rule r → Z r ∧ isBnf h r = true) →
      Says k h [x] (reading (carried k h) d) ∧ Fits (Pred.accepts L) toks (reading (carried k h) d) i j)
    (motive_2 := fun xs i j ds _ => (∀ r, .rule r ∈ xs → Z r ∧ isBnf h r = true) →
      Says k h xs (readingAll (carried k h) ds) ∧
        Fits (Pred.accepts L) toks (readingAll (carried k h) ds) i j) ?_ ?_ ?_ ?_ hd
  · intro p i t ht ha _
    exact ⟨.pred .nil, .pred ht (by rw [← hb.accepts]; exact ha) .nil⟩
  · intro r i j prod cs hp hall ih hz
    obtain ⟨hzr, hbnf⟩ := hz r rfl
    have hbnf' := hbnf
    unfold isBnf at hbnf'
    split at hbnf'
    · rename_i ps n x y dd ho
      rw [hb.productions r ps n x y dd ho] at hp
      obtain ⟨p, hpm, rfl⟩ := List.mem_map.1 hp
      obtain ⟨hzp, hpp⟩ := hb.bnf r ps n x y dd hzr ho p hpm
      obtain ⟨hw, hf⟩ := ih (prod_terms hb hzp)
      obtain ⟨o', ho', hsp, hlab⟩ := prod_spells' (k := k) hpp
      refine ⟨?_, fits_wrap.2 hf⟩
      have h1 : Says k h [.rule p] (wrap (o'.label k) (readingAll (carried k h) cs) ++ []) :=
        .rule ho' ((hsp _).2 rfl) hw .nil
      rw [hlab] at h1
      have h2 : Says k h [.rule r] _ := .rule ho (.bnf hpm) h1 .nil
      simpa [reading, wrap, carried_label ho] using h2
    · cases hbnf'
  · intro i _
    exact ⟨.nil, .nil⟩
  · intro x xs i j l t ts _ _ ih1 ih2 hz
    obtain ⟨s1, f1⟩ := ih1 (fun r hr => hz r (by rw [hr]; exact List.mem_cons_self))
    obtain ⟨s2, f2⟩ := ih2 (fun r hr => hz r (List.mem_cons_of_mem _ hr))
    exact ⟨says_append.2 ⟨_, _, s1, s2, rfl⟩, fits_append.2 ⟨j, f1, f2⟩⟩

/-- The derivations of the grammar read as the compiled rules say. -/
theorem derives_reading (hb : Belongs L h G Z) {r : Nat} (hz : Z r)
    (hr : isBnf h r = true) (i j : Nat) (w : List (Sym Pred)) :
    (∃ d, Derives G toks (.rule r) i j d ∧ reading (carried k h) d = w) ↔
      Words k h r w ∧ Fits (Pred.accepts L) toks w i j := by
  constructor
  · rintro ⟨d, hd, rfl⟩
    exact derives_reads hb hd (fun x e => by cases e; exact ⟨hz, hr⟩)
  · rintro ⟨hw, hf⟩
    have := says_coversAs hb hw (by simpa using hz) i j hf
    cases this with
    | cons h1 h2 =>
      cases h2
      rw [List.append_nil]
      exact h1.1 hr

end

/-! ### Trimming -/

section
variable {P : Type} {lab : Nat → Option Attr}

theorem Spec.Sheds.trans {w v u : List (Sym P)} (h1 : Sheds w v) (h2 : Sheds v u) : Sheds w u := by
  induction h1 with
  | refl => exact h2
  | step _ ih => exact .step (ih h2)

theorem Spec.Sheds.around {w w' : List (Sym P)} (h : Sheds w w') (a b : List (Sym P)) :
    Sheds (a ++ w ++ b) (a ++ w' ++ b) := by
  induction h with
  | refl => exact .refl _
  | @step u x v w _ ih =>
    have e : a ++ (u ++ .opn x :: .cls x :: v) ++ b = (a ++ u) ++ .opn x :: .cls x :: (v ++ b) := by simp
    rw [e]
    refine .step ?_
    have e' : (a ++ u) ++ (v ++ b) = a ++ (u ++ v) ++ b := by simp
    rw [e']
    exact ih

theorem Spec.Sheds.append {w w' v v' : List (Sym P)} (h1 : Sheds w w') (h2 : Sheds v v') :
    Sheds (w ++ v) (w' ++ v') := by
  have a := h1.around [] v
  have b := h2.around w' []
  simp only [List.nil_append, List.append_nil] at a b
  exact a.trans b

theorem sheds_wrap {w w' : List (Sym P)} (h : Sheds w w') (l : Option Attr) :
    Sheds (wrap l w) (wrap l w') := by
  cases l with
  | none => exact h
  | some x =>
    have := h.around [.opn x] [.cls x]
    simpa [wrap] using this

mutual
theorem sheds_empty : ∀ d : DTree P Token, d.yield = [] → Sheds (reading lab d) []
  | .leaf p t, h => by simp [DTree.yield] at h
  | .node r p cs, h => by
    have := sheds_emptyAll cs (by simpa [DTree.yield] using h)
    simp only [reading]
    refine (sheds_wrap this (lab r)).trans ?_
    cases lab r with
    | none => exact .refl _
    | some x => exact .step (u := []) (v := []) (.refl _)
theorem sheds_emptyAll : ∀ cs : List (DTree P Token), yieldAll cs = [] → Sheds (readingAll lab cs) []
  | [], _ => .refl _
  | c :: cs, h => by
    simp only [yieldAll, List.append_eq_nil_iff] at h
    exact (sheds_empty c h.1).append (sheds_emptyAll cs h.2)
end

/-- A tree without its empty nodes reads the same, without empty brackets. -/
theorem trims_sheds {d d' : DTree P Token} (h : Trims d d') : Sheds (reading lab d) (reading lab d') := by
  refine Trims.rec (motive_1 := fun d d' _ => Sheds (reading lab d) (reading lab d'))
    (motive_2 := fun cs cs' _ => Sheds (readingAll lab cs) (readingAll lab cs')) ?_ ?_ ?_ ?_ ?_ h
  · intro p t t' _; exact .refl _
  · intro r prod cs cs' _ _ ih; exact sheds_wrap ih _
  · exact .refl _
  · intro c c' cs cs' _ _ ih1 ih2; exact ih1.append ih2
  · intro c cs cs' hc _ ih
    have := (sheds_empty (lab := lab) c hc).append ih
    simpa [readingAll] using this

/-! What is left has no empty brackets. -/

def Sym.opens : Sym P → Bool
  | .opn _ => true
  | _ => false

def Sym.closes : Sym P → Bool
  | .cls _ => true
  | _ => false

/-- Begins with something that does not close, ends with something that does not open, and has no empty
brackets. -/
structure Solid (w : List (Sym P)) : Prop where
  first : ∀ s v, w = s :: v → s.closes = false
  last : ∀ u s, w = u ++ [s] → s.opens = false
  tight : Tight w
  some : w ≠ []

theorem Solid.append {w v : List (Sym P)} (h1 : Solid w) (h2 : Solid v) : Solid (w ++ v) where
  first s u e := by
    cases w with
    | nil => exact absurd rfl h1.some
    | cons a w => simp only [List.cons_append, List.cons.injEq] at e; exact e.1 ▸ h1.first a w rfl
  last u s e := by
    rcases List.eq_nil_or_concat v with rfl | ⟨v', a, rfl⟩
    · exact absurd rfl h2.some
    · simp only [List.concat_eq_append] at e h2
      rw [← List.append_assoc] at e
      have := List.append_inj_right' e rfl
      cases this
      exact h2.last v' s rfl
  tight u x y t e := by
    rcases List.append_eq_append_iff.1 e with ⟨a, rfl, ha⟩ | ⟨c, rfl, hc⟩
    · exact h2.tight a x y t ha
    · cases c with
      | nil => exact h2.tight [] x y t hc.symm
      | cons s c =>
        simp only [List.cons_append, List.cons.injEq] at hc
        obtain ⟨rfl, hc⟩ := hc
        cases c with
        | nil =>
          have := h1.last u (.opn x) rfl
          cases this
        | cons s c =>
          simp only [List.cons_append, List.cons.injEq] at hc
          obtain ⟨rfl, hc⟩ := hc
          exact h1.tight u x y c rfl
  some e := h1.some (List.append_eq_nil_iff.1 e).1

theorem Solid.wrap {w : List (Sym P)} (h : Solid w) (l : Option Attr) : Solid (wrap l w) := by
  cases l with
  | none => exact h
  | some z =>
    refine ⟨?_, ?_, ?_, by simp [Yargy.wrap]⟩
    · intro s v e; simp only [Yargy.wrap, List.cons_append, List.cons.injEq] at e; rw [← e.1]; rfl
    · intro u s e
      simp only [Yargy.wrap] at e
      have := List.append_inj_right' e rfl
      cases this
      rfl
    · intro u x y v e
      simp only [Yargy.wrap, List.cons_append] at e
      cases u with
      | nil =>
        simp only [List.nil_append, List.cons.injEq] at e
        obtain ⟨_, e⟩ := e
        cases w with
        | nil => exact h.some rfl
        | cons s w =>
          simp only [List.cons_append, List.cons.injEq] at e
          have := h.first s w rfl
          rw [e.1] at this
          cases this
      | cons s u =>
        simp only [List.cons_append, List.cons.injEq] at e
        obtain ⟨_, e⟩ := e
        rcases List.eq_nil_or_concat v with rfl | ⟨v', a, rfl⟩
        · have e' : w ++ [.cls z] = (u ++ [.opn x]) ++ [.cls y] := by simpa using e
          have := List.append_inj_left' e' rfl
          have := h.last u (.opn x) this
          cases this
        · have e' : w ++ [.cls z] = (u ++ .opn x :: .cls y :: v') ++ [a] := by simpa using e
          exact h.tight u x y v' (List.append_inj_left' e' rfl)

theorem solid_pred (p : P) : Solid [Sym.pred p] where
  first s v e := by cases e; rfl
  last u s e := by
    cases u with
    | nil => cases e; rfl
    | cons a u => simp at e
  tight u x y v e := by
    cases u with
    | nil => cases e
    | cons a u => simp at e
  some := by simp

theorem trims_solid {d d' : DTree P Token} (h : Trims d d') : Solid (reading lab d') := by
  refine Trims.rec (motive_1 := fun _ d' _ => Solid (reading lab d'))
    (motive_2 := fun _ cs' _ => cs' ≠ [] → Solid (readingAll lab cs')) ?_ ?_ ?_ ?_ ?_ h
  · intro p t t' _; exact solid_pred p
  · intro r prod cs cs' _ hne ih; exact (ih hne).wrap _
  · intro h; exact absurd rfl h
  · intro c c' cs cs' _ _ ih1 ih2 _
    cases cs' with
    | nil => simpa [readingAll] using ih1
    | cons a cs' => exact ih1.append (ih2 (by simp))
  · intro c cs cs' _ _ ih; exact ih

end

end Yargy
