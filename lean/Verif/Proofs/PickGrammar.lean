import Verif.Proofs.PickActivation
import Verif.Proofs.GrammarWords
import Verif.Proofs.OrderSpec
/-!
The derivations of the grammar show the choices of the compiled rules, and are ordered by them.
-/
namespace Yargy.Pick
open Spec

section words
variable {P : Type}

theorem alts_append (w v : List (Mark P)) : alts (w ++ v) = alts w ++ alts v := by
  induction w with
  | nil => rfl
  | cons x w ih =>
    cases x with
    | pred p => simp [alts, ih]
    | note x => cases x <;> simp [alts, ih]

theorem alts_choice (n i : Nat) (v : List (Mark P)) :
    alts ((if n ≤ 1 then [] else [Mark.note (.alt i)]) ++ v) = (if n ≤ 1 then [] else [i]) ++ alts v := by
  split <;> rfl

theorem alts_entry (k : Option Str) (n m : Nat) (v : List (Mark P)) :
    alts ((entryOf k n m).map .note ++ v) = alts v := by
  unfold entryOf groupOf
  cases k <;> (split <;> rfl)

/-- A word without the numbers of alternatives. -/
def bare : List (Mark P) → List (Mark P)
  | [] => []
  | .note (.alt _) :: w => bare w
  | x :: w => x :: bare w

theorem bare_append (w v : List (Mark P)) : bare (w ++ v) = bare w ++ bare v := by
  induction w with
  | nil => rfl
  | cons x w ih =>
    cases x with
    | pred p => exact congrArg (_ :: ·) ih
    | note x =>
      cases x with
      | alt i => exact ih
      | head n m => exact congrArg (_ :: ·) ih
      | line v => exact congrArg (_ :: ·) ih

theorem bare_choice (n i : Nat) (v : List (Mark P)) :
    bare ((if n ≤ 1 then [] else [Mark.note (.alt i)]) ++ v) = bare v := by
  split <;> rfl

theorem bare_entry (k : Option Str) (n m : Nat) (v : List (Mark P)) :
    bare ((entryOf k n m).map .note ++ v) = (entryOf k n m).map .note ++ bare v := by
  unfold entryOf groupOf
  cases k <;> (split <;> rfl)

theorem sooner_append {a b : List Nat} (h : Sooner a b) (c d : List Nat) : Sooner (a ++ c) (b ++ d) := by
  induction h with
  | here h => exact .here h
  | later _ ih => exact .later ih

theorem sooner_prefix (a : List Nat) {c d : List Nat} (h : Sooner c d) : Sooner (a ++ c) (a ++ d) := by
  induction a with
  | nil => exact h
  | cons x a ih => exact .later ih

theorem sooner_irrefl {a : List Nat} : ¬ Sooner a a := by
  intro h
  induction a with
  | nil => cases h
  | cons x a ih =>
    cases h with
    | here h => exact Nat.lt_irrefl _ h
    | later h => exact ih h

theorem sooner_trans {a b c : List Nat} (h : Sooner a b) (h' : Sooner b c) : Sooner a c := by
  induction h generalizing c with
  | here h =>
    cases h' with
    | here h' => exact .here (Nat.lt_trans h h')
    | later _ => exact .here h
  | later _ ih =>
    cases h' with
    | here h' => exact .here h'
    | later h' => exact .later (ih h')

theorem suits_append {accepts : P → Token → Bool} {toks : List Token} {w v : List (Mark P)} {i k : Nat} :
    Suits accepts toks (w ++ v) i k ↔ ∃ j, Suits accepts toks w i j ∧ Suits accepts toks v j k := by
  induction w generalizing i with
  | nil =>
    constructor
    · exact fun h => ⟨i, .nil, h⟩
    · rintro ⟨j, h1, h2⟩; cases h1; exact h2
  | cons s w ih =>
    constructor
    · intro h
      cases h with
      | pred h1 h2 h3 => obtain ⟨j, h4, h5⟩ := ih.1 h3; exact ⟨j, .pred h1 h2 h4, h5⟩
      | note h3 => obtain ⟨j, h4, h5⟩ := ih.1 h3; exact ⟨j, .note h4, h5⟩
    · rintro ⟨j, h1, h5⟩
      cases h1 with
      | pred h1 h2 h3 => exact .pred h1 h2 (ih.2 ⟨j, h3, h5⟩)
      | note h3 => exact .note (ih.2 ⟨j, h3, h5⟩)

/-- No later than. -/
def NoLater (a b : List Nat) : Prop := a = b ∨ Sooner a b

theorem noLater_append {a b c d : List Nat} (h : NoLater a b) (h' : NoLater c d) :
    NoLater (a ++ c) (b ++ d) := by
  rcases h with rfl | h
  · rcases h' with rfl | h'
    · exact .inl rfl
    · exact .inr (sooner_prefix _ h')
  · exact .inr (sooner_append h _ _)

theorem noLater_cons {x y : Nat} {a b : List Nat} (h : x ≤ y) (h' : NoLater a b) :
    NoLater (x :: a) (y :: b) := by
  rcases Nat.lt_or_eq_of_le h with h | rfl
  · exact .inr (.here h)
  · rcases h' with rfl | h'
    · exact .inl rfl
    · exact .inr (.later h')

end words

section grammar
variable {L : Lang} {setOrder : List Str → List Str} {h : Heap Pred} {toks : List Token}
  {G : Grammar Pred Token} {Z : Nat → Prop}

theorem prod_deals {p : Nat} (hp : isProduction h p = true) :
    ∃ o, h[p]? = some o ∧ ∀ us, Deals o us ↔
      us = (entryOf (productionAt h p).key (productionAt h p).terms.length
          (productionAt h p).main).map .note ++
        (productionAt h p).terms.map Term.part := by
  unfold isProduction at hp
  split at hp
  · rename_i ts m ho
    refine ⟨_, ho, fun us => ?_⟩
    unfold productionAt; rw [ho]
    exact ⟨fun hs => by cases hs; rfl, fun e => by subst e; exact .prod⟩
  · rename_i ho
    refine ⟨_, ho, fun us => ?_⟩
    unfold productionAt; rw [ho]
    exact ⟨fun hs => by cases hs; rfl, fun e => by subst e; exact .emptyProd⟩
  · rename_i v ts ho
    refine ⟨_, ho, fun us => ?_⟩
    unfold productionAt; rw [ho]
    simp only [List.map_map, List.length_map]
    exact ⟨fun hs => by cases hs; rfl, fun e => by subst e; exact .pipeProd⟩
  · cases hp

theorem productionAt_id (p : Nat) : (productionAt h p).id = p := by unfold productionAt; split <;> rfl

/-- The number of a production, found by its identity. -/
theorem place_eq (ps : List Nat) (p : Nat) :
    (ps.map (productionAt h)).findIdx (fun q => q.id == (productionAt h p).id) =
      ps.findIdx (fun q => q == p) := by
  rw [List.findIdx_map]
  congr 1
  funext q
  simp [productionAt_id]

theorem place_get {ps : List Nat} {p : Nat} (hp : p ∈ ps) : ps[ps.findIdx (fun q => q == p)]? = some p := by
  have : ps.findIdx (fun q => q == p) < ps.length := List.findIdx_lt_length_of_exists ⟨p, hp, by simp⟩
  rw [List.getElem?_eq_getElem this]
  have := List.findIdx_getElem (w := this)
  simp only [beq_iff_eq] at this
  rw [this]

theorem place_le {ps : List Nat} {p n : Nat} (hp : ps[n]? = some p) :
    ps.findIdx (fun q => q == p) ≤ n := by
  rcases Nat.lt_or_ge n (ps.findIdx (fun q => q == p)) with h | h
  · obtain ⟨h1, h2⟩ := List.getElem?_eq_some_iff.1 hp
    have := List.not_of_lt_findIdx h
    simp [h2] at this
  · exact h

theorem isBnf_at {a : Nat} (hb : isBnf h a = true) :
    ∃ ps n i r d, h[a]? = some (.bnf ps n i r d) := by
  unfold isBnf at hb
  split at hb
  · exact ⟨_, _, _, _, _, by assumption⟩
  · cases hb

theorem choice_marks (n i : Nat) {w : List (Mark Pred)} {ts : List (Piece Pred)} (s : Tells h ts w) :
    Tells h (choiceOf n i ++ ts) ((if n ≤ 1 then [] else [Mark.note (.alt i)]) ++ w) := by
  unfold choiceOf
  split
  · exact s
  · exact .note s

theorem notes_tells (xs : List Note) {w : List (Mark Pred)} {ts : List (Piece Pred)} (s : Tells h ts w) :
    Tells h (xs.map .note ++ ts) (xs.map .note ++ w) := by
  induction xs with
  | nil => exact s
  | cons x xs ih => exact .note ih

theorem notes_suits (xs : List Note) {w : List (Mark Pred)} {x y : Nat} {accepts : Pred → Token → Bool} :
    Suits accepts toks (xs.map .note ++ w) x y ↔ Suits accepts toks w x y := by
  induction xs with
  | nil => rfl
  | cons x xs ih => exact ⟨fun h => by cases h with | note h => exact ih.1 h, fun h => .note (ih.2 h)⟩

theorem derivesAll_length {xs : List (Term Pred)} {i j : Nat} {ds : List (DTree Pred Token)}
    (hd : DerivesAll G toks xs i j ds) : ds.length = xs.length := by
  induction xs generalizing i ds with
  | nil => cases hd; rfl
  | cons x xs ih => cases hd with | cons _ h => simp [ih h]

theorem choice_suits (n i : Nat) {w : List (Mark Pred)} {x y : Nat} {accepts : Pred → Token → Bool} :
    Suits accepts toks ((if n ≤ 1 then [] else [Mark.note (.alt i)]) ++ w) x y ↔ Suits accepts toks w x y := by
  split
  · rfl
  · exact ⟨fun h => by cases h; assumption, fun h => .note h⟩

/-- A derivation shows a word of the compiled rule, with choices, that fits the tokens. -/
theorem derives_tells (hb : Belongs L h G Z) {x : Term Pred} {i j : Nat} {d : DTree Pred Token}
    (hd : Derives G toks x i j d) : (∀ r, x = .rule r → Z r ∧ isBnf h r = true) →
      Tells h [x.part] (marks G d) ∧ Suits (Pred.accepts L) toks (marks G d) i j := by
  refine Derives.rec
    (motive_1 := fun x i j d _ => (∀ r, x = .rule r → Z r ∧ isBnf h r = true) →
      Tells h [x.part] (marks G d) ∧ Suits (Pred.accepts L) toks (marks G d) i j)
    (motive_2 := fun xs i j ds _ => (∀ r, .rule r ∈ xs → Z r ∧ isBnf h r = true) →
      Tells h (xs.map Term.part) (marksAll G ds) ∧ Suits (Pred.accepts L) toks (marksAll G ds) i j)
    ?_ ?_ ?_ ?_ hd
  · intro p i t ht ha _
    exact ⟨.pred .nil, .pred ht (by rw [← hb.accepts]; exact ha) .nil⟩
  · intro r i j prod cs hp hall ih hz
    obtain ⟨hzr, hbnf⟩ := hz r rfl
    obtain ⟨ps, n, x, y, dd, ho⟩ := isBnf_at hbnf
    have hpr := hb.productions r ps n x y dd ho
    rw [hpr] at hp
    obtain ⟨p, hpm, rfl⟩ := List.mem_map.1 hp
    obtain ⟨hzp, hpp⟩ := hb.bnf r ps n x y dd hzr ho p hpm
    obtain ⟨hw, hf⟩ := ih (prod_terms hb hzp)
    obtain ⟨o', ho', hsp⟩ := prod_deals hpp
    have e : marks G (.node r (productionAt h p) cs) =
        (if ps.length ≤ 1 then [] else [Mark.note (.alt (ps.findIdx (fun q => q == p)))]) ++
          ((entryOf (productionAt h p).key (productionAt h p).terms.length
            (productionAt h p).main).map .note ++ marksAll G cs) := by
      rw [marks, hpr, place_eq, List.length_map, derivesAll_length hall]
    rw [e]
    refine ⟨?_, (choice_suits _ _).2 ((notes_suits _).2 hf)⟩
    have h1 : Tells h [.rule p] (((entryOf (productionAt h p).key (productionAt h p).terms.length
        (productionAt h p).main).map .note ++ marksAll G cs) ++ []) :=
      .rule ho' ((hsp _).2 rfl) (notes_tells _ hw) .nil
    have h2 := Tells.rule (w := (if ps.length ≤ 1 then [] else
        [Mark.note (.alt (ps.findIdx (fun q => q == p)))]) ++ ((entryOf (productionAt h p).key
          (productionAt h p).terms.length (productionAt h p).main).map .note ++ marksAll G cs))
      ho (.bnf (place_get hpm))
      (by
        have := choice_marks ps.length (ps.findIdx (fun q => q == p)) h1
        simpa using this) .nil
    simpa [Term.part] using h2
  · intro i _
    exact ⟨.nil, .nil⟩
  · intro x xs i j k t ts _ _ ih1 ih2 hz
    obtain ⟨s1, f1⟩ := ih1 (fun r hr => hz r (by rw [hr]; exact List.mem_cons_self))
    obtain ⟨s2, f2⟩ := ih2 (fun r hr => hz r (List.mem_cons_of_mem _ hr))
    refine ⟨?_, suits_append.2 ⟨j, f1, f2⟩⟩
    exact tells_append.2 ⟨_, _, s1, s2, rfl⟩

/-- What a part of the heap covers, making choices no later than given and with the same structure. -/
def Grants (h : Heap Pred) (G : Grammar Pred Token) (toks : List Token) :
    Piece Pred → List (Mark Pred) → Nat → Nat → Prop
  | .pred p, w, i, j => w = [.pred p] ∧ ∃ d, Derives G toks (.pred p) i j d ∧ marks G d = w
  | .note x, w, i, j => w = [.note x] ∧ i = j
  | .rule r, w, i, j =>
    (isBnf h r = true → ∃ d, Derives G toks (.rule r) i j d ∧ NoLater (alts (marks G d)) (alts w) ∧
        bare (marks G d) = bare w) ∧
      (isProduction h r = true → ∃ cs, DerivesAll G toks (productionAt h r).terms i j cs ∧
        NoLater (alts (marksAll G cs)) (alts w) ∧
        (entryOf (productionAt h r).key cs.length (productionAt h r).main).map .note ++ bare (marksAll G cs) = bare w)

inductive GrantsAll (h : Heap Pred) (G : Grammar Pred Token) (toks : List Token) :
    List (Piece Pred) → List (Mark Pred) → Nat → Nat → Prop
  | nil {i} : GrantsAll h G toks [] [] i i
  | cons {t ts w v i j k} : Grants h G toks t w i j → GrantsAll h G toks ts v j k →
      GrantsAll h G toks (t :: ts) (w ++ v) i k

theorem grantsAll_derives {ts : List (Term Pred)} : ∀ {w : List (Mark Pred)} {i j : Nat},
    GrantsAll h G toks (ts.map Term.part) w i j → (∀ r, .rule r ∈ ts → isBnf h r = true) →
    ∃ cs, DerivesAll G toks ts i j cs ∧ NoLater (alts (marksAll G cs)) (alts w) ∧
      bare (marksAll G cs) = bare w := by
  induction ts with
  | nil =>
    intro w i j hc _
    cases hc
    exact ⟨[], .nil, .inl rfl, rfl⟩
  | cons t ts ih =>
    intro w i j hc ht
    cases hc with
    | cons h1 h2 =>
      obtain ⟨cs, hcs, hn, hbare⟩ := ih h2 (fun r hr => ht r (List.mem_cons_of_mem _ hr))
      cases t with
      | pred p =>
        obtain ⟨rfl, d, hd, e⟩ := h1
        refine ⟨d :: cs, .cons hd hcs, ?_, ?_⟩
        · rw [marksAll, e, alts_append, alts_append]
          exact noLater_append (.inl rfl) hn
        · rw [marksAll, e, bare_append, bare_append, hbare]
      | rule r =>
        obtain ⟨d, hd, hn', hbare'⟩ := h1.1 (ht r List.mem_cons_self)
        refine ⟨d :: cs, .cons hd hcs, ?_, ?_⟩
        · rw [marksAll, alts_append, alts_append]
          exact noLater_append hn' hn
        · rw [marksAll, bare_append, bare_append, hbare, hbare']

theorem grantsAll_notes {xs : List Note} {ts : List (Piece Pred)} {w : List (Mark Pred)} {i j : Nat}
    (hg : GrantsAll h G toks (xs.map .note ++ ts) w i j) :
    ∃ v, GrantsAll h G toks ts v i j ∧ w = xs.map .note ++ v := by
  induction xs generalizing w with
  | nil => exact ⟨w, hg, rfl⟩
  | cons x xs ih =>
    cases hg with
    | cons h1 h2 =>
      obtain ⟨rfl, rfl⟩ := h1
      obtain ⟨v, g', rfl⟩ := ih h2
      exact ⟨v, g', rfl⟩

theorem tells_grants (hb : Belongs L h G Z) {ts : List (Piece Pred)} {w : List (Mark Pred)}
    (s : Tells h ts w) : (∀ r, .rule r ∈ ts → Z r) → ∀ i j, Suits (Pred.accepts L) toks w i j →
      GrantsAll h G toks ts w i j := by
  induction s with
  | nil => intro _ i j hf; cases hf; exact .nil
  | @pred p ts w _ ih =>
    intro hz i j hf
    cases hf with
    | pred h1 h2 h3 =>
      exact GrantsAll.cons (w := [.pred p]) (j := i + 1)
        ⟨rfl, _, .leaf h1 (by rw [hb.accepts]; exact h2), rfl⟩
        (ih (fun r hr => hz r (List.mem_cons_of_mem _ hr)) _ _ h3)
  | @note x ts w _ ih =>
    intro hz i j hf
    cases hf with
    | note h3 =>
      exact GrantsAll.cons (w := [.note x]) ⟨rfl, rfl⟩
        (ih (fun r hr => hz r (List.mem_cons_of_mem _ hr)) _ _ h3)
  | @rule a o us ts w v ho hs _ _ ih1 ih2 =>
    intro hz i k hf
    obtain ⟨j, hf1, hf2⟩ := suits_append.1 hf
    have hza := hz a List.mem_cons_self
    refine .cons ⟨fun hbnf => ?_, fun hprod => ?_⟩
      (ih2 (fun r hr => hz r (List.mem_cons_of_mem _ hr)) _ _ hf2)
    · obtain ⟨ps, n, x, r, d, ho'⟩ := isBnf_at hbnf
      rw [ho] at ho'; cases ho'
      cases hs with
      | @bnf _ _ _ _ _ m p hp =>
        have hpm := List.mem_of_getElem? hp
        obtain ⟨hzp, hpp⟩ := hb.bnf a ps n x r d hza ho p hpm
        have hcov := ih1 (by
          intro q hq
          rcases List.mem_append.1 hq with hq | hq
          · unfold choiceOf at hq; split at hq <;> simp at hq
          · simp only [List.mem_singleton, Piece.rule.injEq] at hq; rw [hq]; exact hzp) i j hf1
        have hpr := hb.productions a ps n x r d ho
        have mem : productionAt h p ∈ G.productions a := by
          rw [hpr]; exact List.mem_map.2 ⟨p, hpm, rfl⟩
        have hle := place_le hp
        have e : ∀ cs, alts (marks G (.node a (productionAt h p) cs)) =
            (if ps.length ≤ 1 then [] else [ps.findIdx (fun q => q == p)]) ++ alts (marksAll G cs) := by
          intro cs
          rw [marks, hpr, place_eq, List.length_map, alts_choice, alts_entry]
        have e' : ∀ cs, bare (marks G (.node a (productionAt h p) cs)) =
            (entryOf (productionAt h p).key cs.length (productionAt h p).main).map .note ++ bare (marksAll G cs) := by
          intro cs
          rw [marks, bare_choice, bare_entry]
        unfold choiceOf at hcov
        split at hcov
        · rename_i hl
          cases hcov with
          | cons h1 h2 =>
            cases h2
            obtain ⟨cs, hcs, hn, hbare⟩ := h1.2 hpp
            refine ⟨_, .node mem hcs, ?_, ?_⟩
            · rw [e, if_pos hl]
              simpa using hn
            · rw [e', hbare]; simp
        · rename_i hl
          cases hcov with
          | cons h0 h2 =>
            obtain ⟨rfl, rfl⟩ := h0
            cases h2 with
            | cons h1 h2 =>
              cases h2
              obtain ⟨cs, hcs, hn, hbare⟩ := h1.2 hpp
              refine ⟨_, .node mem hcs, ?_, ?_⟩
              · rw [e, if_neg hl]
                simp only [List.append_nil, List.singleton_append, alts]
                exact noLater_cons hle hn
              · rw [e', hbare]
                simp only [List.append_nil, List.singleton_append, bare]
    · obtain ⟨o', ho', hsp⟩ := prod_deals hprod
      rw [ho] at ho'; cases ho'
      have := (hsp us).1 hs
      subst this
      have hz' : ∀ r, .rule r ∈ (entryOf (productionAt h a).key (productionAt h a).terms.length
          (productionAt h a).main).map .note ++ (productionAt h a).terms.map Term.part → Z r := ?_
      · obtain ⟨w', g', ew⟩ := grantsAll_notes (ih1 hz' i j hf1)
        obtain ⟨cs, hcs, hn, hbare⟩ := grantsAll_derives g' (fun r hr => (prod_terms hb hza r hr).2)
        refine ⟨cs, hcs, by rw [ew, alts_entry]; exact hn, ?_⟩
        rw [ew, bare_entry, hbare, derivesAll_length hcs]
      intro r hr
      rcases List.mem_append.1 hr with hr | hr
      · exact (notes_rule hr).elim
      obtain ⟨t, ht, e⟩ := List.mem_map.1 hr
      cases t with
      | pred p => cases e
      | rule q => cases e; exact (prod_terms hb hza r ht).1

/-- Whatever choices fit the text, a derivation of the same structure makes them, or earlier ones. -/
theorem tells_derives (hb : Belongs L h G Z) {r : Nat} (hz : Z r) (hr : isBnf h r = true) {i j : Nat}
    {w : List (Mark Pred)} (s : Words h r w) (hf : Suits (Pred.accepts L) toks w i j) :
    ∃ d, Derives G toks (.rule r) i j d ∧ NoLater (alts (marks G d)) (alts w) ∧
      bare (marks G d) = bare w := by
  have := tells_grants hb s (by simpa using hz) i j hf
  cases this with
  | cons h1 h2 => cases h2; simpa using h1.1 hr

/-! ### Order -/

/-- Looking up keeps the alternatives in order. -/
def KeepsOrder (G : Grammar Pred Token) (toks : List Token) (Z : Nat → Prop) : Prop :=
  ∀ i r a b, Z r → a ∈ offered G toks i r → b ∈ offered G toks i r →
    OfferedBefore (offered G toks i r) a b → OfferedBefore (G.productions r) a b

theorem offeredBefore_cons {l : List (Production Pred)} {x a b : Production Pred} :
    OfferedBefore (x :: l) a b ↔ x ≠ b ∧ (x = a ∨ OfferedBefore l a b) := by
  constructor
  · rintro ⟨n, h1, h2⟩
    refine ⟨?_, ?_⟩
    · rintro rfl
      exact absurd (h2 0 rfl) (by omega)
    · cases n with
      | zero => simp at h1; exact .inl h1
      | succ n =>
        refine .inr ⟨n, by simpa using h1, fun m hm => ?_⟩
        have := h2 (m + 1) (by simpa using hm)
        omega
  · rintro ⟨h1, h2⟩
    rcases h2 with rfl | ⟨n, h3, h4⟩
    · refine ⟨0, rfl, fun m hm => ?_⟩
      cases m with
      | zero => simp at hm; exact absurd hm h1
      | succ m => omega
    · refine ⟨n + 1, by simpa using h3, fun m hm => ?_⟩
      cases m with
      | zero => simp at hm; exact absurd hm h1
      | succ m => have := h4 m (by simpa using hm); omega

/-- A production offered earlier has a smaller number. -/
theorem offeredBefore_place (hD : DistinctProductions G) {r : Nat} {a b : Production Pred}
    (ha : a ∈ G.productions r) (hb : b ∈ G.productions r) (ho : OfferedBefore (G.productions r) a b) :
    (G.productions r).findIdx (fun p => p.id == a.id) < (G.productions r).findIdx (fun p => p.id == b.id) := by
  have key : ∀ l : List (Production Pred), (∀ p ∈ l, p ∈ G.productions r) → OfferedBefore l a b →
      l.findIdx (fun p => p.id == a.id) < l.findIdx (fun p => p.id == b.id) := by
    intro l
    induction l with
    | nil => rintro _ ⟨n, h1, _⟩; simp at h1
    | cons x l ih =>
      intro hl ho
      obtain ⟨h1, h2⟩ := offeredBefore_cons.1 ho
      have hx := hl x List.mem_cons_self
      have nb : (x.id == b.id) = false := by
        rw [beq_eq_false_iff_ne]
        exact fun e => h1 (hD _ _ _ _ hx hb e)
      rw [List.findIdx_cons, List.findIdx_cons, nb]
      simp only [cond_false]
      cases hxa : x.id == a.id with
      | true => simp
      | false =>
        simp only [cond_false]
        rcases h2 with rfl | h2
        · simp at hxa
        · have := ih (fun p hp => hl p (List.mem_cons_of_mem _ hp)) h2
          omega
  exact key _ (fun _ h => h) ho

theorem earlier_sooner (hb : Belongs L h G Z) (hL : PredictLossless G) (hK : KeepsOrder G toks Z)
    {i : Nat} {d d' : DTree Pred Token} (he : Earlier G toks i d d') :
    ∀ x j j', (∀ r, x = .rule r → Z r ∧ isBnf h r = true) → Derives G toks x i j d →
      Derives G toks x i j' d' → Sooner (alts (marks G d)) (alts (marks G d')) := by
  refine Earlier.rec
    (motive_1 := fun i d d' _ => ∀ x j j', (∀ r, x = .rule r → Z r ∧ isBnf h r = true) →
      Derives G toks x i j d → Derives G toks x i j' d' → Sooner (alts (marks G d)) (alts (marks G d')))
    (motive_2 := fun i cs cs' _ => ∀ xs j j', (∀ r, .rule r ∈ xs → Z r ∧ isBnf h r = true) →
      DerivesAll G toks xs i j cs → DerivesAll G toks xs i j' cs' →
      Sooner (alts (marksAll G cs)) (alts (marksAll G cs'))) ?_ ?_ ?_ ?_ he
  · intro i r a b cs cs' ho x j j' hz h1 h2
    cases h1 with
    | node p1 d1 =>
      cases h2 with
      | node p2 d2 =>
        have := hK i r a b (hz r rfl).1 (derives_offered hL p1 d1) (derives_offered hL p2 d2) ho
        have hlt := offeredBefore_place (belongs_distinct hb) p1 p2 this
        have hb' : (G.productions r).findIdx (fun p => p.id == b.id) < (G.productions r).length :=
          List.findIdx_lt_length_of_exists ⟨b, p2, by simp⟩
        have hl : ¬ (G.productions r).length ≤ 1 := by omega
        rw [marks, marks, alts_choice, alts_choice, if_neg hl, if_neg hl]
        exact .here hlt
  · intro i r a cs cs' _ ih x j j' hz h1 h2
    cases h1 with
    | node p1 d1 =>
      cases h2 with
      | node p2 d2 =>
        rw [marks, marks, alts_choice, alts_choice, alts_entry, alts_entry]
        refine sooner_prefix _ (ih _ _ _ ?_ d1 d2)
        obtain ⟨hzr, hbnf⟩ := hz r rfl
        obtain ⟨ps, n, x, y, dd, ho⟩ := isBnf_at hbnf
        rw [hb.productions r ps n x y dd ho] at p1
        obtain ⟨p, hpm, rfl⟩ := List.mem_map.1 p1
        exact prod_terms hb (hb.bnf r ps n x y dd hzr ho p hpm).1
  · intro i c c' cs cs' _ ih xs j j' hz h1 h2
    cases h1 with
    | cons d1 d2 =>
      cases h2 with
      | cons d1' d2' =>
        rw [marksAll, marksAll, alts_append, alts_append]
        exact sooner_append (ih _ _ _ (fun r e => hz r (by rw [e]; exact List.mem_cons_self)) d1 d1') _ _
  · intro i c cs cs' _ ih xs j j' hz h1 h2
    cases h1 with
    | cons d1 d2 =>
      cases h2 with
      | cons d1' d2' =>
        rw [marksAll, marksAll, alts_append, alts_append]
        have key : ∀ {x : Term Pred} {m : Nat}, Derives G toks x i m c → m = i + c.yield.length := by
          intro x m hd
          have e1 := (derives_reads hd).len
          have e2 := (derives_reads hd).le
          omega
        exact sooner_prefix _ (ih _ _ _ (fun r e => hz r (List.mem_cons_of_mem _ e)) (key d1 ▸ d2)
          (key d1' ▸ d2'))

/-- Derivations of a compiled rule from the same place are ordered by their choices. -/
theorem earlier_iff (hb : Belongs L h G Z) (hL : PredictLossless G) (hK : KeepsOrder G toks Z) {r : Nat}
    (hz : Z r) (hr : isBnf h r = true) {i j j' : Nat} {d d' : DTree Pred Token}
    (h1 : Derives G toks (.rule r) i j d) (h2 : Derives G toks (.rule r) i j' d') :
    Earlier G toks i d d' ↔ Sooner (alts (marks G d)) (alts (marks G d')) := by
  have hx : ∀ x, Term.rule (P := Pred) r = .rule x → Z x ∧ isBnf h x = true := by
    intro x e; cases e; exact ⟨hz, hr⟩
  constructor
  · intro he
    exact earlier_sooner hb hL hK he _ _ _ hx h1 h2
  · intro hs
    have hne : d ≠ d' := by rintro rfl; exact sooner_irrefl hs
    rcases Earlier.total hL h1 h2 hne with he | he
    · exact he
    · exact absurd (sooner_trans hs (earlier_sooner hb hL hK he _ _ _ hx h2 h1)) sooner_irrefl

/-- Different derivations make different choices. -/
theorem choices_differ (hb : Belongs L h G Z) (hL : PredictLossless G) (hK : KeepsOrder G toks Z) {r : Nat}
    (hz : Z r) (hr : isBnf h r = true) {i j j' : Nat} {d d' : DTree Pred Token}
    (h1 : Derives G toks (.rule r) i j d) (h2 : Derives G toks (.rule r) i j' d')
    (e : alts (marks G d) = alts (marks G d')) : d = d' := by
  classical
  by_cases hne : d = d'
  · exact hne
  · rcases Earlier.total hL h1 h2 hne with he | he
    · have := (earlier_iff hb hL hK hz hr h1 h2).1 he
      rw [e] at this
      exact absurd this sooner_irrefl
    · have := (earlier_iff hb hL hK hz hr h2 h1).1 he
      rw [e] at this
      exact absurd this sooner_irrefl

end grammar
end Yargy.Pick
