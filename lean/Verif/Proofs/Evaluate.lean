import Verif.Proofs.Bare
import Verif.Proofs.Cut
import Verif.Proofs.GrammarWords
import Verif.Spec.Erase
/-!
The events of a tree are those of its word, up to dictionary lines.
-/
namespace Yargy
open Spec

variable {P : Type} {F : Facts}

/-! ### The word of a tree -/

mutual
theorem play_reading {its : Nat → Interpretator} {h : Heap Pred} (w : List (Sym Pred)) (us : List Token) :
    ∀ t : TTree Pred, play its (reading (carried .interp h) t.erase ++ w) (t.leaves.map Prod.snd ++ us) =
      (events (interpretators its h) t).map Event.bare ++ play its w us
  | .leaf n p t => rfl
  | .node n r p k cs => by
    have key := fun w => play_readingAll (its := its) (h := h) w us cs
    simp only [PTree.erase, reading, events, carried, interpretators, leaves_node]
    cases interpretatorAt h r with
    | none => exact key w
    | some i =>
      simp only [Option.map_some, wrap, List.cons_append, play, List.map_cons, Event.bare, List.append_assoc,
        List.map_append, List.map_nil]
      congr 1
      exact key (.cls (.interp i) :: w)
theorem play_readingAll {its : Nat → Interpretator} {h : Heap Pred} (w : List (Sym Pred)) (us : List Token) :
    ∀ cs : List (TTree Pred), play its (readingAll (carried .interp h) (eraseAll cs) ++ w)
        ((cs.flatMap PTree.leaves).map Prod.snd ++ us) =
      (eventsAll (interpretators its h) cs).map Event.bare ++ play its w us
  | [] => rfl
  | c :: cs => by
    simp only [eraseAll, readingAll, eventsAll, List.flatMap_cons, List.map_append, List.append_assoc]
    rw [play_reading, play_readingAll]
end

/-- The events of a tree without dictionary lines. -/
theorem play_events {its : Nat → Interpretator} {h : Heap Pred} (t : TTree Pred) :
    play its (reading (carried .interp h) t.erase) (t.leaves.map Prod.snd) =
      (events (interpretators its h) t).map Event.bare := by
  have := play_reading (its := its) (h := h) [] [] t
  simpa [play] using this

/-! ### Empty parts -/

theorem shed_congr {v v' : List (Sym P)} (h : shed v = shed v') : ∀ u : List (Sym P), shed (u ++ v) = shed (u ++ v')
  | [] => h
  | s :: u => by simp only [List.cons_append, shed, shed_congr h u]

theorem shed_tight : ∀ {w : List (Sym P)}, Tight w → shed w = w
  | [], _ => rfl
  | s :: w, ht => by
    have hw : Tight w := fun u x y v e => ht (s :: u) x y v (by rw [e]; rfl)
    rw [shed, shed_tight hw]
    cases s with
    | opn x =>
      cases w with
      | nil => rfl
      | cons s' w =>
        cases s' with
        | cls y => exact absurd rfl (ht [] x y w)
        | _ => rfl
    | _ => rfl

/-- Shedding all empty brackets, one after the other, leads to one word only. -/
theorem sheds_shed {w v : List (Sym P)} (h : Sheds w v) (ht : Tight v) : v = shed w := by
  induction h with
  | refl => exact (shed_tight ht).symm
  | @step u x v w _ ih =>
    rw [ih ht]
    refine shed_congr ?_ u
    simp [shed, shedCons]

/-! ### Trees without dictionary lines -/

mutual
def Keyless {T : Type} : DTree P T → Prop
  | .leaf _ _ => True
  | .node _ p cs => p.key = none ∧ KeylessAll cs
def KeylessAll {T : Type} : List (DTree P T) → Prop
  | [] => True
  | c :: cs => Keyless c ∧ KeylessAll cs
end

mutual
theorem keyless_events {I : Nat → Option Interpretator} : ∀ t : TTree P, Keyless t.erase →
    (events I t).map Event.bare = events I t
  | .leaf n p t, _ => rfl
  | .node n r p k cs, hk => by
    simp only [PTree.erase, Keyless] at hk
    have := keyless_eventsAll (I := I) cs hk.2
    simp only [events]
    cases I r with
    | none => exact this
    | some i => simp only [List.map_cons, List.map_append, this, Event.bare, hk.1, List.map_nil]
theorem keyless_eventsAll {I : Nat → Option Interpretator} : ∀ cs : List (TTree P), KeylessAll (eraseAll cs) →
    (eventsAll I cs).map Event.bare = eventsAll I cs
  | [], _ => rfl
  | c :: cs, hk => by
    simp only [eraseAll, KeylessAll] at hk
    simp only [eventsAll, List.map_append, keyless_events c hk.1, keyless_eventsAll cs hk.2]
end

theorem trims_keyless {d d' : DTree P Token} (h : Trims d d') : Keyless d → Keyless d' := by
  refine Trims.rec
    (motive_1 := fun d d' _ => Keyless d → Keyless d')
    (motive_2 := fun ds ds' _ => KeylessAll ds → KeylessAll ds')
    ?_ ?_ ?_ ?_ ?_ h
  · intro p t t' _ _; trivial
  · intro r prod cs cs' _ _ ih hk
    exact ⟨hk.1, ih hk.2⟩
  · intro _; trivial
  · intro c c' cs cs' _ _ ih1 ih2 hk
    exact ⟨ih1 hk.1, ih2 hk.2⟩
  · intro c cs cs' _ _ ih hk
    exact ih hk.2

theorem derives_keyless {T : Type} {G : Grammar P T} {toks : List T} {Z : Nat → Prop}
    (hz : ∀ r prod, Z r → prod ∈ G.productions r → prod.key = none ∧ ∀ x, .rule x ∈ prod.terms → Z x)
    {x : Term P} {i j : Nat} {d : DTree P T} (h : Derives G toks x i j d) :
    (∀ r, x = .rule r → Z r) → Keyless d := by
  refine Derives.rec
    (motive_1 := fun x _ _ d _ => (∀ r, x = .rule r → Z r) → Keyless d)
    (motive_2 := fun xs _ _ ds _ => (∀ r, .rule r ∈ xs → Z r) → KeylessAll ds)
    ?_ ?_ ?_ ?_ h
  · intro p i t _ _ _; trivial
  · intro r i j prod cs hp _ ih hr
    obtain ⟨h1, h2⟩ := hz r prod (hr r rfl) hp
    exact ⟨h1, ih h2⟩
  · intro _ _; trivial
  · intro x xs i j k t ts _ _ ih1 ih2 hr
    exact ⟨ih1 (fun r e => hr r (e ▸ List.mem_cons_self)), ih2 (fun r hm => hr r (List.mem_cons_of_mem _ hm))⟩

theorem gazetteer_stable : Stable (fun o : Obj P => isGazetteer o = false) where
  terms _ _ := rfl
  prod _ _ _ := rfl
  pipeProd _ _ _ h := by cases h
  rule _ := rfl
  or _ := rfl
  forward _ := rfl
  repeatable _ _ := rfl
  pipe h _ := by cases h
  pipeBnf _ h := by cases h
  optional _ _ _ := rfl
  both _ _ _ _ := rfl
  repOptional _ _ _ _ := rfl
  empty _ := rfl
  empty' _ := rfl
  emptyProd _ := rfl
  minBounded _ _ := rfl
  maxBounded _ _ := rfl
  minMaxBounded _ _ := rfl
  named _ _ := rfl
  interp _ _ := rfl
  relation _ _ := rfl
  bnf _ := rfl
  setName _ _ := rfl
  setInterp _ _ := rfl
  setRelation _ _ := rfl

/-! ### The interpretations of a word are those of the rule -/

theorem reads_interp {A : Activation P} {h : Heap P} {root : Nat}
    (hb : ∀ (x : Nat) o, Reach h root x → h[x]? = some o → o.bare .interp) {ts : List (Term P)} {w : List (Sym P)}
    (hr : Reads A .interp h ts w) : (∀ r, .rule r ∈ ts → Reach h root r) → ∀ n, .opn (.interp n) ∈ w →
      ∃ x r, Reach h root x ∧ h[x]? = some (.interp r n) := by
  induction hr with
  | nil => intro _ n hn; cases hn
  | pred _ ih =>
    intro hz n hn
    rcases List.mem_cons.1 hn with e | hn
    · cases e
    · exact ih (fun r hm => hz r (List.mem_cons_of_mem _ hm)) n hn
  | @rule a o us ts w v ho hs _ _ ih1 ih2 =>
    intro hz n hn
    have ha := hz a List.mem_cons_self
    rcases List.mem_append.1 hn with hn | hn
    · have hin : Sym.opn (.interp n) ∈ w → ∃ x r, Reach h root x ∧ h[x]? = some (.interp r n) := by
        refine ih1 ?_ n
        intro r hm
        exact .step ha ho (opens_children hs r hm)
      cases hl : o.label .interp with
      | none => rw [hl] at hn; exact hin hn
      | some y =>
        rw [hl] at hn
        simp only [wrap, List.cons_append, List.mem_cons, List.mem_append, List.not_mem_nil, or_false] at hn
        rcases hn with e | hn | e
        · cases e
          have hbo := hb a o ha ho
          cases o <;> simp only [Obj.label] at hl <;> first | cases hl | skip
          · exact ⟨a, _, ha, ho⟩
          · have := hbo _ _ _ _ _ rfl
            simp only [Obj.label] at this
            rw [this] at hl
            cases hl
        · exact hin hn
        · cases e
    · exact ih2 (fun r hm => hz r (List.mem_cons_of_mem _ hm)) n hn

theorem sheds_subset {w v : List (Sym P)} (h : Sheds w v) : ∀ x ∈ v, x ∈ w := by
  induction h with
  | refl => intro x hx; exact hx
  | step _ ih =>
    intro x hx
    have := ih x hx
    simp only [List.mem_append, List.mem_cons] at this ⊢
    rcases this with h | h
    · exact .inl h
    · exact .inr (.inr (.inr h))

theorem play_opens {its : Nat → Interpretator} {i : Interpretator} {key : Option Str} :
    ∀ (w : List (Sym P)) (ts : List Token), Event.opens i key ∈ play its w ts →
      ∃ n, .opn (.interp n) ∈ w ∧ i = its n := by
  intro w
  induction w with
  | nil => intro ts h; cases h
  | cons x w ih =>
    intro ts h
    have lift : ∀ ts, Event.opens i key ∈ play its w ts → ∃ n, .opn (.interp n) ∈ x :: w ∧ i = its n := by
      intro ts h
      obtain ⟨n, h1, h2⟩ := ih ts h
      exact ⟨n, List.mem_cons_of_mem _ h1, h2⟩
    cases x with
    | pred p =>
      cases ts with
      | nil => exact lift _ h
      | cons t ts =>
        rcases List.mem_cons.1 h with e | h
        · cases e
        · exact lift _ h
    | opn a =>
      cases a with
      | interp n =>
        rcases List.mem_cons.1 h with e | h
        · cases e
          exact ⟨n, List.mem_cons_self, rfl⟩
        · exact lift _ h
      | _ => exact lift _ h
    | cls a =>
      cases a with
      | interp n =>
        rcases List.mem_cons.1 h with e | h
        · cases e
        · exact lift _ h
      | _ => exact lift _ h

theorem bare_opens {i : Interpretator} {key : Option Str} {es : List Event} (h : Event.opens i key ∈ es) :
    Event.opens i none ∈ es.map Event.bare :=
  List.mem_map.2 ⟨_, h, rfl⟩

end Yargy
