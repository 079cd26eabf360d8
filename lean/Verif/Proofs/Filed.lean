import Verif.Spec.Buildable
import Verif.Proofs.BnfPass
import Verif.Proofs.Leftover
/-!
Gazetteers that have been split can be indexed.
-/
namespace Yargy
open Spec

variable {L : Lang} {setOrder : List Str → List Str}

theorem buildIndex_ok {kind : PipeKind} : ∀ {ps : List (Production Pred)} {index : PipeIndex},
    (∃ i, buildIndex kind index ps = .ok i) ↔ ∀ p ∈ ps, ∃ vs, indexValues kind p = .ok vs := by
  intro ps
  induction ps with
  | nil => intro index; simp [buildIndex]
  | cons p ps ih =>
    intro index
    simp only [buildIndex]
    cases e : indexValues kind p with
    | error er =>
      simp only [List.forall_mem_cons, e]
      constructor
      · rintro ⟨_, h⟩; cases h
      · rintro ⟨⟨_, h⟩, _⟩; cases h
    | ok vs =>
      simp only [List.forall_mem_cons, e, ih]
      exact ⟨fun h => ⟨⟨_, rfl⟩, h⟩, fun h => h.2⟩

theorem pipeRule_ok {kind : PipeKind} {ps : List (Production Pred)} :
    (∃ r, pipeRule L setOrder kind ps = .ok r) ↔ ∀ p ∈ ps, ∃ vs, indexValues kind p = .ok vs := by
  rw [← buildIndex_ok (index := [])]
  unfold pipeRule
  cases buildIndex kind [] ps with
  | error e => simp [Except.map]
  | ok i => simp [Except.map]

theorem indexes_values {kind : PipeKind} {q : Pred} {ts : List (Term Pred)} {p : Production Pred}
    (hi : indexes kind q = true) (hp : p.terms = .pred q :: ts) : ∃ vs, indexValues kind p = .ok vs := by
  unfold indexValues
  rw [hp]
  cases kind <;> cases q <;> first | (cases hi; done) | exact ⟨_, rfl⟩

theorem key_indexed {c : Context} {split : Str → List Str} {k : PipeKind} {l : Str} {ps : List Pred}
    (hl : split l ≠ []) (e : pipeKey L c split k l = .ok ps) : ∃ q qs, ps = q :: qs ∧ indexes k q = true := by
  obtain ⟨w, ws, hw⟩ : ∃ w ws, split l = w :: ws := by
    cases h : split l with
    | nil => exact absurd h hl
    | cons w ws => exact ⟨w, ws, rfl⟩
  cases k with
  | exact =>
    simp only [pipeKey, hw, List.map_cons] at e
    cases e
    exact ⟨_, _, rfl, rfl⟩
  | caseless =>
    simp only [pipeKey, hw, List.map_cons] at e
    cases e
    exact ⟨_, _, rfl, rfl⟩
  | morph =>
    simp only [pipeKey, hw, List.mapM_cons] at e
    obtain ⟨q, h1, h2⟩ := except_bind_ok e
    obtain ⟨qs, _, h3⟩ := except_bind_ok h2
    cases h3
    obtain ⟨m, _, rfl⟩ := except_map_ok h1
    exact ⟨_, _, rfl, rfl⟩

/-- The first words of the lines of split gazetteers, compiled or not, can be indexed. -/
def FiledObj (h : Heap Pred) : Obj Pred → Prop
  | .pipe (.keys k ks) => ∀ key ∈ ks, ∀ q qs, key.2 = q :: qs → indexes k q = true
  | .bnf ps _ _ _ (some k) => ∀ p ∈ ps, ∃ v q qs, h[p]? = some (.pipeProd v (q :: qs)) ∧ indexes k q = true
  | _ => True

def Filed (h : Heap Pred) : Prop := ∀ (a : Nat) o, h[a]? = some o → FiledObj h o

theorem FiledObj.mono {h h' : Heap Pred} (hp : ∀ (p : Nat) v ts, h[p]? = some (.pipeProd v ts) →
    h'[p]? = some (.pipeProd v ts)) {o : Obj Pred} (ho : FiledObj h o) : FiledObj h' o := by
  unfold FiledObj at ho ⊢
  split
  · exact ho
  · intro p hm
    obtain ⟨v, q, qs, h1, h2⟩ := ho p hm
    exact ⟨v, q, qs, hp p _ _ h1, h2⟩
  · trivial

theorem Filed.append {h : Heap Pred} (hf : Filed h) {os : List (Obj Pred)}
    (ho : ∀ o ∈ os, FiledObj (h ++ os) o) : Filed (h ++ os) := by
  intro a o ha
  rcases Nat.lt_or_ge a h.length with hl | hl
  · rw [List.getElem?_append_left hl] at ha
    exact (hf a o ha).mono (fun p v ts e => getElem?_append_some e)
  · rw [List.getElem?_append_right hl] at ha
    exact ho o (List.mem_of_getElem? ha)

theorem Filed.set {h : Heap Pred} (hf : Filed h) {a : Nat} {o o' : Obj Pred} (ha : h[a]? = some o)
    (hn : ∀ v ts, o = .pipeProd v ts → o' = .pipeProd v ts)
    (ho : FiledObj h o → FiledObj h o') : Filed (h.set a o') := by
  have hal := (List.getElem?_eq_some_iff.1 ha).1
  have hp : ∀ (p : Nat) v ts, h[p]? = some (.pipeProd v ts) → (h.set a o')[p]? = some (.pipeProd v ts) := by
    intro p v ts e
    by_cases hpa : p = a
    · subst hpa
      rw [ha] at e; cases e
      rw [List.getElem?_set_self hal, hn v ts rfl]
    · rw [List.getElem?_set_ne (fun e => hpa e.symm)]; exact e
  intro x u hx
  by_cases hxa : x = a
  · subst hxa
    rw [List.getElem?_set_self hal] at hx; cases hx
    exact (ho (hf x o ha)).mono hp
  · rw [List.getElem?_set_ne (fun e => hxa e.symm)] at hx
    exact (hf x u hx).mono hp

theorem filed_nil : Filed [] := by intro a o h; cases h

theorem filed_plain {Ok : Str → Prop} {h : Heap Pred} {o : Obj Pred} (ho : Whole.Plain Ok o) : FiledObj h o := by
  cases o with
  | pipe p => exact ho.elim
  | bnf ps n i r k => cases k with
    | none => trivial
    | some k => cases n <;> exact ho.elim
  | _ => trivial

/-- Compiling keeps it so. -/
theorem filed_enduring : Enduring (fun _ => True) Filed where
  given _ _ := trivial
  alloc hf hp := hf.append (fun o ho => by rw [List.mem_singleton] at ho; subst ho; exact filed_plain hp)
  attr {g b x} hf _ := by
    unfold setAttrAt
    split
    · rename_i ps n i r k e
      cases x <;> exact hf.set e (by intro v ts e; cases e) (fun h => by cases k <;> exact h)
    · exact hf
  keys {s a p b s'} hf ha e := by
    unfold pipeBnf at e
    split at e
    · cases e
    · rename_i k ks
      split at e
      · cases e
      · rename_i hne
        have hk := hf a _ ha
        simp only [allocKeys_eq, St.alloc] at e
        cases e
        simp only [List.append_assoc]
        refine hf.append (fun o ho => ?_)
        rcases List.mem_append.1 ho with ho | ho
        · obtain ⟨key, _, rfl⟩ := List.mem_map.1 ho
          trivial
        · rw [List.mem_singleton] at ho; subst ho
          intro p hp
          obtain ⟨h1, h2⟩ := List.mem_range'_1.1 hp
          have hlt : p - s.heap.length < ks.length := by omega
          have hm := List.getElem_mem hlt
          cases hq : (ks[p - s.heap.length]).2 with
          | nil =>
            refine absurd (List.any_eq_true.2 ⟨_, hm, ?_⟩) hne
            rw [hq]; rfl
          | cons q qs =>
            refine ⟨(ks[p - s.heap.length]).1, q, qs, ?_, hk _ hm q qs hq⟩
            rw [List.getElem?_append_right h1, List.getElem?_append_left (by rw [List.length_map]; exact hlt),
              List.getElem?_map, List.getElem?_eq_getElem hlt, ← hq]
            rfl
  define g a b c hf ha := hf.set ha (by intro v ts e; cases e) (fun _ => trivial)
  terms g a ts m ts' hf ha := hf.set ha (by intro v ts e; cases e) (fun _ => trivial)

theorem filed_names : ∀ (as : List Nat) (count : Nat) (g : Heap Pred), Filed g → Filed (generateNames as count g) := by
  intro as
  induction as with
  | nil => intro _ g hg; exact hg
  | cons a as ih =>
    intro count g hg
    simp only [generateNames]
    split
    · rename_i ps n i r k hx
      split
      · exact ih _ _ hg
      · exact ih _ _ (hg.set hx (by intro v ts e; cases e) (fun h => by cases k <;> exact h))
    · exact ih _ _ hg

/-- So does activating. -/
theorem filed_activate {c : Context} {split : Str → List Str} (g : Heap Pred) (a : Nat) (g' : Heap Pred)
    (hf : Filed g) (e : activateAt (c.activation L split) g a = .ok g') : Filed g' := by
  unfold activateAt at e
  split at e
  · cases e; exact hf
  · rename_i o ho
    obtain ⟨o', h1, rfl⟩ := except_map_ok e
    cases o with
    | prod ts m =>
      obtain ⟨ts', _, rfl⟩ := except_map_ok h1
      exact hf.set ho (by intro v ts e; cases e) (fun _ => trivial)
    | pipe p =>
      obtain ⟨p', h2, rfl⟩ := except_map_ok h1
      refine hf.set ho (by intro v ts e; cases e) (fun hp => ?_)
      cases p with
      | keys k ks => cases h2; exact hp
      | scheme k ls =>
        obtain ⟨keys, h3, rfl⟩ := except_map_ok h2
        intro key hk q qs hq
        obtain ⟨l, _, hl⟩ := (mapM_mem h3 key).1 hk
        obtain ⟨ts, h4, rfl⟩ := except_map_ok hl
        by_cases hw : split l = []
        · have : ts = [] := by
            change pipeKey L c split k l = .ok ts at h4
            cases k <;> simp only [pipeKey, hw] at h4 <;> cases h4 <;> rfl
          cases this.symm.trans hq
        · obtain ⟨q', qs', k1, k2⟩ := key_indexed hw h4
          cases k1.symm.trans hq
          exact k2
    | _ => cases h1; rw [set_same ho]; exact hf

/-- Then parsers find the productions of gazetteers. -/
theorem filed_charted {h : Heap Pred} (hf : Filed h) : ∀ o ∈ h, ∃ r, chartRuleOf L setOrder h o = .ok r := by
  intro o ho
  obtain ⟨a, ha⟩ := List.mem_iff_getElem?.1 ho
  have := hf a o ha
  cases o with
  | bnf ps n i r k =>
    cases k with
    | none => exact ⟨_, rfl⟩
    | some k =>
      simp only [chartRuleOf]
      rw [pipeRule_ok]
      intro p hp
      obtain ⟨x, hx, rfl⟩ := List.mem_map.1 hp
      obtain ⟨v, q, qs, h1, h2⟩ := this x hx
      refine indexes_values h2 (ts := qs.map .pred) ?_
      unfold productionAt
      rw [h1]
      rfl
  | _ => exact ⟨_, rfl⟩

end Yargy
