import Verif.Spec.Parser
import Verif.Proofs.Match
/-! The loops over candidate trees. -/
set_option linter.unusedSectionVars false
namespace Yargy
open Spec

variable {P : Type}

/-- the tree stands at its range -/
def Laid (home : Home P Token) (n : Nat) (t : Tree P Token) : Prop :=
  Layout home n t.root t.range.1 t.range.2

/-! ### trimmed trees -/

theorem trims_prune {σ : Store} {t : TTree P}
    (h : ∀ l ∈ t.leaves, Narrowed l.2 (cur σ l).2) :
    match t.prune with
    | some t' => Trims t.erase (t'.load σ).erase
    | none => t.erase.yield = [] := by
  refine ptree_induct (M := fun t : TTree P => (∀ l ∈ t.leaves, Narrowed l.2 (cur σ l).2) →
    match t.prune with
    | some t' => Trims t.erase (t'.load σ).erase
    | none => t.erase.yield = []) ?_ ?_ t h
  · intro l p t h
    exact .leaf (h (l, t) (by simp [leaves_leaf]))
  · intro n r prod k cs ih h
    have ih' : ∀ c ∈ cs, match c.prune with
        | some t' => Trims c.erase (t'.load σ).erase
        | none => c.erase.yield = [] := by
      intro c hc
      refine ih c hc (fun l hl => h l ?_)
      rw [leaves_node]; exact List.mem_flatMap.2 ⟨c, hc, hl⟩
    have key : TrimsAll (cs.map PTree.erase)
        (((cs.filterMap PTree.prune).map (PTree.load σ)).map PTree.erase) := by
      clear ih h
      induction cs with
      | nil => exact .nil
      | cons c cs ih2 =>
        have h1 := ih' c List.mem_cons_self
        have h2 := ih2 (fun c hc => ih' c (List.mem_cons_of_mem _ hc))
        rw [List.filterMap_cons]
        cases hp : c.prune with
        | none => rw [hp] at h1; exact .drop h1 h2
        | some c' => rw [hp] at h1; exact .keep h1 h2
    cases hp : (PTree.node n r prod k cs).prune with
    | none =>
      simp only []
      rw [yield_erase, (prune_none_iff _).1 hp]; rfl
    | some t' =>
      simp only []
      rw [prune_node] at hp
      split at hp
      · simp at hp
      · rename_i he
        simp only [Option.some.injEq] at hp
        subst hp
        simp only [PTree.load, PTree.erase, loadAll_eq, eraseAll_map]
        exact .node key (by simpa using he)

/-! ### one match -/

/-- `m` was made from `tree` -/
def Made (A : Agreement) (home : Home P Token) (tree : Tree P Token) (m : Match P) : Prop :=
  ∃ σ σ', StoreOK home σ ∧ prepareMatch A σ tree = .ok (some m, σ')

theorem Made.range {A : Agreement} {home : Home P Token} {n : Nat} {tree : Tree P Token} {m : Match P}
    (hl : Laid home n tree) (h : Made A home tree m) : m.tree.range = tree.range := by
  obtain ⟨σ, σ', h1, h2⟩ := h
  obtain ⟨r0, _, h3⟩ := (prepareMatch_accepted hl h1 h2).root
  rw [h3]

theorem Made.nonempty {A : Agreement} {home : Home P Token} {n : Nat} {tree : Tree P Token} {m : Match P}
    (hl : Laid home n tree) (h : Made A home tree m) : tree.range.1 < tree.range.2 := by
  obtain ⟨σ, σ', h1, h2⟩ := h
  have h3 := (prepareMatch_accepted hl h1 h2).nonempty
  obtain ⟨k1, k2, _⟩ := layout_leaves hl
  cases hx : tree.root.leaves with
  | nil => exact absurd hx h3
  | cons a b => rw [hx] at k2; simp at k2; omega

/-- the tree of a match, read at any later time -/
theorem Made.trims {A : Agreement} {home : Home P Token} {n : Nat} {tree : Tree P Token} {m : Match P}
    (hl : Laid home n tree) (h : Made A home tree m) {σf : Store} (hf : StoreOK home σf) :
    Trims tree.root.erase (m.tree.root.load σf).erase := by
  obtain ⟨σ, σ', h1, h2⟩ := h
  obtain ⟨r0, h3, h4⟩ := (prepareMatch_accepted hl h1 h2).root
  rw [h4]
  simp only []
  -- reading twice is reading once through a combined store
  let σc : Store := fun w => (σf w).orElse (fun _ => σ w)
  have e : (r0.load σ).load σf = r0.load σc := by
    refine ptree_induct (M := fun r0 : TTree P => (r0.load σ).load σf = r0.load σc) ?_ ?_ r0
    · intro l p t
      simp only [PTree.load, σc]
      cases σf l <;> simp
    · intro n r prod k cs ih
      simp only [PTree.load, loadAll_eq, List.map_map]
      congr 1
      exact List.map_congr_left ih
  have hc : StoreOK home σc := by
    intro w t' ht
    simp only [σc] at ht
    cases hx : σf w with
    | none => rw [hx] at ht; exact h1 w t' (by simpa using ht)
    | some y => rw [hx] at ht; simp at ht; subst ht; exact hf w y hx
  rw [e]
  have := trims_prune (t := tree.root) (σ := σc) (fun l h5 => cur_narrowed hl hc h5)
  rw [h3] at this
  exact this

theorem Made.tokens {A : Agreement} {home : Home P Token} {n : Nat} {tree : Tree P Token} {m : Match P}
    (hl : Laid home n tree) (h : Made A home tree m) :
    m.tokens.length = tree.root.erase.yield.length ∧
    (∀ (k : Nat) (t : Token), tree.root.erase.yield[k]? = some t → ∃ t', m.tokens[k]? = some t' ∧ Narrowed t t') ∧
    ∃ a b, m.tokens.head? = some a ∧ m.tokens.getLast? = some b ∧ m.span = (a.span.1, b.span.2) := by
  obtain ⟨σ, σ', h1, h2⟩ := h
  have ha := prepareMatch_accepted hl h1 h2
  refine ⟨by rw [ha.tokens, yield_erase]; simp, ?_, ?_⟩
  · intro k t hk
    rw [yield_erase, List.getElem?_map] at hk
    obtain ⟨l, h3, rfl⟩ := Option.map_eq_some_iff.1 hk
    refine ⟨(cur σ' l).2, ?_, cur_narrowed hl ha.store (List.mem_of_getElem? h3)⟩
    rw [ha.tokens, List.getElem?_map, h3]; rfl
  · have := ha.span
    unfold tokensSpan at this
    split at this
    · rename_i a b e1 e2
      simp only [Except.ok.injEq] at this
      exact ⟨a, b, e1, e2, this.symm⟩
    · simp at this

/-- on an untouched tree the verdict is that of the initial store -/
theorem prepareMatch_congr {A : Agreement} {tree : Tree P Token}
    (hnd : (tree.root.leaves.map Prod.fst).Nodup) {σ σ2 : Store}
    (h : tree.root.load σ = tree.root.load σ2) (x : Option (Match P)) :
    (∃ σ', prepareMatch A σ tree = .ok (x, σ')) → ∃ σ', prepareMatch A σ2 tree = .ok (x, σ') := by
  rintro ⟨σ', hx⟩
  have hne : tree.root.leaves ≠ [] := by
    intro he
    rw [prepareMatch_empty he] at hx; simp at hx
  obtain ⟨r0, h0, ho⟩ := prepareMatch_outcome (A := A) (σ := σ) hnd hne
  obtain ⟨r1, h1, ho1⟩ := prepareMatch_outcome (A := A) (σ := σ2) hnd hne
  rw [h0] at h1
  simp only [Option.some.injEq] at h1
  subst h1
  have he : r0.load σ = r0.load σ2 := by
    have e1 := prune_load σ tree.root
    have e2 := prune_load σ2 tree.root
    rw [h, e2, h0] at e1
    simpa using e1.symm
  rw [← he] at ho1
  rw [hx] at ho
  generalize hy : prepareMatch A σ2 tree = y at ho1
  cases ho with
  | rejected g1 g2 =>
    cases ho1 with
    | raised g3 => rw [g1] at g3; simp at g3
    | rejected g3 g4 => exact ⟨_, rfl⟩
    | accepted g3 g4 => rw [g1] at g3; cases g3; rw [g2] at g4; simp at g4
  | accepted g1 g2 _ _ gs =>
    cases ho1 with
    | raised g3 => rw [g1] at g3; simp at g3
    | rejected g3 g4 => rw [g1] at g3; cases g3; rw [g2] at g4; simp at g4
    | accepted g3 g4 _ _ gs' =>
      rw [g1] at g3; cases g3
      rw [gs] at gs'; cases gs'
      exact ⟨_, rfl⟩

/-! ### the loop of `prepare_resolved_matches` -/

/-- `Q` is kept by the loops -/
structure LoopInv (A : Agreement) (Q : Store → List (Tree P Token) → Prop) : Prop where
  skip : ∀ σ t ts, Q σ (t :: ts) → Q σ ts
  next : ∀ σ t ts x σ', Q σ (t :: ts) → prepareMatch A σ t = .ok (x, σ') → Q σ' ts

theorem collect_spec {A : Agreement} {Q : Store → List (Tree P Token) → Prop} (hQ : LoopInv A Q) :
    ∀ (ts : List (Tree P Token)) (σ : Store) (acc acc' : List ((Nat × Nat) × Match P)) (σ' : Store),
      Q σ ts → collectMatches A σ acc ts = .ok (acc', σ') →
      Q σ' [] ∧ ∃ new, acc' = acc ++ new ∧ (new.map Prod.fst).Sublist (ts.map Tree.range) ∧
        (∀ e ∈ new, e.1 ∉ acc.map Prod.fst) ∧ (new.map Prod.fst).Nodup ∧
        (∀ e ∈ new, ∃ pre t post σ1 σ2, ts = pre ++ t :: post ∧ t.range = e.1 ∧ Q σ1 (t :: post) ∧
          prepareMatch A σ1 t = .ok (some e.2, σ2) ∧
          ∀ t' ∈ pre, t'.range = e.1 → ∃ σ3 post' σ4, Q σ3 (t' :: post') ∧
            prepareMatch A σ3 t' = .ok (none, σ4)) ∧
        (∀ t ∈ ts, t.range ∈ acc'.map Prod.fst ∨ ∃ σ3 post' σ4, Q σ3 (t :: post') ∧
            prepareMatch A σ3 t = .ok (none, σ4)) := by
  intro ts
  induction ts with
  | nil =>
    intro σ acc acc' σ' hq h
    simp only [collectMatches, Except.ok.injEq, Prod.mk.injEq] at h
    obtain ⟨rfl, rfl⟩ := h
    exact ⟨hq, [], by simp, by simp, by simp, by simp, by simp, by simp⟩
  | cons t ts ih =>
    intro σ acc acc' σ' hq h
    simp only [collectMatches] at h
    split at h
    · rename_i hin
      rw [List.any_eq_true] at hin
      obtain ⟨e0, he0, her⟩ := hin
      simp only [beq_iff_eq] at her
      obtain ⟨a0, new, a1, a2, a3, a4, a5, a6⟩ := ih σ acc acc' σ' (hQ.skip _ _ _ hq) h
      refine ⟨a0, new, a1, a2.cons _, a3, a4, ?_, ?_⟩
      · intro e he
        obtain ⟨pre, t1, post, σ1, σ2, b1, b2, b3, b4, b5⟩ := a5 e he
        refine ⟨t :: pre, t1, post, σ1, σ2, by rw [b1]; rfl, b2, b3, b4, ?_⟩
        intro t' ht' hr
        rcases List.mem_cons.1 ht' with rfl | ht'
        · exact absurd (List.mem_map.2 ⟨e0, he0, her.trans hr⟩) (a3 e he)
        · exact b5 t' ht' hr
      · intro t' ht'
        rcases List.mem_cons.1 ht' with rfl | ht'
        · left; rw [a1, List.map_append]
          exact List.mem_append_left _ (List.mem_map.2 ⟨e0, he0, her⟩)
        · exact a6 t' ht'
    · rename_i hnin
      have hnk : t.range ∉ acc.map Prod.fst := by
        intro hh
        obtain ⟨e, he, her⟩ := List.mem_map.1 hh
        exact hnin (List.any_eq_true.2 ⟨e, he, by simp [her]⟩)
      cases hp : prepareMatch A σ t with
      | error e => rw [hp] at h; simp at h
      | ok r =>
        obtain ⟨x, σ1⟩ := r
        rw [hp] at h
        have hq1 := hQ.next _ _ _ _ _ hq hp
        cases x with
        | none =>
          simp only [] at h
          obtain ⟨a0, new, a1, a2, a3, a4, a5, a6⟩ := ih σ1 acc acc' σ' hq1 h
          refine ⟨a0, new, a1, a2.cons _, a3, a4, ?_, ?_⟩
          · intro e he
            obtain ⟨pre, t1, post, σ2, σ3, b1, b2, b3, b4, b5⟩ := a5 e he
            refine ⟨t :: pre, t1, post, σ2, σ3, by rw [b1]; rfl, b2, b3, b4, ?_⟩
            intro t' ht' hr
            rcases List.mem_cons.1 ht' with rfl | ht'
            · exact ⟨σ, ts, σ1, hq, hp⟩
            · exact b5 t' ht' hr
          · intro t' ht'
            rcases List.mem_cons.1 ht' with rfl | ht'
            · exact Or.inr ⟨σ, ts, σ1, hq, hp⟩
            · exact a6 t' ht'
        | some m =>
          simp only [] at h
          obtain ⟨a0, new, a1, a2, a3, a4, a5, a6⟩ := ih σ1 (acc ++ [(t.range, m)]) acc' σ' hq1 h
          have hfresh : ∀ e ∈ new, e.1 ∉ acc.map Prod.fst ∧ e.1 ≠ t.range := by
            intro e he
            have := a3 e he
            simp only [List.map_append, List.map_cons, List.map_nil, List.mem_append,
              List.mem_singleton, not_or] at this
            exact this
          refine ⟨a0, (t.range, m) :: new, by rw [a1]; simp, ?_, ?_, ?_, ?_, ?_⟩
          · simp only [List.map_cons]; exact a2.cons_cons _
          · intro e he
            rcases List.mem_cons.1 he with rfl | he
            · exact hnk
            · exact (hfresh e he).1
          · rw [List.map_cons, List.nodup_cons]
            refine ⟨?_, a4⟩
            intro hh
            obtain ⟨e, he, her⟩ := List.mem_map.1 hh
            exact (hfresh e he).2 her
          · intro e he
            rcases List.mem_cons.1 he with rfl | he1
            · exact ⟨[], t, ts, σ, σ1, rfl, rfl, hq, hp, by simp⟩
            · obtain ⟨pre, t1, post, σ2, σ3, b1, b2, b3, b4, b5⟩ := a5 e he1
              refine ⟨t :: pre, t1, post, σ2, σ3, by rw [b1]; rfl, b2, b3, b4, ?_⟩
              intro t' ht' hr
              rcases List.mem_cons.1 ht' with rfl | ht'
              · exact absurd hr.symm (hfresh e he1).2
              · exact b5 t' ht' hr
          · intro t' ht'
            rcases List.mem_cons.1 ht' with rfl | ht'
            · left; rw [a1]; simp
            · exact a6 t' ht'

/-! ### the loop of `prepare_matches` -/

theorem prepareMatches_spec {A : Agreement} {Q : Store → List (Tree P Token) → Prop} (hQ : LoopInv A Q) :
    ∀ (ts : List (Tree P Token)) (σ : Store), Q σ ts →
      ∃ picks : List (Tree P Token × Match P), picks.map Prod.snd = (prepareMatches A σ ts).1 ∧
        (picks.map Prod.fst).Sublist ts ∧
        (∀ e ∈ picks, ∃ post σ1 σ2, Q σ1 (e.1 :: post) ∧ prepareMatch A σ1 e.1 = .ok (some e.2, σ2)) ∧
        (∃ rest, Q (prepareMatches A σ ts).2.1 rest ∧ ((prepareMatches A σ ts).2.2 = none → rest = [])) ∧
        ((prepareMatches A σ ts).2.2 = none → ∀ t ∈ ts, t ∈ picks.map Prod.fst ∨
          ∃ σ1 post σ2, Q σ1 (t :: post) ∧ prepareMatch A σ1 t = .ok (none, σ2)) := by
  intro ts
  induction ts with
  | nil => intro σ hq; exact ⟨[], rfl, by simp, by simp, ⟨[], hq, fun _ => rfl⟩, by simp⟩
  | cons t ts ih =>
    intro σ hq
    simp only [prepareMatches]
    cases hp : prepareMatch A σ t with
    | error e => exact ⟨[], rfl, by simp, by simp, ⟨_, hq, by simp⟩, by simp⟩
    | ok r =>
      obtain ⟨x, σ1⟩ := r
      have hq1 := hQ.next _ _ _ _ _ hq hp
      obtain ⟨picks, h1, h2, h3, h4, h5⟩ := ih σ1 hq1
      cases x with
      | none =>
        refine ⟨picks, h1, h2.cons _, h3, h4, ?_⟩
        intro he t' ht'
        rcases List.mem_cons.1 ht' with rfl | ht'
        · exact Or.inr ⟨σ, ts, σ1, hq, hp⟩
        · exact h5 he t' ht'
      | some m =>
        refine ⟨(t, m) :: picks, by simp [h1], h2.cons_cons _, ?_, h4, ?_⟩
        · intro e he
          rcases List.mem_cons.1 he with rfl | he
          · exact ⟨ts, σ, σ1, hq, hp⟩
          · exact h3 e he
        · intro he t' ht'
          rcases List.mem_cons.1 ht' with rfl | ht'
          · left; simp
          · rcases h5 he t' ht' with h6 | h6
            · left; exact List.mem_cons_of_mem _ h6
            · exact Or.inr h6

/-! ### the loop of `match` -/

theorem firstMatch_spec {A : Agreement} : ∀ (ts : List (Tree P Token)) (σ : Store)
    (x : Option (Match P)) (σ' : Store),
    (∀ t ∈ ts, (t.root.leaves.map Prod.fst).Nodup) → firstMatch A σ ts = .ok (x, σ') →
    match x with
    | none => ∀ t ∈ ts, ∃ σ', prepareMatch A σ t = .ok (none, σ')
    | some m => ∃ pre t post, ts = pre ++ t :: post ∧ prepareMatch A σ t = .ok (some m, σ') ∧
        ∀ t' ∈ pre, ∃ σ', prepareMatch A σ t' = .ok (none, σ') := by
  intro ts
  induction ts with
  | nil =>
    intro σ x σ' _ h
    simp only [firstMatch, Except.ok.injEq, Prod.mk.injEq] at h
    obtain ⟨rfl, rfl⟩ := h; simp
  | cons t ts ih =>
    intro σ x σ' hnd h
    simp only [firstMatch] at h
    cases hp : prepareMatch A σ t with
    | error e => rw [hp] at h; simp at h
    | ok r =>
      obtain ⟨y, σ1⟩ := r
      rw [hp] at h
      cases y with
      | none =>
        simp only [] at h
        have := prepareMatch_rejected (hnd t List.mem_cons_self) hp
        subst this
        have hi := ih σ1 x σ' (fun t' ht' => hnd t' (List.mem_cons_of_mem _ ht')) h
        cases x with
        | none =>
          intro t' ht'
          rcases List.mem_cons.1 ht' with rfl | ht'
          · exact ⟨_, hp⟩
          · exact hi t' ht'
        | some m =>
          obtain ⟨pre, t1, post, h1, h2, h3⟩ := hi
          refine ⟨t :: pre, t1, post, by rw [h1]; rfl, h2, ?_⟩
          intro t' ht'
          rcases List.mem_cons.1 ht' with rfl | ht'
          · exact ⟨_, hp⟩
          · exact h3 t' ht'
      | some m =>
        simp only [Except.ok.injEq, Prod.mk.injEq] at h
        obtain ⟨rfl, rfl⟩ := h
        exact ⟨[], t, ts, rfl, hp, by simp⟩

/-! ### loop invariants -/

/-- all stores are good -/
theorem loopInv_ok (A : Agreement) (home : Home P Token) (n : Nat) :
    LoopInv A (fun σ ts => StoreOK home σ ∧ ∀ t ∈ ts, Laid home n t) := by
  refine ⟨?_, ?_⟩
  · rintro σ t ts ⟨h1, h2⟩
    exact ⟨h1, fun t' ht' => h2 t' (List.mem_cons_of_mem _ ht')⟩
  · rintro σ t ts x σ' ⟨h1, h2⟩ hp
    refine ⟨?_, fun t' ht' => h2 t' (List.mem_cons_of_mem _ ht')⟩
    cases x with
    | none =>
      rw [prepareMatch_rejected (layout_nodup (h2 t List.mem_cons_self)) hp]; exact h1
    | some m => exact (prepareMatch_accepted (h2 t List.mem_cons_self) h1 hp).store

/-! ### trees that leave each other alone -/

theorem related_load {A : Agreement} {σ : Store} {t : TTree P} {rel l : Nat} :
    (∃ w, Related A (t.load σ) rel l w) ↔ ∃ w, Related A t rel l w := by
  constructor
  · rintro ⟨w, n, r, prod, rank, cs, h1, h2, h3⟩
    obtain ⟨x0, h4, h5⟩ := sub_load.1 h1
    cases x0 with
    | leaf a b c => simp [PTree.load] at h5
    | node n' r' prod' rank' cs' =>
      rw [h5] at h3
      obtain ⟨w0, h6, _⟩ := head_load.1 h3
      simp only [PTree.load, PTree.node.injEq] at h5
      refine ⟨w0, n', r', prod', rank', cs', h4, ?_, h6⟩
      rw [← h5.2.1]; exact h2
  · rintro ⟨w, n, r, prod, rank, cs, h1, h2, h3⟩
    refine ⟨(σ l).getD w, n, r, prod, rank, loadAll σ cs, ?_, h2, ?_⟩
    · exact sub_load.2 ⟨_, h1, rfl⟩
    · exact (head_load (t := .node n r prod rank cs)).2 ⟨w, h3, rfl⟩

theorem accepted_untouched {A : Agreement} {tree : Tree P Token}
    (hnd : (tree.root.leaves.map Prod.fst).Nodup) {σ σ' : Store} {m : Match P}
    (h : prepareMatch A σ tree = .ok (some m, σ')) {r0 : TTree P} (h0 : tree.root.prune = some r0)
    {l : Nat × Token} (hl : l ∈ tree.root.leaves) (hn : ∀ rel w, ¬ Related A r0 rel l.1 w) :
    σ' l.1 = some (cur σ l).2 := by
  have hne : tree.root.leaves ≠ [] := by
    intro he
    rw [prepareMatch_empty he] at h; simp at h
  obtain ⟨r1, h1, ho⟩ := prepareMatch_outcome (A := A) (σ := σ) hnd hne
  rw [h0] at h1
  simp only [Option.some.injEq] at h1
  subst h1
  have hlv : (r0.load σ).leaves = tree.root.leaves.map (cur σ) := by
    rw [leaves_load, prune_leaves_some h0]
  have hids : ((r0.load σ).leaves.map Prod.fst).Nodup := by
    rw [hlv, List.map_map]
    exact hnd
  rw [h] at ho
  cases ho with
  | @accepted g _ span hr hv k1 k2 k3 =>
    obtain ⟨g1, g2, g3, _⟩ := treeRelations_ok hids hr
    have := k1 (cur σ l) (by rw [hlv]; exact List.mem_map.2 ⟨l, hl, rfl⟩)
    rw [show l.1 = (cur σ l).1 from rfl, this]
    unfold newTok
    split
    · rename_i hin
      exfalso
      obtain ⟨e, he, hw⟩ := (g2 _).1 hin
      have := (g3 e.1 (cur σ l).1).1 ⟨e, he, rfl, hw⟩
      obtain ⟨w, hw⟩ := related_load.1 this
      exact hn e.1 w hw
    · rfl

/-- no related word of `t` belongs to `t'` -/
def LeavesAlone (A : Agreement) (t t' : Tree P Token) : Prop :=
  ∀ r0, t.root.prune = some r0 → ∀ rel l w, Related A r0 rel l w →
    l ∉ t'.root.leaves.map Prod.fst

def AloneInv (A : Agreement) (home : Home P Token) (n : Nat) (σ : Store) (ts : List (Tree P Token)) : Prop :=
  StoreOK home σ ∧ (∀ t ∈ ts, Laid home n t) ∧ ts.Pairwise (LeavesAlone A) ∧
    ∀ t ∈ ts, t.root.load σ = t.root

theorem loopInv_alone (A : Agreement) (home : Home P Token) (n : Nat) :
    LoopInv A (AloneInv A home n) := by
  refine ⟨?_, ?_⟩
  · rintro σ t ts ⟨h1, h2, h3, h4⟩
    exact ⟨h1, fun t' ht' => h2 t' (List.mem_cons_of_mem _ ht'), (List.pairwise_cons.1 h3).2,
      fun t' ht' => h4 t' (List.mem_cons_of_mem _ ht')⟩
  · rintro σ t ts x σ' ⟨h1, h2, h3, h4⟩ hp
    rw [List.pairwise_cons] at h3
    have hl := h2 t List.mem_cons_self
    cases x with
    | none =>
      rw [prepareMatch_rejected (layout_nodup hl) hp]
      exact ⟨h1, fun t' ht' => h2 t' (List.mem_cons_of_mem _ ht'), h3.2,
        fun t' ht' => h4 t' (List.mem_cons_of_mem _ ht')⟩
    | some m =>
      have ha := prepareMatch_accepted hl h1 hp
      obtain ⟨r0, h0, _⟩ := ha.root
      refine ⟨ha.store, fun t' ht' => h2 t' (List.mem_cons_of_mem _ ht'), h3.2, ?_⟩
      intro t' ht'
      have e := h4 t' (List.mem_cons_of_mem _ ht')
      rw [← load_init t'.root, load_init t'.root]
      conv => rhs; rw [← e]
      refine load_congr _ ?_
      intro l hl'
      by_cases hin : l.1 ∈ t.root.leaves.map Prod.fst
      · obtain ⟨l0, hl0, he0⟩ := List.mem_map.1 hin
        have hle : l0 = l := by
          obtain ⟨m0, hm0⟩ := List.getElem?_of_mem hl0
          obtain ⟨p, hp0⟩ := (layout_leaves hl).2.2 m0 l0 hm0
          obtain ⟨m1, hm1⟩ := List.getElem?_of_mem hl'
          obtain ⟨q, hq0⟩ := (layout_leaves (h2 t' (List.mem_cons_of_mem _ ht'))).2.2 m1 l hm1
          rw [he0, hq0] at hp0
          simp only [Option.some.injEq, Prod.mk.injEq] at hp0
          exact Prod.ext he0 hp0.2.2.symm
        subst hle
        have := accepted_untouched (layout_nodup hl) hp h0 hl0 (fun rel w hr =>
          h3.1 t' ht' r0 h0 rel _ w hr (List.mem_map.2 ⟨l0, hl', rfl⟩))
        simp [cur, this]
      · simp only [cur, ha.others _ hin]

/-! ### when nothing raises -/

theorem headsOK_load {A : Agreement} {σ : Store} {t : TTree P}
    (h : ∀ l ∈ t.leaves, Narrowed l.2 (cur σ l).2) : HeadsOK A (t.load σ) ↔ HeadsOK A t := by
  have key : ∀ x0 : TTree P, Sub x0 t → ∀ l w0, HeadOf x0 l w0 →
      (((σ l).getD w0).forms = none ↔ w0.forms = none) := by
    intro x0 hs l w0 hh
    exact (h (l, w0) (sub_leaves hs _ (head_mem hh))).forms_none
  constructor
  · intro hk n r prod rank cs hs hr
    obtain ⟨l, w, fs, h1, h2⟩ := hk n r prod rank (loadAll σ cs) (sub_load.2 ⟨_, hs, rfl⟩) hr
    obtain ⟨w0, h3, rfl⟩ := (head_load (t := .node n r prod rank cs)).1 h1
    cases hw : w0.forms with
    | none => rw [(key _ hs l w0 h3).2 hw] at h2; simp at h2
    | some fs' => exact ⟨l, w0, fs', h3, hw⟩
  · intro hk n r prod rank cs hs hr
    obtain ⟨x0, h4, h5⟩ := sub_load.1 hs
    cases x0 with
    | leaf a b c => simp [PTree.load] at h5
    | node n' r' prod' rank' cs' =>
      have h5' := h5
      simp only [PTree.load, PTree.node.injEq] at h5
      rw [h5.2.1] at hr
      obtain ⟨l, w0, fs, h1, h2⟩ := hk _ _ _ _ _ h4 hr
      refine ⟨l, (σ l).getD w0, ?_⟩
      cases hw : ((σ l).getD w0).forms with
      | none => rw [(key _ h4 l w0 h1).1 hw] at h2; simp at h2
      | some fs' =>
        refine ⟨fs', ?_, rfl⟩
        rw [h5']
        exact head_load.2 ⟨w0, h1, rfl⟩

theorem prepareMatch_total {A : Agreement} {home : Home P Token} {n : Nat} {tree : Tree P Token}
    (hl : Laid home n tree) {σ : Store} (hσ : StoreOK home σ) :
    (∃ x, prepareMatch A σ tree = .ok x) ↔ Checkable A tree := by
  have hnd := layout_nodup hl
  constructor
  · rintro ⟨x, hx⟩
    have hne : tree.root.leaves ≠ [] := by
      intro he
      rw [prepareMatch_empty he] at hx; simp at hx
    obtain ⟨r0, h0, ho⟩ := prepareMatch_outcome (A := A) (σ := σ) hnd hne
    refine ⟨r0, h0, ?_⟩
    rw [← headsOK_load (σ := σ) (fun l h => cur_narrowed hl hσ (by rwa [prune_leaves_some h0] at h)),
      ← treeRelations_ok_iff]
    rw [hx] at ho
    cases ho with
    | rejected h1 => exact ⟨_, h1⟩
    | accepted h1 => exact ⟨_, h1⟩
  · rintro ⟨r0, h0, hh⟩
    have hne : tree.root.leaves ≠ [] := by
      intro he; rw [(prune_none_iff _).2 he] at h0; simp at h0
    obtain ⟨r1, h1, ho⟩ := prepareMatch_outcome (A := A) (σ := σ) hnd hne
    rw [h0] at h1
    simp only [Option.some.injEq] at h1
    subst h1
    rw [← headsOK_load (σ := σ) (fun l h => cur_narrowed hl hσ (by rwa [prune_leaves_some h0] at h)),
      ← treeRelations_ok_iff] at hh
    obtain ⟨g, hg⟩ := hh
    generalize prepareMatch A σ tree = y at ho
    cases ho with
    | raised h2 => rw [hg] at h2; simp at h2
    | rejected => exact ⟨_, rfl⟩
    | accepted => exact ⟨_, rfl⟩

theorem collect_total {A : Agreement} {home : Home P Token} {n : Nat} :
    ∀ (ts : List (Tree P Token)) (σ : Store) (acc : List ((Nat × Nat) × Match P)),
      StoreOK home σ → (∀ t ∈ ts, Laid home n t) → (∀ t ∈ ts, Checkable A t) →
      ∃ x, collectMatches A σ acc ts = .ok x := by
  intro ts
  induction ts with
  | nil => intro σ acc _ _ _; exact ⟨_, rfl⟩
  | cons t ts ih =>
    intro σ acc hσ hl hc
    simp only [collectMatches]
    split
    · exact ih _ _ hσ (fun t' ht' => hl t' (List.mem_cons_of_mem _ ht'))
        (fun t' ht' => hc t' (List.mem_cons_of_mem _ ht'))
    · obtain ⟨⟨x, σ1⟩, hx⟩ := (prepareMatch_total (hl t List.mem_cons_self) hσ).2 (hc t List.mem_cons_self)
      have hn := (loopInv_ok A home n).next σ t ts x σ1 ⟨hσ, hl⟩ hx
      rw [hx]
      cases x with
      | none => exact ih _ _ hn.1 hn.2 (fun t' ht' => hc t' (List.mem_cons_of_mem _ ht'))
      | some m => exact ih _ _ hn.1 hn.2 (fun t' ht' => hc t' (List.mem_cons_of_mem _ ht'))

theorem firstMatch_total {A : Agreement} {home : Home P Token} {n : Nat} :
    ∀ (ts : List (Tree P Token)) (σ : Store),
      StoreOK home σ → (∀ t ∈ ts, Laid home n t) → (∀ t ∈ ts, Checkable A t) →
      ∃ x, firstMatch A σ ts = .ok x := by
  intro ts
  induction ts with
  | nil => intro σ _ _ _; exact ⟨_, rfl⟩
  | cons t ts ih =>
    intro σ hσ hl hc
    simp only [firstMatch]
    obtain ⟨⟨x, σ1⟩, hx⟩ := (prepareMatch_total (hl t List.mem_cons_self) hσ).2 (hc t List.mem_cons_self)
    have hn := (loopInv_ok A home n).next σ t ts x σ1 ⟨hσ, hl⟩ hx
    rw [hx]
    cases x with
    | none => exact ih _ hn.1 hn.2 (fun t' ht' => hc t' (List.mem_cons_of_mem _ ht'))
    | some m => exact ⟨_, rfl⟩

theorem prepareMatches_total {A : Agreement} {home : Home P Token} {n : Nat} :
    ∀ (ts : List (Tree P Token)) (σ : Store),
      StoreOK home σ → (∀ t ∈ ts, Laid home n t) → (∀ t ∈ ts, Checkable A t) →
      (prepareMatches A σ ts).2.2 = none := by
  intro ts
  induction ts with
  | nil => intro σ _ _ _; rfl
  | cons t ts ih =>
    intro σ hσ hl hc
    simp only [prepareMatches]
    obtain ⟨⟨x, σ1⟩, hx⟩ := (prepareMatch_total (hl t List.mem_cons_self) hσ).2 (hc t List.mem_cons_self)
    have hn := (loopInv_ok A home n).next σ t ts x σ1 ⟨hσ, hl⟩ hx
    rw [hx]
    cases x with
    | none => exact ih _ hn.1 hn.2 (fun t' ht' => hc t' (List.mem_cons_of_mem _ ht'))
    | some m => exact ih _ hn.1 hn.2 (fun t' ht' => hc t' (List.mem_cons_of_mem _ ht'))

end Yargy
