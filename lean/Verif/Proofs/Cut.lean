import Verif.Proofs.TwinCompile
import Verif.Properties.Addresses
import Verif.Proofs.Keeps
/-!
Objects that are not part of a rule do not matter for compiling it: they may be thought away.
-/
namespace Yargy
open Twins

variable {P : Type} {k : Kind} {A : Activation P}

theorem opens_children {o : Obj P} {us : List (Term P)} (hs : Opens A o us) :
    ∀ a, Term.rule a ∈ us → a ∈ o.children := by
  intro a ha
  cases hs with
  | @prod ts us m h =>
    show a ∈ termRules ts
    rw [← activated_rules h]
    exact termRules_mem.2 ha
  | line => obtain ⟨_, _, e⟩ := List.mem_map.1 ha; cases e
  | other _ h => exact spells_children h a ha

/-- Heaps that agree on a set of objects closed under parts give the same words. -/
theorem says_agree {D : Nat → Prop} {h g : Heap P} (hget : ∀ a, D a → g[a]? = h[a]?)
    (hclosed : ∀ (a : Nat) o, D a → h[a]? = some o → ∀ c ∈ o.children, D c) {ts : List (Term P)}
    {w : List (Sym P)} (s : Says k h ts w) : (∀ r, .rule r ∈ ts → D r) → Says k g ts w := by
  induction s with
  | nil => intro _; exact .nil
  | pred _ ih => intro hr; exact .pred (ih fun r h => hr r (List.mem_cons_of_mem _ h))
  | @rule a o us ts w v ho hs _ _ ih1 ih2 =>
    intro hr
    have hD := hr a List.mem_cons_self
    exact .rule ((hget a hD).trans ho) hs
      (ih1 fun r h => hclosed a o hD ho r (spells_children hs r h))
      (ih2 fun r h => hr r (List.mem_cons_of_mem _ h))

theorem reads_agree {D : Nat → Prop} {h g : Heap P} (hget : ∀ a, D a → g[a]? = h[a]?)
    (hclosed : ∀ (a : Nat) o, D a → h[a]? = some o → ∀ c ∈ o.children, D c) {ts : List (Term P)}
    {w : List (Sym P)} (s : Reads A k h ts w) : (∀ r, .rule r ∈ ts → D r) → Reads A k g ts w := by
  induction s with
  | nil => intro _; exact .nil
  | pred _ ih => intro hr; exact .pred (ih fun r h => hr r (List.mem_cons_of_mem _ h))
  | @rule a o us ts w v ho hs _ _ ih1 ih2 =>
    intro hr
    have hD := hr a List.mem_cons_self
    exact .rule ((hget a hD).trans ho) hs
      (ih1 fun r h => hclosed a o hD ho r (opens_children hs r h))
      (ih2 fun r h => hr r (List.mem_cons_of_mem _ h))

theorem words_agree {D : Nat → Prop} {h g : Heap P} (hget : ∀ a, D a → g[a]? = h[a]?)
    (hclosed : ∀ (a : Nat) o, D a → h[a]? = some o → ∀ c ∈ o.children, D c) {r : Nat} (hr : D r)
    (w : List (Sym P)) : Words k g r w ↔ Words k h r w := by
  constructor
  · intro s
    exact says_agree (h := g) (g := h) (D := D) (fun a ha => (hget a ha).symm)
      (fun a o ha ho => hclosed a o ha (hget a ha ▸ ho)) s (by simpa using hr)
  · intro s
    exact says_agree hget hclosed s (by simpa using hr)

theorem rule_reads_agree {D : Nat → Prop} {h g : Heap P} (hget : ∀ a, D a → g[a]? = h[a]?)
    (hclosed : ∀ (a : Nat) o, D a → h[a]? = some o → ∀ c ∈ o.children, D c) {r : Nat} (hr : D r)
    (w : List (Sym P)) : Reads A k g [.rule r] w ↔ Reads A k h [.rule r] w := by
  constructor
  · intro s
    exact reads_agree (h := g) (g := h) (D := D) (fun a ha => (hget a ha).symm)
      (fun a o ha ho => hclosed a o ha (hget a ha ▸ ho)) s (by simpa using hr)
  · intro s
    exact reads_agree hget hclosed s (by simpa using hr)

/-- The heap with everything but the objects of a rule thought away. -/
def cutAway (h : Heap P) (root : Nat) : Heap P :=
  h.mapIdx (fun a o => if a ∈ walk id h root then o else .or [])

theorem cutAway_length (h : Heap P) (root : Nat) : (cutAway h root).length = h.length := by simp [cutAway]

section
variable {h : Heap P} {root : Nat}

theorem cutAway_reach (hc : ClosedHeap h) (hl : root < h.length) {a : Nat} (ha : Reach h root a) :
    (cutAway h root)[a]? = h[a]? := by
  unfold cutAway
  rw [List.getElem?_mapIdx]
  have := (reach_iff (pid := id) (fun _ _ h => h) hc hl a).2 ha
  simp only [this, if_true]
  cases h[a]? <;> rfl

theorem cutAway_back (hc : ClosedHeap h) (hl : root < h.length) {a : Nat} {o : Obj P}
    (e : (cutAway h root)[a]? = some o) : o = .or [] ∨ (h[a]? = some o ∧ Reach h root a) := by
  unfold cutAway at e
  rw [List.getElem?_mapIdx] at e
  obtain ⟨o', h1, h2⟩ := Option.map_eq_some_iff.1 e
  split at h2
  · rename_i hm
    exact .inr ⟨h2 ▸ h1, (reach_iff (pid := id) (fun _ _ h => h) hc hl a).1 hm⟩
  · exact .inl h2.symm

theorem cutAway_prod (hs : Sorted h) (hl : root < h.length) {a : Nat} (ha : Reach h root a) :
    isProdAt (cutAway h root) a = isProdAt h a := by
  unfold isProdAt
  rw [cutAway_reach hs.closed hl ha]

theorem cutAway_sorted (hs : Sorted h) (hl : root < h.length) : Sorted (cutAway h root) := by
  intro a o e c hc
  rcases cutAway_back hs.closed hl e with rfl | ⟨h1, h2⟩
  · cases hc
  · obtain ⟨k1, k2⟩ := hs a o h1 c hc
    rw [cutAway_length, cutAway_prod hs hl (.step h2 h1 hc)]
    exact ⟨k1, k2⟩

/-- What is kept, and what will be made. -/
def cutMap (h : Heap P) (root : Nat) : Map where
  f := id
  D a := Reach h root a ∨ h.length ≤ a
  inj _ _ _ _ e := e

theorem rename_id' (o : Obj P) : o.rename id = o := by
  have terms : ∀ ts : List (Term P), ts.map (Term.rename id) = ts := by
    intro ts
    have : (Term.rename id : Term P → Term P) = id := by funext t; cases t <;> rfl
    rw [this, List.map_id]
  cases o with
  | prod ts m => simp only [Obj.rename, terms]
  | _ => simp [Obj.rename]

theorem cutAway_twin (hs : Sorted h) (hl : root < h.length) : Twin (cutMap h root) h (cutAway h root) where
  get a ha := by
    have : (Obj.rename (cutMap h root).f : Obj P → Obj P) = id := by funext o; exact rename_id' o
    rw [this, Option.map_id]
    show (cutAway h root)[a]? = h[a]?
    rcases ha with ha | ha
    · exact cutAway_reach hs.closed hl ha
    · rw [List.getElem?_eq_none ha, List.getElem?_eq_none (by rw [cutAway_length]; exact ha)]
  closed a o ha ho c hc := by
    rcases ha with ha | ha
    · exact .inl (.step ha ho hc)
    · rw [List.getElem?_eq_none ha] at ho; cases ho
  fresh n := ⟨.inr (Nat.le_add_right _ _), by rw [cutAway_length]; rfl⟩

/-- Compiling in the cut heap gives the same objects. -/
theorem compileRule_same {pid : Nat → Nat} (hp : ∀ a b, pid a = pid b → a = b) {limit b : Nat} {h' : Heap P}
    (hs : Sorted h) (hl : root < h.length) (hr : isProdAt h root = false)
    (e : compileRule A pid limit root h = .ok (b, h')) :
    ∃ g, compileRule A pid limit root (cutAway h root) = .ok (b, g) ∧ (cutMap h root).D b ∧
      (∀ a, (cutMap h root).D a → g[a]? = h'[a]?) ∧
      (∀ (a : Nat) o, (cutMap h root).D a → h'[a]? = some o → ∀ c ∈ o.children, (cutMap h root).D c) := by
  have hid : ∀ a b : Nat, id a = id b → a = b := fun _ _ h => h
  rw [addresses_irrelevant_partial hp hid] at e ⊢
  have T := compileRule_twin (F := cutMap h root) A limit hs hl hr (.inl .root) (cutAway_twin hs hl)
  rw [e] at T
  have hroot : (cutMap h root).f root = root := rfl
  rw [hroot] at T
  generalize compileRule A id limit root (cutAway h root) = y at T
  cases T with
  | @ok _ _ g hD T =>
    refine ⟨g, rfl, hD, ?_, T.closed⟩
    intro a ha
    have := T.get a ha
    have e : (Obj.rename (cutMap h root).f : Obj P → Obj P) = id := by funext o; exact rename_id' o
    rw [e, Option.map_id] at this
    exact this

/-- Compiling in the cut heap gives the same words. -/
theorem compileRule_cut {pid : Nat → Nat} (hp : ∀ a b, pid a = pid b → a = b) {limit b : Nat} {h' : Heap P}
    (hs : Sorted h) (hl : root < h.length) (hr : isProdAt h root = false)
    (e : compileRule A pid limit root h = .ok (b, h')) :
    ∃ g, compileRule A pid limit root (cutAway h root) = .ok (b, g) ∧
      (∀ w, Words k g b w ↔ Words k h' b w) ∧
      ∀ w, Reads A k (cutAway h root) [.rule root] w ↔ Reads A k h [.rule root] w := by
  have hid : ∀ a b : Nat, id a = id b → a = b := fun _ _ h => h
  rw [addresses_irrelevant_partial hp hid] at e ⊢
  have T := compileRule_twin (F := cutMap h root) A limit hs hl hr (.inl .root) (cutAway_twin hs hl)
  rw [e] at T
  have hreads : ∀ w, Reads A k (cutAway h root) [.rule root] w ↔ Reads A k h [.rule root] w :=
    rule_reads_agree (D := Reach h root) (fun a ha => cutAway_reach hs.closed hl ha)
      (fun a o ha ho c hc => .step ha ho hc) .root
  have hroot : (cutMap h root).f root = root := rfl
  rw [hroot] at T
  generalize compileRule A id limit root (cutAway h root) = y at T
  cases T with
  | @ok _ _ g hD T =>
    refine ⟨g, rfl, ?_, hreads⟩
    have hget : ∀ a, (cutMap h root).D a → g[a]? = h'[a]? := by
      intro a ha
      have := T.get a ha
      have e : (Obj.rename (cutMap h root).f : Obj P → Obj P) = id := by funext o; exact rename_id' o
      rw [e, Option.map_id] at this
      exact this
    exact words_agree hget T.closed hD

/-! ### Calm repetitions -/

theorem cutAway_demands (hc : ClosedHeap h) (hl : root < h.length) {a : Nat} (d : Demands (cutAway h root) a) :
    Demands h a := by
  induction d with
  | min e h2 => exact .min ((cutAway_back hc hl e).resolve_left (fun h => nomatch h)).1 h2
  | minMax e h2 => exact .minMax ((cutAway_back hc hl e).resolve_left (fun h => nomatch h)).1 h2
  | optional e _ ih => exact .optional ((cutAway_back hc hl e).resolve_left (fun h => nomatch h)).1 ih
  | repeatable e _ ih => exact .repeatable ((cutAway_back hc hl e).resolve_left (fun h => nomatch h)).1 ih
  | repOptional e _ ih => exact .repOptional ((cutAway_back hc hl e).resolve_left (fun h => nomatch h)).1 ih
  | minBounded e _ ih => exact .minBounded ((cutAway_back hc hl e).resolve_left (fun h => nomatch h)).1 ih
  | maxBounded e _ ih => exact .maxBounded ((cutAway_back hc hl e).resolve_left (fun h => nomatch h)).1 ih
  | minMaxBounded e _ ih =>
    exact .minMaxBounded ((cutAway_back hc hl e).resolve_left (fun h => nomatch h)).1 ih

theorem cutAway_loose (hc : ClosedHeap h) (hl : root < h.length) {a : Nat} (d : Loose (cutAway h root) a) :
    Loose h a := by
  induction d with
  | optional e => exact .optional ((cutAway_back hc hl e).resolve_left (fun h => nomatch h)).1
  | repeatable e => exact .repeatable ((cutAway_back hc hl e).resolve_left (fun h => nomatch h)).1
  | repOptional e => exact .repOptional ((cutAway_back hc hl e).resolve_left (fun h => nomatch h)).1
  | minBounded e _ ih => exact .minBounded ((cutAway_back hc hl e).resolve_left (fun h => nomatch h)).1 ih
  | maxBounded e _ ih => exact .maxBounded ((cutAway_back hc hl e).resolve_left (fun h => nomatch h)).1 ih
  | minMaxBounded e _ ih =>
    exact .minMaxBounded ((cutAway_back hc hl e).resolve_left (fun h => nomatch h)).1 ih

/-- What holds of the objects of the rule holds everywhere in the cut heap. -/
theorem cutAway_all {Q : Obj P → Prop} (hc : ClosedHeap h) (hl : root < h.length) (he : Q (.or []))
    (hQ : ∀ (x : Nat) o, Reach h root x → h[x]? = some o → Q o) : ∀ o ∈ cutAway h root, Q o := by
  intro o ho
  obtain ⟨a, ha⟩ := List.mem_iff_getElem?.1 ho
  rcases cutAway_back hc hl ha with rfl | ⟨h1, h2⟩
  · exact he
  · exact hQ a o h2 h1

/-- What holds of the objects of a rule and is stable holds of the objects of the compiled rule. -/
theorem compileRule_kept {Q : Obj P → Prop} (hq : Stable Q) {pid : Nat → Nat} (hp : ∀ a b, pid a = pid b → a = b)
    {limit b : Nat} {h' : Heap P} (hs : Sorted h) (hl : root < h.length) (hr : isProdAt h root = false)
    (e : compileRule A pid limit root h = .ok (b, h'))
    (hQ : ∀ (x : Nat) o, Reach h root x → h[x]? = some o → Q o) :
    ∀ (x : Nat) o, Reach h' b x → h'[x]? = some o → Q o := by
  obtain ⟨g, e', hD, hget, hcl⟩ := compileRule_same hp hs hl hr e
  have hk := compileRule_keeps hq e' (cutAway_all hs.closed hl (hq.or _) hQ)
  intro x o hx hox
  have : (cutMap h root).D x := by
    clear hox
    induction hx with
    | root => exact hD
    | step _ hu hc ih => exact hcl _ _ ih hu _ hc
  exact hk o (List.mem_of_getElem? ((hget x this).trans hox))

theorem cutAway_calm (hc : ClosedHeap h) (hl : root < h.length)
    (hb : ∀ (x : Nat) o, Reach h root x → h[x]? = some o → o.bounds)
    (hcalm : ∀ (x : Nat) o, Reach h root x → h[x]? = some o → o.calm h) : Calm (cutAway h root) where
  bounds := cutAway_all hc hl trivial hb
  calm := by
    refine cutAway_all hc hl trivial (fun x o hx ho => ?_)
    have := hcalm x o hx ho
    cases o <;> first | trivial | skip
    · exact fun d => this (cutAway_demands hc hl d)
    · exact fun d => this (cutAway_demands hc hl d)
    · exact fun h2 d => this h2 (cutAway_loose hc hl d)
    · exact fun h2 d => this h2 (cutAway_loose hc hl d)

end
end Yargy
