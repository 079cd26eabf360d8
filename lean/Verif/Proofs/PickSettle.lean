import Verif.Proofs.PickSquash
import Verif.Proofs.FramePasses
/-!
What squashing quantifiers on quantifiers does to the words with choices.
-/
namespace Yargy.Pick

variable {P : Type} {h : Heap P} {root : Nat}

/-! ### Reading quantifiers on quantifiers -/

theorem settled_cases (h : Heap P) (o : Obj P) : o.settled h = o ∨
    ∃ (c : Nat) (q o1 : Obj P), o.repeats = some c ∧ h[c]? = some q ∧ o.on q = some o1 ∧ o.settled h = o1 := by
  unfold Obj.settled
  cases hr : o.repeats with
  | none => exact .inl rfl
  | some c =>
    cases hq : h[c]? with
    | none => left; simp [hq]
    | some q =>
      cases hon : o.on q with
      | none => left; simp [hq, hon]
      | some o1 => right; exact ⟨c, q, o1, rfl, hq, hon, by simp [hq, hon]⟩

theorem settled_on {o q o1 : Obj P} {c : Nat} (hr : o.repeats = some c) (hq : h[c]? = some q)
    (hon : o.on q = some o1) : o.settled h = o1 := by
  unfold Obj.settled
  simp [hr, hq, hon]

theorem settled_plain {o : Obj P} (ho : o.quant = false) : o.settled h = o := by
  unfold Obj.settled
  rw [repeats_none.2 ho]
  rfl

theorem settled_quant (o : Obj P) : (o.settled h).quant = o.quant := by
  rcases settled_cases h o with e | ⟨c, q, o1, _, _, h3, e⟩
  · rw [e]
  · rw [e, (on_quant h3).1, (on_quant h3).2.1]

theorem settle_get (a : Nat) : (settle h)[a]? = (h[a]?).map (Obj.settled h) := by
  unfold settle; rw [List.getElem?_map]

theorem settle_some {a : Nat} {o : Obj P} (ho : h[a]? = some o) : (settle h)[a]? = some (o.settled h) := by
  rw [settle_get, ho]; rfl

theorem settle_back {a : Nat} {o : Obj P} (ho : (settle h)[a]? = some o) :
    ∃ o', h[a]? = some o' ∧ o'.settled h = o := by
  rw [settle_get] at ho
  exact Option.map_eq_some_iff.1 ho

theorem settle_length : (settle h).length = h.length := List.length_map ..

theorem quant_children {o : Obj P} {c : Nat} (hr : o.repeats = some c) : o.children = [c] := by
  cases o <;> first | (cases hr; rfl) | cases hr

/-- The children of what an object stands for are below the object. -/
theorem settled_children {o : Obj P} {c : Nat} (hc : c ∈ (o.settled h).children) :
    c ∈ o.children ∨ ∃ (d : Nat) (q : Obj P), d ∈ o.children ∧ h[d]? = some q ∧ c ∈ q.children := by
  rcases settled_cases h o with e | ⟨d, q, o1, h1, h2, h3, e⟩
  · rw [e] at hc; exact .inl hc
  · right
    refine ⟨d, q, by simp [quant_children h1], h2, ?_⟩
    rw [e] at hc
    cases hq : q.repeats with
    | none => exact absurd (on_quant h3).2.2 (by simp [repeats_none.1 hq])
    | some x =>
      rw [quant_children ((on_repeats h3).trans hq)] at hc
      rw [quant_children hq]
      exact hc

theorem settle_closed (hc : ClosedHeap h) : ClosedHeap (settle h) := by
  intro o ho c hcc
  obtain ⟨a, ha⟩ := List.mem_iff_getElem?.1 ho
  obtain ⟨o', h1, rfl⟩ := settle_back ha
  rw [settle_length]
  rcases settled_children hcc with h2 | ⟨d, q, _, h2, h3⟩
  · exact hc o' (List.mem_of_getElem? h1) c h2
  · exact hc q (List.mem_of_getElem? h2) c h3

theorem settled_bounds {o : Obj P} (ho : o.bounds) : (o.settled h).bounds := by
  rcases settled_cases h o with e | ⟨_, _, _, _, _, h3, e⟩
  · rw [e]; exact ho
  · rw [e]; exact (on_bounds h3).2.1

theorem settled_entry {o : Obj P} (ho : o.entry = false) : (o.settled h).entry = false := by
  rcases settled_cases h o with e | ⟨_, _, _, _, _, h3, e⟩
  · rw [e]; exact ho
  · rw [e]; exact quant_entry (on_quant h3).1

theorem settle_bounds (hb : ∀ o ∈ h, o.bounds ∧ o.entry = false) :
    ∀ o ∈ settle h, o.bounds ∧ o.entry = false := by
  intro o ho
  obtain ⟨a, ha⟩ := List.mem_iff_getElem?.1 ho
  obtain ⟨o', h1, rfl⟩ := settle_back ha
  have := hb o' (List.mem_of_getElem? h1)
  exact ⟨settled_bounds this.1, settled_entry this.2⟩

/-- Nothing is to be read in heaps without quantifiers on quantifiers. -/
theorem settle_single (hs : Single h) : settle h = h := by
  refine List.ext_getElem? (fun a => ?_)
  rw [settle_get]
  cases ha : h[a]? with
  | none => rfl
  | some o =>
    rcases settled_cases h o with e | ⟨c, q, o1, h1, h2, h3, _⟩
    · rw [Option.map_some, e]
    · have := repeats_none.1 (hs o (List.mem_of_getElem? ha) c q h1 h2)
      rw [(on_quant h3).2.2] at this
      cases this

/-! ### Squashing -/

theorem tells_agree {D : Nat → Prop} {h g : Heap P} (hget : ∀ a, D a → g[a]? = h[a]?)
    (hclosed : ∀ (a : Nat) o, D a → h[a]? = some o → ∀ c ∈ o.children, D c) {ts : List (Piece P)}
    {w : List (Mark P)} (s : Tells h ts w) : (∀ r, .rule r ∈ ts → D r) → Tells g ts w := by
  induction s with
  | nil => intro _; exact .nil
  | pred _ ih => intro hr; exact .pred (ih fun r h => hr r (List.mem_cons_of_mem _ h))
  | note _ ih => intro hr; exact .note (ih fun r h => hr r (List.mem_cons_of_mem _ h))
  | @rule a o us ts w v ho hs _ _ ih1 ih2 =>
    intro hr
    have hD := hr a List.mem_cons_self
    exact .rule ((hget a hD).trans ho) hs
      (ih1 fun r h => hclosed a o hD ho r (deals_children hs r h))
      (ih2 fun r h => hr r (List.mem_cons_of_mem _ h))

theorem words_agree {D : Nat → Prop} {h g : Heap P} (hget : ∀ a, D a → g[a]? = h[a]?)
    (hclosed : ∀ (a : Nat) o, D a → h[a]? = some o → ∀ c ∈ o.children, D c) {r : Nat} (hr : D r)
    (w : List (Mark P)) : Words g r w ↔ Words h r w := by
  constructor
  · intro s
    exact tells_agree (h := g) (g := h) (D := D) (fun a ha => (hget a ha).symm)
      (fun a o ha ho => hclosed a o ha (hget a ha ▸ ho)) s (by simpa using hr)
  · intro s
    exact tells_agree hget hclosed s (by simpa using hr)

/-- A heap with quantifiers on quantifiers, and the same heap with what they stand for. -/
theorem settle_shape (hs : Single (settle h)) : Shape (nestInv h).N (settle h) h where
  length := settle_length
  at_ := by
    intro a o ho
    obtain ⟨o', h1, rfl⟩ := settle_back ho
    refine ⟨o', h1, ?_⟩
    rcases settled_cases h o' with e | ⟨c, q, o1, h2, h3, h4, e⟩
    · rw [e]; exact .inl (.refl o')
    · refine .inr (.inr ⟨h1, c, q, h2, h3, ?_, by rw [h4, e]⟩)
      rw [settle_some h3]
      rcases settled_cases h q with e2 | ⟨d, r, o2, h5, h6, h7, _⟩
      · rw [e2]
      · have := hs _ (List.mem_of_getElem? ho) d (r.settled h) (by rw [e, on_repeats h4, h5]) (settle_some h6)
        rw [repeats_none, settled_quant, (on_quant h7).2.2] at this
        cases this

theorem leaf_plain {o : Obj P} (ho : o.tag.leaf = true) : o.quant = false := by
  cases o <;> first | rfl | cases ho

/-- The result of squashing has the words of what the quantifiers stand for. -/
theorem squash_words {pid : Nat → Nat} (hp : ∀ a b, pid a = pid b → a = b) {limit b : Nat} {h' : Heap P}
    (hn : transform squashMethod pid limit root h = .ok (b, h')) (hs : Sorted h) (hr : root < h.length)
    (hb : ∀ o ∈ h, o.bounds ∧ o.entry = false) (hsingle : Single (settle h)) :
    ClosedHeap h' ∧ (∀ o ∈ h', o.bounds ∧ o.entry = false) ∧ b < h'.length ∧ h.length ≤ h'.length ∧
      ∀ w, Words (settle h) root w ↔ Words h' b w := by
  have ht : Typed (fun _ => true) (fun _ => True) h root := by
    intro x hx
    have hlt : x < h.length := by
      clear hn
      induction hx with
      | root => exact hr
      | step _ ho hc _ => exact (hs _ _ ho _ hc).1
    exact ⟨_, List.getElem?_eq_getElem hlt, rfl, fun _ _ => trivial, fun c hc =>
      (hs _ _ (List.getElem?_eq_getElem hlt) c hc).2⟩
  have made := Pass.transform_fits (F := ⟨h, root, false, fun _ => true, fun _ => true, fun _ => True⟩) hp rfl
    (Pass.squash_fits rfl (fun _ => rfl) (fun _ _ => rfl)) ht hn
  obtain ⟨ext, h1, h2, h3, h4⟩ := transform_ok hp (squash_ok (h0 := h)) hn (settle_shape hsingle)
    (settle_closed hs.closed) (fun o ho => ⟨settle_bounds hb o ho, fun c hc q hq =>
      repeats_none.1 (hsingle o ho c q hc hq)⟩)
  have hlen := h1.length
  simp only [List.length_append, settle_length] at hlen
  refine ⟨(made.whole hs).closed, ?_, ?_, made.len, ?_⟩
  · intro o ho
    obtain ⟨a, ha⟩ := List.mem_iff_getElem?.1 ho
    have hlt : a < (settle h ++ ext).length := by
      rw [h1.length]; exact (List.getElem?_eq_some_iff.1 ha).1
    obtain ⟨o', q1, q2⟩ := h1.at_ a _ (List.getElem?_eq_getElem hlt)
    rw [ha] at q1; cases q1
    have hm := (h3 _ (List.getElem_mem hlt)).1
    rcases q2 with q2 | ⟨_, _, _, rfl, _⟩ | ⟨_, _, _, _, _, _, q2⟩
    · generalize (settle h ++ ext)[a] = x at q2 hm
      cases q2 with
      | refl => exact hm
      | bnf => exact ⟨trivial, rfl⟩
    · exact ⟨trivial, rfl⟩
    · exact ⟨(on_bounds q2).1, quant_entry (on_quant q2).2.1⟩
  · have := h4.lt'
    rw [h1.length] at this
    exact this
  intro w
  -- the heap with what the old quantifiers stand for
  let k : Heap P := h'.mapIdx (fun a o => if a < h.length then o.settled h else o)
  have hk : ∀ a : Nat, k[a]? = (h'[a]?).map (fun o => if a < h.length then o.settled h else o) := by
    intro a; exact List.getElem?_mapIdx
  have agree : Agree (settle h ++ ext) k := by
    constructor
    · rw [h1.length]; exact (List.length_mapIdx ..).symm
    · intro a o ho
      obtain ⟨o', q1, q2⟩ := h1.at_ a o ho
      rw [hk, q1]
      refine ⟨_, rfl, ?_⟩
      by_cases hlt : a < h.length
      · simp only [hlt, if_true]
        cases hq : o'.quant with
        | true =>
          have ha : h[a]? = some o' := by
            rcases made.frame a _ (List.getElem?_eq_getElem hlt) with f1 | ⟨_, _, r, f1⟩
            · rw [q1] at f1; rw [f1]; exact List.getElem?_eq_getElem hlt
            · rw [q1] at f1; cases f1; cases hq
          rw [List.getElem?_append_left (by rw [settle_length]; exact hlt), settle_some ha] at ho
          cases ho
          exact .inl (.refl _)
        | false =>
          rw [settled_plain hq]
          rcases q2 with q2 | ⟨r, r', e1, e2, _, e3⟩ | q2
          · exact .inl q2
          · exact .inr ⟨r, r', e1, e2, e3⟩
          · rw [((nestInv h).Nquant _ _ _ _ q2).2] at hq; cases hq
      · simp only [hlt, if_false]
        rcases q2 with q2 | ⟨r, r', e1, e2, _, e3⟩ | ⟨q2, _⟩
        · exact .inl q2
        · exact .inr ⟨r, r', e1, e2, e3⟩
        · exact absurd (List.getElem?_eq_some_iff.1 q2).1 hlt
  have same : ∀ a, Reach h' b a → k[a]? = h'[a]? := by
    intro a ha
    rw [hk]
    cases ho : h'[a]? with
    | none => rfl
    | some o =>
      rw [Option.map_some]
      by_cases hlt : a < h.length
      · have hq : o.quant = false := by
          rcases made.fresh a ha with f | ⟨o', f1, f2⟩ | ⟨⟨c, f1⟩, _⟩
          · exact absurd hlt (Nat.not_lt.2 f)
          · rw [ho] at f1; cases f1; exact leaf_plain f2
          · rcases made.frame a _ f1 with f2 | ⟨_, _, r, f2⟩
            · rw [ho] at f2; cases f2; rfl
            · rw [ho] at f2; cases f2; rfl
        rw [settled_plain hq, ite_self]
      · simp only [hlt, if_false]
  rw [words_extend (settle_closed hs.closed) (by rw [settle_length]; exact hr) (e := ext)]
  have he := h4.sem _ (List.prefix_refl _)
  have h5 : Words (settle h ++ ext) root w ↔ Words (settle h ++ ext) b w := by
    unfold Words
    rw [tells_iff_gen, tells_iff_gen]
    exact ⟨fun ⟨n, g⟩ => ⟨n, he.1 _ _ g⟩, fun ⟨n, g⟩ => he.2 _ _ g⟩
  rw [h5, agree.words]
  exact words_agree (D := Reach h' b) same (fun a o ha ho c hc => .step ha ho hc) .root w

end Yargy.Pick
