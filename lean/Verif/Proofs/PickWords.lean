import Verif.Spec.Choices
import Verif.Proofs.Transform
/-!
Words with choices and a cost: the number of times a forward rule is entered, and of repetitions.
This and the files `Pick…` that follow say for words with choices what `RuleWords`, `Transform`,
`Copying`, … say for words.
-/
namespace Yargy.Pick

variable {P : Type} {h H : Heap P}

/-- The cost of one replacement. -/
def stepCost : Obj P → Nat → Nat
  | .forward _, _ => 1
  | .optional _ _, n => n
  | .repeatable _ _, n => n
  | .repOptional _ _ _, n => n
  | .minBounded _ _ _, n => n
  | .maxBounded _ _ _, n => n
  | .minMaxBounded _ _ _ _, n => n
  | _, _ => 0

/-- The words with choices of a sequence of parts that cost at most so much. -/
inductive Gen (h : Heap P) : Nat → List (Piece P) → List (Mark P) → Prop
  | nil {n} : Gen h n [] []
  | pred {n p ts w} : Gen h n ts w → Gen h n (.pred p :: ts) (.pred p :: w)
  | note {n x ts w} : Gen h n ts w → Gen h n (.note x :: ts) (.note x :: w)
  | rule {n a o us ts w v c d} : h[a]? = some o → Deals o us → stepCost o us.length + c + d ≤ n →
      Gen h c us w → Gen h d ts v → Gen h n (.rule a :: ts) (w ++ v)

theorem Gen.mono {n m ts w} (g : Gen h n ts w) (hnm : n ≤ m) : Gen h m ts w := by
  induction g with
  | nil => exact .nil
  | pred _ ih => exact .pred (ih hnm)
  | note _ ih => exact .note (ih hnm)
  | rule ho hs hc hu ht _ _ => exact .rule ho hs (by omega) hu ht

theorem Gen.tells {n ts w} (g : Gen h n ts w) : Tells h ts w := by
  induction g with
  | nil => exact .nil
  | pred _ ih => exact .pred ih
  | note _ ih => exact .note ih
  | rule ho hs _ _ _ ih1 ih2 => exact .rule ho hs ih1 ih2

theorem tells_gen {ts w} (g : Tells h ts w) : ∃ n, Gen h n ts w := by
  induction g with
  | nil => exact ⟨0, .nil⟩
  | pred _ ih => obtain ⟨n, g⟩ := ih; exact ⟨n, .pred g⟩
  | note _ ih => obtain ⟨n, g⟩ := ih; exact ⟨n, .note g⟩
  | rule ho hs _ _ ih1 ih2 =>
    obtain ⟨c, g1⟩ := ih1
    obtain ⟨d, g2⟩ := ih2
    exact ⟨_, .rule ho hs (Nat.le_refl _) g1 g2⟩

theorem tells_iff_gen {ts w} : Tells h ts w ↔ ∃ n, Gen h n ts w :=
  ⟨tells_gen, fun ⟨_, g⟩ => g.tells⟩

/-- One rule: the inversion. -/
theorem gen_one {n a w} : Gen h n [.rule a] w ↔
    ∃ o us c, h[a]? = some o ∧ Deals o us ∧ stepCost o us.length + c ≤ n ∧ Gen h c us w := by
  constructor
  · intro g
    generalize hts : [Piece.rule (P := P) a] = ts at g
    cases g with
    | rule ho hs hc hu ht =>
      cases hts
      cases ht
      rw [List.append_nil]
      exact ⟨_, _, _, ho, hs, Nat.le_trans (Nat.le_add_right _ _) hc, hu⟩
    | _ => cases hts
  · rintro ⟨o, us, c, ho, hs, hc, hu⟩
    have := Gen.rule (n := n) ho hs (by omega : stepCost o us.length + c + 0 ≤ n) hu .nil
    simpa using this

theorem Gen.append {n m ts us w v} (g : Gen h n ts w) (g' : Gen h m us v) :
    Gen h (n + m) (ts ++ us) (w ++ v) := by
  induction g with
  | nil => exact g'.mono (by omega)
  | pred _ ih => exact .pred ih
  | note _ ih => exact .note ih
  | rule ho hs hc hu ht _ ih =>
    rw [List.cons_append, List.append_assoc]
    exact .rule ho hs (by omega) hu ih

theorem Gen.split {n ts us w} (g : Gen h n (ts ++ us) w) :
    ∃ c d v v', c + d ≤ n ∧ Gen h c ts v ∧ Gen h d us v' ∧ w = v ++ v' := by
  induction ts generalizing n w with
  | nil => exact ⟨0, n, [], w, by omega, .nil, g, rfl⟩
  | cons t ts ih =>
    cases g with
    | pred g =>
      obtain ⟨c, d, v, v', h1, h2, h3, rfl⟩ := ih g
      exact ⟨c, d, _, v', h1, .pred h2, h3, rfl⟩
    | note g =>
      obtain ⟨c, d, v, v', h1, h2, h3, rfl⟩ := ih g
      exact ⟨c, d, _, v', h1, .note h2, h3, rfl⟩
    | rule ho hs hc hu ht =>
      obtain ⟨c, d, v, v', h1, h2, h3, rfl⟩ := ih ht
      refine ⟨_, d, _, v', ?_, .rule ho hs (Nat.le_refl _) hu h2, h3, (List.append_assoc _ _ _).symm⟩
      omega

theorem gen_cons {n t ts w} : Gen h n (t :: ts) w ↔
    ∃ c d v v', c + d ≤ n ∧ Gen h c [t] v ∧ Gen h d ts v' ∧ w = v ++ v' := by
  constructor
  · intro g; exact Gen.split (ts := [t]) g
  · rintro ⟨c, d, v, v', h1, h2, h3, rfl⟩
    exact (Gen.append h2 h3).mono h1

theorem gen_nil {n w} : Gen h n [] w ↔ w = [] := by
  constructor
  · intro g; cases g; rfl
  · rintro rfl; exact .nil

theorem gen_note {n x ts w} : Gen h n (.note x :: ts) w ↔ ∃ v, Gen h n ts v ∧ w = .note x :: v := by
  constructor
  · intro g; cases g with | note g => exact ⟨_, g, rfl⟩
  · rintro ⟨v, g, rfl⟩; exact .note g

theorem gen_notes {n ts w} (xs : List Note) : Gen h n (xs.map .note ++ ts) w ↔
    ∃ v, Gen h n ts v ∧ w = xs.map .note ++ v := by
  induction xs generalizing w with
  | nil => simp
  | cons x xs ih =>
    rw [List.map_cons, List.cons_append, gen_note]
    constructor
    · rintro ⟨v, g, rfl⟩
      obtain ⟨u, g', rfl⟩ := ih.1 g
      exact ⟨u, g', rfl⟩
    · rintro ⟨v, g, rfl⟩
      exact ⟨_, ih.2 ⟨v, g, rfl⟩, rfl⟩

/-- Larger heaps have more words. -/
theorem Gen.heap_mono {n ts w} (hle : h <+: H) (g : Gen h n ts w) : Gen H n ts w := by
  induction g with
  | nil => exact .nil
  | pred _ ih => exact .pred ih
  | note _ ih => exact .note ih
  | rule ho hs hc _ _ ih1 ih2 =>
    refine .rule ?_ hs hc ih1 ih2
    obtain ⟨t, rfl⟩ := hle
    rw [List.getElem?_append_left (List.getElem?_eq_some_iff.1 ho).1]
    exact ho

theorem part_rule {ts : List (Term P)} {a : Nat} : Piece.rule a ∈ ts.map Term.part ↔ .rule a ∈ ts := by
  rw [List.mem_map]
  constructor
  · rintro ⟨t, ht, e⟩
    cases t with
    | pred p => cases e
    | rule b => cases e; exact ht
  · intro ht
    exact ⟨_, ht, rfl⟩

theorem fill_rule {r : Nat} {pat : List (Option Note)} {a : Nat}
    (ha : Piece.rule (P := P) a ∈ fill r pat) : a = r := by
  unfold fill at ha
  rw [List.mem_map] at ha
  obtain ⟨x, _, e⟩ := ha
  cases x with
  | none => cases e; rfl
  | some i => cases e

theorem notes_rule {xs : List Note} {a : Nat} : ¬ Piece.rule (P := P) a ∈ xs.map .note := by
  simp

theorem choiceOf_rule {n i a : Nat} : ¬ Piece.rule (P := P) a ∈ choiceOf n i := by
  unfold choiceOf
  split <;> simp

theorem termRules_mem' {ts : List (Term P)} {r : Nat} : r ∈ termRules ts ↔ .rule r ∈ ts := by
  induction ts with
  | nil => simp [termRules]
  | cons t ts ih => cases t <;> simp [termRules, ih]

/-- The rules among the parts of an object are its children. -/
theorem deals_children {o : Obj P} {us : List (Piece P)} (hs : Deals o us) :
    ∀ a, Piece.rule a ∈ us → a ∈ o.children := by
  intro a ha
  cases hs with
  | prod =>
    rcases List.mem_append.1 ha with ha | ha
    · exact (notes_rule ha).elim
    · rw [part_rule] at ha; exact termRules_mem'.2 ha
  | optional _ => rw [fill_rule ha]; simp [Obj.children]
  | repeatable _ => rw [fill_rule ha]; simp [Obj.children]
  | repOptional _ => rw [fill_rule ha]; simp [Obj.children]
  | minBounded _ => rw [fill_rule ha]; simp [Obj.children]
  | maxBounded _ => rw [fill_rule ha]; simp [Obj.children]
  | minMaxBounded _ => rw [fill_rule ha]; simp [Obj.children]
  | rule hi =>
    rw [List.mem_append, List.mem_singleton] at ha
    rcases ha with ha | ha
    · exact (choiceOf_rule ha).elim
    · cases ha; exact List.mem_of_getElem? hi
  | or hi =>
    rw [List.mem_append, List.mem_singleton] at ha
    rcases ha with ha | ha
    · exact (choiceOf_rule ha).elim
    · cases ha; exact List.mem_of_getElem? hi
  | bnf hi =>
    rw [List.mem_append, List.mem_singleton] at ha
    rcases ha with ha | ha
    · exact (choiceOf_rule ha).elim
    · cases ha; exact List.mem_of_getElem? hi
  | pipe _ =>
    rw [List.mem_append, List.mem_append, List.mem_map (f := Piece.pred)] at ha
    rcases ha with ha | ha | ⟨_, _, ha⟩
    · exact (choiceOf_rule ha).elim
    · exact (notes_rule ha).elim
    · cases ha
  | pipeProd =>
    rw [List.mem_append, List.mem_map (f := Piece.pred)] at ha
    rcases ha with ha | ⟨_, _, e⟩
    · exact (notes_rule ha).elim
    · cases e
  | forward => simpa [Obj.children] using ha
  | _ => simp_all [Obj.children]

/-- In a closed heap nothing outside matters. -/
theorem Gen.heap_back {n ts w} (hle : h <+: H) (hc : ClosedHeap h) (g : Gen H n ts w)
    (hts : ∀ a, Piece.rule a ∈ ts → a < h.length) : Gen h n ts w := by
  induction g with
  | nil => exact .nil
  | pred _ ih => exact .pred (ih (fun a ha => hts a (List.mem_cons_of_mem _ ha)))
  | note _ ih => exact .note (ih (fun a ha => hts a (List.mem_cons_of_mem _ ha)))
  | @rule n a o us ts w v c d ho hs hcost _ _ ih1 ih2 =>
    have hlt : a < h.length := hts a (List.mem_cons_self)
    have ho' : h[a]? = some o := by
      obtain ⟨t, rfl⟩ := hle
      rw [List.getElem?_append_left hlt] at ho
      exact ho
    refine .rule ho' hs hcost (ih1 ?_) (ih2 (fun a ha => hts a (List.mem_cons_of_mem _ ha)))
    intro b hb
    exact hc o (List.mem_of_getElem? ho') b (deals_children hs b hb)

/-! ### Equivalent rules -/

/-- `y` has the words of `x`, at no higher cost. -/
def Equiv (h : Heap P) (x y : Nat) : Prop :=
  (∀ n w, Gen h n [.rule x] w → Gen h n [.rule y] w) ∧
  (∀ n w, Gen h n [.rule y] w → ∃ m, Gen h m [.rule x] w)

theorem Equiv.refl (x : Nat) : Equiv h x x := ⟨fun _ _ g => g, fun n _ g => ⟨n, g⟩⟩

theorem Equiv.trans {x y z : Nat} (h1 : Equiv h x y) (h2 : Equiv h y z) : Equiv h x z :=
  ⟨fun n w g => h2.1 n w (h1.1 n w g), fun n w g =>
    let ⟨m, g'⟩ := h2.2 n w g
    h1.2 m w g'⟩

/-- Parts with the same words. -/
def PieceEquiv (h : Heap P) (t u : Piece P) : Prop :=
  (∀ n w, Gen h n [t] w → Gen h n [u] w) ∧ (∀ n w, Gen h n [u] w → ∃ m, Gen h m [t] w)

theorem PieceEquiv.refl (t : Piece P) : PieceEquiv h t t :=
  ⟨fun _ _ g => g, fun n _ g => ⟨n, g⟩⟩

theorem PieceEquiv.rule {x y : Nat} (hxy : Equiv h x y) : PieceEquiv h (.rule x) (.rule y) := hxy

theorem gen_parts {ts us : List (Piece P)} (hp : Pointwise (PieceEquiv h) ts us) :
    (∀ n w, Gen h n ts w → Gen h n us w) ∧ (∀ n w, Gen h n us w → ∃ m, Gen h m ts w) := by
  induction hp with
  | nil => exact ⟨fun _ _ g => g, fun n _ g => ⟨n, g⟩⟩
  | @cons t u ts us htu _ ih =>
    constructor
    · intro n w g
      obtain ⟨c, d, v, v', h1, h2, h3, rfl⟩ := gen_cons.1 g
      exact gen_cons.2 ⟨c, d, v, v', h1, htu.1 _ _ h2, ih.1 _ _ h3, rfl⟩
    · intro n w g
      obtain ⟨c, d, v, v', h1, h2, h3, rfl⟩ := gen_cons.1 g
      obtain ⟨c', g1⟩ := htu.2 _ _ h2
      obtain ⟨d', g2⟩ := ih.2 _ _ h3
      exact ⟨c' + d', gen_cons.2 ⟨c', d', v, v', Nat.le_refl _, g1, g2, rfl⟩⟩

/-- Objects whose parts are equivalent are equivalent. -/
theorem equiv_of_deals {x y : Nat} {o o' : Obj P} (hx : h[x]? = some o) (hy : h[y]? = some o')
    (forth : ∀ us, Deals o us → ∃ us', Deals o' us' ∧ Pointwise (PieceEquiv h) us us' ∧
      stepCost o' us'.length ≤ stepCost o us.length)
    (back : ∀ us', Deals o' us' → ∃ us, Deals o us ∧ Pointwise (PieceEquiv h) us us') :
    Equiv h x y := by
  constructor
  · intro n w g
    obtain ⟨o1, us, c, ho, hs, hc, hu⟩ := gen_one.1 g
    rw [hx] at ho; cases ho
    obtain ⟨us', hs', hp, hcost⟩ := forth us hs
    exact gen_one.2 ⟨o', us', c, hy, hs', by omega, (gen_parts hp).1 _ _ hu⟩
  · intro n w g
    obtain ⟨o1, us', c, ho, hs, hc, hu⟩ := gen_one.1 g
    rw [hy] at ho; cases ho
    obtain ⟨us, hs', hp⟩ := back us' hs
    obtain ⟨m, g'⟩ := (gen_parts hp).2 _ _ hu
    exact ⟨_, gen_one.2 ⟨o, us, m, hx, hs', Nat.le_refl _, g'⟩⟩

theorem pointwise_fill {x y : Nat} (hxy : Equiv h x y) (pat : List (Option Note)) :
    Pointwise (PieceEquiv h) (fill x pat) (fill y pat) := by
  induction pat with
  | nil => exact .nil
  | cons p pat ih =>
    refine .cons ?_ ih
    cases p with
    | none => exact .rule hxy
    | some i => exact .refl _

theorem pointwise_refl (us : List (Piece P)) : Pointwise (PieceEquiv h) us us := by
  induction us with
  | nil => exact .nil
  | cons u us ih => exact .cons (.refl u) ih

theorem pointwise_append {α β : Type} {R : α → β → Prop} {xs ys xs' ys'}
    (h1 : Pointwise R xs ys) (h2 : Pointwise R xs' ys') : Pointwise R (xs ++ xs') (ys ++ ys') := by
  induction h1 with
  | nil => exact h2
  | cons h _ ih => exact .cons h ih

/-! ### Redefining forward rules -/

/-- Objects with the same words: the same object, or compiled rules with other attributes. -/
abbrev Like (o o' : Obj P) : Prop := Yargy.Like .plain o o'

theorem Like.deals {o o' : Obj P} (hl : Like o o') {us} (hs : Deals o us) : Deals o' us := by
  cases hl with
  | refl => exact hs
  | bnf => cases hs with | bnf hp => exact .bnf hp

theorem Like.cost {o o' : Obj P} (hl : Like o o') (n : Nat) : stepCost o n = stepCost o' n := by
  cases hl <;> rfl

/-- The second heap is the first one with other contents in some forward rules: contents equivalent
in every heap that extends the first one. -/
structure Agree (g h : Heap P) : Prop where
  length : g.length = h.length
  at_ : ∀ (a : Nat) (o : Obj P), g[a]? = some o → ∃ o', h[a]? = some o' ∧
    (Like o o' ∨ ∃ r r', o = .forward (some r) ∧ o' = .forward (some r') ∧
      ∀ H, g <+: H → Equiv H r r')

theorem Agree.forth {g : Heap P} (ha : Agree g h) :
    ∀ n ts w, Gen g n ts w → Gen h n ts w := by
  intro N
  induction N using Nat.strongRecOn with
  | _ N strong =>
    intro ts w gen
    suffices ∀ n, n ≤ N → ∀ ts w, Gen g n ts w → Gen h n ts w from this N (Nat.le_refl _) ts w gen
    intro n hn ts w gen
    induction gen with
    | nil => exact .nil
    | pred _ ih => exact .pred (ih hn)
    | note _ ih => exact .note (ih hn)
    | @rule n a o us ts w v c d ho hs hc hu _ ih1 ih2 =>
      obtain ⟨o', ho', hl | ⟨r, r', rfl, rfl, heq⟩⟩ := ha.at_ a o ho
      · exact .rule ho' (Like.deals hl hs) (by rw [← Like.cost hl]; omega) (ih1 (by omega))
          (ih2 (by omega))
      · cases hs
        simp only [stepCost] at hc
        have := strong c (by omega) _ _ ((heq g (List.prefix_refl _)).1 _ _ hu)
        exact .rule (o := .forward (some r')) ho' .forward (by simpa [stepCost] using hc) this
          (ih2 (by omega))

theorem Agree.back {g : Heap P} (ha : Agree g h) {n ts w} (gen : Gen h n ts w) :
    ∃ m, Gen g m ts w := by
  induction gen with
  | nil => exact ⟨0, .nil⟩
  | pred _ ih => obtain ⟨m, g'⟩ := ih; exact ⟨m, .pred g'⟩
  | note _ ih => obtain ⟨m, g'⟩ := ih; exact ⟨m, .note g'⟩
  | @rule n a o' us ts w v c d ho' hs hc _ _ ih1 ih2 =>
    obtain ⟨c', g1⟩ := ih1
    obtain ⟨d', g2⟩ := ih2
    have hlt : a < g.length := by
      rw [ha.length]; exact (List.getElem?_eq_some_iff.1 ho').1
    obtain ⟨o1, ho1, hl⟩ := ha.at_ a g[a] (List.getElem?_eq_getElem hlt)
    rw [ho'] at ho1; cases ho1
    rcases hl with hl | ⟨r, r', hr, rfl, heq⟩
    · exact ⟨_, .rule (List.getElem?_eq_getElem hlt) (Like.deals hl.symm hs) (Nat.le_refl _) g1 g2⟩
    · cases hs
      obtain ⟨m, g1'⟩ := (heq g (List.prefix_refl _)).2 _ _ g1
      have hg : g[a]? = some (.forward (some r)) := by rw [List.getElem?_eq_getElem hlt, hr]
      exact ⟨_, .rule (o := .forward (some r)) hg .forward (Nat.le_refl _) g1' g2⟩

/-- Redefining forward rules with equivalent contents changes no words. -/
theorem Agree.tells {g : Heap P} (ha : Agree g h) (ts : List (Piece P)) (w : List (Mark P)) :
    Tells g ts w ↔ Tells h ts w := by
  rw [tells_iff_gen, tells_iff_gen]
  exact ⟨fun ⟨n, g⟩ => ⟨n, ha.forth _ _ _ g⟩, fun ⟨_, g⟩ => ha.back g⟩

/-- The words with choices of a rule. -/
def Words (h : Heap P) (a : Nat) (w : List (Mark P)) : Prop := Tells h [.rule a] w

theorem Agree.words {g : Heap P} (ha : Agree g h) (a : Nat) (w : List (Mark P)) :
    Words g a w ↔ Words h a w := ha.tells _ _

end Yargy.Pick
