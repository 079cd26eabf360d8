import Verif.Spec.Rules
import Verif.Proofs.Items
/-!
Words with a cost: the number of times a forward rule is entered, and of repetitions (which are
turned into forward rules).
-/
namespace Yargy

variable {P : Type} {k : Kind} {h H : Heap P}

/-- The cost of one replacement. -/
def stepCost : Obj P → Nat → Nat
  | .forward _, _ => 1
  | .optional _ _, _ => 1
  | .repeatable _ _, n => n
  | .repOptional _ _ _, n => max n 1
  | .minBounded _ _ _, n => n
  | .maxBounded _ _ _, n => n
  | .minMaxBounded _ _ _ _, n => n
  | _, _ => 0

/-- The words of a sequence of terms that cost at most so much. -/
inductive Gen (k : Kind) (h : Heap P) : Nat → List (Term P) → List (Sym P) → Prop
  | nil {n} : Gen k h n [] []
  | pred {n p ts w} : Gen k h n ts w → Gen k h n (.pred p :: ts) (.pred p :: w)
  | rule {n a o us ts w v c d} : h[a]? = some o → Spells o us → stepCost o us.length + c + d ≤ n →
      Gen k h c us w → Gen k h d ts v → Gen k h n (.rule a :: ts) (wrap (o.label k) w ++ v)

theorem Gen.mono {n m ts w} (g : Gen k h n ts w) (hnm : n ≤ m) : Gen k h m ts w := by
  induction g with
  | nil => exact .nil
  | pred _ ih => exact .pred (ih hnm)
  | rule ho hs hc hu ht _ _ => exact .rule ho hs (by omega) hu ht

theorem Gen.says {n ts w} (g : Gen k h n ts w) : Says k h ts w := by
  induction g with
  | nil => exact .nil
  | pred _ ih => exact .pred ih
  | rule ho hs _ _ _ ih1 ih2 => exact .rule ho hs ih1 ih2

theorem Says.gen {ts w} (g : Says k h ts w) : ∃ n, Gen k h n ts w := by
  induction g with
  | nil => exact ⟨0, .nil⟩
  | pred _ ih => obtain ⟨n, g⟩ := ih; exact ⟨n, .pred g⟩
  | rule ho hs _ _ ih1 ih2 =>
    obtain ⟨c, g1⟩ := ih1
    obtain ⟨d, g2⟩ := ih2
    exact ⟨_, .rule ho hs (Nat.le_refl _) g1 g2⟩

theorem says_iff_gen {ts w} : Says k h ts w ↔ ∃ n, Gen k h n ts w :=
  ⟨Says.gen, fun ⟨_, g⟩ => g.says⟩

/-- One rule: the inversion. -/
theorem gen_one {n a w} : Gen k h n [.rule a] w ↔
    ∃ o us c v, h[a]? = some o ∧ Spells o us ∧ stepCost o us.length + c ≤ n ∧ Gen k h c us v ∧
      w = wrap (o.label k) v := by
  constructor
  · intro g
    cases g with
    | rule ho hs hc hu ht =>
      cases ht
      exact ⟨_, _, _, _, ho, hs, by omega, hu, by simp⟩
  · rintro ⟨o, us, c, v, ho, hs, hc, hu, rfl⟩
    have := Gen.rule (n := n) ho hs (by omega : stepCost o us.length + c + 0 ≤ n) hu .nil
    simpa using this

theorem Gen.append {n m ts us w v} (g : Gen k h n ts w) (g' : Gen k h m us v) :
    Gen k h (n + m) (ts ++ us) (w ++ v) := by
  induction g with
  | nil => exact g'.mono (by omega)
  | pred _ ih => exact .pred ih
  | rule ho hs hc hu ht _ ih =>
    rw [List.cons_append, List.append_assoc]
    exact .rule ho hs (by omega) hu ih

theorem Gen.split {n ts us w} (g : Gen k h n (ts ++ us) w) :
    ∃ c d v v', c + d ≤ n ∧ Gen k h c ts v ∧ Gen k h d us v' ∧ w = v ++ v' := by
  induction ts generalizing n w with
  | nil => exact ⟨0, n, [], w, by omega, .nil, g, rfl⟩
  | cons t ts ih =>
    cases g with
    | pred g =>
      obtain ⟨c, d, v, v', h1, h2, h3, rfl⟩ := ih g
      exact ⟨c, d, _, v', h1, .pred h2, h3, rfl⟩
    | rule ho hs hc hu ht =>
      obtain ⟨c, d, v, v', h1, h2, h3, rfl⟩ := ih ht
      refine ⟨_, d, _, v', ?_, .rule ho hs (Nat.le_refl _) hu h2, h3, (List.append_assoc _ _ _).symm⟩
      omega

theorem gen_cons {n a ts w} : Gen k h n (.rule a :: ts) w ↔
    ∃ c d v v', c + d ≤ n ∧ Gen k h c [.rule a] v ∧ Gen k h d ts v' ∧ w = v ++ v' := by
  constructor
  · intro g; exact Gen.split (ts := [.rule a]) g
  · rintro ⟨c, d, v, v', h1, h2, h3, rfl⟩
    exact (Gen.append h2 h3).mono h1

theorem gen_nil {n w} : Gen k h n [] w ↔ w = [] := by
  constructor
  · intro g; cases g; rfl
  · rintro rfl; exact .nil

/-- Larger heaps have more words. -/
theorem Gen.heap_mono {n ts w} (hle : h <+: H) (g : Gen k h n ts w) : Gen k H n ts w := by
  induction g with
  | nil => exact .nil
  | pred _ ih => exact .pred ih
  | rule ho hs hc _ _ ih1 ih2 =>
    refine .rule ?_ hs hc ih1 ih2
    obtain ⟨t, rfl⟩ := hle
    rw [List.getElem?_append_left (List.getElem?_eq_some_iff.1 ho).1]
    exact ho

/-- The rules among the parts of an object are its children. -/
theorem spells_children {o : Obj P} {us : List (Term P)} (hs : Spells o us) :
    ∀ a, Term.rule a ∈ us → a ∈ o.children := by
  intro a ha
  cases hs with
  | @prod ts m =>
    simp only [Obj.children]
    induction us with
    | nil => cases ha
    | cons t ts ih =>
      cases t with
      | pred p =>
        simp only [List.mem_cons, reduceCtorEq, false_or] at ha
        simpa [termRules] using ih ha
      | rule r =>
        simp only [List.mem_cons, Term.rule.injEq] at ha
        rcases ha with rfl | ha
        · simp [termRules]
        · simp [termRules, ih ha]
  | forward => simpa [Obj.children] using ha
  | _ => simp_all [Obj.children, List.mem_replicate]

/-- In a closed heap nothing outside matters. -/
theorem Gen.heap_back {n ts w} (hle : h <+: H) (hc : ClosedHeap h) (g : Gen k H n ts w)
    (hts : ∀ a, Term.rule a ∈ ts → a < h.length) : Gen k h n ts w := by
  induction g with
  | nil => exact .nil
  | pred _ ih => exact .pred (ih (fun a ha => hts a (List.mem_cons_of_mem _ ha)))
  | @rule n a o us ts w v c d ho hs hcost _ _ ih1 ih2 =>
    have hlt : a < h.length := hts a (List.mem_cons_self)
    have ho' : h[a]? = some o := by
      obtain ⟨t, rfl⟩ := hle
      rw [List.getElem?_append_left hlt] at ho
      exact ho
    refine .rule ho' hs hcost (ih1 ?_) (ih2 (fun a ha => hts a (List.mem_cons_of_mem _ ha)))
    intro b hb
    exact hc o (List.mem_of_getElem? ho') b (spells_children hs b hb)

/-! ### Equivalent rules -/

/-- `y` has the words of `x`, at no higher cost. -/
def Equiv (k : Kind) (h : Heap P) (x y : Nat) : Prop :=
  (∀ n w, Gen k h n [.rule x] w → Gen k h n [.rule y] w) ∧
  (∀ n w, Gen k h n [.rule y] w → ∃ m, Gen k h m [.rule x] w)

theorem Equiv.refl (x : Nat) : Equiv k h x x := ⟨fun _ _ g => g, fun n _ g => ⟨n, g⟩⟩

theorem Equiv.trans {x y z : Nat} (h1 : Equiv k h x y) (h2 : Equiv k h y z) : Equiv k h x z :=
  ⟨fun n w g => h2.1 n w (h1.1 n w g), fun n w g =>
    let ⟨m, g'⟩ := h2.2 n w g
    h1.2 m w g'⟩

/-- Terms with the same words. -/
def TermEquiv (k : Kind) (h : Heap P) (t u : Term P) : Prop :=
  (∀ n w, Gen k h n [t] w → Gen k h n [u] w) ∧ (∀ n w, Gen k h n [u] w → ∃ m, Gen k h m [t] w)

theorem TermEquiv.pred {p : P} : TermEquiv k h (.pred p) (.pred p) :=
  ⟨fun _ _ g => g, fun n _ g => ⟨n, g⟩⟩

theorem TermEquiv.rule {x y : Nat} (hxy : Equiv k h x y) : TermEquiv k h (.rule x) (.rule y) := hxy

theorem gen_cons' {n t ts w} : Gen k h n (t :: ts) w ↔
    ∃ c d v v', c + d ≤ n ∧ Gen k h c [t] v ∧ Gen k h d ts v' ∧ w = v ++ v' := by
  constructor
  · intro g; exact Gen.split (ts := [t]) g
  · rintro ⟨c, d, v, v', h1, h2, h3, rfl⟩
    exact (Gen.append h2 h3).mono h1

theorem gen_terms {ts us : List (Term P)} (hp : Pointwise (TermEquiv k h) ts us) :
    (∀ n w, Gen k h n ts w → Gen k h n us w) ∧ (∀ n w, Gen k h n us w → ∃ m, Gen k h m ts w) := by
  induction hp with
  | nil => exact ⟨fun _ _ g => g, fun n _ g => ⟨n, g⟩⟩
  | @cons t u ts us htu _ ih =>
    constructor
    · intro n w g
      obtain ⟨c, d, v, v', h1, h2, h3, rfl⟩ := gen_cons'.1 g
      exact gen_cons'.2 ⟨c, d, v, v', h1, htu.1 _ _ h2, ih.1 _ _ h3, rfl⟩
    · intro n w g
      obtain ⟨c, d, v, v', h1, h2, h3, rfl⟩ := gen_cons'.1 g
      obtain ⟨c', g1⟩ := htu.2 _ _ h2
      obtain ⟨d', g2⟩ := ih.2 _ _ h3
      exact ⟨c' + d', gen_cons'.2 ⟨c', d', v, v', Nat.le_refl _, g1, g2, rfl⟩⟩

/-- Objects whose parts are equivalent are equivalent. -/
theorem equiv_of_spells {x y : Nat} {o o' : Obj P} (hx : h[x]? = some o) (hy : h[y]? = some o')
    (hl : o.label k = o'.label k)
    (forth : ∀ us, Spells o us → ∃ us', Spells o' us' ∧ Pointwise (TermEquiv k h) us us' ∧
      stepCost o' us'.length ≤ stepCost o us.length)
    (back : ∀ us', Spells o' us' → ∃ us, Spells o us ∧ Pointwise (TermEquiv k h) us us') :
    Equiv k h x y := by
  constructor
  · intro n w g
    obtain ⟨o1, us, c, v, ho, hs, hc, hu, rfl⟩ := gen_one.1 g
    rw [hx] at ho; cases ho
    obtain ⟨us', hs', hp, hcost⟩ := forth us hs
    exact gen_one.2 ⟨o', us', c, v, hy, hs', by omega, (gen_terms hp).1 _ _ hu, by rw [hl]⟩
  · intro n w g
    obtain ⟨o1, us', c, v, ho, hs, hc, hu, rfl⟩ := gen_one.1 g
    rw [hy] at ho; cases ho
    obtain ⟨us, hs', hp⟩ := back us' hs
    obtain ⟨m, g'⟩ := (gen_terms hp).2 _ _ hu
    exact ⟨_, gen_one.2 ⟨o, us, m, v, hx, hs', Nat.le_refl _, g', by rw [hl]⟩⟩

theorem pointwise_replicate {x y : Nat} (hxy : Equiv k h x y) (n : Nat) :
    Pointwise (TermEquiv k h) (List.replicate n (.rule x)) (List.replicate n (.rule y)) := by
  induction n with
  | zero => exact .nil
  | succ n ih => exact .cons (.rule hxy) ih

theorem label_forward (r : Option Nat) : (Obj.forward r : Obj P).label k = none := by
  cases k <;> rfl

/-! ### Redefining forward rules -/

/-- Objects with the same words: the same object, or compiled rules that differ in what is not looked
at. -/
inductive Like (k : Kind) : Obj P → Obj P → Prop
  | refl (o) : Like k o o
  | bnf {ps n i r n' i' r' kind} :
      Obj.label k (.bnf ps n i r kind : Obj P) = Obj.label k (.bnf ps n' i' r' kind : Obj P) →
      Like k (.bnf ps n i r kind) (.bnf ps n' i' r' kind)

theorem Like.spells {o o' : Obj P} (hl : Like k o o') {us} (hs : Spells o us) : Spells o' us := by
  cases hl with
  | refl => exact hs
  | bnf => cases hs with | bnf hp => exact .bnf hp

theorem Like.label {o o' : Obj P} (hl : Like k o o') : o.label k = o'.label k := by
  cases hl with
  | refl => rfl
  | bnf h => exact h

theorem Like.cost {o o' : Obj P} (hl : Like k o o') (n : Nat) : stepCost o n = stepCost o' n := by
  cases hl <;> rfl

theorem Like.symm {o o' : Obj P} (hl : Like k o o') : Like k o' o := by
  cases hl with
  | refl => exact .refl _
  | bnf h => exact .bnf h.symm

theorem Like.trans {o o' o'' : Obj P} (h1 : Like k o o') (h2 : Like k o' o'') : Like k o o'' := by
  cases h1 with
  | refl => exact h2
  | bnf h1 =>
    cases h2 with
    | refl => exact .bnf h1
    | bnf h2 => exact .bnf (h1.trans h2)

/-- The second heap is the first one with other contents in some forward rules: contents equivalent
in every heap that extends the first one. -/
structure Agree (k : Kind) (g h : Heap P) : Prop where
  length : g.length = h.length
  at_ : ∀ (a : Nat) (o : Obj P), g[a]? = some o → ∃ o', h[a]? = some o' ∧
    (Like k o o' ∨ ∃ r r', o = .forward (some r) ∧ o' = .forward (some r') ∧
      ∀ H, g <+: H → Equiv k H r r')

theorem Agree.forth {g : Heap P} (ha : Agree k g h) :
    ∀ n ts w, Gen k g n ts w → Gen k h n ts w := by
  intro N
  induction N using Nat.strongRecOn with
  | _ N strong =>
    intro ts w gen
    suffices ∀ n, n ≤ N → ∀ ts w, Gen k g n ts w → Gen k h n ts w from this N (Nat.le_refl _) ts w gen
    intro n hn ts w gen
    induction gen with
    | nil => exact .nil
    | pred _ ih => exact .pred (ih hn)
    | @rule n a o us ts w v c d ho hs hc hu _ ih1 ih2 =>
      obtain ⟨o', ho', hl | ⟨r, r', rfl, rfl, heq⟩⟩ := ha.at_ a o ho
      · rw [hl.label]
        exact .rule ho' (hl.spells hs) (by rw [← hl.cost]; omega) (ih1 (by omega)) (ih2 (by omega))
      · cases hs
        simp only [stepCost] at hc
        have := strong c (by omega) _ _ ((heq g (List.prefix_refl _)).1 _ _ hu)
        rw [label_forward, ← label_forward (some r')]
        exact .rule (o := .forward (some r')) ho' .forward (by simpa [stepCost] using hc) this
          (ih2 (by omega))

theorem Agree.back {g : Heap P} (ha : Agree k g h) {n ts w} (gen : Gen k h n ts w) :
    ∃ m, Gen k g m ts w := by
  induction gen with
  | nil => exact ⟨0, .nil⟩
  | pred _ ih => obtain ⟨m, g'⟩ := ih; exact ⟨m, .pred g'⟩
  | @rule n a o' us ts w v c d ho' hs hc _ _ ih1 ih2 =>
    obtain ⟨c', g1⟩ := ih1
    obtain ⟨d', g2⟩ := ih2
    have hlt : a < g.length := by
      rw [ha.length]; exact (List.getElem?_eq_some_iff.1 ho').1
    obtain ⟨o1, ho1, hl⟩ := ha.at_ a g[a] (List.getElem?_eq_getElem hlt)
    rw [ho'] at ho1; cases ho1
    rcases hl with hl | ⟨r, r', hr, rfl, heq⟩
    · rw [← hl.label]
      exact ⟨_, .rule (List.getElem?_eq_getElem hlt) (hl.symm.spells hs) (Nat.le_refl _) g1 g2⟩
    · cases hs
      obtain ⟨m, g1'⟩ := (heq g (List.prefix_refl _)).2 _ _ g1
      have hg : g[a]? = some (.forward (some r)) := by rw [List.getElem?_eq_getElem hlt, hr]
      rw [label_forward, ← label_forward (some r)]
      exact ⟨_, .rule (o := .forward (some r)) hg .forward (Nat.le_refl _) g1' g2⟩

/-- Redefining forward rules with equivalent contents changes no words. -/
theorem Agree.words {g : Heap P} (ha : Agree k g h) (a : Nat) (w : List (Sym P)) :
    Words k g a w ↔ Words k h a w := by
  unfold Words
  rw [says_iff_gen, says_iff_gen]
  exact ⟨fun ⟨n, g⟩ => ⟨n, ha.forth _ _ _ g⟩, fun ⟨_, g⟩ => ha.back g⟩

end Yargy
