import Verif.Proofs.CompileWords
/-!
C16, C17, C18: what normalisation does to the words of a rule.

All statements are about the label kinds `k`: `Words .plain` are the sequences of predicates, `Words
.name` (`.interp`, `.relation`) have brackets around the parts under a name (an interpretator, a
relation).
-/
namespace Yargy

variable {P : Type} {k : Kind}

/-! ### C16 -/

/-- C16. Replacing quantifiers, alternatives and empty rules and flattening changes neither the words of
the rule nor those of any other rule object, in particular of the forward rules referred to. It holds
for every rule graph, recursive or not, whose bounds are what the constructors accept. -/
theorem replacing_keeps_words {pid : Nat → Nat} (hp : ∀ a b, pid a = pid b → a = b)
    {limit root b : Nat} {h h' : Heap P} (hn : replaced pid limit root h = .ok (b, h'))
    (hc : ClosedHeap h) (hb : ∀ o ∈ h, o.bare k) (hbounds : ∀ o ∈ h, o.bounds)
    (hr : root < h.length) :
    (∀ w, Words k h' b w ↔ Words k h root w) ∧
    ∀ x, x < h.length → ∀ w, Words k h' x w ↔ Words k h x w := by
  have s := replaced_step hp hn ⟨hc, fun o ho => ⟨hb o ho, hbounds o ho⟩⟩ hr
  exact ⟨fun w => (s.words w).symm, fun x hx w => (s.others x hx w).symm⟩

/-- `X = forward(); X.define(or_(rule(a.optional(), a.repeatable(min=2, max=3), X), a))` with a name. -/
def sampleRule : Heap Nat :=
  [.forward (some 6), .prod [.pred 1] 0, .rule [1], .optional 2 false, .minMaxBounded 2 2 3 false,
   .prod [.rule 3, .rule 4, .rule 0] 0, .or [7, 2], .rule [5], .named 0 ['X']]

example : (replaced id 60 8 sampleRule).isOk = true := by decide +kernel

theorem sampleRule_closed : ClosedHeap sampleRule := by
  unfold ClosedHeap sampleRule; decide +kernel

theorem bare_of_not_bnf {h : Heap P} (hb : ∀ o ∈ h, match o with | .bnf _ _ _ _ _ => False | _ => True) :
    ∀ o ∈ h, o.bare k := by
  intro o ho ps n i r d e
  subst e
  exact (hb _ ho).elim

example : (∀ o ∈ sampleRule, o.bare k) ∧ (∀ o ∈ sampleRule, o.bounds) ∧ 8 < sampleRule.length := by
  refine ⟨bare_of_not_bnf ?_, ?_, by decide⟩
  · intro o ho
    simp only [sampleRule, List.mem_cons, List.not_mem_nil, or_false] at ho
    rcases ho with rfl | rfl | rfl | rfl | rfl | rfl | rfl | rfl | rfl <;> trivial
  · intro o ho
    simp only [sampleRule, List.mem_cons, List.not_mem_nil, or_false] at ho
    rcases ho with rfl | rfl | rfl | rfl | rfl | rfl | rfl | rfl | rfl <;>
      first | trivial | (simp only [Obj.bounds]; omega)

/-! ### Repetitions -/

theorem says_replicate {h : Heap P} {r : Nat} : ∀ (n : Nat) (w : List (Sym P)),
    Says k h (List.replicate n (.rule r)) w ↔
      ∃ ws : List (List (Sym P)), ws.length = n ∧ (∀ v ∈ ws, Words k h r v) ∧ w = ws.flatten := by
  intro n
  induction n with
  | zero =>
    intro w
    rw [List.replicate_zero, says_nil]
    constructor
    · rintro rfl; exact ⟨[], rfl, by simp, rfl⟩
    · rintro ⟨ws, h1, _, rfl⟩
      rw [List.length_eq_zero_iff] at h1
      subst h1; rfl
  | succ n ih =>
    intro w
    rw [List.replicate_succ, show Term.rule r :: List.replicate n (Term.rule r) =
      [.rule r] ++ List.replicate n (.rule (P := P) r) from rfl, says_append]
    constructor
    · rintro ⟨v, v', h1, h2, rfl⟩
      obtain ⟨ws, h3, h4, rfl⟩ := (ih v').1 h2
      refine ⟨v :: ws, by simp [h3], ?_, rfl⟩
      intro x hx
      rw [List.mem_cons] at hx
      rcases hx with rfl | hx
      · exact h1
      · exact h4 x hx
    · rintro ⟨ws, h1, h2, rfl⟩
      cases ws with
      | nil => simp at h1
      | cons v ws =>
        refine ⟨v, ws.flatten, h2 v List.mem_cons_self, (ih _).2 ⟨ws, by simpa using h1, ?_, rfl⟩, rfl⟩
        exact fun x hx => h2 x (List.mem_cons_of_mem _ hx)

/-- A repetition says so many words of its item. -/
theorem words_quant {h : Heap P} {a r : Nat} {o : Obj P} {N : Nat → Prop} (ha : h[a]? = some o)
    (hq : Quant o r N) (hl : o.label k = none) (w : List (Sym P)) :
    Words k h a w ↔ ∃ ws : List (List (Sym P)), N ws.length ∧ (∀ v ∈ ws, Words k h r v) ∧
      w = ws.flatten := by
  rw [words_iff ha]
  constructor
  · rintro ⟨us, v, h1, h2, rfl⟩
    obtain ⟨n, hn, rfl⟩ := (hq us).1 h1
    obtain ⟨ws, h3, h4, rfl⟩ := (says_replicate n v).1 h2
    exact ⟨ws, h3 ▸ hn, h4, by rw [hl]; rfl⟩
  · rintro ⟨ws, h1, h2, rfl⟩
    exact ⟨_, _, (hq _).2 ⟨_, h1, rfl⟩, (says_replicate _ _).2 ⟨ws, rfl, h2, rfl⟩, by rw [hl]; rfl⟩

/-! ### C18 -/

/-- How many repetitions a user asks for with `repeatable(min, max)`. -/
def Asked (min max : Option Int) (n : Nat) : Prop :=
  (min.getD 1 : Int) ≤ n ∧ ∀ b, max = some b → (n : Int) ≤ b

/-- C18, the part that holds: with positive bounds, `repeatable` refuses exactly the contradictory
ones, and otherwise makes a rule with exactly the asked repetitions, whatever `reverse` is. -/
theorem repeatable_exact (r : Nat) (min max : Option Int) (rev : Bool)
    (hmin : ∀ a, min = some a → 1 ≤ a) (hmax : ∀ b, max = some b → 1 ≤ b) :
    (∀ a b, min = some a → max = some b → b < a →
      mkRepeat (P := P) r min max rev = .error .valueError) ∧
    ((∀ a b, min = some a → max = some b → a ≤ b) →
      ∃ o : Obj P, mkRepeat r min max rev = .ok o ∧ o.bounds ∧
        ∀ (h : Heap P) (a : Nat), h[a]? = some o → ∀ w, Words k h a w ↔
          ∃ ws : List (List (Sym P)), Asked min max ws.length ∧ (∀ v ∈ ws, Words k h r v) ∧
            w = ws.flatten) := by
  have gmin : givenBound min = min := by
    cases min with
    | none => rfl
    | some a => have := hmin a rfl; unfold givenBound; split <;> simp_all
  have gmax : givenBound max = max := by
    cases max with
    | none => rfl
    | some a => have := hmax a rfl; unfold givenBound; split <;> simp_all
  constructor
  · rintro a b rfl rfl hlt
    have h1 := hmin a rfl
    have h2 := hmax b rfl
    unfold mkRepeat
    rw [gmin, gmax]
    simp only
    rw [if_neg (by omega), if_neg (by omega), if_pos hlt]
  · intro hab
    unfold mkRepeat
    rw [gmin, gmax]
    have weaken : ∀ {h : Heap P} {a : Nat} {o : Obj P} {N : Nat → Prop}, h[a]? = some o →
        Quant o r N → o.label k = none → (∀ n, N n ↔ Asked min max n) → ∀ w, (Words k h a w ↔
          ∃ ws : List (List (Sym P)), Asked min max ws.length ∧ (∀ v ∈ ws, Words k h r v) ∧
            w = ws.flatten) := by
      intro h a o N ha hq hl hN w
      rw [words_quant ha hq hl]
      constructor
      · rintro ⟨ws, h1, h2⟩; exact ⟨ws, (hN _).1 h1, h2⟩
      · rintro ⟨ws, h1, h2⟩; exact ⟨ws, (hN _).2 h1, h2⟩
    cases min with
    | none =>
      cases max with
      | none =>
        refine ⟨_, rfl, trivial, fun h a ha => weaken ha (quant_repeatable r rev) (label_quant rfl) ?_⟩
        intro n; simp [Asked]; omega
      | some b =>
        have h2 := hmax b rfl
        refine ⟨_, if_neg (by omega), ?_, fun h a ha => weaken ha (quant_max r b.toNat rev)
          (label_quant rfl) ?_⟩
        · simp only [Obj.bounds]; omega
        · intro n; simp [Asked]; omega
    | some a =>
      have h1 := hmin a rfl
      cases max with
      | none =>
        refine ⟨_, if_neg (by omega), ?_, fun h c ha => weaken ha (quant_min r a.toNat rev)
          (label_quant rfl) ?_⟩
        · simp only [Obj.bounds]; omega
        · intro n; simp [Asked]
      | some b =>
        have h2 := hmax b rfl
        have h3 := hab a b rfl rfl
        refine ⟨.minMaxBounded r a.toNat b.toNat rev, ?_, ?_, fun h c ha => weaken ha
          (quant_minMax r a.toNat b.toNat rev) (label_quant rfl) ?_⟩
        · simp only
          rw [if_neg (by omega), if_neg (by omega), if_neg (by omega)]
        · simp only [Obj.bounds]; omega
        · intro n; simp [Asked]; omega

/-- C18: bounds below zero are refused. -/
theorem repeatable_negative (r : Nat) (min max : Option Int) (rev : Bool)
    (h : (∃ a, min = some a ∧ a < 0) ∨ ∃ b, max = some b ∧ b < 0) :
    mkRepeat (P := P) r min max rev = .error .valueError := by
  have g : ∀ a : Int, a < 0 → givenBound (some a) = some a := by
    intro a ha
    unfold givenBound
    split
    · simp_all
    · rfl
  unfold mkRepeat
  rcases h with ⟨a, rfl, ha⟩ | ⟨b, rfl, hb⟩
  · rw [g a ha]
    split
    · rename_i x y e1 e2
      cases e1
      rw [if_pos (by omega)]
    · rename_i x e1 e2
      cases e1
      rw [if_pos (by omega)]
    · simp_all
    · simp_all
  · rw [g b hb]
    split
    · rename_i x y e1 e2
      cases e2
      split
      · rfl
      · rw [if_pos (by omega)]
    · simp_all
    · rename_i y e1 e2
      cases e2
      rw [if_pos (by omega)]
    · simp_all

/-- C18 is false for zero: `repeatable(max=0)` is not refused and accepts any number of repetitions,
`repeatable(min=0)` is not refused and does not accept none. -/
theorem repeatable_zero (r : Nat) (rev : Bool) :
    mkRepeat (P := P) r none (some 0) rev = .ok (.repeatable r rev) ∧
    mkRepeat (P := P) r (some 0) none rev = .ok (.repeatable r rev) := ⟨rfl, rfl⟩

example : Asked (some 2) (some 3) 2 ∧ ¬ Asked (some 2) (some 3) 4 ∧ Asked none none 7 := by
  simp [Asked]

/-- C18 after normalisation: if no repetition asking for two or more meets another repetition
directly, then the compiled form has exactly the asked repetitions too. -/
theorem repeatable_normalized {pid : Nat → Nat} (hp : ∀ a b, pid a = pid b → a = b)
    {limit root b r : Nat} {min max : Option Int} {rev : Bool} {h h' : Heap P} {o : Obj P}
    (hmin : ∀ a, min = some a → 1 ≤ a) (hmax : ∀ b, max = some b → 1 ≤ b)
    (hab : ∀ a b, min = some a → max = some b → a ≤ b)
    (ho : mkRepeat r min max rev = .ok o) (hroot : h[root]? = some o)
    (hn : normalized pid limit root h = .ok (b, h')) (hc : ClosedHeap h) (hb : ∀ o ∈ h, o.bare k)
    (hcalm : Calm h) (w : List (Sym P)) :
    Words k h' b w ↔ ∃ ws : List (List (Sym P)), Asked min max ws.length ∧
      (∀ v ∈ ws, Words k h r v) ∧ w = ws.flatten := by
  obtain ⟨o', h1, _, h2⟩ := (repeatable_exact (P := P) (k := k) r min max rev hmin hmax).2 hab
  rw [ho] at h1
  cases h1
  have s := normalized_step hp hn hc hb hcalm (List.getElem?_eq_some_iff.1 hroot).1
  rw [← s.words, h2 h root hroot]

/-! ### C17 -/

/-- C17, the part that holds: squashing keeps the words when no repetition asking for two or more
directly repeats, or is directly repeated by, something optional or repeatable. -/
theorem squash_keeps_words_partial {pid : Nat → Nat} (hp : ∀ a b, pid a = pid b → a = b)
    {limit root b : Nat} {h h' : Heap P} (hn : transform squashMethod pid limit root h = .ok (b, h'))
    (hc : ClosedHeap h) (hb : ∀ o ∈ h, o.bare k) (hcalm : Calm h) (hr : root < h.length) :
    (∀ w, Words k h' b w ↔ Words k h root w) ∧
    ∀ x, x < h.length → ∀ w, Words k h' x w ↔ Words k h x w := by
  have s := squash_step hp hn hc hb hcalm hr
  exact ⟨fun w => (s.words w).symm, fun x hx w => (s.others x hx w).symm⟩

/-- Both halves of `Rule.normalized` together. -/
theorem normalized_keeps_words_partial {pid : Nat → Nat} (hp : ∀ a b, pid a = pid b → a = b)
    {limit root b : Nat} {h h' : Heap P} (hn : normalized pid limit root h = .ok (b, h'))
    (hc : ClosedHeap h) (hb : ∀ o ∈ h, o.bare k) (hcalm : Calm h) (hr : root < h.length) :
    (∀ w, Words k h' b w ↔ Words k h root w) ∧
    ∀ x, x < h.length → ∀ w, Words k h' x w ↔ Words k h x w := by
  have s := normalized_step hp hn hc hb hcalm hr
  exact ⟨fun w => (s.words w).symm, fun x hx w => (s.others x hx w).symm⟩

/-- `rule(a.optional().repeatable(), a.repeatable(min=2))`: quantifiers nested, and a lower bound. -/
def sampleCalm : Heap Nat :=
  [.prod [.pred 1] 0, .rule [0], .optional 1 false, .repeatable 2 true, .minBounded 1 2 false,
   .prod [.rule 3, .rule 4] 0, .rule [5]]

example : Calm sampleCalm ∧ ClosedHeap sampleCalm ∧ (normalized id 60 6 sampleCalm).isOk = true := by
  refine ⟨⟨?_, ?_⟩, by unfold ClosedHeap sampleCalm; decide +kernel, by decide +kernel⟩
  · intro o ho
    simp only [sampleCalm, List.mem_cons, List.not_mem_nil, or_false] at ho
    rcases ho with rfl | rfl | rfl | rfl | rfl | rfl | rfl <;>
      first | trivial | (simp only [Obj.bounds]; omega)
  · have d1 : tight sampleCalm 1 := fun o e => by cases e; rfl
    intro o ho
    simp only [sampleCalm, List.mem_cons, List.not_mem_nil, or_false] at ho
    rcases ho with rfl | rfl | rfl | rfl | rfl | rfl | rfl
    · trivial
    · trivial
    · trivial
    · intro h
      cases h with
      | optional e h => simp [sampleCalm] at e; rw [← e.1] at h; exact tight_not_demands d1 h
      | min e _ => simp [sampleCalm] at e
      | minMax e _ => simp [sampleCalm] at e
      | repeatable e _ => simp [sampleCalm] at e
      | repOptional e _ => simp [sampleCalm] at e
      | minBounded e _ => simp [sampleCalm] at e
      | maxBounded e _ => simp [sampleCalm] at e
      | minMaxBounded e _ => simp [sampleCalm] at e
    · exact fun _ => tight_not_loose d1
    · trivial
    · trivial

theorem words_letter {h : Heap P} {r p : Nat} {x : P} (hr : h[r]? = some (.rule [p]))
    (hp : h[p]? = some (.prod [.pred x] 0)) (w : List (Sym P)) :
    Words k h r w ↔ w = [.pred x] := by
  rw [words_iff hr]
  constructor
  · rintro ⟨us, v, h1, h2, rfl⟩
    cases h1 with
    | rule hm =>
      simp only [List.mem_singleton] at hm
      subst hm
      obtain ⟨us', v', h3, h4, rfl⟩ := (words_iff hp v).1 h2
      cases h3
      cases h4 with
      | pred h4 => cases h4; simp [label_rule, label_prod, wrap]
  · rintro rfl
    exact ⟨_, _, .rule (List.mem_singleton.2 rfl), (words_iff hp _).2 ⟨_, _, .prod, .pred .nil, rfl⟩,
      by simp [label_rule, label_prod, wrap]⟩

/-- `a.repeatable(min=2).repeatable()` -/
def squashMore : Heap Nat := [.prod [.pred 1] 0, .rule [0], .minBounded 1 2 false, .repeatable 2 false]

/-- `a.optional().repeatable(min=2)` -/
def squashLess : Heap Nat := [.prod [.pred 1] 0, .rule [0], .optional 1 false, .minBounded 2 2 false]

/-- C17 is false of the code: `a.repeatable(min=2).repeatable()` means two or more, but squashed it
accepts one. -/
theorem squash_adds_words : ∃ b h', transform squashMethod id 60 3 squashMore = .ok (b, h') ∧
    Words .plain h' b [.pred 1] ∧ ¬ Words .plain squashMore 3 [.pred 1] := by
  refine ⟨7, squashMore ++ [.repeatable 1 false, .prod [.pred 1] 0, .rule [5], .repeatable 6 false],
    rfl, ?_, ?_⟩
  · rw [words_quant (r := 6) rfl (quant_repeatable 6 false) rfl]
    exact ⟨[[.pred 1]], by simp, fun v hv =>
      (words_letter (p := 5) (x := 1) rfl rfl v).2 (List.mem_singleton.1 hv), rfl⟩
  · rw [words_quant (r := 2) rfl (quant_repeatable 2 false) rfl]
    rintro ⟨ws, h1, h2, h3⟩
    have len : ∀ v, Words .plain squashMore 2 v → 2 ≤ v.length := by
      intro v hv
      rw [words_quant (r := 1) rfl (quant_min 1 2 false) rfl] at hv
      obtain ⟨vs, h4, h5, rfl⟩ := hv
      cases vs with
      | nil => simp at h4
      | cons v1 vs =>
        cases vs with
        | nil => simp at h4
        | cons v2 vs =>
          have e1 := (words_letter (p := 0) (x := 1) rfl rfl v1).1 (h5 v1 (by simp))
          have e2 := (words_letter (p := 0) (x := 1) rfl rfl v2).1 (h5 v2 (by simp))
          subst e1 e2
          simp
    cases ws with
    | nil => simp at h1
    | cons v ws =>
      have h4 := len v (h2 v List.mem_cons_self)
      have h5 := congrArg List.length h3
      simp at h5
      omega

/-- C17 is false of the code in the other direction too: `a.optional().repeatable(min=2)` accepts one
(one repetition being empty), squashed it does not. -/
theorem squash_loses_words : ∃ b h', transform squashMethod id 60 3 squashLess = .ok (b, h') ∧
    Words .plain squashLess 3 [.pred 1] ∧ ¬ Words .plain h' b [.pred 1] := by
  refine ⟨9, squashLess ++ [.minBounded 1 2 false, .optional 4 false, .prod [.pred 1] 0, .rule [6],
    .minBounded 7 2 false, .optional 8 false], rfl, ?_, ?_⟩
  · rw [words_quant (r := 2) rfl (quant_min 2 2 false) rfl]
    refine ⟨[[], [.pred 1]], by simp, ?_, rfl⟩
    intro v hv
    rw [words_quant (r := 1) rfl (quant_optional 1 false) rfl]
    simp only [List.mem_cons, List.not_mem_nil, or_false] at hv
    rcases hv with rfl | rfl
    · exact ⟨[], by simp, by simp, rfl⟩
    · exact ⟨[[.pred 1]], by simp, fun v hv =>
        (words_letter (p := 0) (x := 1) rfl rfl v).2 (List.mem_singleton.1 hv), rfl⟩
  · rw [words_quant (r := 8) rfl (quant_optional 8 false) rfl]
    rintro ⟨ws, h1, h2, h3⟩
    have len : ∀ v, Words .plain (squashLess ++ [.minBounded 1 2 false, .optional 4 false,
        .prod [.pred 1] 0, .rule [6], .minBounded 7 2 false, .optional 8 false]) 8 v →
        2 ≤ v.length := by
      intro v hv
      rw [words_quant (r := 7) rfl (quant_min 7 2 false) rfl] at hv
      obtain ⟨vs, h4, h5, rfl⟩ := hv
      cases vs with
      | nil => simp at h4
      | cons v1 vs =>
        cases vs with
        | nil => simp at h4
        | cons v2 vs =>
          have e1 := (words_letter (p := 6) (x := 1) rfl rfl v1).1 (h5 v1 (by simp))
          have e2 := (words_letter (p := 6) (x := 1) rfl rfl v2).1 (h5 v2 (by simp))
          subst e1 e2
          simp
    cases ws with
    | nil => simp at h3
    | cons v ws =>
      have h4 := len v (h2 v List.mem_cons_self)
      have h5 := congrArg List.length h3
      simp at h5
      omega

end Yargy
