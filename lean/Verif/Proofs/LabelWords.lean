import Verif.Proofs.BnfLabels
import Verif.Proofs.WrapRoot
import Verif.Proofs.Cut
/-!
Compiling keeps the interpretators and relations around parts of a rule.
-/
namespace Yargy

variable {P : Type} {k : Kind} {A : Activation P}

/-- The words of the compiled rule: those of the rule, but a label may have been put around all of them
if the rule itself carries none. -/
def LabelledAs (given : Option Attr) (W R : List (Sym P) → Prop) : Prop :=
  (∀ w, W w ↔ R w) ∨ (given = none ∧ ∃ x, ∀ w, W w ↔ ∃ u, w = wrap (some x) u ∧ R u)

/-- The label of the object at an address, if there is one. -/
def labelAt (k : Kind) (h : Heap P) (a : Nat) : Option Attr := (h[a]?).bind (Obj.label k)

theorem wrapper_of_label {o : Obj P} {x : Attr} (hb : o.bare k) (h : o.label k = some x) : o.wrapper := by
  cases o <;> first | trivial | skip
  case bnf => rw [hb _ _ _ _ _ rfl] at h; cases h
  all_goals (cases k <;> cases h)

theorem awake_bare {h h' : Heap P} {root : Nat} (hw : Awake A (Reach h root) h h')
    (hb : ∀ o ∈ h, o.bare k) : ∀ o ∈ h', o.bare k := by
  intro o' ho'
  obtain ⟨a, ha⟩ := List.mem_iff_getElem?.1 ho'
  obtain ⟨o, h1, h2⟩ := hw.at_ ha
  have := hb o (List.mem_of_getElem? h1)
  rcases h2 with ⟨_, hact⟩ | ⟨_, rfl⟩
  · have k2 := activateObj_ok (k := k) hact
    rcases k2.2.2.2.2 with rfl | ⟨ts, ts', m, rfl, rfl⟩ | ⟨p, p', rfl, rfl⟩
    · exact this
    · intro ps n i r d e; cases e
    · intro ps n i r d e; cases e
  · exact this

theorem compileRule_labels {pid : Nat → Nat} (hp : ∀ a b, pid a = pid b → a = b) {limit root b : Nat}
    {h h' : Heap P} (hs : Sorted h) (hlt : root < h.length)
    (hr : isProdAt h root = false) (hcalm : Calm h) (hbare : ∀ o ∈ h, o.bare k)
    (e : compileRule A pid limit root h = .ok (b, h')) :
    LabelledAs (labelAt k h root) (Words k h' b) (Reads A k h [.rule root]) := by
  have hid : ∀ a b : Nat, id a = id b → a = b := fun _ _ h => h
  rw [addresses_irrelevant_partial hp hid] at e
  unfold compileRule at e
  simp only [bind, Except.bind] at e
  split at e
  · cases e
  · rename_i h1 e1
    split at e
    · cases e
    · rename_i x e2
      obtain ⟨r2, h2⟩ := x
      simp only at e
      have hw := activateRule_awake hid hs.closed hlt (by
        intro ts m hm
        rw [Pass.isProdAt_some hm] at hr; cases hr) e1
      obtain ⟨a1, a2, a3, a4⟩ := Twins.activated hs hlt hr e1
      have s1 : Step k h1 root h2 r2 := normalized_step hid e2 (hw.closed hs.closed)
        (awake_bare hw hbare) (hw.calm hcalm) (a4 ▸ hlt)
      have l1 := normalized_left hid a2 a1 a3 e2
      unfold asBnf at e
      simp only [bind, Except.bind] at e
      split at e
      · cases e
      · rename_i x3 e3
        obtain ⟨r3, h3⟩ := x3
        simp only at e
        split at e
        · cases e
        · rename_i x4 e4
          obtain ⟨r4, h4⟩ := x4
          cases e
          obtain ⟨_, hb⟩ := toBnf_labels (k := k) hid l1.sorted l1.typed l1.prod e3
          obtain ⟨_, _, w4⟩ := removeForward_words (k := k) e4
          obtain ⟨_, w5⟩ := generateNames_words (walk id h4 r4) 0 h4
          have fin : ∀ w, Words k (generateNames (walk id h4 r4) 0 h4) r4 w ↔ Words k h3 r3 w :=
            fun w => (w5 r4 w).trans (w4 w)
          have beg : ∀ w, Words k h2 r2 w ↔ Reads A k h [.rule root] w :=
            fun w => (s1.words w).symm.trans (awake_words hw w)
          rcases hb with hb | ⟨n, x, hb⟩
          · exact .inl fun w => (fin w).trans ((hb w).trans (beg w))
          · refine .inr ⟨?_, x, fun w => (fin w).trans ((hb w).trans ?_)⟩
            · cases hl : labelAt k h root with
              | none => rfl
              | some y =>
                unfold labelAt at hl
                obtain ⟨o, ho, hy⟩ := Option.bind_eq_some_iff.1 hl
                have hwr := wrapper_of_label (hbare o (List.mem_of_getElem? ho)) hy
                obtain ⟨o1, ho1, hact⟩ := hw.done root o .root ho
                obtain ⟨_, k2, _⟩ := activateObj_ok (k := k) hact
                have hwr1 : o1.wrapper :=
                  wrapper_of_label (awake_bare hw hbare o1 (List.mem_of_getElem? ho1)) (k2.trans hy)
                obtain ⟨o2, ho2, hsw⟩ := normalized_wraps hid e2 ho1 hwr1
                have := n o2 ho2
                rw [hsw.2.2 k, k2, hy] at this
                cases this
            · constructor
              · rintro ⟨u, rfl, hu⟩; exact ⟨u, rfl, (beg u).1 hu⟩
              · rintro ⟨u, rfl, hu⟩; exact ⟨u, rfl, (beg u).2 hu⟩

theorem removeForwards_at {pid : Nat → Nat} {a : Nat} : ∀ (n : Nat) (queue seen : List Nat) (h h' : Heap P),
    removeForwards pid n queue seen h = .ok h' → (∀ ts m, h[a]? ≠ some (.prod ts m)) → h'[a]? = h[a]? := by
  intro n
  induction n with
  | zero => intro queue seen h h' e _; cases e; rfl
  | succ n ih =>
    intro queue seen h h' e ha
    cases queue with
    | nil => cases e; rfl
    | cons q queue =>
      simp only [removeForwards] at e
      split at e
      · cases e
      · rename_i ts m hq
        split at e
        · cases e
        · have hne : q ≠ a := by rintro rfl; exact ha _ _ hq
          have hget : ∀ ts' : List (Term P), (h.set q (.prod ts' m))[a]? = h[a]? :=
            fun ts' => List.getElem?_set_ne hne
          rw [ih _ _ _ _ e (by intro ts m; rw [hget]; exact ha ts m), hget]
      · exact ih _ _ _ _ e ha

theorem generateNames_label {k : Kind} : ∀ (as : List Nat) (count : Nat) (h : Heap P) (a : Nat),
    ((generateNames as count h)[a]?).bind (Obj.label k) = (h[a]?).bind (Obj.label k) := by
  intro as
  induction as with
  | nil => intro count h a; rfl
  | cons x as ih =>
    intro count h a
    simp only [generateNames]
    split
    · rename_i ps name i r kind hx
      split
      · exact ih _ _ _
      · rw [ih]
        by_cases e : x = a
        · subst e
          rw [List.getElem?_set_self (List.getElem?_eq_some_iff.1 hx).1, hx]
          rename_i hn
          cases k <;> first | rfl | skip
          simp only [Option.bind_some, Obj.label, realName_genName]
          exact (realName_falsy (fun c cs e => hn c cs e)).symm
        · rw [List.getElem?_set_ne e]
    · exact ih _ _ _

/-- The compiled start rule carries what the rule carries. -/
theorem compileRule_root {pid : Nat → Nat} (hp : ∀ a b, pid a = pid b → a = b) {limit root b : Nat}
    {h h' : Heap P} (hs : Sorted h) (hlt : root < h.length) (hr : isProdAt h root = false)
    {o : Obj P} {x : Attr} (ho : h[root]? = some o) (hwr : o.wrapper) (hx : o.label k = some x)
    (e : compileRule A pid limit root h = .ok (b, h')) : labelAt k h' b = some x := by
  have hid : ∀ a b : Nat, id a = id b → a = b := fun _ _ h => h
  rw [addresses_irrelevant_partial hp hid] at e
  unfold compileRule at e
  simp only [bind, Except.bind] at e
  split at e
  · cases e
  · rename_i h1 e1
    split at e
    · cases e
    · rename_i x2 e2
      obtain ⟨r2, h2⟩ := x2
      simp only at e
      have hw := activateRule_awake hid hs.closed hlt (by
        intro ts m hm
        rw [Pass.isProdAt_some hm] at hr; cases hr) e1
      obtain ⟨a1, a2, a3, a4⟩ := Twins.activated hs hlt hr e1
      have l1 := normalized_left hid a2 a1 a3 e2
      unfold asBnf at e
      simp only [bind, Except.bind] at e
      split at e
      · cases e
      · rename_i x3 e3
        obtain ⟨r3, h3⟩ := x3
        simp only at e
        split at e
        · cases e
        · rename_i x4 e4
          obtain ⟨r4, h4⟩ := x4
          cases e
          obtain ⟨o1, ho1, hact⟩ := hw.done root o .root ho
          have hwr1 : o1.wrapper := by
            cases o <;> first | exact hwr.elim | (cases hact; trivial)
          obtain ⟨_, k2, _⟩ := activateObj_ok (k := k) hact
          obtain ⟨o2, ho2, hsw⟩ := normalized_wraps hid e2 ho1 hwr1
          have hl2 : o2.label k = some x := by rw [hsw.2.2 k, k2, hx]
          have ht2 : o2.tag = .wrap := by
            have := hsw.2.1
            cases o2 <;> first | rfl | exact this.elim
          obtain ⟨o3, ho3, hl3⟩ := toBnf_root (k := k) hid l1.sorted l1.typed e3 ho2 ht2 hl2
          have hnp : ∀ ts m, h3[r3]? ≠ some (.prod ts m) := by
            intro ts m e
            rw [ho3] at e; cases e
            cases k <;> cases hl3
          have hnf : ∀ c, h3[r3]? ≠ some (.forward c) := by
            intro c e
            rw [ho3] at e; cases e
            cases k <;> cases hl3
          unfold removeForward at e4
          split at e4
          · cases e4
          · rename_i g hg
            have hat := removeForwards_at _ _ _ _ _ hg hnp
            have : (r4, h4) = (r3, g) := by
              split at e4
              · rename_i e; rw [hat] at e; exact absurd e (hnf _)
              · rename_i e; rw [hat] at e; exact absurd e (hnf _)
              · cases e4; rfl
            cases this
            unfold labelAt
            rw [generateNames_label, hat, ho3]
            exact hl3

/-- The same with nothing asked of the objects that are not part of the rule. -/
theorem compileRule_labels' {pid : Nat → Nat} (hp : ∀ a b, pid a = pid b → a = b) {limit root b : Nat}
    {h h' : Heap P} (hs : Sorted h) (hlt : root < h.length)
    (hr : isProdAt h root = false)
    (hb : ∀ (x : Nat) o, Reach h root x → h[x]? = some o → o.bounds)
    (hcalm : ∀ (x : Nat) o, Reach h root x → h[x]? = some o → o.calm h)
    (hbare : ∀ (x : Nat) o, Reach h root x → h[x]? = some o → o.bare k)
    (e : compileRule A pid limit root h = .ok (b, h')) :
    LabelledAs (labelAt k h root) (Words k h' b) (Reads A k h [.rule root]) := by
  obtain ⟨g, e', hw, hreads⟩ := compileRule_cut (k := k) hp hs hlt hr e
  have := compileRule_labels hp (cutAway_sorted hs hlt) (by rw [cutAway_length]; exact hlt)
    ((cutAway_prod hs hlt .root).trans hr) (cutAway_calm hs.closed hlt hb hcalm)
    (cutAway_all hs.closed hlt (by intro ps n i r d e; cases e) hbare) e'
  have hl : labelAt k (cutAway h root) root = labelAt k h root := by
    unfold labelAt; rw [cutAway_reach hs.closed hlt .root]
  rw [hl] at this
  have e1 : Words k g b = Words k h' b := by funext w; exact propext (hw w)
  have e2 : Reads A k (cutAway h root) [.rule root] = Reads A k h [.rule root] := by
    funext w; exact propext (hreads w)
  rw [← e1, ← e2]
  exact this

/-- `compileRule_words` with nothing asked of the objects that are not part of the rule. -/
theorem compileRule_words' {pid : Nat → Nat} (hp : ∀ a b, pid a = pid b → a = b) {limit root b : Nat}
    {h h' : Heap P} (hs : Sorted h) (hlt : root < h.length) (hr : isProdAt h root = false)
    (hb : ∀ (x : Nat) o, Reach h root x → h[x]? = some o → o.bounds)
    (hcalm : ∀ (x : Nat) o, Reach h root x → h[x]? = some o → o.calm h)
    (e : compileRule A pid limit root h = .ok (b, h')) (w : List (Sym P)) :
    Words .plain h' b w ↔ Reads A .plain h [.rule root] w := by
  obtain ⟨g, e', hw, hreads⟩ := compileRule_cut (k := .plain) hp hs hlt hr e
  have hr' := (cutAway_prod hs hlt .root).trans hr
  obtain ⟨_, _, h3⟩ := compileRule_words hp e' (cutAway_sorted hs hlt).closed (cutAway_calm hs.closed hlt hb hcalm)
    (by rw [cutAway_length]; exact hlt) (by
      intro ts m hm
      rw [Pass.isProdAt_some hm] at hr'; cases hr')
  rw [← hw, h3, hreads]

end Yargy
