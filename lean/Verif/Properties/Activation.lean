import Verif.Properties.Compile
/-!
C34 for rules: what `Parser(rule)` refuses.
-/
namespace Yargy
open Spec

section general
variable {P : Type} {A : Activation P} {pid : Nat → Nat} {root : Nat} {h : Heap P}

theorem mapM_ok_iff {α β : Type} {f : α → Except Err β} (xs : List α) :
    (∃ ys, xs.mapM f = .ok ys) ↔ ∀ x ∈ xs, ∃ y, f x = .ok y := by
  induction xs with
  | nil => simp [List.mapM_nil, pure, Except.pure]
  | cons x xs ih =>
    rw [List.mapM_cons]
    constructor
    · rintro ⟨ys, e⟩ z hz
      cases h1 : f x with
      | error e' => rw [h1] at e; cases e
      | ok y =>
        rw [h1] at e
        cases h2 : xs.mapM f with
        | error e' => rw [h2] at e; cases e
        | ok ys' =>
          rcases List.mem_cons.1 hz with rfl | hz
          · exact ⟨y, h1⟩
          · exact ih.1 ⟨ys', h2⟩ z hz
    · intro hall
      obtain ⟨y, h1⟩ := hall x List.mem_cons_self
      obtain ⟨ys, h2⟩ := ih.2 (fun z hz => hall z (List.mem_cons_of_mem _ hz))
      exact ⟨y :: ys, by rw [h1, h2]; rfl⟩

theorem foldlM_succeeds : ∀ (as : List Nat) (g : Heap P), as.Nodup →
    (∀ a ∈ as, ∀ o, g[a]? = some o → ∃ o', activateObj A o = .ok o') →
    ∃ g', as.foldlM (activateAt A) g = .ok g' := by
  intro as
  induction as with
  | nil => intro g _ _; exact ⟨g, rfl⟩
  | cons a as ih =>
    intro g hn hall
    rw [List.nodup_cons] at hn
    have step : ∃ g1, activateAt A g a = .ok g1 ∧ ∀ b, b ≠ a → g1[b]? = g[b]? := by
      unfold activateAt
      cases ha : g[a]? with
      | none => exact ⟨g, rfl, fun _ _ => rfl⟩
      | some o =>
        obtain ⟨o', ho⟩ := hall a List.mem_cons_self o ha
        simp only [ho]
        exact ⟨_, rfl, fun b hb => List.getElem?_set_ne (Ne.symm hb)⟩
    obtain ⟨g1, e1, hg1⟩ := step
    obtain ⟨g', e2⟩ := ih g1 hn.2 (by
      intro b hb o ho
      have : b ≠ a := fun e => hn.1 (e ▸ hb)
      exact hall b (List.mem_cons_of_mem _ hb) o (hg1 b this ▸ ho))
    exact ⟨g', by rw [List.foldlM_cons, e1]; exact e2⟩

/-- Activation fails iff it fails for one of the objects below the rule. -/
theorem activateRule_succeeds (hp : ∀ a b, pid a = pid b → a = b) (hc : ClosedHeap h)
    (hr : root < h.length) (hroot : ∀ ts m, h[root]? ≠ some (.prod ts m)) :
    (∃ h', activateRule A pid root h = .ok h') ↔
      ∀ (a : Nat) (o : Obj P), Reach h root a → h[a]? = some o → ∃ o', activateObj A o = .ok o' := by
  constructor
  · rintro ⟨h', e⟩ a o ha ho
    obtain ⟨o', _, h1⟩ := (activateRule_awake hp hc hr hroot e).done a o ha ho
    exact ⟨o', h1⟩
  · intro hall
    obtain ⟨h1, h2, _, _⟩ := walk_spec hp hc hr
    obtain ⟨g, hg⟩ := foldlM_succeeds (A := A) (walk pid h root) h h1
      (fun a ha o ho => hall a o ((reach_iff hp hc hr a).1 ha) ho)
    have hw := foldlM_awake (h := h) _ (fun _ => False) h g h1 (by simp)
      ⟨rfl, by simp, fun _ _ => rfl⟩ hg
    obtain ⟨o, ho⟩ : ∃ o, h[root]? = some o := ⟨_, List.getElem?_eq_getElem hr⟩
    obtain ⟨o', ho', hao⟩ := hw.done root o (.inr h2) ho
    have hagain : ∃ o'', activateObj A o' = .ok o'' := by
      cases o with
      | prod ts m => exact absurd ho (hroot ts m)
      | pipe p =>
        cases p with
        | keys d ks => cases hao; exact ⟨_, rfl⟩
        | scheme d lines =>
          simp only [activateObj, activatePipe] at hao
          cases hm : lines.mapM (fun l => (A.key d l).map (fun ts => (l, ts))) with
          | error e => rw [hm] at hao; cases hao
          | ok ks => rw [hm] at hao; cases hao; exact ⟨_, rfl⟩
      | _ => cases hao; exact ⟨_, rfl⟩
    obtain ⟨o'', hoo⟩ := hagain
    refine ⟨g.set root o'', ?_⟩
    unfold activateRule
    rw [List.foldlM_append, hg]
    simp only [bind, Except.bind, List.foldlM_cons, List.foldlM_nil, activateAt, ho', hoo, Except.map,
      pure, Except.pure]

end general

/-- A predicate stands in a production somewhere below a rule. -/
def Mentions (h : Heap Pred) (root : Nat) (p : Pred) : Prop :=
  ∃ (a : Nat) (ts : List (Term Pred)) (m : Nat),
    Reach h root a ∧ h[a]? = some (.prod ts m) ∧ .pred p ∈ ts

/-- A word of a `morph_pipeline` stands somewhere below a rule. -/
def MentionsMorph (split : Str → List Str) (h : Heap Pred) (root : Nat) : Prop :=
  ∃ (a : Nat) (lines : List Str) (l w : Str),
    Reach h root a ∧ h[a]? = some (.pipe (.scheme .morph lines)) ∧ l ∈ lines ∧ w ∈ split l

variable {L : Lang} {setOrder : List Str → List Str} {c : Context} {split : Str → List Str}
  {relation : Nat → Relation} {pid : Nat → Nat} {limit root : Nat} {h h' : Heap Pred}

theorem pipeKey_ok (d : PipeKind) (l : Str) :
    (∃ ps, pipeKey L c split d l = .ok ps) ↔
      (d = .morph → (∃ w, w ∈ split l) → ∃ m, c.morph = some m) := by
  cases d with
  | exact => simp [pipeKey]
  | caseless => simp [pipeKey]
  | morph =>
    simp only [pipeKey, true_implies]
    rw [mapM_ok_iff]
    constructor
    · rintro hall ⟨w, hw⟩
      obtain ⟨y, hy⟩ := hall w hw
      cases hm : c.morph with
      | some m => exact ⟨m, rfl⟩
      | none =>
        unfold Context.getMorph at hy
        rw [hm] at hy; cases hy
    · intro hall w hw
      obtain ⟨m, hm⟩ := hall ⟨w, hw⟩
      refine ⟨.dict (m.normalized w), ?_⟩
      unfold Context.getMorph
      rw [hm]; rfl

/-- C34 (partial), for rules: activation succeeds iff every scheme inside every predicate anywhere in
the rule refers to known grammemes and token types, and there is a morphology if a `morph_pipeline` has
words. Missing: tags (`tag_not_checked`). -/
theorem rule_activates_iff_partial (hp : ∀ a b, pid a = pid b → a = b) (hc : ClosedHeap h)
    (hr : root < h.length) (hroot : ∀ ts m, h[root]? ≠ some (.prod ts m)) :
    (∃ h', activateRule (c.activation L split) pid root h = .ok h') ↔
      (∀ p, Mentions h root p → ∀ q, PredPart q p → Known c q) ∧
      (MentionsMorph split h root → ∃ m, c.morph = some m) := by
  rw [activateRule_succeeds hp hc hr hroot]
  constructor
  · intro hall
    refine ⟨?_, ?_⟩
    · rintro p ⟨a, ts, m, ha, ho, ht⟩
      rw [← activate_iff_known_partial]
      obtain ⟨o', e⟩ := hall a _ ha ho
      simp only [activateObj] at e
      cases hm : ts.mapM (activateTerm (c.activation L split)) with
      | error x => rw [hm] at e; cases e
      | ok us =>
        obtain ⟨u, hu⟩ := (mapM_ok_iff _).1 ⟨us, hm⟩ _ ht
        simp only [activateTerm, Context.activation] at hu
        cases hq : p.activate c with
        | error x => rw [hq] at hu; cases hu
        | ok q => exact ⟨q, rfl⟩
    · rintro ⟨a, lines, l, w, ha, ho, hl, hw⟩
      obtain ⟨o', e⟩ := hall a _ ha ho
      simp only [activateObj, activatePipe] at e
      cases hm : lines.mapM (fun l => ((c.activation L split).key .morph l).map (fun ts => (l, ts))) with
      | error x => rw [hm] at e; cases e
      | ok ks =>
        obtain ⟨y, hy⟩ := (mapM_ok_iff _).1 ⟨ks, hm⟩ _ hl
        cases hk : (c.activation L split).key .morph l with
        | error x => rw [hk] at hy; cases hy
        | ok ps => exact (pipeKey_ok (L := L) .morph l).1 ⟨ps, hk⟩ rfl ⟨w, hw⟩
  · rintro ⟨h1, h2⟩ a o ha ho
    cases o with
    | prod ts m =>
      have : ∃ us, ts.mapM (activateTerm (c.activation L split)) = .ok us := by
        rw [mapM_ok_iff]
        intro t ht
        cases t with
        | rule r => exact ⟨_, rfl⟩
        | pred p =>
          obtain ⟨q, hq⟩ := (activate_iff_known_partial c p).2 (h1 p ⟨a, ts, m, ha, ho, ht⟩)
          exact ⟨.pred q, by simp only [activateTerm, Context.activation, hq, Except.map]⟩
      obtain ⟨us, e⟩ := this
      exact ⟨.prod us m, by simp only [activateObj, e, Except.map]⟩
    | pipe p =>
      cases p with
      | keys d ks => exact ⟨_, rfl⟩
      | scheme d lines =>
        have : ∃ ks, lines.mapM (fun l => ((c.activation L split).key d l).map (fun ts => (l, ts))) =
            .ok ks := by
          rw [mapM_ok_iff]
          intro l hl
          have hk : ∃ ps, (c.activation L split).key d l = .ok ps := by
            refine (pipeKey_ok d l).2 ?_
            rintro rfl ⟨w, hw⟩
            exact h2 ⟨a, lines, l, w, ha, ho, hl, hw⟩
          obtain ⟨ps, hps⟩ := hk
          exact ⟨(l, ps), by rw [hps]; rfl⟩
        obtain ⟨ks, e⟩ := this
        exact ⟨.pipe (.keys d ks), by simp only [activateObj, activatePipe]; rw [e]; rfl⟩
    | _ => exact ⟨_, rfl⟩

/-- C34: no parser is built from a rule that mentions an unknown grammeme or token type anywhere. -/
theorem unknown_refused (hp : ∀ a b, pid a = pid b → a = b) (hc : ClosedHeap h)
    (hr : root < h.length) (hroot : ∀ ts m, h[root]? ≠ some (.prod ts m)) {p q : Pred}
    (hm : Mentions h root p) (hq : PredPart q p) (hk : ¬ Known c q) :
    ∃ e, buildParser L setOrder c split relation pid limit root h = .error e := by
  cases hb : buildParser L setOrder c split relation pid limit root h with
  | error e => exact ⟨e, rfl⟩
  | ok x =>
    exfalso
    unfold buildParser compileRule at hb
    simp only [bind, Except.bind] at hb
    cases ha : activateRule (c.activation L split) pid root h with
    | error e => rw [ha] at hb; cases hb
    | ok h1 =>
      exact hk (((rule_activates_iff_partial (L := L) (split := split) hp hc hr hroot).1 ⟨h1, ha⟩).1
        p hm q hq)

/-- C34: after activation no scheme is left anywhere below the rule. -/
theorem activated_rule_runnable (hp : ∀ a b, pid a = pid b → a = b) (hc : ClosedHeap h)
    (hr : root < h.length) (hroot : ∀ ts m, h[root]? ≠ some (.prod ts m))
    (e : activateRule (c.activation L split) pid root h = .ok h') {p r : Pred}
    (hm : Mentions h' root p) (hpart : PredPart r p) : ¬ Scheme r := by
  have hw := activateRule_awake hp hc hr hroot e
  obtain ⟨a, ts, m, ha, ho, ht⟩ := hm
  have hreach : Reach h root a := by
    have : ∀ x, Reach h' root x → Reach h root x := by
      intro x hx
      induction hx with
      | root => exact .root
      | step _ ho' hcc ih =>
        obtain ⟨o, ho, hch, _⟩ := hw.children ho'
        exact .step ih ho (hch ▸ hcc)
    exact this a ha
  obtain ⟨o, ho0, hcase⟩ := hw.at_ ho
  rcases hcase with ⟨_, h1⟩ | ⟨hn, _⟩
  · cases o with
    | prod ts0 m0 =>
      simp only [activateObj] at h1
      cases hm : ts0.mapM (activateTerm (c.activation L split)) with
      | error x => rw [hm] at h1; cases h1
      | ok us =>
        rw [hm] at h1; cases h1
        obtain ⟨t, _, hta⟩ := (mapM_mem hm _).1 ht
        cases t with
        | rule r => cases hta
        | pred p0 =>
          simp only [activateTerm, Context.activation] at hta
          cases hq : p0.activate c with
          | error x => rw [hq] at hta; cases hta
          | ok q => rw [hq] at hta; cases hta; exact activated_runnable c p0 _ hq r hpart
    | pipe x =>
      cases x with
      | keys d ks => cases h1
      | scheme d lines =>
        simp only [activateObj, activatePipe] at h1
        cases hm : lines.mapM (fun l => ((c.activation L split).key d l).map (fun ts => (l, ts))) with
        | error e => rw [hm] at h1; cases h1
        | ok ks => rw [hm] at h1; cases h1
    | _ => cases h1
  · exact absurd hreach hn

/-- `rule(gram('XXX').optional…)`: an unknown grammeme below a forward rule and a negation. -/
example : Mentions [.prod [.pred (.not_ (.gram "XXX".toList))] 0, .rule [0], .forward (some 1)] 2
      (.not_ (.gram "XXX".toList)) ∧
    PredPart (.gram "XXX".toList) (.not_ (.gram "XXX".toList)) ∧
    ¬ Known sampleContext (.gram "XXX".toList) := by
  refine ⟨⟨0, _, 0, ?_, rfl, List.mem_cons_self⟩, .not_ .refl, ?_⟩
  · have h1 : Reach (P := Pred)
        [.prod [.pred (.not_ (.gram "XXX".toList))] 0, .rule [0], .forward (some 1)] 2 1 :=
      .step .root (o := .forward (some 1)) rfl (by simp [Obj.children])
    exact .step h1 (o := .rule [0]) rfl (by simp [Obj.children])
  · rintro ⟨m, hm, hk⟩
    cases hm
    exact absurd hk (by decide)

end Yargy
