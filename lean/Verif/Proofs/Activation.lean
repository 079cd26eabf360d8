import Verif.Spec.Compile
import Verif.Proofs.CompileWords
/-!
Activation: every reachable object is activated, once.
-/
namespace Yargy

variable {P : Type} {A : Activation P} {k : Kind}

theorem activateTerm_ok {t u : Term P} : activateTerm A t = .ok u ↔ Activated A t u := by
  cases t with
  | rule r =>
    constructor
    · intro h; cases h; exact .rule r
    · intro h; cases h; rfl
  | pred p =>
    simp only [activateTerm]
    constructor
    · intro h
      cases hp : A.activate p with
      | error e => rw [hp] at h; cases h
      | ok q => rw [hp] at h; cases h; exact .pred hp
    · intro h
      cases h with
      | pred hp => rw [hp]; rfl

theorem activateTerms_ok {ts us : List (Term P)} :
    ts.mapM (activateTerm A) = .ok us ↔ ActivatedAll A ts us := by
  induction ts generalizing us with
  | nil =>
    rw [List.mapM_nil]
    constructor
    · intro h; cases h; exact .nil
    · intro h; cases h; rfl
  | cons t ts ih =>
    rw [List.mapM_cons]
    constructor
    · intro h
      cases h1 : activateTerm A t with
      | error e => rw [h1] at h; cases h
      | ok u =>
        rw [h1] at h
        cases h2 : ts.mapM (activateTerm A) with
        | error e => rw [h2] at h; cases h
        | ok us' => rw [h2] at h; cases h; exact .cons (activateTerm_ok.1 h1) (ih.1 h2)
    · intro h
      cases h with
      | cons h1 h2 => rw [activateTerm_ok.2 h1, ih.2 h2]; rfl

theorem activated_rules {ts us : List (Term P)} (h : ActivatedAll A ts us) :
    termRules us = termRules ts := by
  induction h with
  | nil => rfl
  | cons h1 _ ih => cases h1 <;> simp [termRules, ih]

theorem mapM_mem {α β : Type} {f : α → Except Err β} : ∀ {xs : List α} {ys : List β},
    xs.mapM f = .ok ys → ∀ y, y ∈ ys ↔ ∃ x ∈ xs, f x = .ok y := by
  intro xs
  induction xs with
  | nil => intro ys h; rw [List.mapM_nil] at h; cases h; simp
  | cons x xs ih =>
    intro ys h y
    rw [List.mapM_cons] at h
    cases h1 : f x with
    | error e => rw [h1] at h; cases h
    | ok z =>
      rw [h1] at h
      cases h2 : xs.mapM f with
      | error e => rw [h2] at h; cases h
      | ok ys' =>
        rw [h2] at h; cases h
        simp only [List.mem_cons, ih h2, exists_eq_or_imp, h1, Except.ok.injEq]
        constructor
        · rintro (rfl | h); exact .inl rfl; exact .inr h
        · rintro (rfl | h); exact .inl rfl; exact .inr h

/-- What activation does to one object. -/
theorem activateObj_ok {o o' : Obj P} (h : activateObj A o = .ok o') :
    o'.children = o.children ∧ o'.label k = o.label k ∧ (o.bounds → o'.bounds) ∧
    (∀ us, Spells o' us ↔ Opens A o us) ∧
    (o' = o ∨ (∃ ts ts' m, o = .prod ts m ∧ o' = .prod ts' m) ∨ ∃ p p', o = .pipe p ∧ o' = .pipe p') := by
  have triv : ∀ {o : Obj P}, (∀ ts m, o ≠ .prod ts m) → (∀ d l, o ≠ .pipe (.scheme d l)) →
      ∀ us, Spells o us ↔ Opens A o us := by
    intro o h1 h2 us
    constructor
    · exact fun h => .other h1 h
    · intro h
      cases h with
      | prod => exact absurd rfl (h1 _ _)
      | line => exact absurd rfl (h2 _ _)
      | other _ h => exact h
  cases o with
  | prod ts m =>
    simp only [activateObj] at h
    cases hm : ts.mapM (activateTerm A) with
    | error e => rw [hm] at h; cases h
    | ok us =>
      rw [hm] at h; cases h
      refine ⟨activated_rules (activateTerms_ok.1 hm), ?_, fun _ => trivial, fun vs => ?_,
        .inr (.inl ⟨_, _, _, rfl, rfl⟩)⟩
      · rw [label_prod, label_prod]
      · constructor
        · intro hs; cases hs; exact .prod (activateTerms_ok.1 hm)
        · intro hs
          cases hs with
          | prod hu =>
            have := activateTerms_ok.2 hu
            rw [hm] at this; cases this
            exact .prod
          | other hn _ => exact absurd rfl (hn _ _)
  | pipe p =>
    cases p with
    | keys d ks =>
      cases h
      exact ⟨rfl, rfl, fun h => h, triv (by simp) (by simp), .inl rfl⟩
    | scheme d lines =>
      simp only [activateObj, activatePipe] at h
      cases hm : lines.mapM (fun l => (A.key d l).map (fun ts => (l, ts))) with
      | error e => rw [hm] at h; cases h
      | ok ks =>
        rw [hm] at h; cases h
        refine ⟨rfl, by cases k <;> rfl, fun _ => trivial, fun vs => ?_,
          .inr (.inr ⟨_, _, rfl, rfl⟩)⟩
        constructor
        · intro hs
          cases hs with
          | pipe hk =>
            obtain ⟨l, hl, e⟩ := (mapM_mem hm _).1 hk
            cases hq : A.key d l with
            | error e' => rw [hq] at e; cases e
            | ok ps => rw [hq] at e; cases e; exact .line hl hq
        · intro hs
          cases hs with
          | line hl hq =>
            exact .pipe ((mapM_mem hm (_, _)).2 ⟨_, hl, by rw [hq]; rfl⟩)
          | other _ h => cases h
  | _ =>
    cases h
    exact ⟨rfl, rfl, fun h => h, triv (by simp) (by simp), .inl rfl⟩

/-- What a heap looks like after some objects were activated. -/
structure Awake (A : Activation P) (S : Nat → Prop) (h h' : Heap P) : Prop where
  length : h'.length = h.length
  done : ∀ (a : Nat) (o : Obj P), S a → h[a]? = some o → ∃ o', h'[a]? = some o' ∧ activateObj A o = .ok o'
  rest : ∀ a, ¬ S a → h'[a]? = h[a]?

theorem foldlM_awake {h : Heap P} : ∀ (as : List Nat) (S : Nat → Prop) (g h' : Heap P), as.Nodup →
    (∀ a ∈ as, ¬ S a) → Awake A S h g → as.foldlM (activateAt A) g = .ok h' →
    Awake A (fun a => S a ∨ a ∈ as) h h' := by
  intro as
  induction as with
  | nil =>
    intro S g h' _ _ hw e
    cases e
    exact ⟨hw.length, fun a o ha => hw.done a o (by simpa using ha), fun a ha => hw.rest a (by simpa using ha)⟩
  | cons a as ih =>
    intro S g h' hn hs hw e
    rw [List.foldlM_cons] at e
    rw [List.nodup_cons] at hn
    cases hg : activateAt A g a with
    | error x => rw [hg] at e; cases e
    | ok g1 =>
      rw [hg] at e
      have hw1 : Awake A (fun b => S b ∨ b = a) h g1 := by
        unfold activateAt at hg
        have hra := hw.rest a (hs a List.mem_cons_self)
        cases ha : g[a]? with
        | none =>
          rw [ha] at hg; cases hg
          refine ⟨hw.length, fun b o hb ho => ?_, fun b hb => hw.rest b (fun h => hb (.inl h))⟩
          rcases hb with hb | rfl
          · exact hw.done b o hb ho
          · rw [← hra, ha] at ho; cases ho
        | some o =>
          rw [ha] at hg
          simp only at hg
          cases ho : activateObj A o with
          | error x => rw [ho] at hg; cases hg
          | ok o' =>
            rw [ho] at hg; cases hg
            have hlt := (List.getElem?_eq_some_iff.1 ha).1
            refine ⟨by rw [List.length_set, hw.length], fun b x hb hx => ?_, fun b hb => ?_⟩
            · by_cases e : b = a
              · subst e
                rw [← hra, ha] at hx; cases hx
                exact ⟨o', by rw [List.getElem?_set_self hlt], ho⟩
              · rcases hb with hb | hb
                · rw [List.getElem?_set_ne (Ne.symm e)]
                  exact hw.done b x hb hx
                · exact absurd hb e
            · have e : b ≠ a := fun e => hb (.inr e)
              rw [List.getElem?_set_ne (Ne.symm e)]
              exact hw.rest b (fun h => hb (.inl h))
      have := ih _ g1 h' hn.2 (by
        intro b hb h1
        rcases h1 with h1 | rfl
        · exact hs b (List.mem_cons_of_mem _ hb) h1
        · exact hn.1 hb) hw1 e
      refine ⟨this.length, fun b o hb => this.done b o ?_, fun b hb => this.rest b (fun h => hb ?_)⟩
      · simp only [List.mem_cons] at hb ⊢
        rcases hb with hb | rfl | hb
        · exact .inl (.inl hb)
        · exact .inl (.inr rfl)
        · exact .inr hb
      · simp only [List.mem_cons] at h ⊢
        rcases h with (h | rfl) | h
        · exact .inl h
        · exact .inr (.inl rfl)
        · exact .inr (.inr h)

theorem foldlM_append_ok {as : List Nat} {b : Nat} {g h' : Heap P}
    (e : (as ++ [b]).foldlM (activateAt A) g = .ok h') :
    ∃ g1, as.foldlM (activateAt A) g = .ok g1 ∧ activateAt A g1 b = .ok h' := by
  rw [List.foldlM_append] at e
  cases h1 : as.foldlM (activateAt A) g with
  | error x => rw [h1] at e; cases e
  | ok g1 =>
    rw [h1] at e
    refine ⟨g1, rfl, ?_⟩
    simp only [bind, Except.bind, List.foldlM_cons, List.foldlM_nil, pure, Except.pure] at e
    cases h2 : activateAt A g1 b with
    | error x => rw [h2] at e; cases e
    | ok g2 => rw [h2] at e; cases e; rfl

theorem set_same {α : Type} {l : List α} {i : Nat} {x : α} (h : l[i]? = some x) : l.set i x = l := by
  obtain ⟨hlt, e⟩ := List.getElem?_eq_some_iff.1 h
  rw [← e]
  exact List.set_getElem_self hlt

/-- Activating again what is not a production changes nothing. -/
theorem activateObj_again {o o' o'' : Obj P} (hn : ∀ ts m, o ≠ .prod ts m)
    (h : activateObj A o = .ok o') (h2 : activateObj A o' = .ok o'') : o'' = o' := by
  cases o with
  | prod ts m => exact absurd rfl (hn _ _)
  | pipe p =>
    cases p with
    | keys d ks => cases h; cases h2; rfl
    | scheme d lines =>
      simp only [activateObj, activatePipe] at h
      cases hm : lines.mapM (fun l => (A.key d l).map (fun ts => (l, ts))) with
      | error e => rw [hm] at h; cases h
      | ok ks => rw [hm] at h; cases h; cases h2; rfl
  | _ => cases h; cases h2; rfl

theorem reach_iff {pid : Nat → Nat} (hp : ∀ a b, pid a = pid b → a = b) {h : Heap P}
    (hc : ClosedHeap h) {root : Nat} (hr : root < h.length) (x : Nat) :
    x ∈ walk pid h root ↔ Reach h root x := by
  obtain ⟨_, h2, h3, h4⟩ := walk_spec hp hc hr
  constructor
  · refine h4 (Reach h root) .root ?_ x
    intro a ha c hcc
    unfold childrenAt at hcc
    cases ho : h[a]? with
    | none => rw [ho] at hcc; cases hcc
    | some o => rw [ho] at hcc; exact .step ha ho hcc
  · intro hx
    induction hx with
    | root => exact h2
    | step _ ho hcc ih => exact (h3 _ ih).2 _ (by unfold childrenAt; rw [ho]; exact hcc)

theorem activateRule_awake {pid : Nat → Nat} (hp : ∀ a b, pid a = pid b → a = b) {h h' : Heap P}
    (hc : ClosedHeap h) {root : Nat} (hr : root < h.length)
    (hroot : ∀ ts m, h[root]? ≠ some (.prod ts m))
    (e : activateRule A pid root h = .ok h') : Awake A (Reach h root) h h' := by
  obtain ⟨g, e1, e2⟩ := foldlM_append_ok e
  obtain ⟨h1, h2, h3, h4⟩ := walk_spec hp hc hr
  have hw := foldlM_awake (h := h) _ (fun _ => False) h g h1 (by simp)
    ⟨rfl, by simp, fun _ _ => rfl⟩ e1
  have hg : h' = g := by
    unfold activateAt at e2
    obtain ⟨o, ho⟩ : ∃ o, h[root]? = some o := ⟨_, List.getElem?_eq_getElem hr⟩
    obtain ⟨o', ho', ha⟩ := hw.done root o (.inr h2) ho
    rw [ho'] at e2
    simp only at e2
    cases hb : activateObj A o' with
    | error x => rw [hb] at e2; cases e2
    | ok o'' =>
      have hn : ∀ ts m, o ≠ .prod ts m := fun ts m e => hroot ts m (e ▸ ho)
      rw [hb] at e2
      cases e2
      rw [activateObj_again hn ha hb]
      exact set_same ho'
  subst hg
  refine ⟨hw.length, fun a o ha => hw.done a o (.inr ((reach_iff hp hc hr a).2 ha)),
    fun a ha => hw.rest a (fun h => ha ?_)⟩
  simp only [false_or] at h
  exact (reach_iff hp hc hr a).1 h

namespace Awake
variable {S : Nat → Prop} {h h' : Heap P}

/-- Objects before and after. -/
theorem at_ (hw : Awake A S h h') {a : Nat} {o' : Obj P} (ha : h'[a]? = some o') :
    ∃ o, h[a]? = some o ∧ (S a ∧ activateObj A o = .ok o' ∨ ¬ S a ∧ o' = o) := by
  have hlt : a < h.length := hw.length ▸ (List.getElem?_eq_some_iff.1 ha).1
  refine ⟨_, List.getElem?_eq_getElem hlt, ?_⟩
  by_cases hs : S a
  · obtain ⟨o2, h2, h3⟩ := hw.done a _ hs (List.getElem?_eq_getElem hlt)
    rw [ha] at h2; cases h2
    exact .inl ⟨hs, h3⟩
  · have := hw.rest a hs
    rw [ha, List.getElem?_eq_getElem hlt] at this
    exact .inr ⟨hs, by simpa using this⟩

theorem children (hw : Awake A S h h') {a : Nat} {o' : Obj P} (ha : h'[a]? = some o') :
    ∃ o, h[a]? = some o ∧ o'.children = o.children ∧ (o.bounds → o'.bounds) ∧
    (o' = o ∨ (∃ ts ts' m, o = .prod ts m ∧ o' = .prod ts' m) ∨ ∃ p p', o = .pipe p ∧ o' = .pipe p') := by
  obtain ⟨o, ho, hh⟩ := hw.at_ ha
  rcases hh with ⟨_, h1⟩ | ⟨_, rfl⟩
  · obtain ⟨h1, _, h3, _, h5⟩ := activateObj_ok (k := .plain) h1
    exact ⟨o, ho, h1, h3, h5⟩
  · exact ⟨_, ho, rfl, fun h => h, .inl rfl⟩

theorem closed (hw : Awake A S h h') (hc : ClosedHeap h) : ClosedHeap h' := by
  intro o' ho' c hcc
  obtain ⟨a, ha⟩ := List.mem_iff_getElem?.1 ho'
  obtain ⟨o, ho, h1, _⟩ := hw.children ha
  rw [hw.length]
  exact hc o (List.mem_iff_getElem?.2 ⟨a, ho⟩) c (h1 ▸ hcc)

theorem bounds (hw : Awake A S h h') (hb : ∀ o ∈ h, o.bounds) : ∀ o ∈ h', o.bounds := by
  intro o' ho'
  obtain ⟨a, ha⟩ := List.mem_iff_getElem?.1 ho'
  obtain ⟨o, ho, _, h1, _⟩ := hw.children ha
  exact h1 (hb o (List.mem_iff_getElem?.2 ⟨a, ho⟩))

/-- Objects that are neither productions nor pipelines stay. -/
theorem same (hw : Awake A S h h') {a : Nat} {o' : Obj P} (ha : h'[a]? = some o')
    (h1 : ∀ ts m, o' ≠ .prod ts m) (h2 : ∀ p, o' ≠ .pipe p) : h[a]? = some o' := by
  obtain ⟨o, ho, _, _, h5⟩ := hw.children ha
  rcases h5 with rfl | ⟨_, _, _, _, rfl⟩ | ⟨_, _, _, rfl⟩
  · exact ho
  · exact absurd rfl (h1 _ _)
  · exact absurd rfl (h2 _)

theorem demands (hw : Awake A S h h') {a : Nat} (hd : Demands h' a) : Demands h a := by
  induction hd with
  | min h1 h2 => exact .min (hw.same h1 (by simp) (by simp)) h2
  | minMax h1 h2 => exact .minMax (hw.same h1 (by simp) (by simp)) h2
  | optional h1 _ ih => exact .optional (hw.same h1 (by simp) (by simp)) ih
  | repeatable h1 _ ih => exact .repeatable (hw.same h1 (by simp) (by simp)) ih
  | repOptional h1 _ ih => exact .repOptional (hw.same h1 (by simp) (by simp)) ih
  | minBounded h1 _ ih => exact .minBounded (hw.same h1 (by simp) (by simp)) ih
  | maxBounded h1 _ ih => exact .maxBounded (hw.same h1 (by simp) (by simp)) ih
  | minMaxBounded h1 _ ih => exact .minMaxBounded (hw.same h1 (by simp) (by simp)) ih

theorem loose (hw : Awake A S h h') {a : Nat} (hd : Loose h' a) : Loose h a := by
  induction hd with
  | optional h1 => exact .optional (hw.same h1 (by simp) (by simp))
  | repeatable h1 => exact .repeatable (hw.same h1 (by simp) (by simp))
  | repOptional h1 => exact .repOptional (hw.same h1 (by simp) (by simp))
  | minBounded h1 _ ih => exact .minBounded (hw.same h1 (by simp) (by simp)) ih
  | maxBounded h1 _ ih => exact .maxBounded (hw.same h1 (by simp) (by simp)) ih
  | minMaxBounded h1 _ ih => exact .minMaxBounded (hw.same h1 (by simp) (by simp)) ih

theorem calm (hw : Awake A S h h') (hb : Calm h) : Calm h' where
  bounds := hw.bounds hb.bounds
  calm := by
    intro o' ho'
    obtain ⟨a, ha⟩ := List.mem_iff_getElem?.1 ho'
    obtain ⟨o, ho, _, _, h5⟩ := hw.children ha
    have hco := hb.calm o (List.mem_iff_getElem?.2 ⟨a, ho⟩)
    rcases h5 with rfl | ⟨_, _, _, _, rfl⟩ | ⟨_, _, _, rfl⟩
    · cases o' with
      | repeatable r v => exact fun hd => hco (hw.demands hd)
      | repOptional r v u => exact fun hd => hco (hw.demands hd)
      | minBounded r min v => exact fun h2 hd => hco h2 (hw.loose hd)
      | minMaxBounded r min max v => exact fun h2 hd => hco h2 (hw.loose hd)
      | _ => trivial
    · trivial
    · trivial

end Awake

theorem awake_says {h h' : Heap P} {root : Nat} (hw : Awake A (Reach h root) h h')
    {ts : List (Term P)} {w : List (Sym P)} (s : Says k h' ts w) :
    (∀ r, .rule r ∈ ts → Reach h root r) → Reads A k h ts w := by
  induction s with
  | nil => intro _; exact .nil
  | pred _ ih => intro hr; exact .pred (ih fun r h => hr r (List.mem_cons_of_mem _ h))
  | @rule a o' us ts w v ho hs _ _ ih1 ih2 =>
    intro hr
    have hra := hr a List.mem_cons_self
    obtain ⟨o, ho1, hh⟩ := hw.at_ ho
    rcases hh with ⟨_, hact⟩ | ⟨hn, _⟩
    · obtain ⟨h1, h2, _, h4, _⟩ := activateObj_ok (k := k) hact
      rw [h2]
      refine .rule ho1 ((h4 us).1 hs) (ih1 ?_) (ih2 fun r h => hr r (List.mem_cons_of_mem _ h))
      intro r hrr
      exact .step hra ho1 (h1 ▸ spells_children hs r hrr)
    · exact absurd hra hn

theorem awake_reads {h h' : Heap P} {root : Nat} (hw : Awake A (Reach h root) h h')
    {ts : List (Term P)} {w : List (Sym P)} (s : Reads A k h ts w) :
    (∀ r, .rule r ∈ ts → Reach h root r) → Says k h' ts w := by
  induction s with
  | nil => intro _; exact .nil
  | pred _ ih => intro hr; exact .pred (ih fun r h => hr r (List.mem_cons_of_mem _ h))
  | @rule a o us ts w v ho hs _ _ ih1 ih2 =>
    intro hr
    have hra := hr a List.mem_cons_self
    obtain ⟨o', ho', hact⟩ := hw.done a o hra ho
    obtain ⟨h1, h2, _, h4, _⟩ := activateObj_ok (k := k) hact
    rw [← h2]
    have hs' := (h4 us).2 hs
    refine .rule ho' hs' (ih1 ?_) (ih2 fun r h => hr r (List.mem_cons_of_mem _ h))
    intro r hrr
    exact .step hra ho (h1 ▸ spells_children hs' r hrr)

theorem awake_words {h h' : Heap P} {root : Nat} (hw : Awake A (Reach h root) h h')
    (w : List (Sym P)) : Words k h' root w ↔ Reads A k h [.rule root] w :=
  ⟨fun s => awake_says hw s (by simp [Reach.root]),
    fun s => awake_reads hw s (by simp [Reach.root])⟩

/-- Compiling keeps the words, read in the context. -/
theorem compileRule_words {pid : Nat → Nat} (hp : ∀ a b, pid a = pid b → a = b) {limit root b : Nat}
    {h h' : Heap P} (e : compileRule A pid limit root h = .ok (b, h')) (hc : ClosedHeap h)
    (hcalm : Calm h) (hr : root < h.length) (hroot : ∀ ts m, h[root]? ≠ some (.prod ts m)) :
    Tidy .plain h' ∧ b < h'.length ∧
      ∀ w, Words .plain h' b w ↔ Reads A .plain h [.rule root] w := by
  unfold compileRule at e
  simp only [bind, Except.bind] at e
  split at e
  · cases e
  · rename_i h1 e1
    split at e
    · cases e
    · rename_i x e2
      obtain ⟨r2, h2⟩ := x
      simp only at e
      have hw := activateRule_awake hp hc hr hroot e1
      have s1 : Step .plain h1 root h2 r2 := normalized_step hp e2 (hw.closed hc)
        (fun o _ _ _ _ _ _ _ => label_plain o) (hw.calm hcalm) (hw.length ▸ hr)
      have s2 := asBnf_step hp e s1.tidy s1.lt
      refine ⟨s2.tidy, s2.lt, fun w => ?_⟩
      rw [← s2.words, ← s1.words, awake_words hw]

end Yargy
