import Verif.Spec.Filling
import Verif.Properties.Slots
import Verif.Properties.Optionals
import Verif.Properties.Text
/-!
C78: rules of any kind that fill a fact.
-/
namespace Yargy
open Spec

namespace Filling

variable {L : Lang} {h : Heap Pred} {F : Facts} {cls : Nat} {its : Nat → Interpretator} {A : Activation Pred}

theorem word_eq (parts : List (Option Nat × List Pred)) : slotWord parts = Slots.wordOf .interp parts := by
  induction parts with
  | nil => rfl
  | cons a parts ih =>
    obtain ⟨n, qs⟩ := a
    cases n with
    | none =>
      show qs.map .pred ++ slotWord parts = qs.map .pred ++ Slots.wordOf .interp parts
      rw [ih]
    | some n => simp [slotWord, Slots.wordOf, Obj.label, wrap, ih]

theorem word_append (a b : List (Option Nat × List Pred)) : slotWord (a ++ b) = slotWord a ++ slotWord b := by
  induction a with
  | nil => rfl
  | cons x a ih =>
    obtain ⟨n, qs⟩ := x
    cases n <;> simp [slotWord, ih]

/-- Words of rules that carry nothing. -/
theorem reads_unread {ts : List (Term Pred)} {w : List (Sym Pred)} (hr : Reads A .interp h ts w) :
    (∀ x, .rule x ∈ ts → Unread h x) → ∃ qs : List Pred, w = qs.map .pred := by
  induction hr with
  | nil => exact fun _ => ⟨[], rfl⟩
  | @pred p ts w _ ih =>
    intro hu
    obtain ⟨qs, rfl⟩ := ih (fun x hx => hu x (List.mem_cons_of_mem _ hx))
    exact ⟨p :: qs, rfl⟩
  | @rule a o us ts w v ho hs _ _ ih1 ih2 =>
    intro hu
    have ha := hu a List.mem_cons_self
    obtain ⟨qs, rfl⟩ := ih1 (fun x hx y o' hy ho' =>
      ha y o' (reach_trans (.step .root ho (opens_children hs x hx)) hy) ho')
    obtain ⟨qs', rfl⟩ := ih2 (fun x hx => hu x (List.mem_cons_of_mem _ hx))
    rw [ha a o .root ho]
    exact ⟨qs ++ qs', by simp [wrap]⟩

/-- Words of rules that fill a fact. -/
theorem reads_fills {ts : List (Term Pred)} {w : List (Sym Pred)} (hr : Reads A .interp h ts w) :
    (∀ x, .rule x ∈ ts → Fills F its cls h x) → ∃ parts, w = slotWord parts ∧
      ∀ k qs, (some k, qs) ∈ parts → IsSlot F cls (its k) := by
  induction hr with
  | nil => exact fun _ => ⟨[], rfl, fun k qs hm => by cases hm⟩
  | @pred p ts w _ ih =>
    intro hu
    obtain ⟨parts, rfl, h1⟩ := ih (fun x hx => hu x (List.mem_cons_of_mem _ hx))
    refine ⟨(none, [p]) :: parts, rfl, fun k qs hm => ?_⟩
    rcases List.mem_cons.1 hm with e | hm
    · cases e
    · exact h1 k qs hm
  | @rule a o us ts w v ho hs hw _ ih1 ih2 =>
    intro hu
    have ha := hu a List.mem_cons_self
    obtain ⟨parts2, rfl, k2⟩ := ih2 (fun x hx => hu x (List.mem_cons_of_mem _ hx))
    rcases ha a o .root ho with e | ⟨r, k, rfl, h1, h2⟩
    · obtain ⟨parts1, rfl, k1⟩ := ih1 (fun x hx y o' hy ho' =>
        ha y o' (reach_trans (.step .root ho (opens_children hs x hx)) hy) ho')
      rw [e]
      refine ⟨parts1 ++ parts2, by rw [word_append]; rfl, fun k qs hm => ?_⟩
      rcases List.mem_append.1 hm with hm | hm
      · exact k1 k qs hm
      · exact k2 k qs hm
    · obtain ⟨qs, rfl⟩ := reads_unread hw (fun x hx => by
        cases List.mem_singleton.1 (opens_children hs x hx)
        exact h2)
      refine ⟨(some k, qs) :: parts2, by simp [slotWord, Obj.label, wrap], fun k' qs' hm => ?_⟩
      rcases List.mem_cons.1 hm with e | hm
      · cases e
        exact h1
      · exact k2 k' qs' hm

theorem shed_present (parts : List (Option Nat × List Pred)) (v : List (Sym Pred)) :
    shed (slotWord parts ++ v) = slotWord (present parts) ++ shed v := by
  induction parts with
  | nil => rfl
  | cons a parts ih =>
    obtain ⟨n, qs⟩ := a
    cases n with
    | none =>
      have e : slotWord ((none, qs) :: parts) ++ v = qs.map .pred ++ (slotWord parts ++ v) := by simp [slotWord]
      rw [e, Slots.shed_preds, ih]
      cases qs with
      | nil => rfl
      | cons q qs => simp [present, slotWord]
    | some n =>
      have e : slotWord ((some n, qs) :: parts) ++ v =
          .opn (.interp n) :: (qs.map .pred ++ (.cls (.interp n) :: (slotWord parts ++ v))) := by simp [slotWord]
      rw [e]
      show shedCons (.opn (.interp n)) (shed _) = _
      rw [Slots.shed_preds]
      show shedCons (.opn (.interp n)) (qs.map .pred ++ (.cls (.interp n) :: shed (slotWord parts ++ v))) = _
      rw [ih]
      cases qs with
      | nil => simp [shedCons, present]
      | cons q qs => simp [shedCons, present, slotWord]

theorem preds_present (parts : List (Option Nat × List Pred)) : slotPreds (present parts) = slotPreds parts := by
  induction parts with
  | nil => rfl
  | cons a parts ih =>
    obtain ⟨n, qs⟩ := a
    unfold slotPreds present at ih ⊢
    cases qs with
    | nil => simpa using ih
    | cons q qs => simpa using ih

theorem kept_of {toks : List Token} {i : Nat} {ps : List Pred} {ts : List Token} (hk : KeptFrom L toks i ps ts) :
    ts = List.zipWith keptBy ps (toks.drop i) ∧ ts.length = ps.length := by
  refine ⟨?_, Slots.kept_length hk⟩
  induction hk with
  | nil => rfl
  | cons g1 _ _ ih =>
    obtain ⟨hlt, he⟩ := List.getElem?_eq_some_iff.1 g1
    rw [List.drop_eq_getElem_cons hlt, List.zipWith_cons_cons, ← ih, he]

theorem fits_of {toks : List Token} : ∀ (w : List (Sym Pred)) {i : Nat} {ts : List Token}, KeptFrom L toks i (wordPreds w) ts →
    Fits (fun p t => p.accepts L t) toks w i (i + (wordPreds w).length)
  | [], _, _, _ => .nil
  | .pred p :: w, i, ts, hk => by
    cases hk with
    | cons g1 g2 g3 =>
      have := fits_of w g3
      refine .pred g1 g2 ?_
      show Fits _ toks w (i + 1) (i + ((wordPreds w).length + 1))
      rw [show i + ((wordPreds w).length + 1) = i + 1 + (wordPreds w).length from by omega]
      exact this
  | .opn x :: w, _, _, hk => .opn (fits_of w hk)
  | .cls x :: w, _, _, hk => .cls (fits_of w hk)

end Filling

variable {L : Lang} {setOrder : List Str → List Str} {relation : Nat → Relation} {pid : Nat → Nat} {limit root n cls : Nat}
  {h h' : Heap Pred} {H : Type} [DecidableEq H] {hash : Key → H} {r : Reader} {F : Facts} {its : Nat → Interpretator}
  {b : Built} {c : Context} {split : Str → List Str} {y : Nat}

/-- C78, in every program: the fact of a match of a rule that fills a fact. -/
theorem filled_fact (hrun : Run L setOrder [] h) (hroot : h[root]? = some (.interp y n)) (hst : Spec.Steady .plain h root)
    (hpid : ∀ a b, pid a = pid b → a = b) (hs : SetOrder setOrder)
    (hsilent : ∀ (x : Nat) o, Reach h root x → h[x]? = some o → o.silent) (hF : SaneFacts F) (hn : its n = .fact cls)
    (hi : Fills F its cls h y)
    (hg : (∀ (x : Nat) o, Reach h root x → h[x]? = some o → isGazetteer o = false) ∨
      ∀ (x : Nat) r k, Reach h root x → h[x]? = some (.interp r k) → takesLine (its k) = false)
    (hb : buildParser L setOrder c split relation pid limit root h = .ok (b, h')) {toks : List Token} {σ : Store}
    {m : Match Pred} (hm : Returned b.grammar b.agreement hash toks σ m) :
    FilledFact L (c.activation L split) h root n F its cls toks m.tree.range.1 m.tree.range.2
      (matchFact F (interpretators its h') (m.tree.root.load σ))
      ((interpretTree F (interpretators its h') (m.tree.root.load σ)).bind (Result.asJson F)) := by
  have hst' : Spec.Steady .interp h root := by
    refine ⟨hst.bounds, hst.calm, fun x o hx ho => ?_⟩
    have inside : x = root ∨ Reach h y x := by
      clear ho
      induction hx with
      | root => exact .inl rfl
      | @step a o c _ ho hc ih =>
        rcases ih with rfl | ih
        · rw [hroot] at ho
          cases ho
          cases List.mem_singleton.1 hc
          exact .inr .root
        · exact .inr (.step ih ho hc)
    rcases inside with rfl | hx
    · rw [hroot] at ho
      cases ho
      intro _ _ _ _ _ e
      cases e
    · rcases hi x o hx ho with e | ⟨r, k, rfl, _⟩
      · exact fun _ _ _ _ _ _ => e
      · intro _ _ _ _ _ e
        cases e
  obtain ⟨w, g1, g2, g3, g4⟩ := fact_exact hrun ⟨_, hroot, rfl⟩ hst' ⟨_, _, hroot⟩ hpid hs hsilent hb hm
  have hok := returned_ok hrun ⟨_, hroot, rfl⟩ hpid hs hb hm
  have same := g4 F its hg
  obtain ⟨u, v, rfl, e1, e2⟩ := (Slots.reads_interp hroot _ _).1 g1
  cases e2
  obtain ⟨parts, rfl, k1⟩ := Filling.reads_fills (F := F) (its := its) (cls := cls) e1 (fun x hx => by
    cases List.mem_singleton.1 hx
    exact hi)
  have ew : wrap ((Obj.interp 0 n : Obj Pred).label .interp) (slotWord parts) ++ [] =
      .opn (.interp n) :: (slotWord parts ++ [.cls (.interp n)]) := by
    simp [Obj.label, wrap]
  rw [ew] at same g1 g2 g3
  have ep : wordPreds (.opn (.interp n) :: (slotWord parts ++ [.cls (.interp n)])) = slotPreds parts := by
    show wordPreds (slotWord parts ++ _) = _
    rw [Exact.preds_append, Filling.word_eq, Slots.word_preds]
    exact List.append_nil _
  rw [ep] at g2 g3
  have e3 : wordPreds (slotWord parts) = slotPreds parts := by rw [Filling.word_eq, Slots.word_preds]
  refine ⟨parts, g1, ?_, g3, ?_⟩
  · have := Filling.fits_of (slotWord parts) (by rw [e3]; exact g2)
    rw [e3, ← g3] at this
    exact this
  · have es : shed (.opn (.interp n) :: (slotWord parts ++ [.cls (.interp n)])) =
        shed (.opn (.interp n) :: (slotWord (present parts) ++ [.cls (.interp n)])) := by
      show shedCons _ (shed _) = shedCons _ (shed _)
      have idem : present (present parts) = present parts := by
        unfold present
        rw [List.filter_filter]
        simp
      rw [Filling.shed_present, Filling.shed_present, idem]
    obtain ⟨q1, q2⟩ := Filling.kept_of g2
    rw [← Filling.preds_present] at q1 q2
    have ne : present parts ≠ [] := by
      intro e
      have := hok.nonempty
      rw [← Filling.preds_present, e] at g3
      have e0 : (slotPreds []).length = 0 := rfl
      omega
    have fin := Slots.evaluate_slots (F := F) (its := its) (cls := cls) (n := n) hF (Slots.shape_refl (present parts))
      (fun a ha => by
        have := (List.mem_filter.1 ha).2
        intro e
        rw [e] at this
        cases this) ne hn (fun k qs hm => k1 k qs (List.mem_filter.1 hm).1) q1 q2
    rw [es, Filling.word_eq] at same
    rw [← same.fact, ← same.json] at fin
    exact fin

/-- C78: a rule that fills a fact, made of alternatives, optional parts (directly after tokens, as in C61), repetitions,
recursion, in which the parts that carry attributes carry nothing inside. The parser is built if what the rule refers
to is known; on every text `extract`, `findall` and `match` report what the rule accepts; and for every match the rule can
be read so that its predicates accept the tokens of the match, and the fact (and its `as_json`) hold in each attribute
what stands in its place in this reading. -/
theorem facts_filled (ha : Answers r) (hrun : Fresh L setOrder h) (hroot : h[root]? = some (.interp y n))
    (hc : Complete r.context r.split h root ∨ CompleteOptionals r.context r.split h root) (hF : SaneFacts F)
    (hn : its n = .fact cls) (hi : Fills F its cls h y)
    (hg : (∀ (x : Nat) o, Reach h root x → h[x]? = some o → isGazetteer o = false) ∨
      ∀ (x : Nat) r k, Reach h root x → h[x]? = some (.interp r k) → takesLine (its k) = false)
    (hpid : ∀ a b, pid a = pid b → a = b) (hs : SetOrder setOrder) (hh : ∀ a b, hash a = hash b → a = b) :
    ∃ N p h', (∀ limit, N ≤ limit → newParser L setOrder r relation pid limit root h = .ok (p, h')) ∧
      ∀ text, ∃ toks, r.tokens text = .ok toks ∧
        (∃ fuel ms σ, p.extract hash text true fuel = some (ms, σ, none) ∧
          (∀ i j, (∃ m ∈ ms, m.tree.range = (i, j)) ↔ Accepts L (r.context.activation L r.split) h root toks i j) ∧
          ∀ m ∈ ms, FilledFact L (r.context.activation L r.split) h root n F its cls toks m.tree.range.1 m.tree.range.2
            (matchFact F (interpretators its h') (m.tree.root.load σ))
            ((interpretTree F (interpretators its h') (m.tree.root.load σ)).bind (Result.asJson F))) ∧
        (∃ fuel ms σ, p.findall hash text fuel = some (.ok (ms, σ)) ∧
          Chosen (Accepts L (r.context.activation L r.split) h root toks) (ms.map (fun m => m.tree.range)) ∧
          ∀ m ∈ ms, FilledFact L (r.context.activation L r.split) h root n F its cls toks m.tree.range.1 m.tree.range.2
            (matchFact F (interpretators its h') (m.tree.root.load σ))
            ((interpretTree F (interpretators its h') (m.tree.root.load σ)).bind (Result.asJson F))) ∧
        ∃ fuel x σ, p.match hash text fuel = some (.ok (x, σ)) ∧
          (Accepts L (r.context.activation L r.split) h root toks 0 toks.length →
            ∃ m, x = some m ∧ m.tree.range = (0, toks.length)) ∧
          ∀ m, x = some m → m.tree.range.2 = toks.length ∧
            Accepts L (r.context.activation L r.split) h root toks m.tree.range.1 m.tree.range.2 ∧
            FilledFact L (r.context.activation L r.split) h root n F its cls toks m.tree.range.1 m.tree.range.2
              (matchFact F (interpretators its h') (m.tree.root.load σ))
              ((interpretTree F (interpretators its h') (m.tree.root.load σ)).bind (Result.asJson F)) := by
  obtain ⟨N, p, h', h1, h2⟩ := text_correct_optionals_partial (relation := relation) hrun ⟨_, hroot, rfl⟩ hpid hs hh ha hc
  refine ⟨N, p, h', h1, fun text => ?_⟩
  obtain ⟨toks, k1, _, ⟨f1, ms1, σ1, k2, k3⟩, ⟨f2, ms2, σ2, k4, k5⟩, f3, x, σ3, k6, k7, k8⟩ := h2 text
  obtain ⟨hpr, hbuild⟩ := newParser_parts (h1 N (Nat.le_refl N))
  have hst : Spec.Steady .plain h root := hc.elim (·.steady) (·.steady)
  have hsilent : ∀ (x : Nat) o, Reach h root x → h[x]? = some o → o.silent := hc.elim (·.silent) (·.silent)
  have fact := fun {σ : Store} {m : Match Pred} (hm : Returned p.built.grammar p.built.agreement hash toks σ m) =>
    filled_fact (F := F) (its := its) (fresh_run hrun) hroot hst hpid hs hsilent hF hn hi hg hbuild hm
  have x1 := k2
  unfold TextParser.extract at x1
  rw [hpr, k1] at x1
  have x2 := k4
  unfold TextParser.findall at x2
  rw [hpr, k1] at x2
  have x3 := k6
  unfold TextParser.match at x3
  rw [hpr, k1] at x3
  refine ⟨toks, k1, ⟨f1, ms1, σ1, k2, k3, fun m hm => fact (.inl ⟨_, _, _, _, x1, hm⟩)⟩,
    ⟨f2, ms2, σ2, k4, k5, fun m hm => fact (.inr (.inl ⟨_, _, x2, hm⟩))⟩, f3, x, σ3, k6, k7, fun m hm => ?_⟩
  obtain ⟨g1, g2⟩ := k8 m hm
  subst hm
  exact ⟨g1, g2, fact (.inr (.inr ⟨_, x3⟩))⟩

/-! ### Example -/

/-- `TAG = type('INT').interpretation(Name.tags); FIRST = type('LATIN').interpretation(Name.first)`,
`or_(rule('x', TAG.optional(), FIRST), rule(FIRST, TAG)).interpretation(Name)`. -/
def formSource : Heap Pred :=
  [.prod [.pred (.type intType)] 0, .rule [0], .interp 1 6, .optional 2 false,
   .prod [.pred (.type "LATIN".toList)] 0, .rule [4], .interp 5 5,
   .prod [.pred (.eq "x".toList), .rule 3, .rule 6] 0, .rule [7],
   .prod [.rule 6, .rule 2] 0, .rule [9], .or [8, 10], .interp 11 9]

theorem formSource_optional {r : Nat} (hr : IsOptional formSource r) : r = 3 := by
  obtain ⟨x, v, e⟩ := hr
  match r with
  | 0 | 1 | 2 | 4 | 5 | 6 | 7 | 8 | 9 | 10 | 11 | 12 => cases e
  | 3 => rfl
  | n + 13 => cases e

theorem formSource_optionals : OptionalsAfterTokens formSource 12 := by
  have at_ : ∀ {a : Nat} {o : Obj Pred}, formSource[a]? = some o → o ∈ formSource := List.mem_of_getElem?
  refine ⟨fun h => ?_, ?_, ?_, ?_, ?_⟩
  · cases formSource_optional h
  · intro a o _ h
    have ho := at_ h
    simp only [formSource, List.mem_cons, List.not_mem_nil, or_false] at ho
    rcases ho with rfl | rfl | rfl | rfl | rfl | rfl | rfl | rfl | rfl | rfl | rfl | rfl | rfl <;> simp
  · intro a ts m _ h
    have ho := at_ h
    simp only [formSource, List.mem_cons, List.not_mem_nil, reduceCtorEq, or_false, false_or, Obj.prod.injEq] at ho
    rcases ho with ⟨rfl, _⟩ | ⟨rfl, _⟩ | ⟨rfl, _⟩ | ⟨rfl, _⟩ <;> refine ⟨by simp, fun i r hi ho => ?_⟩ <;>
      cases formSource_optional ho
    · match i with
      | 0 => cases hi
      | n + 1 => cases hi
    · match i with
      | 0 => cases hi
      | n + 1 => cases hi
    · match i with
      | 0 => cases hi
      | 1 => exact ⟨0, _, rfl, rfl, .inl ⟨_, rfl⟩⟩
      | 2 => cases hi
      | n + 3 => cases hi
    · match i with
      | 0 => cases hi
      | 1 => cases hi
      | n + 2 => cases hi
  · intro a o _ h hn c hc hopt
    cases formSource_optional hopt
    have ho := at_ h
    simp only [formSource, List.mem_cons, List.not_mem_nil, or_false] at ho
    rcases ho with rfl | rfl | rfl | rfl | rfl | rfl | rfl | rfl | rfl | rfl | rfl | rfl | rfl <;>
      first | exact hn _ _ rfl | simp [Obj.children] at hc
  · intro a r v _ h
    cases formSource_optional ⟨r, v, h⟩
    cases h
    intro hu
    cases hu with
    | repeatable e => cases e
    | min e => cases e
    | max e => cases e
    | minMax e => cases e

theorem formSource_complete : CompleteOptionals sampleReader.context sampleReader.split formSource 12 := by
  have at_ : ∀ {a : Nat} {o : Obj Pred}, formSource[a]? = some o → o ∈ formSource := List.mem_of_getElem?
  have known : ∀ v, v = "LATIN".toList ∨ v = intType → KnownTo sampleReader (.type v) := by
    rintro v (rfl | rfl)
    · exact ⟨_, List.mem_cons_of_mem _ List.mem_cons_self, rfl⟩
    · exact ⟨_, List.mem_cons_of_mem _ (List.mem_cons_of_mem _ List.mem_cons_self), rfl⟩
  refine ⟨?_, ?_, ?_, ?_, ⟨?_, ?_, ?_⟩, ?_, formSource_optionals, ?_⟩
  · intro a d _ h
    have hm := at_ h
    simp [formSource] at hm
  · intro a ts m _ h p hp q hq
    have hm := at_ h
    simp only [formSource, List.mem_cons, List.not_mem_nil, reduceCtorEq, or_false, false_or, Obj.prod.injEq] at hm
    rcases hm with ⟨rfl, _⟩ | ⟨rfl, _⟩ | ⟨rfl, _⟩ | ⟨rfl, _⟩ <;> simp at hp <;> subst hp <;> cases hq
    · exact known_to (rules := defaultRules sampleClasses) rfl (known _ (.inr rfl))
    · exact known_to (rules := defaultRules sampleClasses) rfl (known _ (.inl rfl))
    · trivial
  · intro a k ls _ h
    have hm := at_ h
    simp [formSource] at hm
  · intro a ls _ h _
    have hm := at_ h
    simp [formSource] at hm
  · intro a o _ h
    have ho := at_ h
    simp only [formSource, List.mem_cons, List.not_mem_nil, or_false] at ho
    rcases ho with rfl | rfl | rfl | rfl | rfl | rfl | rfl | rfl | rfl | rfl | rfl | rfl | rfl <;> trivial
  · intro a o _ h
    have ho := at_ h
    simp only [formSource, List.mem_cons, List.not_mem_nil, or_false] at ho
    rcases ho with rfl | rfl | rfl | rfl | rfl | rfl | rfl | rfl | rfl | rfl | rfl | rfl | rfl <;> trivial
  · intro a o _ h
    have ho := at_ h
    simp only [formSource, List.mem_cons, List.not_mem_nil, or_false] at ho
    rcases ho with rfl | rfl | rfl | rfl | rfl | rfl | rfl | rfl | rfl | rfl | rfl | rfl | rfl <;>
      (intro _ _ _ _ _ e; cases e)
  · intro a x _ h d
    have hm := at_ h
    simp [formSource] at hm
  · intro a o _ h
    have ho := at_ h
    simp only [formSource, List.mem_cons, List.not_mem_nil, or_false] at ho
    rcases ho with rfl | rfl | rfl | rfl | rfl | rfl | rfl | rfl | rfl | rfl | rfl | rfl | rfl <;> simp [Obj.silent]

theorem formSource_unread {r : Nat} (hr : r = 1 ∨ r = 5) : Unread formSource r := by
  have key : ∀ x, Reach formSource r x → x = 1 ∨ x = 5 ∨ x = 0 ∨ x = 4 := by
    intro x hx
    induction hx with
    | root => rcases hr with rfl | rfl <;> simp
    | step _ ho hc ih =>
      rcases ih with rfl | rfl | rfl | rfl <;> cases ho <;> simp [Obj.children, termRules] at hc <;> simp [hc]
  intro x o hx ho
  rcases key x hx with rfl | rfl | rfl | rfl <;> cases ho <;> rfl

theorem formSource_fills : Fills sampleFacts (slotIts 3) 0 formSource 11 := by
  intro x o hx ho
  have ne : x ≠ 12 := by
    have : ∀ x, Reach formSource 11 x → x ≤ 11 := by
      intro x hx
      induction hx with
      | root => omega
      | @step a o c _ ho hc ih =>
        match a with
        | 0 | 1 | 2 | 3 | 4 | 5 | 6 | 7 | 8 | 9 | 10 | 11 =>
          cases ho
          simp [Obj.children, termRules] at hc
          try omega
        | n + 12 => omega
    have := this x hx
    omega
  match x with
  | 0 | 1 | 3 | 4 | 5 | 7 | 8 | 9 | 10 | 11 => cases ho; exact .inl rfl
  | 2 => cases ho; exact .inr ⟨1, 6, rfl, ⟨rfl, by decide⟩, formSource_unread (.inl rfl)⟩
  | 6 => cases ho; exact .inr ⟨5, 5, rfl, ⟨rfl, by decide⟩, formSource_unread (.inr rfl)⟩
  | 12 => exact absurd rfl ne
  | n + 13 => cases ho

def formTokens : List Token :=
  [latinWord "x" 0, latinWord "ann" 2, { value := "7".toList, span := (6, 7), type := intType }]

theorem formText_tokens : (sampleReader.tokens "x ann 7".toList).toOption = some formTokens := by
  decide +kernel

theorem formFacts : factTexts sampleReader (slotIts 3) 12 formSource formTokens =
    some [some [(str "first", [str "ann"]), (str "last", [str "Petrov"]), (str "tags", [])],
      some [(str "first", [str "ann"]), (str "last", [str "Petrov"]), (str "tags", [str "7"])]] := by
  decide +kernel

/-- The hypotheses are met: the first match is of the first alternative, without its optional part; the second one of
the second alternative. -/
example : Answers sampleReader ∧ Fresh sampleLang sampleOrder formSource ∧ formSource[12]? = some (.interp 11 9) ∧
    CompleteOptionals sampleReader.context sampleReader.split formSource 12 ∧ SaneFacts sampleFacts ∧
    slotIts 3 9 = .fact 0 ∧ Fills sampleFacts (slotIts 3) 0 formSource 11 ∧
    (∀ (x : Nat) o, Reach formSource 12 x → formSource[x]? = some o → isGazetteer o = false) := by
  refine ⟨sampleReader_answers, fresh_makes (g := []) (os := formSource) (by decide +kernel), rfl, formSource_complete,
    sampleFacts_sane, rfl, formSource_fills, fun x o _ ho => ?_⟩
  have hm := List.mem_of_getElem? ho
  simp only [formSource, List.mem_cons, List.not_mem_nil, or_false] at hm
  rcases hm with rfl | rfl | rfl | rfl | rfl | rfl | rfl | rfl | rfl | rfl | rfl | rfl | rfl <;> rfl

end Yargy
