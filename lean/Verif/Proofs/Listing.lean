import Verif.Spec.Listing
import Verif.Proofs.Titles
import Verif.Proofs.Reading
import Verif.Properties.Labels
/-!
Proofs about the printed form of a compiled grammar.
-/
namespace Yargy
open Spec

/-! ### Names after compilation -/

section
variable {P : Type} {pid : Nat → Nat}

theorem generateNames_children (as : List Nat) (count : Nat) (h : Heap P) (a : Nat) :
    childrenAt (generateNames as count h) a = childrenAt h a := by
  obtain ⟨hl, hat⟩ := generateNames_at as count h
  unfold childrenAt
  cases ho : h[a]? with
  | none =>
    have : (generateNames as count h)[a]? = none := by
      rw [List.getElem?_eq_none_iff] at ho ⊢; omega
    rw [this]
  | some o =>
    rcases hat a o ho with e | ⟨_, ps, n, i, r, k, n', rfl, e⟩ <;> rw [e] <;> rfl

theorem generateNames_isBnf (as : List Nat) (count : Nat) (h : Heap P) (a : Nat) :
    isBnfRule (generateNames as count h) a = isBnfRule h a := by
  obtain ⟨hl, hat⟩ := generateNames_at as count h
  unfold isBnfRule
  cases ho : h[a]? with
  | none =>
    have : (generateNames as count h)[a]? = none := by
      rw [List.getElem?_eq_none_iff] at ho ⊢; omega
    rw [this]
  | some o =>
    rcases hat a o ho with e | ⟨_, ps, n, i, r, k, n', rfl, e⟩ <;> rw [e]

theorem walkFrom_alike {h h' : Heap P} (hc : ∀ a, childrenAt h' a = childrenAt h a) : ∀ (n : Nat) (queue seen),
    walkFrom pid h' n queue seen = walkFrom pid h n queue seen := by
  intro n
  induction n with
  | zero => intro _ _; rfl
  | succ n ih =>
    intro queue seen
    cases queue with
    | nil => rfl
    | cons x queue =>
      simp only [walkFrom, hc, ih]

theorem walk_children {h h' : Heap P} (hl : h'.length = h.length) (hc : ∀ a, childrenAt h' a = childrenAt h a)
    (root : Nat) : walk pid h' root = walk pid h root := by
  unfold walk
  rw [hl, walkFrom_alike hc]

theorem walk_head (h : Heap P) (root : Nat) : (walk pid h root).head? = some root := by
  unfold walk
  simp only [walkFrom, List.head?_cons]

/-- After compilation all rules have names, and only names that the user has given are given twice. -/
theorem compile_titles {h' h2 : Heap P} {b : Nat} (hp : ∀ a b, pid a = pid b → a = b) {Ok : Str → Prop} {n0 : Nat}
    (ht : Titled Ok n0 h2) (e : h' = generateNames (walk pid h2 b) 0 h2)
    (hc : ClosedHeap h') (hlt : b < h'.length)
    (hfresh : ∀ x, Reach h' b x → isBnfRule h' x = true → n0 ≤ x) :
    (∀ x, Reach h' b x → ¬ Nameless h' x) ∧
    (∀ x n, Reach h' b x → nameAt h' x = some n → Ok n ∨ generated n = true) ∧
    ∀ x y n, Reach h' b x → Reach h' b y → x ≠ y → nameAt h' x = some n → nameAt h' y = some n → Ok n := by
  have hw : walk pid h' b = walk pid h2 b := by
    rw [e]; exact walk_children (generateNames_at _ _ _).1 (generateNames_children _ _ _) b
  obtain ⟨hnd, _⟩ := walk_spec hp hc hlt
  have hmem : ∀ x, x ∈ walk pid h2 b ↔ Reach h' b x := fun x => hw ▸ reach_iff hp hc hlt x
  rw [hw] at hnd
  -- a name that a rule had before
  have old : ∀ x n, Reach h' b x → ¬ Nameless h2 x → nameAt h' x = some n → Ok n := by
    intro x n hx hn hnm
    have he : h'[x]? = h2[x]? := by rw [e]; exact generateNames_real _ _ _ _ hn
    unfold nameAt at hnm
    split at hnm
    · rename_i ps m i r k ho
      subst hnm
      refine ht.made x ps n i r k (hfresh x hx ?_) (he ▸ ho)
      unfold isBnfRule; rw [ho]
    · cases hnm
  refine ⟨fun x hx => ?_, fun x n hx hnx => ?_, ?_⟩
  · rw [e]; exact generateNames_named _ _ _ hnd ((hmem x).2 hx)
  · by_cases hx2 : Nameless h2 x
    · obtain ⟨i, _, q2, _⟩ := generateNames_fresh _ 0 _ hnd x ((hmem x).2 hx) hx2
      rw [← e, hnx] at q2
      cases q2
      exact .inr (generated_genName i)
    · exact .inl (old x n hx hx2 hnx)
  · intro x y n hx hy hne hnx hny
    by_cases hx2 : Nameless h2 x
    · by_cases hy2 : Nameless h2 y
      · obtain ⟨i, _, q2, q3⟩ := generateNames_fresh _ 0 _ hnd x ((hmem x).2 hx) hx2
        have q4 := q3 y ((hmem y).2 hy) (Ne.symm hne) hy2
        rw [← e] at q2 q4
        rw [hnx] at q2
        rw [← q2] at q4
        exact absurd hny q4
      · exact old y n hy hy2 hny
    · exact old x n hx hx2 hnx

/-- Names of compiled rules come from the rule, or were made; only names from the rule come twice. -/
theorem compileRule_titles {A : Activation P} (hp : ∀ a b, pid a = pid b → a = b) {limit root b : Nat}
    {h h' : Heap P} (hs : Sorted h) (hl : root < h.length) (hr : isProdAt h root = false)
    (e : compileRule A pid limit root h = .ok (b, h')) :
    (∀ x, Reach h' b x → ¬ Nameless h' x) ∧
    (∀ x n, Reach h' b x → nameAt h' x = some n →
      (∃ a r, Reach h root a ∧ h[a]? = some (.named r n)) ∨ generated n = true) ∧
    ∀ x y n, Reach h' b x → Reach h' b y → x ≠ y → nameAt h' x = some n → nameAt h' y = some n →
      ∃ a r, Reach h root a ∧ h[a]? = some (.named r n) := by
  obtain ⟨g, e', hD, hget, hcl⟩ := compileRule_same hp hs hl hr e
  have hs' := cutAway_sorted hs hl
  have hl' : root < (cutAway h root).length := by rw [cutAway_length]; exact hl
  have hr' : isProdAt (cutAway h root) root = false := by rw [cutAway_prod hs hl .root]; exact hr
  have hc := compileRule_compiled (X := fun _ => True) hp hs' hl' hr' (fun _ _ _ _ _ _ _ _ => trivial) e'
  obtain ⟨h2, ht, heq⟩ := compileRule_endures (X := fun _ => True) hp
    (titled_enduring (Ok := fun n => ∃ a r, Reach h root a ∧ h[a]? = some (.named r n)) (n0 := h.length))
    titled_activate hs' hl' hr' (fun _ _ _ _ _ _ _ _ => trivial) (by
      refine ⟨by rw [cutAway_length]; exact Nat.le_refl _, fun a r n ho => ?_, fun a ps n i r k hn ho => ?_⟩
      · obtain ⟨h1, h2⟩ := (cutAway_back hs.closed hl ho).resolve_left (fun h => nomatch h)
        exact ⟨a, r, h2, h1⟩
      · have := (List.getElem?_eq_some_iff.1 ho).1
        rw [cutAway_length] at this
        omega) e'
  have at' : ∀ x, Reach h' b x → g[x]? = h'[x]? := by
    intro x hx
    refine hget x ?_
    induction hx with
    | root => exact hD
    | step _ hu hc ih => exact hcl _ _ ih hu _ hc
  have re : ∀ x, Reach h' b x → Reach g b x := fun x hx => (reach_same at' x).2 hx
  have nm : ∀ x, Reach h' b x → nameAt g x = nameAt h' x := by
    intro x hx
    unfold nameAt
    rw [at' x hx]
  obtain ⟨k1, k2, k3⟩ := compile_titles hp ht heq hc.sorted.closed hc.typed.lt (by
    intro x hx hb
    rcases hc.fresh x hx with h1 | ⟨o, h1, h2⟩
    · rw [cutAway_length] at h1; exact h1
    · unfold isBnfRule at hb
      rw [h1] at hb
      cases o <;> first | (cases hb; done) | (cases h2; done))
  refine ⟨fun x hx hn => ?_, fun x n hx hnx => ?_, fun x y n hx hy hne hnx hny => ?_⟩
  · obtain ⟨ps, n, i, r, k, q1, q2⟩ := hn
    exact k1 x (re x hx) ⟨ps, n, i, r, k, (at' x hx).trans q1, q2⟩
  · exact k2 x n (re x hx) ((nm x hx).trans hnx)
  · exact k3 x y n (re x hx) (re y hy) hne ((nm x hx).trans hnx) ((nm y hy).trans hny)

end

/-! ### Lines -/

variable {N : Labels Pred} {L : Lang} {h : Heap Pred} {G : Grammar Pred Token} {start : Nat}

theorem bnfLabel_real {n : Option Str} {i r : Option Nat} (hn : Real n) :
    bnfLabel N n i r = some (title N n i r) := by
  match n, hn with
  | some (c :: cs), _ => cases i <;> cases r <;> simp [bnfLabel, title, formatted]

theorem real_at (hn : ∀ x, Reach h start x → ¬ Nameless h x) {a : Nat} (hr : Reach h start a) {ps n i r k}
    (ho : h[a]? = some (.bnf ps n i r k)) : formatted (bnfLabel N n i r) = ruleLabel N h a := by
  have : Real n := Classical.byContradiction fun hx => hn a hr ⟨_, _, _, _, _, ho, hx⟩
  simp only [bnfLabel_real this, formatted, ruleLabel, ho]

theorem termLabel_proper (hn : ∀ x, Reach h start x → ¬ Nameless h x) {t : Term Pred} (ht : Proper h start t) :
    termLabel N h t = .ok (some (labelOf N h t)) := by
  cases t with
  | pred p => rfl
  | rule r =>
    obtain ⟨h1, h2⟩ := ht
    unfold isBnf at h2
    split at h2
    · rename_i ps n i x k ho
      have : Real n := Classical.byContradiction fun hr => hn r h1 ⟨_, _, _, _, _, ho, hr⟩
      simp only [termLabel, labelOf, ruleLabel, ho, bnfLabel_real this]
    · cases h2

theorem altTerms_proper (hn : ∀ x, Reach h start x → ¬ Nameless h x) (main : Nat) : ∀ (ts : List (Term Pred)) (index : Nat),
    (∀ t ∈ ts, Proper h start t) →
    ∃ xs, altTerms N h main index ts = .ok xs ∧ xs.map Prod.snd = ts.map (labelOf N h) ∧
      ∀ i : Nat, (∃ s, xs[i]? = some (true, s)) ↔ 0 < main ∧ main = index + i ∧ i < ts.length := by
  intro ts
  induction ts with
  | nil => intro _ _; exact ⟨[], rfl, rfl, fun i => ⟨(by rintro ⟨s, e⟩; cases e), (by rintro ⟨_, _, e⟩; cases e)⟩⟩
  | cons t ts ih =>
    intro index ht
    obtain ⟨xs, h1, h2, h3⟩ := ih (index + 1) (fun t h => ht t (List.mem_cons_of_mem _ h))
    refine ⟨_, by
      simp only [altTerms, termLabel_proper hn (ht t List.mem_cons_self), h1]; rfl, ?_, ?_⟩
    · simp only [List.map_cons, h2]
    · intro i
      cases i with
      | zero =>
        simp only [List.getElem?_cons_zero, Option.some.injEq, Prod.mk.injEq, decide_eq_true_eq, List.length_cons]
        constructor
        · rintro ⟨s, ⟨q1, q2⟩, _⟩; exact ⟨q1, q2, by omega⟩
        · rintro ⟨q1, q2, _⟩; exact ⟨_, ⟨q1, q2⟩, rfl⟩
      | succ i =>
        simp only [List.getElem?_cons_succ, h3, List.length_cons]
        omega

theorem altOf_proper (hb : Belongs L h G (Reach h start)) (hn : ∀ x, Reach h start x → ¬ Nameless h x) {p : Nat}
    (hr : Reach h start p) (hp : isProduction h p = true) :
    (∀ t ∈ (productionAt h p).terms, Proper h start t) ∧
    ∃ a, altOf N h p = .ok a ∧ AltFor N h p a := by
  have hprop : ∀ t ∈ (productionAt h p).terms, Proper h start t := by
    intro t ht
    cases t with
    | rule r => exact prod_terms hb hr r ht
    | pred q =>
      unfold productionAt at ht
      split at ht
      · rename_i ts m ho
        exact ⟨p, _, hr, ho, List.mem_filterMap.2 ⟨_, ht, rfl⟩⟩
      · rename_i v ts ho
        obtain ⟨q', h1, h2⟩ := List.mem_map.1 ht
        cases h2
        exact ⟨p, _, hr, ho, h1⟩
      · cases ht
  refine ⟨hprop, ?_⟩
  unfold isProduction at hp
  unfold altOf
  unfold productionAt at hprop
  split at hp
  · rename_i ts m ho
    rw [ho] at hprop
    obtain ⟨xs, h1, h2, h3⟩ := altTerms_proper (N := N) hn m ts 0 hprop
    refine ⟨.terms xs, by simp only [ho, h1]; rfl, ⟨?_, ?_, ?_⟩⟩
    · unfold productionAt; simp only [ho]; exact h2
    · rw [ho]; exact ⟨(by intro e; cases e), (by intro e; cases e)⟩
    · intro ys e i
      cases e
      rw [h3 i]
      unfold productionAt
      simp only [ho]
      omega
  · rename_i ho
    refine ⟨.empty, by simp only [ho], ⟨?_, ?_, ?_⟩⟩
    · unfold productionAt; simp only [ho]; rfl
    · exact ⟨fun _ => ho, fun _ => rfl⟩
    · intro ys e; cases e
  · rename_i v ts ho
    rw [ho] at hprop
    obtain ⟨xs, h1, h2, h3⟩ := altTerms_proper (N := N) hn 0 _ 0 hprop
    refine ⟨.terms xs, by simp only [ho, h1]; rfl, ⟨?_, ?_, ?_⟩⟩
    · unfold productionAt; simp only [ho]; exact h2
    · rw [ho]; exact ⟨(by intro e; cases e), (by intro e; cases e)⟩
    · intro ys e i
      cases e
      rw [h3 i]
      unfold productionAt
      simp only [ho]
      omega
  · cases hp

theorem mapM_matching {α β : Type} {f : α → Except Err β} {R : α → β → Prop} : ∀ {xs : List α},
    (∀ x ∈ xs, ∃ y, f x = .ok y ∧ R x y) → ∃ ys, xs.mapM f = .ok ys ∧ Pointwise R xs ys := by
  intro xs
  induction xs with
  | nil => intro _; exact ⟨[], rfl, .nil⟩
  | cons x xs ih =>
    intro h
    obtain ⟨y, h1, h2⟩ := h x List.mem_cons_self
    obtain ⟨ys, h3, h4⟩ := ih (fun x hx => h x (List.mem_cons_of_mem _ hx))
    refine ⟨y :: ys, ?_, .cons h2 h4⟩
    rw [List.mapM_cons, h1, h3]; rfl

theorem grammarLine_proper (hb : Belongs L h G (Reach h start)) (hn : ∀ x, Reach h start x → ¬ Nameless h x) {a : Nat}
    (hr : Reach h start a) (ha : isBnf h a = true) : ∃ l, grammarLine N h a = .ok l ∧ LineFor N h a l := by
  unfold isBnf at ha
  split at ha
  · rename_i ps n i r k ho
    cases k with
    | none =>
      obtain ⟨as, h1, h2⟩ := mapM_matching (f := altOf N h)
        (R := AltFor N h) (xs := ps) (by
          intro p hpm
          obtain ⟨h1, h2⟩ := hb.bnf a ps n i r none hr ho p hpm
          exact (altOf_proper hb hn h1 h2).2)
      refine ⟨⟨formatted (bnfLabel N n i r), .alts as⟩, by simp only [grammarLine, ho, h1]; rfl, ⟨?_, ?_, ?_⟩⟩
      · exact real_at hn hr ho
      · intro ps' n' i' r' h'
        rw [ho] at h'
        cases h'
        exact ⟨as, rfl, h2⟩
      · intro ps' n' i' r' k' h'
        rw [ho] at h'
        cases h'
    | some k =>
      refine ⟨⟨formatted (bnfLabel N n i r), .gazetteer k⟩, by simp only [grammarLine, ho], ⟨?_, ?_, ?_⟩⟩
      · exact real_at hn hr ho
      · intro ps' n' i' r' h'
        rw [ho] at h'
        cases h'
      · intro ps' n' i' r' k' h'
        rw [ho] at h'
        cases h'
        rfl
  · cases ha

theorem Pointwise.mem_left {α β : Type} {R : α → β → Prop} {xs : List α} {ys : List β} (hp : Pointwise R xs ys) :
    ∀ x ∈ xs, ∃ y ∈ ys, R x y := by
  induction hp with
  | nil => intro x hx; cases hx
  | cons h _ ih =>
    intro x hx
    rcases List.mem_cons.1 hx with rfl | hx
    · exact ⟨_, List.mem_cons_self, h⟩
    · obtain ⟨y, h1, h2⟩ := ih x hx; exact ⟨y, List.mem_cons_of_mem _ h1, h2⟩

theorem Pointwise.mem_right {α β : Type} {R : α → β → Prop} {xs : List α} {ys : List β} (hp : Pointwise R xs ys) :
    ∀ y ∈ ys, ∃ x ∈ xs, R x y := by
  induction hp with
  | nil => intro x hx; cases hx
  | cons h _ ih =>
    intro x hx
    rcases List.mem_cons.1 hx with rfl | hx
    · exact ⟨_, List.mem_cons_self, h⟩
    · obtain ⟨y, h1, h2⟩ := ih x hx; exact ⟨y, List.mem_cons_of_mem _ h1, h2⟩

/-- The labels of lines are those of the rules. -/
theorem lines_labels {rules : List Nat} {lines : List Line} (hp : Pointwise (LineFor N h) rules lines) :
    lines.map Line.label = rules.map (ruleLabel N h) := by
  induction hp with
  | nil => rfl
  | cons h _ ih => simp only [List.map_cons, ih, h.label]

/-- Labels that are printed once stand for one rule. -/
theorem label_once {f : Nat → Str} : ∀ {rules : List Nat}, (rules.map f).Nodup →
    ∀ x ∈ rules, ∀ y ∈ rules, f x = f y → x = y := by
  intro rules
  induction rules with
  | nil => intro _ x hx; cases hx
  | cons a rules ih =>
    intro hnd x hx y hy e
    rw [List.map_cons, List.nodup_cons] at hnd
    rcases List.mem_cons.1 hx with h1 | h1 <;> rcases List.mem_cons.1 hy with h2 | h2
    · rw [h1, h2]
    · exact absurd (by rw [← h1, e]; exact List.mem_map_of_mem h2) hnd.1
    · exact absurd (by rw [← h2, ← e]; exact List.mem_map_of_mem h1) hnd.1
    · exact ih hnd.2 x h1 y h2 e

/-! ### What the lines generate -/

theorem printed_append (u v : List (Sym Pred)) : printed N (u ++ v) = printed N u ++ printed N v := by
  unfold printed; rw [List.filterMap_append]

section
variable {rules : List Nat} {lines : List Line} (hm : ∀ x, x ∈ rules ↔ Reach h start x ∧ isBnf h x = true)
  (hp : Pointwise (LineFor N h) rules lines) (hr : Readable N h start lines)
include hm hp hr

theorem line_side {r : Nat} (hr' : Reach h start r) {ps n i x k} (ho : h[r]? = some (.bnf ps n i x k)) {l : Line}
    (hl : l ∈ lines) (e : l.label = ruleLabel N h r) :
    ∃ as, l.side = .alts as ∧ Pointwise (AltFor N h) ps as := by
  obtain ⟨r', h1, h2⟩ := hp.mem_right l hl
  have hbr : isBnf h r = true := by unfold isBnf; rw [ho]
  have := label_once (lines_labels hp ▸ hr.once) r' h1 r ((hm r).2 ⟨hr', hbr⟩) (h2.label ▸ e)
  subst this
  cases k with
  | none => exact h2.side ps n i x ho
  | some k =>
    obtain ⟨as, e⟩ := hr.alts l hl
    rw [h2.gazetteer ps n i x k ho] at e
    cases e

variable (hb : Belongs L h G (Reach h start)) (hn : ∀ x, Reach h start x → ¬ Nameless h x)
include hb hn

theorem generates_says {xs w : List Str} (hg : Generates lines xs w) : ∀ ts : List (Term Pred),
    ts.map (labelOf N h) = xs → (∀ t ∈ ts, Proper h start t) → ∃ u, Says .plain h ts u ∧ w = printed N u := by
  induction hg with
  | nil =>
    intro ts e _
    rw [List.map_eq_nil_iff] at e
    subst e
    exact ⟨[], .nil, rfl⟩
  | @word x xs w hx _ ih =>
    intro ts e ht
    cases ts with
    | nil => cases e
    | cons t ts =>
      rw [List.map_cons, List.cons.injEq] at e
      obtain ⟨u, h1, h2⟩ := ih ts e.2 (fun t h => ht t (List.mem_cons_of_mem _ h))
      have ht := ht t List.mem_cons_self
      cases t with
      | pred p =>
        refine ⟨.pred p :: u, .pred h1, ?_⟩
        rw [h2, ← e.1]
        rfl
      | rule r =>
        obtain ⟨l, l1, l2⟩ := hp.mem_left r ((hm r).2 ht)
        exact absurd (l2.label.trans e.1) (hx l l1)
  | @line l as a xs v w hl hs ha _ _ ih1 ih2 =>
    intro ts e ht
    cases ts with
    | nil => cases e
    | cons t ts =>
      rw [List.map_cons, List.cons.injEq] at e
      obtain ⟨u, h1, h2⟩ := ih2 ts e.2 (fun t h => ht t (List.mem_cons_of_mem _ h))
      have ht := ht t List.mem_cons_self
      cases t with
      | pred p => exact absurd e.1.symm (hr.words p ht l hl)
      | rule r =>
        obtain ⟨hr1, hr2⟩ := ht
        have hbr := hr2
        unfold isBnf at hr2
        split at hr2
        · rename_i ps n i x k ho
          obtain ⟨as', k1, k2⟩ := line_side hm hp hr hr1 ho hl e.1.symm
          rw [hs] at k1
          cases k1
          obtain ⟨p, p1, p2⟩ := k2.mem_right a ha
          obtain ⟨z1, z2⟩ := hb.bnf r ps n i x k hr1 ho p p1
          obtain ⟨u1, q1, q2⟩ := ih1 (productionAt h p).terms p2.words.symm (altOf_proper (N := N) hb hn z1 z2).1
          obtain ⟨o, o1, o2, o3⟩ := prod_spells' (k := .plain) z2
          refine ⟨u1 ++ u, ?_, by rw [h2, q2, printed_append]⟩
          have s1 : Says .plain h [.rule p] u1 := by
            have := Says.rule o1 ((o2 _).2 rfl) q1 (Says.nil (k := .plain) (h := h))
            rw [o3] at this
            simpa [wrap] using this
          have := Says.rule ho (.bnf p1) s1 h1
          rwa [label_plain] at this
        · cases hr2

theorem says_generates {ts : List (Term Pred)} {u : List (Sym Pred)} (hs : Says .plain h ts u) :
    ((∀ t ∈ ts, Proper h start t) → Generates lines (ts.map (labelOf N h)) (printed N u)) ∧
    ∀ p, ts = [.rule p] → Reach h start p → isProduction h p = true →
      Generates lines ((productionAt h p).terms.map (labelOf N h)) (printed N u) := by
  induction hs with
  | nil => exact ⟨fun _ => .nil, fun p e => by cases e⟩
  | @pred p ts w _ ih =>
    refine ⟨fun ht => ?_, fun p e => by cases e⟩
    refine .word (fun l hl => hr.words p (ht _ List.mem_cons_self) l hl)
      (ih.1 (fun t h => ht t (List.mem_cons_of_mem _ h)))
  | @rule a o us ts w v ho hsp h1 h2 ih1 ih2 =>
    rw [label_plain]
    refine ⟨fun ht => ?_, ?_⟩
    · obtain ⟨hr1, hr2⟩ := ht _ List.mem_cons_self
      have hbr := hr2
      unfold isBnf at hr2
      split at hr2
      · rename_i ps n i x k ho'
        rw [ho] at ho'
        cases ho'
        cases hsp with
        | @bnf _ _ _ _ _ p hpm =>
          obtain ⟨z1, z2⟩ := hb.bnf a ps n i x k hr1 ho p hpm
          have g1 := ih1.2 p rfl z1 z2
          have g2 := ih2.1 (fun t h => ht t (List.mem_cons_of_mem _ h))
          obtain ⟨l, l1, l2⟩ := hp.mem_left a ((hm a).2 ⟨hr1, hbr⟩)
          obtain ⟨as, k1, k2⟩ := line_side hm hp hr hr1 ho l1 l2.label
          obtain ⟨x, x1, x2⟩ := k2.mem_left p hpm
          have := Generates.line l1 k1 x1 (x2.words ▸ g1) g2
          rw [l2.label] at this
          simpa [wrap, printed_append, labelOf] using this
      · cases hr2
    · intro p e hrp hip
      cases e
      cases h2
      obtain ⟨o', o1, o2, o3⟩ := prod_spells' (k := .plain) hip
      rw [ho] at o1
      cases o1
      have := (o2 us).1 hsp
      subst this
      simpa [wrap] using ih1.1 (altOf_proper (N := N) hb hn hrp hip).1

theorem generates_iff (hst : isBnf h start = true) (w : List Str) :
    Generates lines [ruleLabel N h start] w ↔ ∃ u, Words .plain h start u ∧ w = printed N u := by
  have hpr : ∀ t ∈ [Term.rule (P := Pred) start], Proper h start t := by
    intro t ht
    rw [List.mem_singleton] at ht
    subst ht
    exact ⟨.root, hst⟩
  constructor
  · intro hg
    exact generates_says hm hp hr hb hn hg [.rule start] rfl hpr
  · rintro ⟨u, h1, rfl⟩
    exact (says_generates hm hp hr hb hn h1).1 hpr

end

/-! ### The text of a line -/

theorem joined_append (sep : Str) : ∀ {xs ys : List Str}, xs ≠ [] → ys ≠ [] →
    joined sep (xs ++ ys) = joined sep xs ++ sep ++ joined sep ys := by
  intro xs
  induction xs with
  | nil => intro _ h; exact absurd rfl h
  | cons x xs ih =>
    intro ys _ hy
    cases xs with
    | nil =>
      cases ys with
      | nil => exact absurd rfl hy
      | cons y ys => rfl
    | cons z xs =>
      have := ih (ys := ys) (by simp) hy
      simp only [List.cons_append, joined] at this ⊢
      rw [this]
      simp

theorem altWritten_ne (a : Alt) : altWritten a ≠ [] := by
  cases a with
  | empty => exact List.cons_ne_nil _ _
  | terms ts => cases ts <;> simp [altWritten]

theorem between_ne : ∀ as : List Alt, between as ≠ []
  | [] => List.cons_ne_nil _ _
  | [a] => altWritten_ne a
  | a :: b :: as => by simp [between]

theorem alt_text (a : Alt) : a.text = joined [' '] (altWritten a) := by
  cases a with
  | empty => rfl
  | terms ts => cases ts <;> rfl

theorem alts_text : ∀ as : List Alt, joined " | ".toList (as.map Alt.text) = joined [' '] (between as)
  | [] => rfl
  | [a] => alt_text a
  | a :: b :: as => by
    have h := alts_text (b :: as)
    have e : between (a :: b :: as) = altWritten a ++ "|".toList :: between (b :: as) := rfl
    rw [List.map_cons] at h ⊢
    rw [List.map_cons, joined, h, alt_text, e, joined_append _ (altWritten_ne a) (List.cons_ne_nil _ _)]
    cases hb : between (b :: as) with
    | nil => exact absurd hb (between_ne _)
    | cons y ys =>
      have e2 : joined [' '] ("|".toList :: y :: ys) = "| ".toList ++ joined [' '] (y :: ys) := rfl
      have e3 : " | ".toList = [' '] ++ "| ".toList := rfl
      rw [e2, e3]
      simp only [List.append_assoc]

theorem line_joined (l : Line) : l.text = joined [' '] (written l) := by
  have head : ∀ ws : List Str, ws ≠ [] →
      l.label ++ " -> ".toList ++ joined [' '] ws = joined [' '] (l.label :: "->".toList :: ws) := by
    intro ws hw
    cases ws with
    | nil => exact absurd rfl hw
    | cons y ys =>
      have e2 : joined [' '] (l.label :: "->".toList :: y :: ys) =
        l.label ++ [' '] ++ ("-> ".toList ++ joined [' '] (y :: ys)) := rfl
      have e3 : " -> ".toList = [' '] ++ "-> ".toList := rfl
      rw [e2, e3]
      simp only [List.append_assoc]
  unfold Line.text written
  cases l.side with
  | gazetteer k => cases k <;> exact head [_] (List.cons_ne_nil _ _)
  | alts as =>
    simp only [alts_text]
    exact head _ (between_ne as)

theorem cutSpaces_word : ∀ (w : Str), ' ' ∉ w → cutSpaces w = [w]
  | [], _ => rfl
  | c :: cs, h => by
    rw [cutSpaces, if_neg (fun e => h (by simp [e])), cutSpaces_word cs (fun h' => h (List.mem_cons_of_mem _ h'))]

theorem cutSpaces_cons : ∀ (w rest : Str), ' ' ∉ w → cutSpaces (w ++ ' ' :: rest) = w :: cutSpaces rest
  | [], _, _ => by simp [cutSpaces]
  | c :: cs, rest, h => by
    rw [List.cons_append, cutSpaces, if_neg (fun e => h (by simp [e])),
      cutSpaces_cons cs rest (fun h' => h (List.mem_cons_of_mem _ h'))]

theorem cutSpaces_joined : ∀ (ws : List Str), ws ≠ [] → (∀ w ∈ ws, ' ' ∉ w) → cutSpaces (joined [' '] ws) = ws
  | [], h, _ => absurd rfl h
  | [w], _, h => cutSpaces_word w (h w List.mem_cons_self)
  | w :: v :: ws, _, h => by
    rw [joined, List.append_assoc, List.singleton_append, cutSpaces_cons w _ (h w List.mem_cons_self),
      cutSpaces_joined (v :: ws) (by simp) (fun x hx => h x (List.mem_cons_of_mem _ hx))]

end Yargy
