import Verif.Proofs.ThinReplace
import Verif.Proofs.Predicate
/-! Compiled rules do not contain themselves without a token. -/
namespace Yargy.Thin

variable {P : Type} {N : Nat → Prop} {lt : Nat → Nat → Prop} {h h' h'' : Heap P}

/-! ### Activation -/

/-- The same term, predicates aside. -/
inductive SameTerm : Term P → Term P → Prop
  | pred (p q) : SameTerm (.pred p) (.pred q)
  | rule (r) : SameTerm (.rule r) (.rule r)

/-- The same object, predicates aside. -/
inductive Woken : Obj P → Obj P → Prop
  | refl (o) : Woken o o
  | prod {ts ts' m} : Pointwise SameTerm ts ts' → Woken (.prod ts m) (.prod ts' m)
  | pipe (p p') : Woken (.pipe p) (.pipe p')

theorem sameTerm_rules {ts ts' : List (Term P)} (hp : Pointwise SameTerm ts ts') : termRules ts' = termRules ts := by
  induction hp with
  | nil => rfl
  | cons hs _ ih => cases hs <;> simp [termRules, ih]

theorem Woken.children {o o' : Obj P} (k : Woken o o') : o'.children = o.children := by
  cases k with
  | refl => rfl
  | prod hp => exact sameTerm_rules hp
  | pipe => rfl

theorem Woken.fixed {o o' : Obj P} (k : Woken o o') (hf : ∀ c, o' ≠ .forward c) : ∀ c, o ≠ .forward c := by
  intro c e
  subst e
  cases k
  exact hf _ rfl

theorem Woken.repeated {o o' : Obj P} (k : Woken o o') : repeated o' = repeated o := by
  cases k <;> rfl

theorem Woken.gives {o o' : Obj P} (k : Woken o o') {us : List (Term P)} (hg : Gives o' us) :
    ∃ vs, Gives o vs ∧ Pointwise SameTerm vs us := by
  have refl : ∀ ts : List (Term P), Pointwise SameTerm ts ts := by
    intro ts
    induction ts with
    | nil => exact .nil
    | cons t ts ih => exact .cons (by cases t; exact .pred _ _; exact .rule _) ih
  cases k with
  | refl => exact ⟨us, hg, refl us⟩
  | prod hp => cases hg; exact ⟨_, .prod, hp⟩
  | pipe => cases hg

def Wakes (h h' : Heap P) : Prop :=
  h'.length = h.length ∧ ∀ (a : Nat) o', h'[a]? = some o' → ∃ o, h[a]? = some o ∧ Woken o o'

theorem Wakes.open (hw : Wakes h h') {us : List (Term P)} {w : List Nat} (ho : Open N h' us w) :
    ∀ ts, Pointwise SameTerm ts us → Open N h ts w := by
  induction ho with
  | nil => intro ts hp; cases hp; exact .nil
  | letter ha _ ih =>
    intro ts hp
    cases hp with
    | cons h1 h2 =>
      cases h1
      obtain ⟨o, k1, k2⟩ := hw.2 _ _ ha
      cases k2
      exact .letter k1 (ih _ h2)
  | skip ha hn _ ih =>
    intro ts hp
    cases hp with
    | cons h1 h2 =>
      cases h1
      obtain ⟨o, k1, k2⟩ := hw.2 _ _ ha
      cases k2
      exact .skip k1 hn (ih _ h2)
  | rule ha hf hs _ _ ih1 ih2 =>
    intro ts hp
    cases hp with
    | cons h1 h2 =>
      cases h1
      obtain ⟨o, k1, k2⟩ := hw.2 _ _ ha
      obtain ⟨vs, k3, k4⟩ := k2.gives hs
      exact .rule k1 (k2.fixed hf) k3 (ih1 _ k4) (ih2 _ h2)

theorem Wakes.one (hw : Wakes h h') {r : Nat} {w : List Nat} (ho : Open N h' [.rule r] w) : Open N h [.rule r] w :=
  hw.open ho _ (.cons (.rule r) .nil)

theorem Tame.wakes (ht : Tame N lt h) (hw : Wakes h h') : Tame N lt h' := by
  refine ⟨fun o ho c hc => ?_, fun a o ho hf c hc => ?_, fun a c ho b hb => ?_, fun a c ho hb => ?_,
    fun a o r ho hr hb => ?_⟩
  · obtain ⟨a, ha⟩ := List.mem_iff_getElem?.1 ho
    obtain ⟨o1, k1, k2⟩ := hw.2 _ _ ha
    rw [hw.1]
    exact ht.closed _ (List.mem_of_getElem? k1) c (k2.children ▸ hc)
  · obtain ⟨o1, k1, k2⟩ := hw.2 _ _ ho
    exact ht.young a o1 k1 (k2.fixed hf) c (k2.children ▸ hc)
  · obtain ⟨o1, k1, k2⟩ := hw.2 _ _ ho
    cases k2
    exact ht.down a c k1 b (hw.one hb)
  · obtain ⟨o1, k1, k2⟩ := hw.2 _ _ ho
    cases k2
    exact ht.null a c k1 (hw.one hb)
  · obtain ⟨o1, k1, k2⟩ := hw.2 _ _ ho
    exact ht.firm a o1 r k1 (by rw [← k2.repeated]; exact hr) (hw.one hb)

theorem activateObj_woken {A : Activation P} {o o' : Obj P} (e : activateObj A o = .ok o') : Woken o o' := by
  cases o with
  | prod ts m =>
    obtain ⟨ts', h1, rfl⟩ := except_map_ok e
    refine .prod (mapM_pointwise (R := SameTerm) ?_ h1)
    intro t t' ht
    cases t with
    | pred p => obtain ⟨q, _, rfl⟩ := except_map_ok ht; exact .pred _ _
    | rule r => cases ht; exact .rule r
  | pipe p => obtain ⟨q, _, rfl⟩ := except_map_ok e; exact .pipe _ _
  | _ => cases e; exact .refl _

theorem activateAt_tame {A : Activation P} (ht : Tame N lt h) {a : Nat} (e : activateAt A h a = .ok h') :
    Tame N lt h' := by
  unfold activateAt at e
  split at e
  · cases e; exact ht
  · rename_i o ho
    obtain ⟨o', h1, rfl⟩ := except_map_ok e
    refine ht.wakes ⟨by simp, fun b x hx => ?_⟩
    by_cases q : a = b
    · subst q
      rw [List.getElem?_set_self (List.getElem?_eq_some_iff.1 ho).1] at hx
      cases hx
      exact ⟨o, ho, activateObj_woken h1⟩
    · rw [List.getElem?_set_ne q] at hx
      exact ⟨x, hx, .refl x⟩

theorem activate_tame {A : Activation P} (as : List Nat) : ∀ {h h' : Heap P}, Tame N lt h →
    as.foldlM (activateAt A) h = .ok h' → Tame N lt h' := by
  induction as with
  | nil => intro h h' ht e; cases e; exact ht
  | cons a as ih =>
    intro h h' ht e
    rw [List.foldlM_cons] at e
    cases h1 : activateAt A h a with
    | error x => rw [h1] at e; cases e
    | ok h1' => rw [h1] at e; exact ih (activateAt_tame ht h1) e

/-! ### Compiled rules -/

/-- The terms of a production that is not a line of a gazetteer. -/
inductive TermsOf (h : Heap P) (p : Nat) : List (Term P) → Prop
  | prod {ts m} : h[p]? = some (.prod ts m) → TermsOf h p ts
  | empty : h[p]? = some .emptyProd → TermsOf h p []

/-- Compiled rules that may be empty. -/
inductive Null (h : Heap P) : List (Term P) → Prop
  | nil : Null h []
  | cons {a ps n i r k p us ts} : h[a]? = some (.bnf ps n i r k) → p ∈ ps → TermsOf h p us → Null h us → Null h ts →
      Null h (.rule a :: ts)

/-- A compiled rule that another one may consist of. -/
def Edge (h : Heap P) (a b : Nat) : Prop :=
  ∃ ps n i r k p us pre post, h[a]? = some (.bnf ps n i r k) ∧ p ∈ ps ∧ TermsOf h p us ∧
    us = pre ++ .rule b :: post ∧ Null h pre ∧ Null h post

/-- Forward rules in place of which their contents stand. -/
inductive Skips (h : Heap P) : Term P → Term P → Prop
  | refl (t) : Skips h t t
  | step {a x t} : h[a]? = some (.forward (some x)) → Skips h (.rule x) t → Skips h (.rule a) t

inductive Late (h : Heap P) : Obj P → Obj P → Prop
  | refl (o) : Late h o o
  | bnf (ps n i r k n') : Late h (.bnf ps n i r k) (.bnf ps n' i r k)
  | prod {ts ts' m} : Pointwise (Skips h) ts ts' → Late h (.prod ts m) (.prod ts' m)

/-- The second heap is made of the first by `RemoveForwardTransformator` and `generate_names`. -/
def Later (h h' : Heap P) : Prop :=
  ∀ (a : Nat) o', h'[a]? = some o' → ∃ o, h[a]? = some o ∧ Late h o o'

theorem Skips.trans {t u v : Term P} (h1 : Skips h t u) (h2 : Skips h u v) : Skips h t v := by
  induction h1 with
  | refl => exact h2
  | step ha _ ih => exact .step ha (ih h2)

theorem skips_refl (ts : List (Term P)) : Pointwise (Skips h) ts ts := by
  induction ts with
  | nil => exact .nil
  | cons t ts ih => exact .cons (.refl t) ih

theorem pointwise_trans {α : Type} {R S T : α → α → Prop} (hR : ∀ x y z, R x y → S y z → T x z) {xs ys zs : List α}
    (h1 : Pointwise R xs ys) (h2 : Pointwise S ys zs) : Pointwise T xs zs := by
  induction h1 generalizing zs with
  | nil => cases h2; exact .nil
  | cons k _ ih => cases h2 with | cons k' h2 => exact .cons (hR _ _ _ k k') (ih h2)

theorem Later.refl (h : Heap P) : Later h h := fun _ o ho => ⟨o, ho, .refl o⟩

/-- Contents of forward rules stay. -/
theorem Later.skips (hl : Later h h') {t u : Term P} (hs : Skips h' t u) : Skips h t u := by
  induction hs with
  | refl => exact .refl _
  | step ha _ ih =>
    obtain ⟨o, k1, k2⟩ := hl _ _ ha
    cases k2
    exact .step k1 ih

theorem Later.trans (h1 : Later h h') (h2 : Later h' h'') : Later h h'' := by
  intro a o ho
  obtain ⟨o1, k1, k2⟩ := h2 a o ho
  obtain ⟨o2, k3, k4⟩ := h1 a o1 k1
  refine ⟨o2, k3, ?_⟩
  cases k2 with
  | refl => exact k4
  | bnf =>
    cases k4 with
    | refl => exact .bnf _ _ _ _ _ _
    | bnf => exact .bnf _ _ _ _ _ _
  | prod hp =>
    have hp' := pointwise_mono (fun _ _ k => h1.skips k) hp
    cases k4 with
    | refl => exact .prod hp'
    | prod hq => exact .prod (pointwise_trans (R := Skips h) (S := Skips h) (T := Skips h) (fun _ _ _ k k' => k.trans k') hq hp')

theorem removeForwards_later {pid : Nat → Nat} : ∀ (n : Nat) (queue seen : List Nat) (h h' : Heap P),
    removeForwards pid n queue seen h = .ok h' → Later h h' := by
  intro n
  induction n with
  | zero => intro queue seen h h' e; simp only [removeForwards, Except.ok.injEq] at e; subst e; exact .refl _
  | succ n ih =>
    intro queue seen h h' e
    cases queue with
    | nil => simp only [removeForwards, Except.ok.injEq] at e; subst e; exact .refl _
    | cons a queue =>
      unfold removeForwards at e
      split at e
      · cases e
      · rename_i ts m ho
        split at e
        · cases e
        · rename_i ts' ht
          refine Later.trans ?_ (ih _ _ _ _ e)
          intro b o hb
          by_cases q : a = b
          · subst q
            rw [List.getElem?_set_self (List.getElem?_eq_some_iff.1 ho).1] at hb
            cases hb
            refine ⟨_, ho, .prod (mapM_pointwise (R := Skips h) ?_ ht)⟩
            intro t t' ht
            cases t with
            | pred p => cases ht; exact .refl _
            | rule r =>
              simp only [removeTerm] at ht
              split at ht
              · cases ht
              · rename_i x hx; cases ht; exact .step hx (.refl _)
              · cases ht; exact .refl _
          · rw [List.getElem?_set_ne q] at hb
            exact ⟨o, hb, .refl o⟩
      · exact ih _ _ _ _ e

theorem generateNames_later : ∀ (as : List Nat) (count : Nat) (h : Heap P), Later h (generateNames as count h) := by
  intro as
  induction as with
  | nil => intro count h; exact .refl _
  | cons a as ih =>
    intro count h
    unfold generateNames
    split
    · rename_i ps name i r kind ho
      split
      · exact ih _ _
      · refine Later.trans ?_ (ih _ _)
        intro b o hb
        by_cases q : a = b
        · subst q
          rw [List.getElem?_set_self (List.getElem?_eq_some_iff.1 ho).1] at hb
          cases hb
          exact ⟨_, ho, .bnf _ _ _ _ _ _⟩
        · rw [List.getElem?_set_ne q] at hb
          exact ⟨o, hb, .refl o⟩
    · exact ih _ _

/-! ### No circles -/

theorem TermsOf.back (hl : Later h h') {p : Nat} {us : List (Term P)} (ht : TermsOf h' p us) :
    ∃ o vs, h[p]? = some o ∧ (∀ c, o ≠ .forward c) ∧ Gives o vs ∧ Pointwise (Skips h) vs us := by
  cases ht with
  | prod hp =>
    obtain ⟨o, k1, k2⟩ := hl _ _ hp
    cases k2 with
    | refl => exact ⟨_, _, k1, (by intro c e; cases e), .prod, skips_refl _⟩
    | prod hq => exact ⟨_, _, k1, (by intro c e; cases e), .prod, hq⟩
  | empty hp =>
    obtain ⟨o, k1, k2⟩ := hl _ _ hp
    cases k2
    exact ⟨_, _, k1, (by intro c e; cases e), .emptyProd, .nil⟩

theorem bnf_back (hl : Later h h') {a : Nat} {ps n i r k} (ha : h'[a]? = some (.bnf ps n i r k)) :
    ∃ n, h[a]? = some (.bnf ps n i r k) := by
  obtain ⟨o, k1, k2⟩ := hl _ _ ha
  cases k2 <;> exact ⟨_, k1⟩

theorem skips_null (ht : Tame N lt h) {t u : Term P} (hs : Skips h t u) (ho : Open N h [u] []) : Open N h [t] [] := by
  induction hs with
  | refl => exact ho
  | step ha _ ih => exact .skip ha (ht.null _ _ ha (ih ho)) .nil

theorem nulls_back (ht : Tame N lt h) {ts us : List (Term P)} (hp : Pointwise (Skips h) ts us)
    (ho : ∀ u ∈ us, Open N h [u] []) : Open N h ts [] := by
  induction hp with
  | nil => exact .nil
  | cons k _ ih =>
    exact Open.append (ts := [_]) (skips_null ht k (ho _ List.mem_cons_self))
      (ih (fun u hu => ho u (List.mem_cons_of_mem _ hu)))

theorem Null.open (ht : Tame N lt h) (hl : Later h h') {us : List (Term P)} (hn : Null h' us) :
    ∀ u ∈ us, Open N h [u] [] := by
  induction hn with
  | nil => intro u hu; cases hu
  | cons ha hp hu _ _ ih1 ih2 =>
    intro u hm
    rcases List.mem_cons.1 hm with rfl | hm
    · obtain ⟨n, k1⟩ := bnf_back hl ha
      obtain ⟨o, vs, k2, k3, k4, k5⟩ := hu.back hl
      exact (open_one k1 (by intro c e; cases e)).2 ⟨_, .bnf hp, (open_one k2 k3).2 ⟨vs, k4, nulls_back ht k5 ih1⟩⟩
    · exact ih2 u hm

/-- What a term that was skipped stands for. -/
theorem skips_rule {t : Term P} {b : Nat} (hs : Skips h t (.rule b)) :
    t = .rule b ∨ ∃ a, t = .rule a ∧ ∃ c, h[a]? = some (.forward (some c)) ∧ Skips h (.rule c) (.rule b) := by
  cases hs with
  | refl => exact .inl rfl
  | step ha k => exact .inr ⟨_, rfl, _, ha, k⟩

/-- The last forward rule of a chain. -/
theorem skips_last (ht : Tame N lt h) {c b : Nat} : ∀ {a : Nat}, h[a]? = some (.forward (some c)) →
    ∀ {t}, t = Term.rule (P := P) c → Skips h t (.rule b) →
    ∃ f, h[f]? = some (.forward (some b)) ∧ (f = a ∨ Relation.TransGen lt f a) := by
  intro a ha t e hs
  generalize eu : Term.rule (P := P) b = u at hs
  induction hs generalizing a c with
  | refl => subst e; cases eu; exact ⟨a, ha, .inl rfl⟩
  | @step x y t hx _ ih =>
    cases e
    obtain ⟨f, k1, k2⟩ := ih hx rfl eu
    have hlt : lt x a := ht.down a x ha x (.letter hx .nil)
    refine ⟨f, k1, .inr ?_⟩
    rcases k2 with rfl | k2
    · exact .single hlt
    · exact k2.tail hlt

theorem pointwise_split {α β : Type} {R : α → β → Prop} {ys zs : List β} {y : β} : ∀ {xs : List α},
    Pointwise R xs (ys ++ y :: zs) → ∃ us x vs, xs = us ++ x :: vs ∧ Pointwise R us ys ∧ R x y ∧ Pointwise R vs zs := by
  induction ys with
  | nil =>
    intro xs hp
    cases hp with
    | cons k hp => exact ⟨[], _, _, rfl, .nil, k, hp⟩
  | cons y' ys ih =>
    intro xs hp
    cases hp with
    | cons k hp =>
      obtain ⟨us, x, vs, rfl, h1, h2, h3⟩ := ih hp
      exact ⟨_ :: us, x, vs, rfl, .cons k h1, h2, h3⟩

/-- What a step to a part means before forward rules are removed. -/
theorem edge_back (ht : Tame N lt h) (hl : Later h h') {a b : Nat} (he : Edge h' a b) :
    (b < a ∧ ∀ w, Open N h [.rule b] w → Open N h [.rule a] w) ∨
      ∃ f f', Open N h [.rule a] [f] ∧ h[f']? = some (.forward (some b)) ∧ (f' = f ∨ Relation.TransGen lt f' f) := by
  obtain ⟨ps, n, i, r, k, p, us, pre, post, h1, h2, h3, rfl, h5, h6⟩ := he
  obtain ⟨n', k1⟩ := bnf_back hl h1
  obtain ⟨o, vs, k2, k3, k4, k5⟩ := h3.back hl
  obtain ⟨us, x, vs, rfl, q1, q2, q3⟩ := pointwise_split k5
  have npre := nulls_back ht q1 (h5.open ht hl)
  have npost := nulls_back ht q3 (h6.open ht hl)
  have hb : ∀ w, Open N h [x] w → Open N h [.rule a] w := by
    intro w ho
    refine (open_one k1 (by intro c e; cases e)).2 ⟨_, .bnf h2, (open_one k2 k3).2 ⟨_, k4, ?_⟩⟩
    have := npre.append (ho.append npost)
    simpa using this
  rcases skips_rule q2 with rfl | ⟨f, rfl, c, hf, hs⟩
  · refine .inl ⟨?_, hb⟩
    have hp := ht.young a _ k1 (by intro c e; cases e) p h2
    have := ht.young p o k2 k3 b (gives_children k4 b (by simp))
    omega
  · obtain ⟨f', w1, w2⟩ := skips_last ht hf rfl hs
    exact .inr ⟨f, f', hb _ (.letter hf .nil), w1, w2⟩

theorem edges_wf (hwf : WellFounded lt) (ht : Tame N lt h) (hl : Later h h') :
    ∀ a, Acc (fun b a => Edge h' a b) a := by
  have hwf' := hwf.transGen
  have low : ∀ f a, (∀ c, Open N h [.rule a] [c] → Relation.TransGen lt c f) → Acc (fun b a => Edge h' a b) a := by
    intro f
    induction f using hwf'.induction with
    | _ f ihf =>
      intro a
      induction a using Nat.strongRecOn with
      | ind a iha =>
        intro hc
        refine ⟨a, fun b he => ?_⟩
        rcases edge_back ht hl he with ⟨k1, k2⟩ | ⟨g, g', k1, k2, k3⟩
        · exact iha b k1 (fun c hc' => hc c (k2 _ hc'))
        · have hg : Relation.TransGen lt g' f := by
            rcases k3 with rfl | k3
            · exact hc _ k1
            · exact k3.trans (hc _ k1)
          exact ihf g' hg b (fun c hc' => .single (ht.down g' b k2 c hc'))
  intro a
  induction a using Nat.strongRecOn with
  | ind a iha =>
    refine ⟨a, fun b he => ?_⟩
    rcases edge_back ht hl he with ⟨k1, k2⟩ | ⟨g, g', k1, k2, k3⟩
    · exact iha b k1
    · exact low g' b (fun c hc' => .single (ht.down g' b k2 c hc'))

theorem compileRule_edges {A : Activation P} {pid : Nat → Nat} (hp : ∀ a b, pid a = pid b → a = b) {lev : Nat → Nat}
    (ht : Tame N (fun b a => lev b < lev a) h) {limit root b : Nat}
    (e : compileRule A pid limit root h = .ok (b, h')) : ∀ a, Acc (fun b a => Edge h' a b) a := by
  unfold compileRule at e
  obtain ⟨h1, e1, e⟩ := except_bind_ok e
  obtain ⟨⟨r2, h2⟩, e2, e⟩ := except_bind_ok e
  have t1 := activate_tame _ ht e1
  unfold normalized at e2
  obtain ⟨⟨r3, h3⟩, e3, e2⟩ := except_bind_ok e2
  have t3 := transform_thin hp squash_thin t1 e3
  unfold replaced at e2
  obtain ⟨⟨r4, h4⟩, e4, e2⟩ := except_bind_ok e2
  obtain ⟨N', lt, hwf, t4, _⟩ := Grow.replace_tame hp t3.1 e4
  obtain ⟨⟨r5, h5⟩, e5, e2⟩ := except_bind_ok e2
  have t5 := transform_thin hp or_thin t4 e5
  obtain ⟨⟨r6, h6⟩, e6, e2⟩ := except_bind_ok e2
  have t6 := transform_thin hp empty_thin t5.1 e6
  have t2 := transform_thin hp flatten_thin t6.1 e2
  unfold asBnf at e
  obtain ⟨⟨r7, h7⟩, e7, e⟩ := except_bind_ok e
  have t7 := transform_thin hp (bnf_thin _) t2.1 e7
  obtain ⟨⟨r8, h8⟩, e8, e⟩ := except_bind_ok e
  cases e
  have l8 : Later h7 h8 := by
    unfold removeForward at e8
    split at e8
    · cases e8
    · rename_i hx
      have := removeForwards_later _ _ _ _ _ hx
      split at e8
      · cases e8
      · cases e8; exact this
      · cases e8; exact this
  exact edges_wf hwf t7.1 (l8.trans (generateNames_later _ _ _))

end Yargy.Thin
