import Verif.Proofs.PickCompile
import Verif.Proofs.Activation
/-!
Compiling keeps the words with choices.
-/
namespace Yargy.Pick

variable {P : Type} {A : Activation P}

theorem mapM_at {α β : Type} {f : α → Except Err β} : ∀ {xs : List α} {ys : List β},
    xs.mapM f = .ok ys → ys.length = xs.length ∧
      ∀ (n : Nat) (y : β), ys[n]? = some y ↔ ∃ x, xs[n]? = some x ∧ f x = .ok y := by
  intro xs
  induction xs with
  | nil => intro ys h; rw [List.mapM_nil] at h; cases h; simp
  | cons x xs ih =>
    intro ys h
    rw [List.mapM_cons] at h
    cases h1 : f x with
    | error e => rw [h1] at h; cases h
    | ok z =>
      rw [h1] at h
      cases h2 : xs.mapM f with
      | error e => rw [h2] at h; cases h
      | ok ys' =>
        rw [h2] at h; cases h
        obtain ⟨l, hg⟩ := ih h2
        refine ⟨by simp [l], fun n y => ?_⟩
        cases n with
        | zero => simp [h1]
        | succ n => simpa using hg n y

/-- What activation does to one object. -/
theorem activateObj_offers {o o' : Obj P} (h : activateObj A o = .ok o') (us : List (Piece P)) :
    Deals o' us ↔ Offers A o us := by
  have triv : ∀ {o : Obj P}, (∀ ts m, o ≠ .prod ts m) → (∀ d l, o ≠ .pipe (.scheme d l)) →
      (Deals o us ↔ Offers A o us) := by
    intro o h1 h2
    constructor
    · exact fun h => .other h1 h
    · intro h
      cases h with
      | prod => exact absurd rfl (h1 _ _)
      | line => exact absurd rfl (h2 _ _)
      | other _ h => exact h
  cases o with
  | prod ts m =>
    simp only [activateObj] at h
    cases hm : ts.mapM (activateTerm A) with
    | error e => rw [hm] at h; cases h
    | ok us =>
      rw [hm] at h; cases h
      constructor
      · intro hs; cases hs; exact .prod (activateTerms_ok.1 hm)
      · intro hs
        cases hs with
        | prod hu =>
          have := activateTerms_ok.2 hu
          rw [hm] at this; cases this
          exact .prod
        | other hn _ => exact absurd rfl (hn _ _)
  | pipe p =>
    cases p with
    | keys d ks => cases h; exact triv (by simp) (by simp)
    | scheme d lines =>
      simp only [activateObj, activatePipe] at h
      cases hm : lines.mapM (fun l => (A.key d l).map (fun ts => (l, ts))) with
      | error e => rw [hm] at h; cases h
      | ok ks =>
        rw [hm] at h; cases h
        obtain ⟨hlen, hat⟩ := mapM_at hm
        constructor
        · intro hs
          cases hs with
          | @pipe _ _ i key hk =>
            obtain ⟨l, hl, e⟩ := (hat i key).1 hk
            cases hq : A.key d l with
            | error e' => rw [hq] at e; cases e
            | ok ps => rw [hq] at e; cases e; rw [hlen]; exact .line hl hq
        · intro hs
          cases hs with
          | @line _ _ i l ps hl hq =>
            rw [← hlen]
            exact Deals.pipe (key := (l, ps)) ((hat i (l, ps)).2 ⟨l, hl, by rw [hq]; rfl⟩)
          | other _ h => cases h
  | _ =>
    cases h
    exact triv (by simp) (by simp)

section
variable {S : Nat → Prop} {h h' : Heap P}

theorem awake_tells (hw : Awake A S h h')
    (hS : ∀ (a : Nat) o, S a → h[a]? = some o → ∀ c ∈ o.children, S c)
    {ts : List (Piece P)} {w : List (Mark P)} (s : Tells h' ts w) :
    (∀ r, .rule r ∈ ts → S r) → Picks A h ts w := by
  induction s with
  | nil => intro _; exact .nil
  | pred _ ih => intro hr; exact .pred (ih fun r h => hr r (List.mem_cons_of_mem _ h))
  | note _ ih => intro hr; exact .note (ih fun r h => hr r (List.mem_cons_of_mem _ h))
  | @rule a o' us ts w v ho hs _ _ ih1 ih2 =>
    intro hr
    have hra := hr a List.mem_cons_self
    obtain ⟨o, ho1, hh⟩ := hw.at_ ho
    rcases hh with ⟨_, hact⟩ | ⟨hn, _⟩
    · obtain ⟨h1, _⟩ := activateObj_ok (k := .plain) hact
      refine .rule ho1 ((activateObj_offers hact us).1 hs) (ih1 ?_)
        (ih2 fun r h => hr r (List.mem_cons_of_mem _ h))
      intro r hrr
      exact hS a o hra ho1 r (h1 ▸ deals_children hs r hrr)
    · exact absurd hra hn

theorem awake_picks (hw : Awake A S h h')
    (hS : ∀ (a : Nat) o, S a → h[a]? = some o → ∀ c ∈ o.children, S c)
    {ts : List (Piece P)} {w : List (Mark P)} (s : Picks A h ts w) :
    (∀ r, .rule r ∈ ts → S r) → Tells h' ts w := by
  induction s with
  | nil => intro _; exact .nil
  | pred _ ih => intro hr; exact .pred (ih fun r h => hr r (List.mem_cons_of_mem _ h))
  | note _ ih => intro hr; exact .note (ih fun r h => hr r (List.mem_cons_of_mem _ h))
  | @rule a o us ts w v ho hs _ _ ih1 ih2 =>
    intro hr
    have hra := hr a List.mem_cons_self
    obtain ⟨o', ho', hact⟩ := hw.done a o hra ho
    obtain ⟨h1, _⟩ := activateObj_ok (k := .plain) hact
    have hs' := (activateObj_offers hact us).2 hs
    refine .rule ho' hs' (ih1 ?_) (ih2 fun r h => hr r (List.mem_cons_of_mem _ h))
    intro r hrr
    exact hS a o hra ho r (h1 ▸ deals_children hs' r hrr)

theorem awake_words (hw : Awake A S h h')
    (hS : ∀ (a : Nat) o, S a → h[a]? = some o → ∀ c ∈ o.children, S c) {root : Nat} (hr : S root)
    (w : List (Mark P)) : Words h' root w ↔ Picks A h [.rule root] w :=
  ⟨fun s => awake_tells hw hS s (by simp [hr]), fun s => awake_picks hw hS s (by simp [hr])⟩

theorem awake_single (hw : Awake A S h h') (hs : Single h) :
    Single h' := by
  intro o' ho' c q' hc hq'
  obtain ⟨a, ha⟩ := List.mem_iff_getElem?.1 ho'
  have h1 := hw.same ha (fun ts m e => by rw [e] at hc; cases hc)
    (fun p e => by rw [e] at hc; cases hc)
  cases hr : q'.repeats with
  | none => rfl
  | some d =>
    have h2 := hw.same hq' (fun ts m e => by rw [e] at hr; cases hr)
      (fun p e => by rw [e] at hr; cases hr)
    have := hs o' (List.mem_of_getElem? h1) c q' hc h2
    rw [hr] at this
    cases this

theorem awake_tag (hw : Awake A S h h') {a : Nat} {o' : Obj P} (ha : h'[a]? = some o') :
    ∃ o, h[a]? = some o ∧ o'.tag = o.tag ∧ o'.children = o.children := by
  obtain ⟨o, h1, h2, _, h3⟩ := hw.children ha
  refine ⟨o, h1, ?_, h2⟩
  rcases h3 with rfl | ⟨_, _, _, rfl, rfl⟩ | ⟨_, _, rfl, rfl⟩ <;> rfl

theorem awake_sorted (hw : Awake A S h h') (hs : Sorted h) : Sorted h' := by
  have isProd : ∀ c, isProdAt h' c = isProdAt h c := by
    intro c
    cases hc : h'[c]? with
    | some o =>
      obtain ⟨o', k1, k2, _⟩ := awake_tag hw hc
      rw [Pass.isProdAt_some hc, Pass.isProdAt_some k1, k2]
    | none =>
      have : h[c]? = none := by
        rw [List.getElem?_eq_none_iff] at hc ⊢; rw [← hw.length]; exact hc
      unfold isProdAt
      rw [hc, this]
  intro a o ha c hc
  obtain ⟨o', k1, k2, k3⟩ := awake_tag hw ha
  rw [isProd, hw.length, k2]
  exact hs a o' k1 c (k3 ▸ hc)

theorem awake_fit (hw : Awake A S h h') (hb : ∀ o ∈ h, o.bounds ∧ o.entry = false) :
    ∀ o ∈ h', o.bounds ∧ o.entry = false := by
  intro o ho
  refine ⟨hw.bounds (fun o ho => (hb o ho).1) o ho, ?_⟩
  obtain ⟨a, ha⟩ := List.mem_iff_getElem?.1 ho
  obtain ⟨o', k1, _, _, k2⟩ := hw.children ha
  rcases k2 with rfl | ⟨_, _, _, rfl, rfl⟩ | ⟨_, _, rfl, rfl⟩
  · exact (hb _ (List.mem_of_getElem? k1)).2
  · rfl
  · rfl

/-- Activation leaves quantifiers alone. -/
theorem activate_quant {o : Obj P} (ho : o.quant = true) : activateObj A o = .ok o := by
  cases o <;> first | rfl | cases ho

theorem on_none {o q : Obj P} (hq : q.quant = false) : o.on q = none := by
  cases e : o.on q with
  | none => rfl
  | some o1 => rw [(on_quant e).2.2] at hq; cases hq

theorem awake_settled (hw : Awake A S h h') (o : Obj P) : o.settled h' = o.settled h := by
  unfold Obj.settled
  cases hr : o.repeats with
  | none => rfl
  | some c =>
    show (match h'[c]? with | some q => (o.on q).getD o | none => o) =
      (match h[c]? with | some q => (o.on q).getD o | none => o)
    cases hc : h'[c]? with
    | none =>
      have : h[c]? = none := by
        rw [List.getElem?_eq_none_iff] at hc ⊢; rw [← hw.length]; exact hc
      rw [this]
    | some q =>
      obtain ⟨q', h1, _, _, h2⟩ := hw.children hc
      rw [h1]
      rcases h2 with rfl | ⟨_, _, _, rfl, rfl⟩ | ⟨_, _, rfl, rfl⟩
      · rfl
      · show (o.on _).getD o = (o.on _).getD o
        rw [on_none rfl, on_none rfl]
      · show (o.on _).getD o = (o.on _).getD o
        rw [on_none rfl, on_none rfl]

theorem awake_settle (hw : Awake A S h h') : Awake A S (settle h) (settle h') where
  length := by rw [settle_length, settle_length, hw.length]
  done := by
    intro a o ha ho
    obtain ⟨o0, h1, rfl⟩ := settle_back ho
    obtain ⟨o', h2, h3⟩ := hw.done a o0 ha h1
    refine ⟨o'.settled h', settle_some h2, ?_⟩
    rw [awake_settled hw]
    cases hq : o0.quant with
    | true =>
      rw [activate_quant hq] at h3; cases h3
      exact activate_quant (by rw [settled_quant]; exact hq)
    | false =>
      rw [settled_plain hq, h3, settled_plain]
      rcases (activateObj_ok (k := .plain) h3).2.2.2.2 with rfl | ⟨_, _, _, _, rfl⟩ | ⟨_, _, _, rfl⟩
      · exact hq
      · rfl
      · rfl
  rest := by
    intro a ha
    rw [settle_get, settle_get, hw.rest a ha]
    congr 1
    funext o
    exact awake_settled hw o

end

/-- Compiling keeps the words with choices, read in the context. -/
theorem compileRule_words {pid : Nat → Nat} (hp : ∀ a b, pid a = pid b → a = b) {limit root b : Nat}
    {h h' : Heap P} (e : compileRule A pid limit root h = .ok (b, h')) (hs : Sorted h)
    (hb : ∀ o ∈ h, o.bounds ∧ o.entry = false) (hsingle : Single (settle h)) (hr : root < h.length)
    (hroot : ∀ ts m, h[root]? ≠ some (.prod ts m)) :
    Tidy false h' ∧ b < h'.length ∧ ∀ w, Words h' b w ↔ Picks A (settle h) [.rule root] w := by
  unfold compileRule at e
  simp only [bind, Except.bind] at e
  split at e
  · cases e
  · rename_i h1 e1
    split at e
    · cases e
    · rename_i x e2
      obtain ⟨r2, h2⟩ := x
      simp only at e
      have hw := activateRule_awake hp hs.closed hr hroot e1
      have s1 : Step true (settle h1) root h2 r2 := normalized_step hp e2 (awake_sorted hw hs)
        (awake_fit hw hb) (awake_single (awake_settle hw) hsingle) (hw.length ▸ hr)
      have s2 := asBnf_step hp e s1.tidy s1.lt
      refine ⟨s2.tidy, s2.lt, fun w => ?_⟩
      rw [← s2.words, ← s1.words]
      refine awake_words (awake_settle hw) ?_ .root w
      intro a o ha ho c hc
      obtain ⟨o', k1, rfl⟩ := settle_back ho
      rcases settled_children hc with k2 | ⟨d, q, k2, k3, k4⟩
      · exact .step ha k1 k2
      · exact .step (.step ha k1 k2) k3 k4

end Yargy.Pick
