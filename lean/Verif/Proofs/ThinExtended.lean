import Verif.Proofs.ThinSquash
/-!
Replacing repetitions makes new forward rules. What is known about forward rules grows with them: which may be
empty, and a level. New forward rules come after what they repeat.
-/
namespace Yargy.Thin.Grow
open Yargy.Thin

variable {P : Type} {h h' h'' : Heap P}

/-- What is known about forward rules. -/
structure Ghost where
  N : Nat → Prop
  lev : Nat → Nat

/-- Forward rules of the source before those made from `n0` on. -/
def second (n0 a : Nat) : Nat := if a < n0 then 0 else a + 1

def Rank (n0 : Nat) (lev : Nat → Nat) (b a : Nat) : Prop :=
  lev b < lev a ∨ (lev b = lev a ∧ second n0 b < second n0 a)

theorem rank_wf (n0 : Nat) (lev : Nat → Nat) : WellFounded (Rank n0 lev) := by
  have : Subrelation (Rank n0 lev) (InvImage (Prod.Lex (· < ·) (· < ·)) (fun a => (lev a, second n0 a))) := by
    intro b a hr
    rcases hr with k | ⟨k1, k2⟩
    · exact Prod.Lex.left _ _ k
    · show Prod.Lex _ _ (lev b, _) (lev a, _)
      rw [k1]
      exact Prod.Lex.right _ k2
  exact this.wf (InvImage.wf _ (Prod.lex Nat.lt_wfRel Nat.lt_wfRel).wf)

def quantified : Obj P → Bool
  | .optional _ _ | .repeatable _ _ | .repOptional _ _ _ | .minBounded _ _ _ | .maxBounded _ _ _
  | .minMaxBounded _ _ _ _ => true
  | _ => false

/-- No quantifier, except inside of forward rules. -/
inductive Clean (h : Heap P) : Nat → Prop
  | forward {a c} : h[a]? = some (.forward c) → Clean h a
  | node {a o} : h[a]? = some o → quantified o = false → (∀ c ∈ o.children, Clean h c) → Clean h a

theorem Shape.quantified {o o' : Obj P} (k : Shape o o') : quantified o' = quantified o := by
  cases k <;> rfl

theorem Clean.ext (he : Ext h h') {a : Nat} (hc : Clean h a) : Clean h' a := by
  induction hc with
  | forward ha =>
    obtain ⟨o', k1, k2⟩ := he.at_ _ _ ha
    obtain ⟨d, rfl⟩ := k2.is_forward
    exact .forward k1
  | @node a o ha hq _ ih =>
    obtain ⟨o', k1, k2⟩ := he.at_ _ _ ha
    cases k2 with
    | refl => exact .node k1 hq ih
    | forward => exact .forward k1
    | bnf => exact .node k1 hq ih

/-- The part of what is known that later heaps agree on. -/
structure More (h : Heap P) (g : Ghost) (h' : Heap P) (g' : Ghost) : Prop where
  ext : Ext h h'
  nul : ∀ a, a < h.length → (g'.N a ↔ g.N a)
  lev : ∀ a, a < h.length → g'.lev a = g.lev a

theorem More.refl (h : Heap P) (g : Ghost) : More h g h g := ⟨Ext.refl h, fun _ _ => Iff.rfl, fun _ _ => rfl⟩

theorem More.of_ext {g : Ghost} (he : Ext h h') : More h g h' g := ⟨he, fun _ _ => Iff.rfl, fun _ _ => rfl⟩

theorem More.trans {g g' g'' : Ghost} (m1 : More h g h' g') (m2 : More h' g' h'' g'') : More h g h'' g'' where
  ext := m1.ext.trans m2.ext
  nul a ha := (m2.nul a (Nat.lt_of_lt_of_le ha m1.ext.len)).trans (m1.nul a ha)
  lev a ha := (m2.lev a (Nat.lt_of_lt_of_le ha m1.ext.len)).trans (m1.lev a ha)

theorem open_N {N N' : Nat → Prop} (hN : ∀ a, a < h.length → N a → N' a) {ts : List (Term P)} {w : List Nat}
    (ho : Open N h ts w) : Open N' h ts w := by
  induction ho with
  | nil => exact .nil
  | letter ha _ ih => exact .letter ha ih
  | skip ha hn _ ih => exact .skip ha (hN _ (List.getElem?_eq_some_iff.1 ha).1 hn) ih
  | rule ha hf hs _ _ ih1 ih2 => exact .rule ha hf hs ih1 ih2

theorem More.up {g g' : Ghost} (m : More h g h' g') {ts : List (Term P)} {w : List Nat} (ho : Open g.N h ts w) :
    Open g'.N h' ts w :=
  (open_N (fun a ha hn => (m.nul a ha).2 hn) ho).ext m.ext

theorem More.down {g g' : Ghost} (m : More h g h' g') (hc : ClosedHeap h) {ts : List (Term P)} {w : List Nat}
    (hw : Within h.length ts) (ho : Open g'.N h' ts w) : Open g.N h ts w :=
  open_N (fun a ha hn => (m.nul a ha).1 hn) (ho.back m.ext hc hw)

theorem letters_lt {N : Nat → Prop} {ts : List (Term P)} {w : List Nat} (ho : Open N h ts w) :
    ∀ b ∈ w, b < h.length := by
  induction ho with
  | nil => intro b hb; cases hb
  | letter ha _ ih =>
    intro b hb
    rcases List.mem_cons.1 hb with rfl | hb
    · exact (List.getElem?_eq_some_iff.1 ha).1
    · exact ih b hb
  | skip _ _ _ ih => exact ih
  | rule _ _ _ _ _ ih1 ih2 =>
    intro b hb
    rcases List.mem_append.1 hb with hb | hb
    · exact ih1 b hb
    · exact ih2 b hb

/-! ### Images -/

/-- `us` in place of `ts`: empty only if that was, and no forward rule of a higher level. -/
structure Sim (g : Ghost) (h : Heap P) (ts us : List (Term P)) : Prop where
  null : Open g.N h us [] → Open g.N h ts []
  bound : ∀ L, (∀ b, Open g.N h ts [b] → g.lev b ≤ L) → ∀ b, Open g.N h us [b] → g.lev b ≤ L

variable {g g' : Ghost}

theorem Sim.refl (ts : List (Term P)) : Sim g h ts ts := ⟨id, fun _ k => k⟩

theorem Sim.trans {ts us vs : List (Term P)} (h1 : Sim g h ts us) (h2 : Sim g h us vs) : Sim g h ts vs :=
  ⟨fun k => h1.null (h2.null k), fun L k => h2.bound L (h1.bound L k)⟩

theorem Sim.of_inc {ts us : List (Term P)} (hi : ∀ w, Open g.N h us w → Open g.N h ts w) : Sim g h ts us :=
  ⟨hi [], fun _ k b hb => k b (hi [b] hb)⟩

theorem single_split {v v' : List Nat} {b : Nat} (e : [b] = v ++ v') : (v = [b] ∧ v' = []) ∨ (v = [] ∧ v' = [b]) := by
  cases v with
  | nil => exact .inr ⟨rfl, e.symm⟩
  | cons x v =>
    simp only [List.cons_append, List.cons.injEq] at e
    obtain ⟨rfl, e⟩ := e
    have := List.append_eq_nil_iff.1 e.symm
    exact .inl ⟨by rw [this.1], this.2⟩

theorem Sim.append {ts us ts' us' : List (Term P)} (h1 : Sim g h ts us) (h2 : Sim g h ts' us') :
    Sim g h (ts ++ ts') (us ++ us') := by
  refine ⟨fun k => ?_, fun L hL b hb => ?_⟩
  · obtain ⟨v, v', k1, k2, e⟩ := k.split
    obtain ⟨rfl, rfl⟩ := List.append_eq_nil_iff.1 e.symm
    exact (h1.null k1).append (h2.null k2)
  · obtain ⟨v, v', k1, k2, e⟩ := hb.split
    rcases single_split e with ⟨rfl, rfl⟩ | ⟨rfl, rfl⟩
    · refine h1.bound L (fun b' hb' => hL b' ?_) b k1
      have := hb'.append (h2.null k2)
      rwa [List.append_nil] at this
    · exact h2.bound L (fun b' hb' => hL b' ((h1.null k1).append hb')) b k2

theorem Sim.more (m : More h g h' g') (hc : ClosedHeap h) {ts us : List (Term P)} (ht : Within h.length ts)
    (hu : Within h.length us) (hs : Sim g h ts us) : Sim g' h' ts us := by
  refine ⟨fun k => m.up (hs.null (m.down hc hu k)), fun L hL b hb => ?_⟩
  have hb' := m.down hc hu hb
  rw [m.lev b (letters_lt hb' b List.mem_cons_self)]
  refine hs.bound L (fun b' k => ?_) b hb'
  rw [← m.lev b' (letters_lt k b' List.mem_cons_self)]
  exact hL b' (m.up k)

def CleanTerm (h : Heap P) (t : Term P) : Prop := ∀ r, t = .rule r → Clean h r

/-- An image of a term. -/
structure Image' (g : Ghost) (h : Heap P) (t u : Term P) : Prop where
  src : ∀ r, t = .rule r → r < h.length
  dst : ∀ r, u = .rule r → r < h.length
  sim : Sim g h [t] [u]
  clean : CleanTerm h u
  keep : CleanTerm h t → Inc g.N h t u

abbrev RuleImage' (g : Ghost) (h : Heap P) (a b : Nat) : Prop := Image' g h (.rule a) (.rule b)

/-- Clean rules are clean already. -/
theorem Clean.back (he : Ext h h') (hc : ClosedHeap h) {a : Nat} (hl : a < h.length) (k : Clean h' a) : Clean h a := by
  induction k with
  | forward ha =>
    obtain ⟨o, k1, k2⟩ := he.back hl ha
    obtain ⟨d, rfl⟩ := k2.symm.is_forward
    exact .forward k1
  | @node a o' ha hq _ ih =>
    obtain ⟨o, k1, k2⟩ := he.back hl ha
    have hch : ∀ c ∈ o.children, c < h.length := hc _ (List.mem_of_getElem? k1)
    cases k2 with
    | refl => exact .node k1 hq (fun c k => ih c k (hch c k))
    | forward => exact .forward k1
    | bnf => exact .node k1 hq (fun c k => ih c k (hch c k))

theorem Image'.more (m : More h g h' g') (hc : ClosedHeap h) {t u : Term P} (hi : Image' g h t u) :
    Image' g' h' t u where
  src r e := Nat.lt_of_lt_of_le (hi.src r e) m.ext.len
  dst r e := Nat.lt_of_lt_of_le (hi.dst r e) m.ext.len
  sim := hi.sim.more m hc (image_within hi.src) (image_within hi.dst)
  clean r e := (hi.clean r e).ext m.ext
  keep k w ho := m.up (hi.keep (fun r e => (k r e).back m.ext hc (hi.src r e)) w
    (m.down hc (image_within hi.dst) ho))

theorem Image'.same {t : Term P} (ht : ∀ r, t = .rule r → r < h.length) (hc : CleanTerm h t) : Image' g h t t :=
  ⟨ht, ht, Sim.refl _, hc, fun _ _ k => k⟩

theorem images_sim {ts us : List (Term P)} (hp : Pointwise (Image' g h) ts us) : Sim g h ts us := by
  induction hp with
  | nil => exact Sim.refl _
  | cons hi _ ih => exact Sim.append (ts := [_]) (us := [_]) hi.sim ih

theorem images_keep {ts us : List (Term P)} (hp : Pointwise (Image' g h) ts us) (hc : ∀ t ∈ ts, CleanTerm h t)
    {w : List Nat} (ho : Open g.N h us w) : Open g.N h ts w := by
  induction hp generalizing w with
  | nil => exact ho
  | cons hi _ ih =>
    obtain ⟨v, v', k1, k2, rfl⟩ := open_cons.1 ho
    exact (hi.keep (hc _ List.mem_cons_self) _ k1).append (ih (fun t ht => hc t (List.mem_cons_of_mem _ ht)) k2)

/-! ### What is kept -/

structure Fed (n0 : Nat) (g : Ghost) (h : Heap P) : Prop where
  tame : Tame g.N (Rank n0 g.lev) h
  big : n0 ≤ h.length
  contents : ∀ (a c : Nat), n0 ≤ a → h[a]? = some (.forward (some c)) → Clean h c
  positive : ∀ a, a < n0 → 1 ≤ g.lev a

structure Good' (n0 : Nat) (g : Ghost) (s : St P) : Prop where
  fed : Fed n0 g s.heap
  memo : ∀ e ∈ s.memo, RuleImage' g s.heap e.1 e.2

variable {n0 : Nat}

theorem Fed.alloc (hf : Fed n0 g h) {o : Obj P} (ho : ∀ c, o ≠ .forward c) (hc : ∀ c ∈ o.children, c < h.length)
    (hq : repeated o = none) : Fed n0 g (h ++ [o]) := by
  refine ⟨hf.tame.alloc ho hc (by intro r e; rw [hq] at e; cases e), by simp; have := hf.big; omega, ?_, hf.positive⟩
  intro a c ha hac
  by_cases hl : a < h.length
  · rw [List.getElem?_append_left hl] at hac
    exact (hf.contents a c ha hac).ext (Ext.append _ _)
  · have := (List.getElem?_eq_some_iff.1 hac).1
    simp at this
    have e : a = h.length := by omega
    subst e
    simp at hac
    exact absurd hac (ho _)

theorem Good'.alloc {s : St P} (hs : Good' n0 g s) {o : Obj P} (ho : ∀ c, o ≠ .forward c)
    (hc : ∀ c ∈ o.children, c < s.heap.length) (hq : repeated o = none) : Good' n0 g (s.alloc o).2 :=
  ⟨hs.fed.alloc ho hc hq, fun e he => (hs.memo e he).more (More.of_ext (Ext.append _ _)) hs.fed.tame.closed⟩

/-- What a step keeps. -/
def Step' {α β : Type} (n0 : Nat) (R : Ghost → Heap P → α → β → Prop) (f : α → St P → Except Err (β × St P)) : Prop :=
  ∀ x g s y s', Good' n0 g s → f x s = .ok (y, s') →
    ∃ g', Good' n0 g' s' ∧ More s.heap g s'.heap g' ∧ R g' s'.heap x y

abbrev Visits (n0 : Nat) (rec : Visit P) : Prop := Step' n0 RuleImage' rec

/-- The outcome for one rule. -/
def Made' (n0 : Nat) (g : Ghost) (s s' : St P) (a b : Nat) : Prop :=
  ∃ g', Good' n0 g' s' ∧ More s.heap g s'.heap g' ∧ RuleImage' g' s'.heap a b

def MethodFed (n0 : Nat) (m : Method P) : Prop :=
  ∀ k rec, Visits n0 rec → ∀ (a : Nat) o g (s : St P) b s', Good' n0 g s → s.heap[a]? = some o →
    m k rec a o s = .ok (b, s') → Made' n0 g s s' a b

theorem visit_fed {m : Method P} {pid : Nat → Nat} (hp : ∀ a b, pid a = pid b → a = b) (hm : MethodFed n0 m) :
    ∀ k, Visits n0 (visit m pid k) := by
  intro k
  induction k with
  | zero => intro a g s b s' _ h; simp [visit] at h
  | succ k ih =>
    intro a g s b s' hg h
    unfold visit at h
    cases hl : s.lookup pid a with
    | some c =>
      simp only [hl, Except.ok.injEq, Prod.mk.injEq] at h
      obtain ⟨rfl, rfl⟩ := h
      unfold St.lookup at hl
      cases hf : s.memo.find? (fun e => decide (pid e.1 = pid a)) with
      | none => simp [hf] at hl
      | some e =>
        simp only [hf, Option.map_some, Option.some.injEq] at hl
        have h1 := List.find?_some hf
        have h2 := List.mem_of_find?_eq_some hf
        have e1 : e.1 = a := hp _ _ (by simpa using h1)
        have := hg.memo e h2
        subst hl
        rw [e1] at this
        exact ⟨g, hg, More.refl _ _, this⟩
    | none =>
      simp only [hl] at h
      cases ho : s.heap[a]? with
      | none => simp [ho] at h
      | some o =>
        simp only [ho] at h
        cases hr : m k (visit m pid k) a o s with
        | error e => simp [hr] at h
        | ok r =>
          obtain ⟨b', s1⟩ := r
          simp only [hr, Except.ok.injEq, Prod.mk.injEq] at h
          obtain ⟨rfl, rfl⟩ := h
          obtain ⟨g', h1, h2, h3⟩ := hm k _ ih a o g s b' s1 hg ho hr
          refine ⟨g', ⟨h1.fed, fun e he => ?_⟩, h2, h3⟩
          simp only [List.mem_cons] at he
          rcases he with rfl | he
          · exact h3
          · exact h1.memo e he

theorem mapSt_fed {α β : Type} {R : Ghost → Heap P → α → β → Prop}
    (hR : ∀ g h g' h' x y, More h g h' g' → ClosedHeap h → R g h x y → R g' h' x y)
    {f : α → St P → Except Err (β × St P)} (hf : Step' n0 R f) :
    Step' n0 (fun g h xs ys => Pointwise (R g h) xs ys) (mapSt f) := by
  intro xs
  induction xs with
  | nil =>
    intro g s ys s' hg h
    cases h
    exact ⟨g, hg, More.refl _ _, .nil⟩
  | cons x xs ih =>
    intro g s ys s' hg h
    simp only [mapSt] at h
    split at h
    · cases h
    · rename_i h1
      split at h
      · cases h
      · rename_i h2
        cases h
        obtain ⟨g1, k1, k2, k3⟩ := hf _ _ _ _ _ hg h1
        obtain ⟨g2, k4, k5, k6⟩ := ih _ _ _ _ k1 h2
        exact ⟨g2, k4, k2.trans k5, .cons (hR _ _ _ _ _ _ k5 k1.fed.tame.closed k3) k6⟩

theorem visitTerm_fed {rec : Visit P} (hr : Visits n0 rec) : Step' n0 Image' (visitTerm rec) := by
  intro t g s u s' hg h
  cases t with
  | pred p =>
    cases h
    exact ⟨g, hg, More.refl _ _, Image'.same (fun r e => by cases e) (fun r e => by cases e)⟩
  | rule r =>
    simp only [visitTerm] at h
    cases hx : rec r s with
    | error e => rw [hx] at h; cases h
    | ok x => rw [hx] at h; cases h; exact hr _ _ _ _ _ hg hx

/-- A new object in place of an old one. -/
theorem made' {s s1 : St P} {g g1 : Ghost} (hg1 : Good' n0 g1 s1) (hm : More s.heap g s1.heap g1) {a : Nat}
    {o o' : Obj P} (ho : s.heap[a]? = some o) (hf : ∀ c, o ≠ .forward c) (hf' : ∀ c, o' ≠ .forward c)
    (hc : ∀ c ∈ o'.children, c < s1.heap.length ∧ Clean s1.heap c) (hq : quantified o' = false)
    (hr : repeated o' = none)
    (hsim : ∀ us, Gives o' us → ∃ vs, Gives o vs ∧ Sim g1 s1.heap vs us)
    (hkeep : quantified o = true ∨ ∀ us, Gives o' us → ∃ vs, Gives o vs ∧
      ((∀ c ∈ o.children, Clean s1.heap c) → ∀ w, Open g1.N s1.heap us w → Open g1.N s1.heap vs w))
    {b : Nat} {s' : St P} (h : s1.alloc o' = (b, s')) : Made' n0 g s s' a b := by
  have hg' := hg1.alloc hf' (fun c k => (hc c k).1) hr
  rw [h] at hg'
  have hh : s'.heap = s1.heap ++ [o'] ∧ b = s1.heap.length := by cases h; exact ⟨rfl, rfl⟩
  have e1 : Ext s1.heap s'.heap := by rw [hh.1]; exact Ext.append _ _
  have m1 : More s1.heap g1 s'.heap g1 := More.of_ext e1
  have mall := hm.trans m1
  have hb : s'.heap[b]? = some o' := by rw [hh.1, hh.2]; simp
  obtain ⟨oa, q1, q2⟩ := mall.ext.at_ a o ho
  obtain ⟨o1, q3, q4⟩ := hm.ext.at_ a o ho
  have hcl := hg1.fed.tame.closed
  have win' : ∀ us, Gives o' us → Within s1.heap.length us := fun us k r hr => (hc r (gives_children k r hr)).1
  have win : ∀ vs, Gives o vs → Within s1.heap.length vs := fun vs k r hr =>
    hcl _ (List.mem_of_getElem? q3) r (gives_children (q4.spells hf k) r hr)
  refine ⟨g1, hg', mall, ?_, ?_, ⟨?_, ?_⟩, ?_, ?_⟩
  · intro r e; cases e; exact (List.getElem?_eq_some_iff.1 q1).1
  · intro r e; cases e; exact (List.getElem?_eq_some_iff.1 hb).1
  · intro hop
    obtain ⟨us, k1, k2⟩ := (open_one hb hf').1 hop
    obtain ⟨vs, k3, k4⟩ := hsim us k1
    exact (open_one q1 (q2.fixed hf)).2 ⟨vs, q2.spells hf k3, m1.up (k4.null (m1.down hcl (win' us k1) k2))⟩
  · intro L hL x hx
    obtain ⟨us, k1, k2⟩ := (open_one hb hf').1 hx
    obtain ⟨vs, k3, k4⟩ := hsim us k1
    refine k4.bound L (fun y hy => hL y ?_) x (m1.down hcl (win' us k1) k2)
    exact (open_one q1 (q2.fixed hf)).2 ⟨vs, q2.spells hf k3, m1.up hy⟩
  · intro r e
    cases e
    exact .node hb hq (fun c k => (hc c k).2.ext e1)
  · intro hca w hop
    have hca := hca a rfl
    rcases hkeep with hk | hk
    · cases hca with
      | forward k => rw [q1] at k; cases k; exact absurd rfl (q2.fixed hf _)
      | node k k' => rw [q1] at k; cases k; rw [Shape.quantified q2, hk] at k'; cases k'
    · obtain ⟨us, k1, k2⟩ := (open_one hb hf').1 hop
      obtain ⟨vs, k3, k4⟩ := hk us k1
      refine (open_one q1 (q2.fixed hf)).2 ⟨vs, q2.spells hf k3, m1.up (k4 ?_ w (m1.down hcl (win' us k1) k2))⟩
      intro c hcc
      have hc1 : c ∈ o1.children ∧ c ∈ oa.children := by
        refine ⟨?_, ?_⟩
        · cases q4 with
          | refl => exact hcc
          | forward => exact absurd rfl (hf _)
          | bnf => exact hcc
        · cases q2 with
          | refl => exact hcc
          | forward => exact absurd rfl (hf _)
          | bnf => exact hcc
      have hlt := hcl _ (List.mem_of_getElem? q3) c hc1.1
      cases hca with
      | forward k => rw [q1] at k; cases k; exact absurd rfl (q2.fixed hf _)
      | node k _ k' => rw [q1] at k; cases k; exact (k' c hc1.2).back e1 hcl hlt

theorem images_parts {ts us : List (Term P)} (hp : Pointwise (Image' g h) ts us) :
    ∀ c ∈ termRules us, c < h.length ∧ Clean h c := by
  intro c hc
  obtain ⟨t, _, k⟩ := pointwise_back hp _ (termRules_mem.1 hc)
  exact ⟨k.dst c rfl, k.clean c rfl⟩

theorem prod_fed {f : Term P → St P → Except Err (Term P × St P)} (hf : Step' n0 Image' f) {a : Nat}
    {ts : List (Term P)} {m : Nat} {s : St P} (hg : Good' n0 g s) (ho : s.heap[a]? = some (.prod ts m)) {b : Nat}
    {s' : St P} (h : rebuildAll f ts (.prod · m) s = .ok (b, s')) : Made' n0 g s s' a b := by
  unfold rebuildAll at h
  cases hx : mapSt f ts s with
  | error e => rw [hx] at h; cases h
  | ok x =>
    obtain ⟨us, s1⟩ := x
    rw [hx] at h
    simp only [Except.map, Except.ok.injEq] at h
    obtain ⟨g1, h1, h2, h3⟩ := mapSt_fed (R := Image') (fun _ _ _ _ _ _ m hc k => Image'.more m hc k) hf _ _ _ _ _ hg hx
    refine made' (o' := .prod us m) h1 h2 ho (by intro c e; cases e) (by intro c e; cases e) (images_parts h3) rfl rfl
      ?_ (.inr ?_) h
    · intro us' hs; cases hs; exact ⟨ts, .prod, images_sim h3⟩
    · intro us' hs
      cases hs
      refine ⟨ts, .prod, fun hc w hop => images_keep h3 (fun t ht r e => ?_) hop⟩
      subst e
      exact hc r (termRules_mem.2 ht)

theorem alts_fed {f : Nat → St P → Except Err (Nat × St P)} (hf : Step' n0 RuleImage' f) {a : Nat} {o : Obj P}
    {ps : List Nat} {mk : List Nat → Obj P} {s : St P} (hg : Good' n0 g s) (ho : s.heap[a]? = some o)
    (hof : ∀ c, o ≠ .forward c) (hoc : o.children = ps) (hmf : ∀ ys c, mk ys ≠ .forward c)
    (hmc : ∀ ys, (mk ys).children = ys) (hmq : ∀ ys, quantified (mk ys) = false) (hmr : ∀ ys, repeated (mk ys) = none)
    (hos : ∀ p ∈ ps, Gives o [.rule p]) (hms : ∀ ys us, Gives (mk ys) us → ∃ y ∈ ys, us = [.rule y]) {b : Nat}
    {s' : St P} (h : rebuildAll f ps mk s = .ok (b, s')) : Made' n0 g s s' a b := by
  unfold rebuildAll at h
  cases hx : mapSt f ps s with
  | error e => rw [hx] at h; cases h
  | ok x =>
    obtain ⟨ys, s1⟩ := x
    rw [hx] at h
    simp only [Except.map, Except.ok.injEq] at h
    obtain ⟨g1, h1, h2, h3⟩ := mapSt_fed (R := RuleImage') (fun _ _ _ _ _ _ m hc k => Image'.more m hc k) hf _ _ _ _ _ hg hx
    refine made' h1 h2 ho hof (hmf _) ?_ (hmq _) (hmr _) ?_ (.inr ?_) h
    · intro c hc
      rw [hmc] at hc
      obtain ⟨x, _, k⟩ := pointwise_back h3 c hc
      exact ⟨k.dst c rfl, k.clean c rfl⟩
    · intro us hs
      obtain ⟨y, y1, rfl⟩ := hms _ _ hs
      obtain ⟨p, p1, p2⟩ := pointwise_back h3 y y1
      exact ⟨_, hos p p1, p2.sim⟩
    · intro us hs
      obtain ⟨y, y1, rfl⟩ := hms _ _ hs
      obtain ⟨p, p1, p2⟩ := pointwise_back h3 y y1
      refine ⟨_, hos p p1, fun hc w hop => p2.keep (fun r e => ?_) w hop⟩
      cases e
      exact hc p (by rw [hoc]; exact p1)

theorem around_fed {rec : Visit P} (hr : Visits n0 rec) {a r : Nat} {mk : Nat → Obj P} {s : St P}
    (hg : Good' n0 g s) (ho : s.heap[a]? = some (mk r)) (hmf : ∀ y c, mk y ≠ .forward c)
    (hmc : ∀ y, (mk y).children = [y]) (hmq : ∀ y, quantified (mk y) = false) (hmr : ∀ y, repeated (mk y) = none)
    (hms : ∀ y us, Gives (mk y) us ↔ us = [.rule y]) {b : Nat} {s' : St P}
    (h : rebuild rec r mk s = .ok (b, s')) : Made' n0 g s s' a b := by
  unfold rebuild at h
  cases hx : rec r s with
  | error e => rw [hx] at h; cases h
  | ok x =>
    obtain ⟨y, s1⟩ := x
    rw [hx] at h
    simp only [Except.map, Except.ok.injEq] at h
    obtain ⟨g1, h1, h2, h3⟩ := hr _ _ _ _ _ hg hx
    refine made' h1 h2 ho (hmf _) (hmf _) ?_ (hmq _) (hmr _) ?_ (.inr ?_) h
    · rw [hmc]
      intro c hc
      rw [List.mem_singleton] at hc
      subst hc
      exact ⟨h3.dst _ rfl, h3.clean _ rfl⟩
    · intro us hs
      rw [hms] at hs
      subst hs
      exact ⟨_, (hms r _).2 rfl, h3.sim⟩
    · intro us hs
      rw [hms] at hs
      subst hs
      refine ⟨_, (hms r _).2 rfl, fun hc w hop => h3.keep (fun x e => ?_) w hop⟩
      cases e
      exact hc r (by rw [hmc]; exact List.mem_singleton.2 rfl)

theorem self_fed {a : Nat} {s : St P} (hg : Good' n0 g s) (hl : a < s.heap.length) (hc : Clean s.heap a) :
    Made' n0 g s s a a :=
  ⟨g, hg, More.refl _ _, Image'.same (fun r e => by cases e; exact hl) (fun r e => by cases e; exact hc)⟩

/-- What is not a quantifier. -/
theorem plain_fed {k : Nat} {rec : Visit P} (hr : Visits n0 rec) {a : Nat} {o : Obj P} {s : St P} {b : Nat} {s' : St P}
    (hg : Good' n0 g s) (ho : s.heap[a]? = some o) (hq : quantified o = false)
    (h : defaultMethod k rec a o s = .ok (b, s')) : Made' n0 g s s' a b := by
  have hl := (List.getElem?_eq_some_iff.1 ho).1
  have self : Clean s.heap a → (.ok (a, s) : Except Err (Nat × St P)) = .ok (b, s') → Made' n0 g s s' a b := by
    intro hc h; cases h; exact self_fed hg hl hc
  have leaf : o.children = [] → Clean s.heap a := fun e => .node ho hq (by rw [e]; intro c hc; cases hc)
  cases o <;> simp only [defaultMethod] at h
  case prod ts m => exact prod_fed (visitTerm_fed hr) hg ho h
  case emptyProd => exact self (leaf rfl) h
  case pipeProd => exact self (leaf rfl) h
  case rule ps =>
    refine alts_fed hr hg ho (by intro c e; cases e) rfl (by intro _ c e; cases e) (fun _ => rfl) (fun _ => rfl)
      (fun _ => rfl) (fun p hp => .rule hp) ?_ h
    intro ys us hs; cases hs with | rule hp => exact ⟨_, hp, rfl⟩
  case or ps =>
    refine alts_fed hr hg ho (by intro c e; cases e) rfl (by intro _ c e; cases e) (fun _ => rfl) (fun _ => rfl)
      (fun _ => rfl) (fun p hp => .or hp) ?_ h
    intro ys us hs; cases hs with | or hp => exact ⟨_, hp, rfl⟩
  case optional => cases h
  case repeatable => cases h
  case repOptional => cases h
  case minBounded => cases hq
  case maxBounded => cases hq
  case minMaxBounded => cases hq
  case named r n =>
    refine around_fed (mk := (.named · n)) hr hg ho (by intro _ c e; cases e) (fun _ => rfl) (fun _ => rfl)
      (fun _ => rfl) ?_ h
    intro y us; exact ⟨fun hs => by cases hs; rfl, fun e => by subst e; exact .named⟩
  case interp r n =>
    refine around_fed (mk := (.interp · n)) hr hg ho (by intro _ c e; cases e) (fun _ => rfl) (fun _ => rfl)
      (fun _ => rfl) ?_ h
    intro y us; exact ⟨fun hs => by cases hs; rfl, fun e => by subst e; exact .interp⟩
  case relation r n =>
    refine around_fed (mk := (.relation · n)) hr hg ho (by intro _ c e; cases e) (fun _ => rfl) (fun _ => rfl)
      (fun _ => rfl) ?_ h
    intro y us; exact ⟨fun hs => by cases hs; rfl, fun e => by subst e; exact .relation⟩
  case forward c => exact self (.forward ho) h
  case empty => exact self (leaf rfl) h
  case pipe => exact self (leaf rfl) h
  case bnf ps n i r kd =>
    refine alts_fed hr hg ho (by intro c e; cases e) rfl (by intro _ c e; cases e) (fun _ => rfl) (fun _ => rfl)
      (fun _ => rfl) (fun p hp => .bnf hp) ?_ h
    intro ys us hs; cases hs with | rule hp => exact ⟨_, hp, rfl⟩

/-! ### New forward rules -/

theorem exists_least {p : Nat → Prop} (hp : ∃ n, p n) : ∃ n, p n ∧ ∀ m, p m → n ≤ m := by
  obtain ⟨n, hn⟩ := hp
  induction n using Nat.strongRecOn with
  | ind n ih =>
    by_cases hm : ∃ m, m < n ∧ p m
    · obtain ⟨m, h1, h2⟩ := hm
      exact ih m h1 h2
    · refine ⟨n, hn, fun m h => ?_⟩
      by_cases hlt : m < n
      · exact absurd ⟨m, hlt, h⟩ hm
      · omega

theorem bounded_below (lev : Nat → Nat) (n : Nat) : ∃ B, ∀ b, b < n → lev b ≤ B := by
  induction n with
  | zero => exact ⟨0, fun b hb => absurd hb (Nat.not_lt_zero b)⟩
  | succ n ih =>
    obtain ⟨B, hB⟩ := ih
    refine ⟨B + lev n, fun b hb => ?_⟩
    by_cases e : b = n
    · subst e; omega
    · have := hB b (by omega)
      omega

/-- The level of the forward rules a rule may be replaced by. -/
theorem level (g : Ghost) (h : Heap P) (ts : List (Term P)) :
    ∃ L, (∀ b, Open g.N h ts [b] → g.lev b ≤ L) ∧ ∀ L', (∀ b, Open g.N h ts [b] → g.lev b ≤ L') → L ≤ L' := by
  obtain ⟨B, hB⟩ := bounded_below g.lev h.length
  exact exists_least ⟨B, fun b hb => hB b (letters_lt hb b List.mem_cons_self)⟩

theorem open_forward {N : Nat → Prop} {a : Nat} {c : Option Nat} (ha : h[a]? = some (.forward c)) {w : List Nat}
    (ho : Open N h [.rule a] w) : w = [a] ∨ (N a ∧ w = []) := by
  generalize e : [Term.rule (P := P) a] = ts at ho
  cases ho with
  | nil => cases e
  | letter _ k => cases e; cases k; exact .inl rfl
  | skip _ hn k => cases e; cases k; exact .inr ⟨hn, rfl⟩
  | rule hb hf => cases e; rw [ha] at hb; cases hb; exact absurd rfl (hf _)

/-- A forward rule at the end of the heap, with what it is made of behind it. -/
theorem loop {s : St P} (hg : Good' n0 g s) {item c : Nat} {rest : Heap P} (φ : Prop) [Decidable φ]
    (hi : item < s.heap.length) (hic : Clean s.heap item) (hnn : ¬ Open g.N s.heap [.rule item] [])
    (hcl : s.heap.length < c ∧ c < s.heap.length + 1 + rest.length)
    (hrest : ∀ (i : Nat) o, rest[i]? = some o → (∀ d, o ≠ .forward d) ∧ quantified o = false ∧ repeated o = none ∧
      ∀ x ∈ o.children, x < s.heap.length + 1 + i ∧ (x = item ∨ s.heap.length ≤ x))
    (hcont : ∀ N w, Open N (s.heap ++ .forward (some c) :: rest) [.rule c] w → (φ ∧ w = []) ∨
      Open N (s.heap ++ .forward (some c) :: rest) [.rule item] w ∨
      Open N (s.heap ++ .forward (some c) :: rest) [.rule item, .rule s.heap.length] w) :
    ∃ g', Good' n0 g' { s with heap := s.heap ++ .forward (some c) :: rest } ∧
      More s.heap g (s.heap ++ .forward (some c) :: rest) g' ∧
      (∀ i, s.heap.length ≤ i → i < s.heap.length + 1 + rest.length →
        Clean (s.heap ++ .forward (some c) :: rest) i) ∧
      (Open g'.N (s.heap ++ .forward (some c) :: rest) [.rule s.heap.length] [] → φ) ∧
      ∀ L, (∀ b, Open g'.N (s.heap ++ .forward (some c) :: rest) [.rule item] [b] → g'.lev b ≤ L) →
        ∀ b, Open g'.N (s.heap ++ .forward (some c) :: rest) [.rule s.heap.length] [b] → g'.lev b ≤ L := by
  obtain ⟨L, hL1, hL2⟩ := level g s.heap [.rule item]
  generalize hn : s.heap.length = n at *
  generalize hh : s.heap ++ .forward (some c) :: rest = h1 at *
  have hlen : h1.length = n + 1 + rest.length := by rw [← hh, ← hn]; simp; omega
  have hF : h1[n]? = some (.forward (some c)) := by rw [← hh, ← hn]; simp
  have hbig : n0 ≤ n := by rw [← hn]; exact hg.fed.big
  have hclosed := hg.fed.tame.closed
  have old : ∀ i, i < n → h1[i]? = s.heap[i]? := by
    intro i hi
    rw [← hh, List.getElem?_append_left (by omega)]
  have new : ∀ i o, n < i → h1[i]? = some o → rest[i - n - 1]? = some o := by
    intro i o hi ho
    rw [← hh, List.getElem?_append_right (by omega), hn] at ho
    have : i - n = (i - n - 1) + 1 := by omega
    rw [this] at ho
    simpa using ho
  let g' : Ghost := ⟨fun a => if a = n then φ else g.N a, fun a => if a = n then L else g.lev a⟩
  have hgN : g'.N n ↔ φ := by simp [g']
  have hgL : g'.lev n = L := by simp [g']
  have hext : Ext s.heap h1 := by rw [← hh]; exact Ext.append _ _
  have hmore : More s.heap g h1 g' := by
    refine ⟨hext, fun a ha => ?_, fun a ha => ?_⟩
    · have : a ≠ n := by omega
      simp [g', this]
    · have : a ≠ n := by omega
      simp [g', this]
  have wItem : Within s.heap.length [Term.rule (P := P) item] := within_one (by omega)
  have hclean : ∀ i, n ≤ i → i < n + 1 + rest.length → Clean h1 i := by
    intro i
    induction i using Nat.strongRecOn with
    | ind i ih =>
      intro h1i h2i
      by_cases e : i = n
      · subst e; exact .forward hF
      · have hlt : i < h1.length := by omega
        have ho := List.getElem?_eq_getElem hlt
        obtain ⟨q1, q2, q3, q4⟩ := hrest _ _ (new i _ (by omega) ho)
        refine .node ho q2 (fun x hx => ?_)
        obtain ⟨w1, w2⟩ := q4 x hx
        rcases w2 with rfl | w2
        · exact hic.ext hext
        · exact ih x (by omega) w2 (by omega)
  have cases_ : ∀ (i : Nat) o, h1[i]? = some o → (i < n ∧ s.heap[i]? = some o) ∨ (i = n ∧ o = .forward (some c)) ∨
      (n < i ∧ rest[i - n - 1]? = some o) := by
    intro i o ho
    rcases Nat.lt_trichotomy i n with k | k | k
    · exact .inl ⟨k, by rw [← old i k]; exact ho⟩
    · subst k; rw [hF] at ho; cases ho; exact .inr (.inl ⟨rfl, rfl⟩)
    · exact .inr (.inr ⟨k, new i o k ho⟩)
  have hcl1 : ClosedHeap h1 := by
    intro o ho x hx
    obtain ⟨i, hi'⟩ := List.mem_iff_getElem?.1 ho
    rcases cases_ i o hi' with ⟨_, k⟩ | ⟨_, rfl⟩ | ⟨k1, k2⟩
    · have := hclosed _ (List.mem_of_getElem? k) x hx
      omega
    · have : x = c := by simpa [Obj.children] using hx
      omega
    · have h3 := ((hrest _ _ k2).2.2.2 x hx).1
      have h4 := (List.getElem?_eq_some_iff.1 hi').1
      omega
  have hdown : ∀ b, Open g'.N h1 [.rule c] [b] → Open g.N s.heap [.rule item] [b] := by
    intro b hb
    rcases hcont _ _ hb with ⟨_, k⟩ | k | k
    · cases k
    · exact hmore.down hclosed wItem k
    · obtain ⟨v, v', k1, k2, e⟩ := open_cons.1 k
      rcases single_split e with ⟨rfl, rfl⟩ | ⟨rfl, rfl⟩
      · exact hmore.down hclosed wItem k1
      · exact absurd (hmore.down hclosed wItem k1) hnn
  have hnull : Open g'.N h1 [.rule c] [] → φ := by
    intro hb
    rcases hcont _ _ hb with ⟨k, _⟩ | k | k
    · exact k
    · exact absurd (hmore.down hclosed wItem k) hnn
    · obtain ⟨v, v', k1, k2, e⟩ := open_cons.1 k
      obtain ⟨rfl, rfl⟩ := List.append_eq_nil_iff.1 e.symm
      exact absurd (hmore.down hclosed wItem k1) hnn
  have rank_old : ∀ b a, b < n → a < n → Rank n0 g.lev b a → Rank n0 g'.lev b a := by
    intro b a hb ha hr
    unfold Rank at hr ⊢
    rw [hmore.lev b (by omega), hmore.lev a (by omega)]
    exact hr
  have htame : Tame g'.N (Rank n0 g'.lev) h1 := by
    refine ⟨hcl1, fun a o ho hf x hx => ?_, fun a x ho b hb => ?_, fun a x ho hb => ?_, fun a o r ho hr hb => ?_⟩
    · rcases cases_ a o ho with ⟨_, k⟩ | ⟨_, rfl⟩ | ⟨k1, k2⟩
      · exact hg.fed.tame.young a o k hf x hx
      · exact absurd rfl (hf _)
      · have := ((hrest _ _ k2).2.2.2 x hx).1
        omega
    · rcases cases_ a _ ho with ⟨hal, k⟩ | ⟨rfl, e⟩ | ⟨k1, k2⟩
      · have hxl : x < s.heap.length := hclosed _ (List.mem_of_getElem? k) x (by simp [Obj.children])
        have hb' := hmore.down hclosed (within_one hxl) hb
        have := letters_lt hb' b List.mem_cons_self
        exact rank_old b a (by omega) hal (hg.fed.tame.down a x k b hb')
      · cases e
        have hb' := hdown b hb
        have hbl := letters_lt hb' b List.mem_cons_self
        have hle := hL1 b hb'
        unfold Rank
        rw [hmore.lev b hbl, hgL]
        have hs : second n0 b < second n0 a := by
          unfold second
          rw [if_neg (by omega : ¬ a < n0)]
          split <;> omega
        rcases Nat.lt_or_eq_of_le hle with q | q
        · exact .inl q
        · exact .inr ⟨q, hs⟩
      · exact absurd rfl ((hrest _ _ k2).1 _)
    · rcases cases_ a _ ho with ⟨hal, k⟩ | ⟨rfl, e⟩ | ⟨k1, k2⟩
      · have hxl : x < s.heap.length := hclosed _ (List.mem_of_getElem? k) x (by simp [Obj.children])
        exact (hmore.nul a (by omega)).2 (hg.fed.tame.null a x k (hmore.down hclosed (within_one hxl) hb))
      · cases e
        exact hgN.2 (hnull hb)
      · exact absurd rfl ((hrest _ _ k2).1 _)
    · rcases cases_ a _ ho with ⟨hal, k⟩ | ⟨rfl, rfl⟩ | ⟨k1, k2⟩
      · have hxl : r < s.heap.length := hclosed _ (List.mem_of_getElem? k) r (repeated_child hr)
        exact hg.fed.tame.firm a o r k hr (hmore.down hclosed (within_one hxl) hb)
      · cases hr
      · rw [(hrest _ _ k2).2.2.1] at hr; cases hr
  refine ⟨g', ⟨⟨htame, by show n0 ≤ h1.length; omega, ?_, ?_⟩, ?_⟩, hmore, hclean, ?_, ?_⟩
  · intro a x ha ho
    rcases cases_ a _ ho with ⟨hal, k⟩ | ⟨rfl, e⟩ | ⟨k1, k2⟩
    · exact (hg.fed.contents a x ha k).ext hext
    · cases e
      exact hclean c (by omega) hcl.2
    · exact absurd rfl ((hrest _ _ k2).1 _)
  · intro a ha
    show 1 ≤ g'.lev a
    rw [hmore.lev a (by omega)]
    exact hg.fed.positive a ha
  · intro e he
    exact (hg.memo e he).more hmore hclosed
  · intro k
    rcases open_forward hF k with e | ⟨k, _⟩
    · cases e
    · exact hgN.1 k
  · intro L' hL' b hb
    have hbn : b = n := by
      rcases open_forward hF hb with e | ⟨_, e⟩
      · cases e; rfl
      · cases e
    subst hbn
    rw [hgL]
    refine hL2 L' (fun b' hb' => ?_)
    rw [← hmore.lev b' (letters_lt hb' b' List.mem_cons_self)]
    exact hL' b' (hmore.up hb')

/-! ### Quantifiers -/

/-- Something made from a rule. -/
structure Piece (n0 : Nat) (g g' : Ghost) (s s' : St P) (item t : Nat) : Prop where
  good : Good' n0 g' s'
  more : More s.heap g s'.heap g'
  dst : t < s'.heap.length
  clean : Clean s'.heap t
  sim : Sim g' s'.heap [.rule item] [.rule t]

theorem mkRepeatable_fed {s : St P} (hg : Good' n0 g s) {item : Nat} (hi : item < s.heap.length)
    (hic : Clean s.heap item) (hnn : ¬ Open g.N s.heap [.rule item] []) (rev : Bool) :
    ∃ g', Piece n0 g g' s (mkRepeatable item rev s).2 item (mkRepeatable item rev s).1 := by
  have hheap : (mkRepeatable item rev s).2 = { s with heap := s.heap ++ .forward (some (s.heap.length + 3)) ::
      [.prod [.rule item, .rule s.heap.length] 0, .rule [s.heap.length + 1],
        .or (if rev then [item, s.heap.length + 2] else [s.heap.length + 2, item])] } := by
    simp [mkRepeatable, St.alloc, St.rule]
  have e1 : (mkRepeatable item rev s).1 = s.heap.length := rfl
  rw [hheap, e1]
  obtain ⟨g', k1, k2, k3, k4, k5⟩ := loop hg (item := item) (c := s.heap.length + 3)
    (rest := [.prod [.rule item, .rule s.heap.length] 0, .rule [s.heap.length + 1],
        .or (if rev then [item, s.heap.length + 2] else [s.heap.length + 2, item])]) False hi hic hnn
    (by constructor <;> simp <;> omega)
    (by
      intro i o ho
      match i, ho with
      | 0, ho =>
        simp at ho; subst ho
        refine ⟨(by intro d e; cases e), rfl, rfl, fun x hx => ?_⟩
        simp [Obj.children, termRules] at hx
        omega
      | 1, ho =>
        simp at ho; subst ho
        refine ⟨(by intro d e; cases e), rfl, rfl, fun x hx => ?_⟩
        simp [Obj.children] at hx
        omega
      | 2, ho =>
        simp at ho; subst ho
        refine ⟨(by intro d e; cases e), rfl, rfl, fun x hx => ?_⟩
        cases rev <;> simp [Obj.children] at hx <;> omega
      | n + 3, ho => simp at ho)
    (by
      intro N w hop
      generalize hh : s.heap ++ Obj.forward (some (s.heap.length + 3)) :: _ = h1 at *
      have q1 : h1[s.heap.length + 1]? = some (.prod [.rule item, .rule s.heap.length] 0) := by
        rw [← hh, List.getElem?_append_right (by omega)]; simp
      have q2 : h1[s.heap.length + 2]? = some (.rule [s.heap.length + 1]) := by
        rw [← hh, List.getElem?_append_right (by omega)]; simp
      have q3 : h1[s.heap.length + 3]? =
          some (.or (if rev then [item, s.heap.length + 2] else [s.heap.length + 2, item])) := by
        rw [← hh, List.getElem?_append_right (by omega)]; simp
      obtain ⟨us, r1, r2⟩ := (open_one q3 (by intro c e; cases e)).1 hop
      cases r1 with
      | @or _ r hr =>
        have : r = item ∨ r = s.heap.length + 2 := by cases rev <;> simp at hr <;> omega
        rcases this with rfl | rfl
        · exact .inr (.inl r2)
        · obtain ⟨us, r1, r2⟩ := (open_one q2 (by intro c e; cases e)).1 r2
          cases r1 with
          | @rule _ p hp =>
            rw [List.mem_singleton] at hp
            subst hp
            obtain ⟨us, r1, r2⟩ := (open_one q1 (by intro c e; cases e)).1 r2
            cases r1
            exact .inr (.inr r2))
  refine ⟨g', k1, k2, by simp, k3 _ (Nat.le_refl _) (by omega), fun k => (k4 k).elim, k5⟩

theorem mkRepOptional_fed {s : St P} (hg : Good' n0 g s) {item : Nat} (hi : item < s.heap.length)
    (hic : Clean s.heap item) (hnn : ¬ Open g.N s.heap [.rule item] []) (rr ro : Bool) :
    ∃ g', Good' n0 g' (mkRepOptional item rr ro s).2 ∧ More s.heap g (mkRepOptional item rr ro s).2.heap g' ∧
      (mkRepOptional item rr ro s).1 < (mkRepOptional item rr ro s).2.heap.length ∧
      Clean (mkRepOptional item rr ro s).2.heap (mkRepOptional item rr ro s).1 ∧
      ∀ L, (∀ b, Open g'.N (mkRepOptional item rr ro s).2.heap [.rule item] [b] → g'.lev b ≤ L) →
        ∀ b, Open g'.N (mkRepOptional item rr ro s).2.heap [.rule (mkRepOptional item rr ro s).1] [b] →
          g'.lev b ≤ L := by
  have hheap : (mkRepOptional item rr ro s).2 = { s with heap := s.heap ++ .forward (some (s.heap.length + 4)) ::
      [.empty, .prod [.rule item, .rule s.heap.length] 0, .rule [s.heap.length + 2],
        .or (repOptionalOrder (s.heap.length + 1) (s.heap.length + 3) item rr ro)] } := by
    simp [mkRepOptional, St.alloc, St.rule]
  have e1 : (mkRepOptional item rr ro s).1 = s.heap.length := rfl
  have ord : ∀ x, x ∈ repOptionalOrder (s.heap.length + 1) (s.heap.length + 3) item rr ro →
      x = s.heap.length + 1 ∨ x = s.heap.length + 3 ∨ x = item := by
    intro x hx
    cases rr <;> cases ro <;> simp [repOptionalOrder] at hx <;> omega
  rw [hheap, e1]
  obtain ⟨g', k1, k2, k3, k4, k5⟩ := loop hg (item := item) (c := s.heap.length + 4)
    (rest := [.empty, .prod [.rule item, .rule s.heap.length] 0, .rule [s.heap.length + 2],
        .or (repOptionalOrder (s.heap.length + 1) (s.heap.length + 3) item rr ro)]) True hi hic hnn
    (by constructor <;> simp <;> omega)
    (by
      intro i o ho
      match i, ho with
      | 0, ho =>
        simp at ho; subst ho
        exact ⟨(by intro d e; cases e), rfl, rfl, fun x hx => by cases hx⟩
      | 1, ho =>
        simp at ho; subst ho
        refine ⟨(by intro d e; cases e), rfl, rfl, fun x hx => ?_⟩
        simp [Obj.children, termRules] at hx
        omega
      | 2, ho =>
        simp at ho; subst ho
        refine ⟨(by intro d e; cases e), rfl, rfl, fun x hx => ?_⟩
        simp [Obj.children] at hx
        omega
      | 3, ho =>
        simp at ho; subst ho
        refine ⟨(by intro d e; cases e), rfl, rfl, fun x hx => ?_⟩
        have := ord x hx
        omega
      | n + 4, ho => simp at ho)
    (by
      intro N w hop
      generalize hh : s.heap ++ Obj.forward (some (s.heap.length + 4)) :: _ = h1 at *
      have q0 : h1[s.heap.length + 1]? = some .empty := by
        rw [← hh, List.getElem?_append_right (by omega)]; simp
      have q1 : h1[s.heap.length + 2]? = some (.prod [.rule item, .rule s.heap.length] 0) := by
        rw [← hh, List.getElem?_append_right (by omega)]; simp
      have q2 : h1[s.heap.length + 3]? = some (.rule [s.heap.length + 2]) := by
        rw [← hh, List.getElem?_append_right (by omega)]; simp
      have q3 : h1[s.heap.length + 4]? =
          some (.or (repOptionalOrder (s.heap.length + 1) (s.heap.length + 3) item rr ro)) := by
        rw [← hh, List.getElem?_append_right (by omega)]; simp
      obtain ⟨us, r1, r2⟩ := (open_one q3 (by intro c e; cases e)).1 hop
      cases r1 with
      | @or _ r hr =>
        rcases ord r hr with rfl | rfl | rfl
        · obtain ⟨us, r1, r2⟩ := (open_one q0 (by intro c e; cases e)).1 r2
          cases r1
          cases r2
          exact .inl ⟨trivial, rfl⟩
        · obtain ⟨us, r1, r2⟩ := (open_one q2 (by intro c e; cases e)).1 r2
          cases r1 with
          | @rule _ p hp =>
            rw [List.mem_singleton] at hp
            subst hp
            obtain ⟨us, r1, r2⟩ := (open_one q1 (by intro c e; cases e)).1 r2
            cases r1
            exact .inr (.inr r2)
        · exact .inr (.inl r2))
  exact ⟨g', k1, k2, by simp, k3 _ (Nat.le_refl _) (by omega), k5⟩

/-- A sequence of rules as one rule. -/
theorem rule_piece {s : St P} (hg : Good' n0 g s) {items : List Nat}
    (hi : ∀ x ∈ items, x < s.heap.length ∧ Clean s.heap x) :
    Good' n0 g (s.rule items).2 ∧ Ext s.heap (s.rule items).2.heap ∧
      (s.rule items).1 < (s.rule items).2.heap.length ∧ Clean (s.rule items).2.heap (s.rule items).1 ∧
      ∀ N w, Open N (s.rule items).2.heap [.rule (s.rule items).1] w →
        Open N (s.rule items).2.heap (items.map .rule) w := by
  have hch : ∀ c, c ∈ (Obj.prod (items.map .rule) 0 : Obj P).children → c ∈ items := by
    intro c hc
    have := termRules_mem.1 hc
    simpa using this
  have g1 := hg.alloc (o := .prod (items.map .rule) 0) (by intro c e; cases e)
    (fun c hc => (hi c (hch c hc)).1) rfl
  have g2 := g1.alloc (o := .rule [s.heap.length]) (by intro c e; cases e)
    (by intro c hc; have : c = s.heap.length := by simpa [Obj.children] using hc
        subst this; simp [St.alloc]) rfl
  have e : Ext s.heap (s.rule items).2.heap := (Ext.append _ _).trans (Ext.append _ _)
  have q1 : (s.rule items).2.heap[s.heap.length]? = some (.prod (items.map .rule) 0) := by
    simp [St.rule, St.alloc]
  have q2 : (s.rule items).2.heap[(s.rule items).1]? = some (.rule [s.heap.length]) := by
    simp [St.rule, St.alloc]
  refine ⟨g2, e, (List.getElem?_eq_some_iff.1 q2).1, ?_, ?_⟩
  · refine .node q2 rfl (fun c hc => ?_)
    have : c = s.heap.length := by simpa [Obj.children] using hc
    subst this
    exact .node q1 rfl (fun c hc => (hi c (hch c hc)).2.ext e)
  · intro N w hop
    obtain ⟨us, r1, r2⟩ := (open_one q2 (by intro c e; cases e)).1 hop
    cases r1 with
    | @rule _ p hp =>
      rw [List.mem_singleton] at hp
      subst hp
      obtain ⟨us, r1, r2⟩ := (open_one q1 (by intro c e; cases e)).1 r2
      cases r1
      exact r2

/-- One rule or another one. -/
theorem or_piece {s : St P} (hg : Good' n0 g s) {items : List Nat}
    (hi : ∀ x ∈ items, x < s.heap.length ∧ Clean s.heap x) :
    Good' n0 g (s.alloc (.or items)).2 ∧ Ext s.heap (s.alloc (.or items)).2.heap ∧
      (s.alloc (.or items)).1 < (s.alloc (.or items)).2.heap.length ∧
      Clean (s.alloc (.or items)).2.heap (s.alloc (.or items)).1 ∧
      ∀ N w, Open N (s.alloc (.or items)).2.heap [.rule (s.alloc (.or items)).1] w →
        ∃ x ∈ items, Open N (s.alloc (.or items)).2.heap [.rule x] w := by
  have g1 := hg.alloc (o := .or items) (by intro c e; cases e) (fun c hc => (hi c hc).1) rfl
  have e : Ext s.heap (s.alloc (.or items)).2.heap := Ext.append _ _
  have q2 : (s.alloc (.or items)).2.heap[(s.alloc (.or items)).1]? = some (.or items) := by
    simp [St.alloc]
  refine ⟨g1, e, (List.getElem?_eq_some_iff.1 q2).1, .node q2 rfl (fun c hc => (hi c hc).2.ext e), ?_⟩
  intro N w hop
  obtain ⟨us, r1, r2⟩ := (open_one q2 (by intro c e; cases e)).1 hop
  cases r1 with
  | @or _ p hp => exact ⟨p, hp, r2⟩

theorem maxBound_fed {s : St P} (hg : Good' n0 g s) {item : Nat} (hi : item < s.heap.length)
    (hic : Clean s.heap item) (rev : Bool) : ∀ n,
    Piece n0 g g s (maxBound item rev n s).2 item (maxBound item rev n s).1
  | 0 => ⟨hg, More.refl _ _, hi, hic, Sim.refl _⟩
  | 1 => ⟨hg, More.refl _ _, hi, hic, Sim.refl _⟩
  | n + 2 => by
    have ih := maxBound_fed hg hi hic rev (n + 1)
    generalize hm : maxBound item rev (n + 1) s = m at ih
    obtain ⟨inner, s1⟩ := m
    simp only at ih
    have hi1 : item < s1.heap.length := Nat.lt_of_lt_of_le hi ih.more.ext.len
    have hic1 := hic.ext ih.more.ext
    have r := rule_piece ih.good (items := [item, inner]) (by
      intro x hx
      rcases List.mem_cons.1 hx with rfl | hx
      · exact ⟨hi1, hic1⟩
      · rw [List.mem_singleton] at hx; subst hx; exact ⟨ih.dst, ih.clean⟩)
    generalize hr : s1.rule [item, inner] = m at r
    obtain ⟨a, s2⟩ := m
    obtain ⟨r1, r2, r3, r4, r5⟩ := r
    have q := or_piece r1 (items := if rev then [item, a] else [a, item]) (by
      intro x hx
      have : x = item ∨ x = a := by cases rev <;> simp at hx <;> omega
      rcases this with rfl | rfl
      · exact ⟨Nat.lt_of_lt_of_le hi1 r2.len, hic1.ext r2⟩
      · exact ⟨r3, r4⟩)
    have e : maxBound item rev (n + 2) s = s2.alloc (.or (if rev then [item, a] else [a, item])) := by
      simp only [maxBound, hm, hr]
    rw [e]
    generalize hq : s2.alloc (Obj.or (if rev then [item, a] else [a, item])) = m at q ⊢
    obtain ⟨y, s3⟩ := m
    obtain ⟨q1, q2, q3, q4, q5⟩ := q
    simp only at r1 r2 r3 r4 r5 q1 q2 q3 q4 q5
    have mo := (More.of_ext (g := g) r2).trans (More.of_ext q2)
    have hw : ∀ {x : Nat}, x < s1.heap.length → Within s1.heap.length [Term.rule (P := P) x] := fun k => within_one k
    have hsim := ih.sim.more mo ih.good.fed.tame.closed (hw hi1) (hw ih.dst)
    refine ⟨q1, ih.more.trans mo, q3, q4, ?_⟩
    have hopen : ∀ w, Open g.N s3.heap [.rule y] w → Open g.N s3.heap [.rule item] w ∨
        Open g.N s3.heap [.rule item, .rule inner] w := by
      intro w hop
      obtain ⟨x, hx, k⟩ := q5 _ _ hop
      have : x = item ∨ x = a := by cases rev <;> simp at hx <;> omega
      rcases this with rfl | rfl
      · exact .inl k
      · refine .inr (((r5 _ _ (k.back q2 r1.fed.tame.closed (within_one r3)))).ext q2)
    refine ⟨fun k => ?_, fun L hL b hb => ?_⟩
    · rcases hopen _ k with k | k
      · exact k
      · obtain ⟨v, v', k1, k2, e⟩ := open_cons.1 k
        obtain ⟨rfl, rfl⟩ := List.append_eq_nil_iff.1 e.symm
        exact k1
    · rcases hopen _ hb with k | k
      · exact hL b k
      · obtain ⟨v, v', k1, k2, e⟩ := open_cons.1 k
        rcases single_split e with ⟨rfl, rfl⟩ | ⟨rfl, rfl⟩
        · exact hL b k1
        · exact hsim.bound L hL b k2

end Yargy.Thin.Grow
