import Verif.Proofs.TotalYoung
/-!
Rules in which nothing contains itself, except through forward rules, are dealt with by every
transformator when recursion goes deep enough.
-/
namespace Yargy

variable {P : Type}

/-- Objects keep what matters for the depth. -/
def Akin (g g' : Heap P) : Prop :=
  ∀ (a : Nat) o, g[a]? = some o → ∃ o', g'[a]? = some o' ∧ o'.tag = o.tag ∧
    (o.tag ≠ .forward → o'.children = o.children) ∧ (o.tag ≠ .forward → o.tag ≠ .bnf → o' = o)

theorem Akin.refl (g : Heap P) : Akin g g := fun _ o h => ⟨o, h, rfl, fun _ => rfl, fun _ _ => rfl⟩

theorem Akin.trans {g g' g'' : Heap P} (h1 : Akin g g') (h2 : Akin g' g'') : Akin g g'' := by
  intro a o ha
  obtain ⟨o', k1, k2, k3, k4⟩ := h1 a o ha
  obtain ⟨o'', q1, q2, q3, q4⟩ := h2 a o' k1
  refine ⟨o'', q1, q2.trans k2, fun h => ?_, fun h h' => ?_⟩
  · rw [q3 (k2 ▸ h), k3 h]
  · rw [q4 (k2 ▸ h) (k2 ▸ h'), k4 h h']

theorem Akin.append (g e : Heap P) : Akin g (g ++ e) :=
  fun _ o h => ⟨o, getElem?_append_some h, rfl, fun _ => rfl, fun _ _ => rfl⟩

theorem Akin.get {g g' : Heap P} (h : Akin g g') {a : Nat} {o : Obj P} (ha : g[a]? = some o)
    (hf : o.tag ≠ .forward) (hb : o.tag ≠ .bnf) : g'[a]? = some o := by
  obtain ⟨o', h1, _, _, h4⟩ := h a o ha
  rw [h1, h4 hf hb]

/-- How many levels of recursion are needed above `j`. -/
def Obj.cost : Obj P → Nat → Nat
  | .minBounded _ _ _, j => 2 * j + 2
  | .maxBounded _ _ _, j => 2 * j + 2
  | .minMaxBounded _ _ _ _, j => 2 * j + 2
  | _, j => j + 1

theorem cost_lt (o : Obj P) (j : Nat) : j < o.cost j := by
  cases o <;> simp only [Obj.cost] <;> omega

theorem cost_mono (o : Obj P) {i j : Nat} (h : i ≤ j) : o.cost i ≤ o.cost j := by
  cases o <;> simp only [Obj.cost] <;> omega

/-- How deep a rule goes, without looking into forward rules; `N` holds everywhere. -/
inductive Deep (N : Heap P → Nat → Obj P → Prop) (g : Heap P) : Nat → Nat → Prop
  | forward {a c k} : g[a]? = some (.forward c) → Deep N g a k
  | node {a o j k} : g[a]? = some o → o.tag ≠ .forward → N g a o → (∀ c ∈ o.children, Deep N g c j) →
      o.cost j ≤ k → Deep N g a k

variable {N : Heap P → Nat → Obj P → Prop}

theorem Deep.le {g : Heap P} {a k k' : Nat} (h : Deep N g a k) (hk : k ≤ k') : Deep N g a k' := by
  cases h with
  | forward h => exact .forward h
  | node h1 h2 h3 h4 h5 => exact .node h1 h2 h3 h4 (Nat.le_trans h5 hk)

/-- What is asked of an object stays true. -/
def Steady (N : Heap P → Nat → Obj P → Prop) : Prop :=
  ∀ (g g' : Heap P) (a : Nat) o o', Akin g g' → g[a]? = some o → g'[a]? = some o' → o.tag ≠ .forward →
    N g a o → N g' a o'

theorem Deep.akin (hN : Steady N) {g g' : Heap P} (ha : Akin g g') {a k : Nat} (h : Deep N g a k) :
    Deep N g' a k := by
  induction h with
  | @forward a c k h =>
    obtain ⟨o', h1, h2, _⟩ := ha a _ h
    cases o' <;> first | (cases h2; done) | exact .forward h1
  | @node a o j k h1 h2 h3 _ h5 ih =>
    obtain ⟨o', k1, k2, k3, k4⟩ := ha a o h1
    refine .node k1 (k2 ▸ h2) (hN g g' a o o' ha h1 k1 h2 h3) (j := j) ?_ ?_
    · rw [k3 h2]; exact ih
    · by_cases hb : o.tag = .bnf
      · cases o <;> first | (cases hb; done) | skip
        cases o' <;> first | (cases k2; done) | exact h5
      · rw [k4 h2 hb]; exact h5

theorem Deep.child {g : Heap P} {a k : Nat} {o : Obj P} (h : Deep N g a k) (ho : g[a]? = some o)
    (hf : o.tag ≠ .forward) : N g a o ∧ ∃ j, o.cost j ≤ k ∧ ∀ c ∈ o.children, Deep N g c j := by
  cases h with
  | forward h => rw [ho] at h; cases h; exact absurd rfl hf
  | node h1 h2 h3 h4 h5 => rw [ho] at h1; cases h1; exact ⟨h3, _, h5, h4⟩

/-- More may be asked of the objects of a rule if all of them have it. -/
theorem Deep.strengthen {N' : Heap P → Nat → Obj P → Prop} {g : Heap P} {root : Nat}
    (hall : ∀ x o, Reach g root x → g[x]? = some o → N' g x o) {a k : Nat} (h : Deep N g a k) :
    Reach g root a → Deep N' g a k := by
  induction h with
  | forward h => intro _; exact .forward h
  | node h1 h2 _ _ h5 ih =>
    intro hr
    exact .node h1 h2 (hall _ _ hr h1) (fun c hc => ih c hc (.step hr h1 hc)) h5

namespace Pass
variable {F : Pass P}

theorem Ext.akin {g g' : Heap P} (h : F.Ext g g') : Akin g g' := by
  intro a o ha
  obtain ⟨o', h1, h2⟩ := h.like ha
  refine ⟨o', h1, h2.tag.symm, fun _ => h2.children.symm, fun _ hb => ?_⟩
  cases h2 with
  | refl => rfl
  | bnf => exact absurd rfl hb

theorem Inv.akin {s : St P} (h : F.Inv s) : Akin F.heap s.heap := by
  intro a o ha
  rcases h.frame a o ha with h1 | ⟨⟨c, hc⟩, _, r, h1⟩
  · exact ⟨o, h1, rfl, fun _ => rfl, fun _ _ => rfl⟩
  · rw [ha] at hc
    simp only [Option.some.injEq] at hc
    subst hc
    exact ⟨_, h1, rfl, fun h => absurd rfl h, fun h => absurd rfl h⟩

theorem set_akin {g : Heap P} {a b : Nat} {c : Option Nat} (ha : g[a]? = some (.forward c)) :
    Akin g (g.set a (.forward (some b))) := by
  intro x o hx
  by_cases e : a = x
  · subst e
    rw [ha] at hx; cases hx
    exact ⟨_, List.getElem?_set_self (List.getElem?_eq_some_iff.1 ha).1, rfl,
      fun h => absurd rfl h, fun h => absurd rfl h⟩
  · exact ⟨o, by rw [List.getElem?_set_ne e]; exact hx, rfl, fun _ => rfl, fun _ _ => rfl⟩

variable (F) in
/-- What holds between visits. -/
structure Live (s : St P) : Prop where
  inv : F.Inv s
  young : Young F.heap.length F.Dom s

variable (F N) in
/-- A visit does what it should, and succeeds down to a depth. -/
structure Able (n : Nat) (rec : Visit P) : Prop where
  fits : F.VisitFits rec
  young : YoungVisit F.heap.length F.Dom rec
  runs : ∀ a s k, F.Live s → F.Item s.heap a → Deep N s.heap a k → k + 1 ≤ n → ∃ r, rec a s = .ok r

variable (F N) in
/-- What the methods of a transformator have to do with items that are not forward rules. -/
def MethodRuns (m : Method P) : Prop :=
  ∀ n rec, F.Able N n rec → ∀ (a : Nat) o (s : St P) j, F.Live s → F.Dom a → s.heap[a]? = some o →
    o.tag ≠ .forward → N s.heap a o → (∀ c ∈ o.children, Deep N s.heap c j) → o.cost j ≤ n →
    ∃ r, m n rec a o s = .ok r

/-- Forward rules are handed on. -/
def Passes (m : Method P) : Prop := ∀ n rec a c s, m n rec a (.forward c) s = .ok (a, s)

theorem visit_able {m : Method P} {pid : Nat → Nat} (hp : ∀ a b, pid a = pid b → a = b)
    (hf : F.MethodFits m) (hy : MethodYoung F.heap.length F.Dom m) (hpass : Passes m)
    (hm : F.MethodRuns N m) : ∀ n, F.Able N n (visit m pid n) := by
  intro n
  induction n with
  | zero => exact ⟨visit_fits hp hf 0, visit_young hp hy 0, fun a s k _ _ _ h => by omega⟩
  | succ n ih =>
    refine ⟨visit_fits hp hf _, visit_young hp hy _, fun a s k hl hi hd hk => ?_⟩
    unfold visit
    cases s.lookup pid a with
    | some b => exact ⟨_, rfl⟩
    | none =>
      obtain ⟨o, ho⟩ : ∃ o, s.heap[a]? = some o := ⟨_, List.getElem?_eq_getElem hi.2⟩
      simp only [ho]
      by_cases ht : o.tag = .forward
      · cases o <;> first | (cases ht; done) | skip
        rw [hpass]
        exact ⟨_, rfl⟩
      · obtain ⟨h1, j, h2, h3⟩ := hd.child ho ht
        obtain ⟨r, hr⟩ := hm n _ ih a _ s j hl hi.1 ho ht h1 h3 (by omega)
        rw [hr]
        exact ⟨_, rfl⟩

theorem mapSt_runs {α β : Type} {Pre Pre0 : Heap P → α → Prop} {R : Heap P → α → β → Prop}
    {Post : Nat → β → Prop} {R' : Heap P → α → β → Prop}
    (hPre : ∀ g g' x, F.Ext g g' → Pre g x → Pre g' x) (hPre0 : ∀ g x, Pre g x → Pre0 g x)
    {f : α → St P → Except Err (β × St P)} (hf : F.StepFits Pre0 R f)
    (hy : YoungStep F.heap.length F.Dom Post R' f)
    (hr : ∀ x s, F.Live s → Pre s.heap x → ∃ r, f x s = .ok r) :
    ∀ (xs : List α) s, F.Live s → (∀ x ∈ xs, Pre s.heap x) → ∃ r, mapSt f xs s = .ok r := by
  intro xs
  induction xs with
  | nil => intro s _ _; exact ⟨_, rfl⟩
  | cons x xs ih =>
    intro s hl hx
    obtain ⟨⟨y, s1⟩, h1⟩ := hr x s hl (hx x List.mem_cons_self)
    obtain ⟨i1, e1, _⟩ := hf x s y s1 hl.inv (hPre0 _ _ (hx x List.mem_cons_self)) h1
    obtain ⟨y1, _⟩ := hy x s y s1 hl.young h1
    obtain ⟨⟨ys, s2⟩, h2⟩ := ih s1 ⟨i1, y1⟩
      (fun z hz => hPre _ _ _ e1 (hx z (List.mem_cons_of_mem _ hz)))
    exact ⟨(y :: ys, s2), by simp only [mapSt, h1, h2]⟩

section
variable {n : Nat} {rec : Visit P} (hN : Steady N) (hr : F.Able N n rec) {s : St P} {j : Nat}
include hN hr

theorem rebuildAll_runs (hl : F.Live s) (hj : j + 1 ≤ n) {xs : List Nat} {mk : List Nat → Obj P}
    (hx : ∀ x ∈ xs, F.Item s.heap x ∧ Deep N s.heap x j) : ∃ r, rebuildAll rec xs mk s = .ok r := by
  obtain ⟨r, h⟩ := mapSt_runs (F := F) (Pre := fun g x => F.Item g x ∧ Deep N g x j)
    (fun g g' x e h => ⟨item_ext _ _ _ e h.1, h.2.akin hN e.akin⟩) (fun _ _ h => h.1) hr.fits hr.young
    (fun x s hl h => hr.runs x s j hl h.1 h.2 hj) xs s hl hx
  exact ⟨_, by unfold rebuildAll; rw [h]; rfl⟩

omit hN in
theorem rebuild_runs (hl : F.Live s) (hj : j + 1 ≤ n) {r : Nat} {mk : Nat → Obj P}
    (hi : F.Item s.heap r) (hd : Deep N s.heap r j) : ∃ x, rebuild rec r mk s = .ok x := by
  obtain ⟨x, h⟩ := hr.runs r s j hl hi hd hj
  exact ⟨_, by unfold rebuild; rw [h]; rfl⟩

variable (F N) in
/-- A term that can be dealt with. -/
def TermDeep (j : Nat) (g : Heap P) (t : Term P) : Prop :=
  F.TermPre g t ∧ ∀ r, t = .rule r → Deep N g r j

omit hr in
theorem termDeep_ext (g g' : Heap P) (t : Term P) (e : F.Ext g g') (h : F.TermDeep N j g t) :
    F.TermDeep N j g' t := ⟨termPre_ext _ _ _ e h.1, fun r hr => (h.2 r hr).akin hN e.akin⟩

theorem prod_runs (hl : F.Live s) (hj : j + 1 ≤ n) {ts : List (Term P)} {mk : List (Term P) → Obj P}
    (hx : ∀ t ∈ ts, F.TermDeep N j s.heap t) : ∃ r, rebuildAll (visitTerm rec) ts mk s = .ok r := by
  obtain ⟨r, h⟩ := mapSt_runs (F := F) (Pre := F.TermDeep N j)
    (fun g g' x e h => termDeep_ext hN g g' x e h) (fun _ _ h => h.1) (visitTerm_fits hr.fits)
    (visitTerm_young hr.young)
    (fun t s hl h => by
      cases t with
      | pred p => exact ⟨_, rfl⟩
      | rule r =>
        obtain ⟨x, hx⟩ := hr.runs r s j hl h.1.1 (h.2 r rfl) hj
        exact ⟨_, by simp only [visitTerm, hx]; rfl⟩) ts s hl hx
  exact ⟨_, by unfold rebuildAll; rw [h]; rfl⟩

omit hN hr in
theorem terms_deep (hl : F.Live s) {a m : Nat} {ts : List (Term P)} (hd : F.Dom a)
    (ho : s.heap[a]? = some (.prod ts m)) (hk : ∀ c ∈ (Obj.prod ts m).children, Deep N s.heap c j) :
    ∀ t ∈ ts, F.TermDeep N j s.heap t := by
  intro t ht
  refine ⟨hl.inv.terms hd ho t ht, ?_⟩
  rintro r rfl
  exact hk r (termRules_mem.2 ht)

theorem default_runs (hl : F.Live s) {a : Nat} {o : Obj P} (hd : F.Dom a) (ho : s.heap[a]? = some o)
    (hq : o.tag ≠ .quant) (hk : ∀ c ∈ o.children, Deep N s.heap c j) (hj : o.cost j ≤ n) :
    ∃ r, defaultMethod n rec a o s = .ok r := by
  have hj' : j + 1 ≤ n := Nat.lt_of_lt_of_le (cost_lt o j) hj
  have hi := hl.inv.items hd ho
  cases o with
  | prod ts m => simp only [defaultMethod]; exact prod_runs hN hr hl hj' (terms_deep hl hd ho hk)
  | emptyProd => exact ⟨_, rfl⟩
  | pipeProd v ps => exact ⟨_, rfl⟩
  | rule ps => exact rebuildAll_runs hN hr hl hj' (fun x hx => ⟨hi x hx, hk x hx⟩)
  | or rs => exact rebuildAll_runs hN hr hl hj' (fun x hx => ⟨hi x hx, hk x hx⟩)
  | optional r rev => exact absurd rfl hq
  | repeatable r rev => exact absurd rfl hq
  | repOptional r rr ro => exact absurd rfl hq
  | minBounded r i rev => exact absurd rfl hq
  | maxBounded r i rev => exact absurd rfl hq
  | minMaxBounded r i i' rev => exact absurd rfl hq
  | named r x => simp only [defaultMethod]; exact rebuild_runs hr hl hj' (hi r List.mem_cons_self) (hk r List.mem_cons_self)
  | interp r x => simp only [defaultMethod]; exact rebuild_runs hr hl hj' (hi r List.mem_cons_self) (hk r List.mem_cons_self)
  | relation r x => simp only [defaultMethod]; exact rebuild_runs hr hl hj' (hi r List.mem_cons_self) (hk r List.mem_cons_self)
  | forward c => exact ⟨_, rfl⟩
  | empty => exact ⟨_, rfl⟩
  | pipe p => exact ⟨_, rfl⟩
  | bnf ps x i r kind => exact rebuildAll_runs hN hr hl hj' (fun x hx => ⟨hi x hx, hk x hx⟩)

end

/-! ### Quantifiers -/

theorem extended_runs (hN : Steady N) : F.MethodRuns N (extendedMethod : Method P) := by
  intro n rec hr a o s j hl hd ho hf hn hk hj
  have hj' : j + 1 ≤ n := Nat.lt_of_lt_of_le (cost_lt o j) hj
  have hi := hl.inv.items hd ho
  have one : ∀ r, o.children = [r] → ∃ x, rec r s = .ok x := fun r e =>
    hr.runs r s j hl (hi r (e ▸ List.mem_cons_self)) (hk r (e ▸ List.mem_cons_self)) hj'
  unfold extendedMethod
  split
  · obtain ⟨x, hx⟩ := one _ rfl
    exact ⟨_, by rw [hx]; rfl⟩
  · obtain ⟨x, hx⟩ := one _ rfl
    exact ⟨_, by rw [hx]; rfl⟩
  · obtain ⟨x, hx⟩ := one _ rfl
    exact ⟨_, by rw [hx]; rfl⟩
  · obtain ⟨x, hx⟩ := one _ rfl
    exact ⟨_, by rw [hx]; rfl⟩
  · obtain ⟨x, hx⟩ := one _ rfl
    exact ⟨_, by rw [hx]; rfl⟩
  · obtain ⟨x, hx⟩ := one _ rfl
    exact ⟨_, by rw [hx]; rfl⟩
  · rename_i h1 h2 h3 h4 h5 h6
    refine default_runs hN hr hl hd ho ?_ hk hj
    intro e
    cases o <;> first
      | exact h1 _ _ rfl | exact h2 _ _ rfl | exact h3 _ _ _ rfl | exact h4 _ _ _ rfl
      | exact h5 _ _ _ rfl | exact h6 _ _ _ _ rfl | cases e

/-! ### Alternatives, empty rules -/

theorem or_runs (hN : Steady N) (hin : F.inT .prod = true) (hout : F.outT .prod = true)
    (hq : F.inT .quant = false) : F.MethodRuns N (orMethod : Method P) := by
  intro n rec hr a o s j hl hd ho hf hn hk hj
  have hj' : j + 1 ≤ n := Nat.lt_of_lt_of_le (cost_lt o j) hj
  have hi := hl.inv.items hd ho
  unfold orMethod
  split
  · rename_i rs
    obtain ⟨r, h⟩ := mapSt_runs (F := F)
      (Pre := fun g x => (F.Item g x ∧ isProdAt g x = false) ∧ Deep N g x j)
      (fun g g' x e h => ⟨⟨item_ext _ _ _ e h.1.1, by rw [e.isProdAt h.1.1.2]; exact h.1.2⟩,
        h.2.akin hN e.akin⟩) (fun _ _ h => h.1)
      (visitProd_fits hr.fits hin hout) (visitProd_young hr.young)
      (fun x s hl h => by
        obtain ⟨y, hy⟩ := hr.runs x s j hl h.1.1 h.2 hj'
        exact ⟨_, by unfold visitProd rebuild; rw [hy]; rfl⟩) rs s hl
      (fun x hx => ⟨⟨hi x hx, ((hl.inv.dom a _ hd ho).kids x hx).2.2⟩, hk x hx⟩)
    exact ⟨_, by unfold rebuildAll; rw [h]; rfl⟩
  · refine default_runs hN hr hl hd ho ?_ hk hj
    intro e
    have := (hl.inv.dom a o hd ho).tag
    rw [e, hq] at this; cases this

theorem empty_runs (hN : Steady N) (hq : F.inT .quant = false) : F.MethodRuns N (emptyMethod : Method P) := by
  intro n rec hr a o s j hl hd ho hf hn hk hj
  unfold emptyMethod
  split
  · exact ⟨_, rfl⟩
  · refine default_runs hN hr hl hd ho ?_ hk hj
    intro e
    have := (hl.inv.dom a o hd ho).tag
    rw [e, hq] at this; cases this

/-! ### Rules with one term -/

theorem flattenTerm_runs {n : Nat} {rec : Visit P} (hr : F.Able N n rec) :
    ∀ (k j : Nat) (t : Term P) (s : St P), F.Live s → F.TermDeep N j s.heap t → j + 1 ≤ k → j + 1 ≤ n →
      ∃ r, flattenTerm rec k t s = .ok r := by
  intro k
  induction k with
  | zero => intro j t s _ _ h; omega
  | succ k ih =>
    intro j t s hl ht hk hn
    cases t with
    | pred p => exact ⟨_, rfl⟩
    | rule r =>
      have plain : ∃ x, visitTerm rec (.rule r) s = .ok x := by
        obtain ⟨x, hx⟩ := hr.runs r s j hl ht.1.1 (ht.2 r rfl) hn
        exact ⟨_, by simp only [visitTerm, hx]; rfl⟩
      simp only [flattenTerm]
      split
      · rename_i p hp
        split
        · rename_i t' ht'
          have hpi := hl.inv.items ht.1.1.1 hp p List.mem_cons_self
          obtain ⟨_, j1, c1, d1⟩ := (ht.2 r rfl).child hp (by simp [Obj.tag])
          have dp := d1 p List.mem_cons_self
          simp only [Obj.cost] at c1
          unfold termsAt at ht'
          split at ht'
          · rename_i ts m hp1
            subst ht'
            obtain ⟨_, j2, c2, d2⟩ := dp.child hp1 (by simp [Obj.tag])
            simp only [Obj.cost] at c2
            exact ih j2 t' s hl (terms_deep hl hpi.1 hp1 d2 t' List.mem_cons_self) (by omega) (by omega)
          · rename_i v ps hp1
            obtain ⟨_, j2, c2, _⟩ := dp.child hp1 (by simp [Obj.tag])
            simp only [Obj.cost] at c2
            cases ps with
            | nil => cases ht'
            | cons q ps =>
              simp only [List.map_cons, List.cons.injEq] at ht'
              obtain ⟨rfl, _⟩ := ht'
              cases k with
              | zero => omega
              | succ k => exact ⟨_, rfl⟩
          · cases ht'
        · exact plain
      · exact plain

theorem flatten_runs (hN : Steady N) (hbirths : F.births = false) (hq : F.inT .quant = false) :
    F.MethodRuns N (flattenMethod : Method P) := by
  intro n rec hr a o s j hl hd ho hf hn hk hj
  have hj' : j + 1 ≤ n := Nat.lt_of_lt_of_le (cost_lt o j) hj
  cases o with
  | prod ts m =>
    have hts := terms_deep hl hd ho hk
    have all : ∃ r, rebuildAll (flattenTerm rec n) ts (.prod · m) s = .ok r := by
      obtain ⟨r, h⟩ := mapSt_runs (F := F) (Pre := F.TermDeep N j)
        (fun g g' x e h => termDeep_ext hN g g' x e h) (fun _ _ h => h.1)
        (flattenTerm_fits hbirths hr.fits n) (flattenTerm_young hr.young n)
        (fun t s hl h => flattenTerm_runs hr n j t s hl h hj' hj') ts s hl hts
      exact ⟨_, by unfold rebuildAll; rw [h]; rfl⟩
    simp only [flattenMethod]
    split
    · rename_i r
      split
      · rename_i p hp
        have hrd := hts _ List.mem_cons_self
        obtain ⟨_, j1, c1, d1⟩ := (hrd.2 r rfl).child hp (by simp [Obj.tag])
        simp only [Obj.cost] at c1
        exact hr.runs p s j1 hl (hl.inv.items hrd.1.1.1 hp p List.mem_cons_self)
          (d1 p List.mem_cons_self) (by omega)
      · exact all
    · exact all
  | _ =>
    simp only [flattenMethod]
    refine default_runs hN hr hl hd ho ?_ hk hj
    intro e
    have := (hl.inv.dom a _ hd ho).tag
    rw [e, hq] at this; cases this

/-! ### Squashing -/

/-- A `RepeatableOptionalRule`. -/
def isRepOptional : Obj P → Bool
  | .repOptional _ _ _ => true
  | _ => false

/-- No quantifier is around a `RepeatableOptionalRule`, except another one. -/
def Clean (g : Heap P) (_ : Nat) (o : Obj P) : Prop :=
  o.tag = .quant → isRepOptional o = false →
    ∀ c ∈ o.children, ∃ oc, g[c]? = some oc ∧ isRepOptional oc = false

theorem clean_steady : Steady (Clean : Heap P → Nat → Obj P → Prop) := by
  intro g g' a o o' ha h1 h2 hf hc ht hr c hcc
  obtain ⟨o'', k1, k2, k3, k4⟩ := ha a o h1
  rw [h2] at k1; cases k1
  have e := k4 hf (by rw [← k2, ht]; decide)
  subst e
  obtain ⟨oc, q1, q2⟩ := hc ht hr c hcc
  obtain ⟨oc', w1, w2, w3, w4⟩ := ha c oc q1
  refine ⟨oc', w1, ?_⟩
  by_cases hoc : isRepOptional oc' = true
  · cases oc' <;> first | (cases hoc; done) | skip
    rw [← w4 (by rw [← w2]; simp [Obj.tag]) (by rw [← w2]; simp [Obj.tag])] at q2
    cases q2
  · simpa using hoc

section
variable {n : Nat} {rec : Visit P} (hr : F.Able Clean n rec) {s : St P}
include hr

/-- A new quantifier around something that can be dealt with. -/
theorem quant_runs (hin : ∀ t, F.inT t = true) (hl : F.Live s) {g j : Nat} {o' : Obj P}
    (hg : F.Item s.heap g) (hs : isProdAt s.heap g = false) (hd : Deep Clean s.heap g j) (hq' : o'.tag = .quant)
    (hg' : o'.children = [g]) (hX : o'.preds = [])
    (hc : isRepOptional o' = false → ∃ oc, s.heap[g]? = some oc ∧ isRepOptional oc = false)
    (hj : o'.cost j + 1 ≤ n) : ∃ r, visitNew rec o' s = .ok r := by
  have hfit : F.Fit s.heap o' := by
    refine ⟨hin _, (by rw [hX]; intro p hp; cases hp), ?_⟩
    intro x hx
    rw [hg', List.mem_singleton] at hx
    subst hx
    exact ⟨hg.1, hg.2, by rw [hs, hq']; rfl⟩
  have i1 : F.Inv (s.alloc o').2 := hl.inv.alloc hfit (by rintro c rfl; cases hq')
  have y1 := hl.young.alloc (o := o') ⟨by rw [hq']; decide, fun _ c hc => by
    rw [hg', List.mem_singleton] at hc
    subst hc
    exact hg.2⟩ (by rw [hq']; decide)
  have a1 : Akin s.heap (s.alloc o').2.heap := Akin.append _ _
  refine hr.runs s.heap.length (s.alloc o').2 (o'.cost j) ⟨i1, y1⟩
    ⟨.inl hl.inv.len, by simp [St.alloc]⟩ ?_ hj
  refine .node (getElem?_new o') (by rw [hq']; decide) ?_ (j := j) ?_ (Nat.le_refl _)
  · intro _ h c hcc
    rw [hg', List.mem_singleton] at hcc
    subst hcc
    obtain ⟨oc, h1, h2⟩ := hc h
    exact ⟨oc, getElem?_append_some h1, h2⟩
  · intro c hcc
    rw [hg', List.mem_singleton] at hcc
    subst hcc
    exact hd.akin clean_steady a1

/-- A quantifier around the child of the child. -/
theorem squash_runs_new (hin : ∀ t, F.inT t = true) (hl : F.Live s) {a c g j : Nat} {o oc o' : Obj P} (hd : F.Dom a)
    (ho : s.heap[a]? = some o) (hoc : s.heap[c]? = some oc) (hq : o.tag = .quant) (hqc : oc.tag = .quant)
    (hc : o.children = [c]) (hg : oc.children = [g]) (hk : ∀ c ∈ o.children, Deep Clean s.heap c j)
    (hj : o.cost j ≤ n) (hq' : o'.tag = .quant) (hg' : o'.children = [g]) (hX : o'.preds = [])
    (hro : isRepOptional oc = false ∨ isRepOptional o' = true)
    (hcost : ∀ i, o'.cost i = i + 1) : ∃ r, visitNew rec o' s = .ok r := by
  have hci := hl.inv.items hd ho c (by rw [hc]; exact List.mem_cons_self)
  have hgk := (hl.inv.dom c oc hci.1 hoc).kids g (by rw [hg]; exact List.mem_cons_self)
  obtain ⟨n1, j1, c1, d1⟩ := (hk c (by rw [hc]; exact List.mem_cons_self)).child hoc (by rw [hqc]; decide)
  have := cost_lt oc j1
  have := cost_lt o j
  refine quant_runs hr hin hl ⟨hgk.1, hgk.2.1⟩ (by rw [hgk.2.2, hqc]; rfl)
    (d1 g (by rw [hg]; exact List.mem_cons_self)) hq' hg' hX ?_ (by rw [hcost]; omega)
  intro h
  rcases hro with h1 | h1
  · exact n1 hqc h1 g (by rw [hg]; exact List.mem_cons_self)
  · rw [h1] at h; cases h

theorem squash_runs_same (hl : F.Live s) {a c j : Nat} {o : Obj P} {mk : Nat → Obj P} (hd : F.Dom a)
    (ho : s.heap[a]? = some o) (hc : o.children = [c]) (hk : ∀ c ∈ o.children, Deep Clean s.heap c j)
    (hj : o.cost j ≤ n) : ∃ r, rebuild rec c mk s = .ok r :=
  rebuild_runs hr hl (Nat.lt_of_lt_of_le (cost_lt o j) hj)
    (hl.inv.items hd ho c (by rw [hc]; exact List.mem_cons_self)) (hk c (by rw [hc]; exact List.mem_cons_self))

theorem squashBounded_runs (hin : ∀ t, F.inT t = true) (hl : F.Live s) {a c j : Nat} {o : Obj P}
    {mk : Nat → Obj P} (hd : F.Dom a) (ho : s.heap[a]? = some o) (hq : o.tag = .quant) (hc : o.children = [c])
    (hn : Clean s.heap a o) (hro : isRepOptional o = false) (hk : ∀ c ∈ o.children, Deep Clean s.heap c j)
    (hj : o.cost j ≤ n) (hcost : ∀ i, o.cost i = 2 * i + 2) (hmk : ∀ y, (mk y).tag = .quant ∧
      (mk y).children = [y] ∧ (mk y).preds = [] ∧ isRepOptional (mk y) = false ∧
      ∀ i, (mk y).cost i = 2 * i + 2) :
    ∃ r, squashBounded rec c mk s = .ok r := by
  obtain ⟨oc, hoc, hnr⟩ := hn hq hro c (by rw [hc]; exact List.mem_cons_self)
  unfold squashBounded
  split
  · rename_i g rev h
    rw [hoc] at h; cases h
    exact squash_runs_new hr hin hl hd ho hoc hq rfl hc rfl hk hj rfl rfl rfl (.inl rfl) (fun _ => rfl)
  · rename_i h
    rw [hoc] at h; cases h
    cases hnr
  · rename_i g rev h
    rw [hoc] at h; cases h
    have hci := hl.inv.items hd ho c (by rw [hc]; exact List.mem_cons_self)
    have hgk := (hl.inv.dom c _ hci.1 hoc).kids g List.mem_cons_self
    obtain ⟨n1, j1, c1, d1⟩ := (hk c (by rw [hc]; exact List.mem_cons_self)).child hoc (by simp [Obj.tag])
    obtain ⟨m1, m2, m3, m4, m5⟩ := hmk g
    have hfit : F.Fit s.heap (mk g) := by
      refine ⟨hin _, (by rw [m3]; intro p hp; cases hp), ?_⟩
      intro x hx
      rw [m2, List.mem_singleton] at hx
      subst hx
      exact ⟨hgk.1, hgk.2.1, by rw [hgk.2.2, m1]; rfl⟩
    have i1 : F.Inv (s.alloc (mk g)).2 := hl.inv.alloc hfit (by intro d e; rw [e] at m1; cases m1)
    have y1 := hl.young.alloc (o := mk g) ⟨by rw [m1]; decide, fun _ x hx => by
      rw [m2, List.mem_singleton] at hx
      subst hx
      exact hgk.2.1⟩ (by rw [m1]; decide)
    have a1 : Akin s.heap (s.alloc (mk g)).2.heap := Akin.append _ _
    have hnew : (s.alloc (mk g)).2.heap[s.heap.length]? = some (mk g) := getElem?_new _
    refine quant_runs hr hin (s := (s.alloc (mk g)).2) ⟨i1, y1⟩ (g := s.heap.length) (j := 2 * j1 + 2)
      ⟨.inl hl.inv.len, by simp [St.alloc]⟩ (by rw [isProdAt_some hnew, m1]; rfl) ?_ rfl rfl rfl ?_ ?_
    · refine .node hnew (by rw [m1]; decide) ?_ (j := j1) ?_ (by rw [m5]; exact Nat.le_refl _)
      · intro _ _ x hx
        rw [m2, List.mem_singleton] at hx
        subst hx
        obtain ⟨og, h1, h2⟩ := n1 rfl rfl x List.mem_cons_self
        exact ⟨og, getElem?_append_some h1, h2⟩
      · intro x hx
        rw [m2, List.mem_singleton] at hx
        subst hx
        exact (d1 x List.mem_cons_self).akin clean_steady a1
    · intro _
      exact ⟨_, hnew, m4⟩
    · rw [hcost] at hj
      simp only [Obj.cost] at c1 ⊢
      omega
  · exact squash_runs_same hr hl hd ho hc hk hj

end

theorem squash_runs (hin : ∀ t, F.inT t = true) : F.MethodRuns Clean (squashMethod : Method P) := by
  intro n rec hr a o s j hl hd ho hf hn hk hj
  have bad : ∀ {c g : Nat} {rr ro : Bool}, o.tag = .quant → isRepOptional o = false → c ∈ o.children →
      s.heap[c]? = some (.repOptional g rr ro) → False := by
    intro c g rr ro h1 h2 h3 h4
    obtain ⟨oc, k1, k2⟩ := hn h1 h2 c h3
    rw [h4] at k1; cases k1
    cases k2
  unfold squashMethod
  split
  · split
    · rename_i hoc
      exact squash_runs_new hr hin hl hd ho hoc rfl rfl rfl rfl hk hj rfl rfl rfl (.inl rfl) (fun _ => rfl)
    · rename_i hoc
      exact absurd hoc (fun h => bad rfl rfl List.mem_cons_self h)
    · rename_i hoc
      exact squash_runs_new hr hin hl hd ho hoc rfl rfl rfl rfl hk hj rfl rfl rfl (.inl rfl) (fun _ => rfl)
    · rename_i hoc
      exact squash_runs_new hr hin hl hd ho hoc rfl rfl rfl rfl hk hj rfl rfl rfl (.inl rfl) (fun _ => rfl)
    · rename_i hoc
      exact squash_runs_new hr hin hl hd ho hoc rfl rfl rfl rfl hk hj rfl rfl rfl (.inl rfl) (fun _ => rfl)
    · rename_i hoc
      exact squash_runs_new hr hin hl hd ho hoc rfl rfl rfl rfl hk hj rfl rfl rfl (.inl rfl) (fun _ => rfl)
    · exact squash_runs_same hr hl hd ho rfl hk hj
  · split
    · rename_i hoc
      exact squash_runs_new hr hin hl hd ho hoc rfl rfl rfl rfl hk hj rfl rfl rfl (.inl rfl) (fun _ => rfl)
    · rename_i hoc
      exact absurd hoc (fun h => bad rfl rfl List.mem_cons_self h)
    · rename_i hoc
      exact squash_runs_new hr hin hl hd ho hoc rfl rfl rfl rfl hk hj rfl rfl rfl (.inl rfl) (fun _ => rfl)
    · exact squash_runs_same hr hl hd ho rfl hk hj
  · split
    · rename_i hoc
      exact squash_runs_new hr hin hl hd ho hoc rfl rfl rfl rfl hk hj rfl rfl rfl (.inr rfl) (fun _ => rfl)
    · rename_i hoc
      exact squash_runs_new hr hin hl hd ho hoc rfl rfl rfl rfl hk hj rfl rfl rfl (.inr rfl) (fun _ => rfl)
    · rename_i hoc
      exact squash_runs_new hr hin hl hd ho hoc rfl rfl rfl rfl hk hj rfl rfl rfl (.inr rfl) (fun _ => rfl)
    · rename_i hoc
      exact squash_runs_new hr hin hl hd ho hoc rfl rfl rfl rfl hk hj rfl rfl rfl (.inr rfl) (fun _ => rfl)
    · rename_i hoc
      exact squash_runs_new hr hin hl hd ho hoc rfl rfl rfl rfl hk hj rfl rfl rfl (.inr rfl) (fun _ => rfl)
    · rename_i hoc
      exact squash_runs_new hr hin hl hd ho hoc rfl rfl rfl rfl hk hj rfl rfl rfl (.inr rfl) (fun _ => rfl)
    · exact squash_runs_same hr hl hd ho rfl hk hj
  · exact squashBounded_runs hr hin hl hd ho rfl rfl hn rfl hk hj (fun _ => rfl)
      (fun y => ⟨rfl, rfl, rfl, rfl, fun _ => rfl⟩)
  · exact squashBounded_runs hr hin hl hd ho rfl rfl hn rfl hk hj (fun _ => rfl)
      (fun y => ⟨rfl, rfl, rfl, rfl, fun _ => rfl⟩)
  · exact squashBounded_runs hr hin hl hd ho rfl rfl hn rfl hk hj (fun _ => rfl)
      (fun y => ⟨rfl, rfl, rfl, rfl, fun _ => rfl⟩)
  · rename_i h1 h2 h3 h4 h5 h6
    refine default_runs clean_steady hr hl hd ho ?_ hk hj
    intro e
    cases o <;> first
      | exact h1 _ _ rfl | exact h2 _ _ rfl | exact h3 _ _ _ rfl | exact h4 _ _ _ rfl
      | exact h5 _ _ _ rfl | exact h6 _ _ _ _ rfl | cases e

/-! ### Compiled rules -/

/-- A gazetteer that was activated, every key with a term at least. -/
def PipeFine (p : Pipe P) : Prop :=
  ∃ kind keys, p = .keys kind keys ∧ ∀ k ∈ keys, k.2 ≠ []

variable (F) in
/-- An object that was there before; gazetteers are in order. -/
def Given (_ : Heap P) (a : Nat) (o : Obj P) : Prop :=
  (a < F.heap.length ∧ Reach F.heap F.root a) ∧ ∀ p, o = .pipe p → PipeFine p

theorem given_steady : Steady F.Given := by
  rintro g g' a o o' ha h1 h2 hf ⟨h3, h4⟩
  obtain ⟨o'', k1, k2, k3, k4⟩ := ha a o h1
  rw [h2] at k1; cases k1
  refine ⟨h3, ?_⟩
  rintro p rfl
  have := k4 hf (by rw [← k2]; simp [Obj.tag])
  exact h4 p this.symm

theorem bnf_at {g : Heap P} {b : Nat} (hs : SolidAt g b) (hout : ∀ o, g[b]? = some o → bnfOut o.tag = true) :
    ∃ ps x i r k, g[b]? = some (.bnf ps x i r k) := by
  obtain ⟨o, h1, h2⟩ := hs
  have h3 := hout o h1
  cases o <;> first | (cases h2; done) | (cases h3; done) | exact ⟨_, _, _, _, _, h1⟩

theorem hasAttr_ok {g : Heap P} {b : Nat} (h : ∃ ps x i r k, g[b]? = some (.bnf ps x i r k)) (y : Attr) :
    ∃ t, hasAttr g b y = .ok t := by
  obtain ⟨ps, x, i, r, k, h⟩ := h
  unfold hasAttr
  rw [h]
  cases y <;> exact ⟨_, rfl⟩

theorem bnf_runs (hbnf : F.outT = bnfOut) (hin : F.inT = bnfIn) {parents : Nat → Nat}
    (hpar : ∀ (a c : Nat) (o : Obj P), Reach F.heap F.root a → F.heap[a]? = some o → c ∈ o.children →
      parents c ≠ 0) :
    F.MethodRuns F.Given (bnfMethod parents : Method P) := by
  intro n rec hr a o s j hl hd ho hf hn hk hj
  have hj' : j + 1 ≤ n := Nat.lt_of_lt_of_le (cost_lt o j) hj
  have hi := hl.inv.items hd ho
  have old : F.heap[a]? = some o := by
    rcases hl.inv.frame a _ (List.getElem?_eq_getElem hn.1.1) with h | ⟨_, _, r, h⟩
    · rw [List.getElem?_eq_getElem hn.1.1, ← h]; exact ho
    · rw [ho] at h; cases h; exact absurd rfl hf
  have htag := (hl.inv.dom a o hd ho).tag
  rw [hin] at htag
  have wrapper : ∀ r y, o.tag = .wrap → o.children = [r] → ∃ x, visitWrapper parents rec r y s = .ok x := by
    intro r y hw hc
    have hcr : r ∈ o.children := by rw [hc]; exact List.mem_cons_self
    have hp := hpar a r o hn.1.2 old hcr
    have step : ∃ b s1, visitWrapped parents rec r s = .ok (b, s1) ∧
        ∃ ps x i r k, s1.heap[b]? = some (.bnf ps x i r k) := by
      unfold visitWrapped
      split
      · exact ⟨_, _, rfl, _, _, _, _, _, getElem?_new _⟩
      · rename_i hnf
        rw [if_neg hp]
        obtain ⟨⟨b, s1⟩, hb⟩ := hr.runs r s j hl (hi r hcr) (hk r hcr) hj'
        obtain ⟨i1, e1, r1⟩ := hr.fits r s b s1 hl.inv (hi r hcr) hb
        obtain ⟨y1, a1, _, k1⟩ := hr.young r s b s1 hl.young hb
        rw [hb]
        have solid : SolidAt s.heap r := by
          obtain ⟨or, hor⟩ : ∃ or, s.heap[r]? = some or := ⟨_, List.getElem?_eq_getElem (hi r hcr).2⟩
          refine ⟨or, hor, ?_⟩
          have h1 := ((hl.inv.dom a o hd ho).kids r hcr).2.2
          rw [isProdAt_some hor, hw] at h1
          have h2 := (hl.inv.dom r or (hi r hcr).1 hor).tag
          rw [hin] at h2
          cases or <;> first | rfl | (cases h1; done) | (cases h2; done) | exact absurd hor (hnf _)
        have hsb := k1.1 (a1.solid solid)
        have hbn := bnf_at hsb (by
          intro ob hob
          rcases r1.ok b (.refl _) with ⟨q1, _⟩ | ⟨_, o', q1, q2, _⟩
          · obtain ⟨c, hc⟩ := i1.old_forward q1
            rw [hob] at hc; cases hc
            rfl
          · rw [hob] at q1; cases q1
            rw [← hbnf]; exact q2)
        simp only [Except.map]
        split
        · exact ⟨_, _, rfl, _, _, _, _, _, getElem?_new _⟩
        · exact ⟨_, _, rfl, hbn⟩
    obtain ⟨b, s1, h1, h2⟩ := step
    obtain ⟨t, ht⟩ := hasAttr_ok h2 y
    unfold visitWrapper
    simp only [h1, ht]
    exact ⟨_, rfl⟩
  unfold bnfMethod
  split
  · exact rebuildAll_runs given_steady hr hl hj' (fun x hx => ⟨hi x hx, hk x hx⟩)
  · exact rebuildAll_runs given_steady hr hl hj' (fun x hx => ⟨hi x hx, hk x hx⟩)
  · cases htag
  · cases htag
  · exact wrapper _ _ rfl rfl
  · exact wrapper _ _ rfl rfl
  · exact wrapper _ _ rfl rfl
  · rename_i p
    obtain ⟨kind, keys, rfl, hne⟩ := hn.2 p rfl
    unfold pipeBnf
    simp only
    rw [if_neg]
    · exact ⟨_, rfl⟩
    · intro h
      rw [List.any_eq_true] at h
      obtain ⟨k, h1, h2⟩ := h
      exact hne k h1 (by simpa using h2)
  · refine default_runs given_steady hr hl hd ho ?_ hk hj
    intro e
    rw [e] at htag; cases htag

end Pass
end Yargy
