import Verif.Proofs.Keeps
import Verif.Proofs.Activation
import Verif.Proofs.Predicate
/-!
The passes before the compilation of a rule that was given a name, an interpretation or a relation last
leave it so.
-/
namespace Yargy

variable {P : Type}

/-- What only grows: allocating keeps it. -/
def Lasting (Φ : St P → Prop) : Prop := ∀ s o, Φ s → Φ (s.alloc o).2

def Lasts {α β : Type} (Φ : St P → Prop) (f : α → St P → Except Err (β × St P)) : Prop :=
  ∀ x s y s', Φ s → f x s = .ok (y, s') → Φ s'

def MethodLasts (m : Method P) : Prop :=
  ∀ Φ : St P → Prop, Lasting Φ → ∀ n rec, Lasts Φ rec → ∀ (a : Nat) (o : Obj P) s b s',
    Φ s → m n rec a o s = .ok (b, s') → Φ s'

section
variable {Φ : St P → Prop}

theorem mapSt_lasts {α β : Type} {f : α → St P → Except Err (β × St P)} (hf : Lasts Φ f) :
    ∀ (xs : List α) s ys s', Φ s → mapSt f xs s = .ok (ys, s') → Φ s' := by
  intro xs
  induction xs with
  | nil => intro s ys s' ha h; cases h; exact ha
  | cons x xs ih =>
    intro s ys s' ha h
    simp only [mapSt] at h
    split at h
    · cases h
    · rename_i h1
      split at h
      · cases h
      · rename_i h2
        cases h
        exact ih _ _ _ (hf _ _ _ _ ha h1) h2

theorem rebuildAll_lasts (hΦ : Lasting Φ) {α β : Type} {f : α → St P → Except Err (β × St P)}
    (hf : Lasts Φ f) {xs : List α} {mk : List β → Obj P} {s s' : St P} {b : Nat} (ha : Φ s)
    (h : rebuildAll f xs mk s = .ok (b, s')) : Φ s' := by
  unfold rebuildAll at h
  cases hm : mapSt f xs s with
  | error e => rw [hm] at h; cases h
  | ok y =>
    obtain ⟨ys, s1⟩ := y
    rw [hm] at h
    cases h
    exact hΦ _ _ (mapSt_lasts hf _ _ _ _ ha hm)

theorem rebuild_lasts (hΦ : Lasting Φ) {rec : Visit P} (hf : Lasts Φ rec) {r : Nat} {mk : Nat → Obj P}
    {s s' : St P} {b : Nat} (ha : Φ s) (h : rebuild rec r mk s = .ok (b, s')) : Φ s' := by
  unfold rebuild at h
  cases hm : rec r s with
  | error e => rw [hm] at h; cases h
  | ok y =>
    obtain ⟨y, s1⟩ := y
    rw [hm] at h
    cases h
    exact hΦ _ _ (hf _ _ _ _ ha hm)

theorem visitTerm_lasts {rec : Visit P} (hf : Lasts Φ rec) : Lasts Φ (visitTerm rec) := by
  intro t s y s' ha h
  cases t with
  | pred p => cases h; exact ha
  | rule r =>
    simp only [visitTerm] at h
    cases hm : rec r s with
    | error e => rw [hm] at h; cases h
    | ok y => rw [hm] at h; cases h; exact hf _ _ _ _ ha hm

theorem visitNew_lasts (hΦ : Lasting Φ) {rec : Visit P} (hr : Lasts Φ rec) {o : Obj P} {s s' : St P}
    {b : Nat} (ha : Φ s) (h : visitNew rec o s = .ok (b, s')) : Φ s' :=
  hr _ _ _ _ (hΦ _ _ ha) h

theorem squashBounded_lasts (hΦ : Lasting Φ) {rec : Visit P} (hr : Lasts Φ rec) {child : Nat}
    {mk : Nat → Obj P} {s s' : St P} {b : Nat} (ha : Φ s)
    (h : squashBounded rec child mk s = .ok (b, s')) : Φ s' := by
  unfold squashBounded at h
  split at h
  · exact visitNew_lasts hΦ hr ha h
  · cases h
  · exact visitNew_lasts hΦ hr (hΦ _ _ ha) h
  · exact rebuild_lasts hΦ hr ha h

theorem stRule_lasts (hΦ : Lasting Φ) {s : St P} {x : Nat} {items : List Nat} (ha : Φ s) :
    Φ (s.rule (x :: items)).2 := hΦ _ _ (hΦ _ _ ha)

theorem maxBound_lasts (hΦ : Lasting Φ) (item : Nat) (rev : Bool) : ∀ (n : Nat) (s : St P),
    Φ s → Φ (maxBound item rev n s).2
  | 0, _, ha => ha
  | 1, _, ha => ha
  | n + 2, s, ha => by
    simp only [maxBound]
    exact hΦ _ _ (stRule_lasts hΦ (maxBound_lasts hΦ item rev (n + 1) s ha))

theorem mkRepeatable_lasts (hΦ : Lasting Φ) (item : Nat) (rev : Bool) (s : St P) (ha : Φ s) :
    Φ (mkRepeatable item rev s).2 := by
  simp only [mkRepeatable]
  exact hΦ _ _ (stRule_lasts hΦ (hΦ _ _ ha))

theorem flattenTerm_lasts {rec : Visit P} (hr : Lasts Φ rec) : ∀ n, Lasts Φ (flattenTerm rec n) := by
  intro n
  induction n with
  | zero => intro t s y s' _ h; cases h
  | succ n ih =>
    intro t s y s' ha h
    cases t with
    | pred p => cases h; exact ha
    | rule r =>
      simp only [flattenTerm] at h
      split at h
      · split at h
        · exact ih _ _ _ _ ha h
        · exact visitTerm_lasts hr _ _ _ _ ha h
      · exact visitTerm_lasts hr _ _ _ _ ha h

end

theorem default_lasts : MethodLasts (defaultMethod (P := P)) := by
  intro Φ hΦ n rec hr a o s b s' ha h
  cases o <;> simp only [defaultMethod] at h
  case prod ts m => exact rebuildAll_lasts hΦ (visitTerm_lasts hr) ha h
  case rule ps => exact rebuildAll_lasts hΦ hr ha h
  case or ps => exact rebuildAll_lasts hΦ hr ha h
  case minBounded => exact rebuild_lasts hΦ hr ha h
  case maxBounded => exact rebuild_lasts hΦ hr ha h
  case minMaxBounded => exact rebuild_lasts hΦ hr ha h
  case named => exact rebuild_lasts hΦ hr ha h
  case interp => exact rebuild_lasts hΦ hr ha h
  case relation => exact rebuild_lasts hΦ hr ha h
  case bnf => exact rebuildAll_lasts hΦ hr ha h
  all_goals (cases h; try exact ha)

theorem squash_lasts : MethodLasts (squashMethod (P := P)) := by
  intro Φ hΦ n rec hr a o s b s' ha h
  unfold squashMethod at h
  split at h
  · split at h
    · exact visitNew_lasts hΦ hr ha h
    · cases h
    all_goals first
      | exact visitNew_lasts hΦ hr ha h
      | exact rebuild_lasts hΦ hr ha h
  · split at h
    · exact visitNew_lasts hΦ hr ha h
    · cases h
    · exact visitNew_lasts hΦ hr ha h
    · exact rebuild_lasts hΦ hr ha h
  · split at h
    all_goals first
      | exact visitNew_lasts hΦ hr ha h
      | exact rebuild_lasts hΦ hr ha h
  · exact squashBounded_lasts hΦ hr ha h
  · exact squashBounded_lasts hΦ hr ha h
  · exact squashBounded_lasts hΦ hr ha h
  · exact default_lasts Φ hΦ n rec hr a _ s b s' ha h

theorem extended_lasts : MethodLasts (extendedMethod (P := P)) := by
  intro Φ hΦ n rec hr a o s b s' ha h
  have key : ∀ r {f : Nat × St P → Nat × St P} {b s'}, (∀ y s1, Φ s1 → Φ (f (y, s1)).2) →
      (rec r s).map f = .ok (b, s') → Φ s' := by
    intro r f b s' hf h
    cases hm : rec r s with
    | error e => rw [hm] at h; cases h
    | ok y =>
      obtain ⟨y, s1⟩ := y
      rw [hm] at h
      have := hf y s1 (hr _ _ _ _ ha hm)
      simp only [Except.map, Except.ok.injEq] at h
      rw [h] at this
      exact this
  unfold extendedMethod at h
  split at h
  · exact key _ (fun y s1 h1 => mkRepeatable_lasts hΦ _ _ _ h1) h
  · refine key _ (fun y s1 h1 => ?_) h
    simp only [mkOptional]
    exact hΦ _ _ (hΦ _ _ h1)
  · refine key _ (fun y s1 h1 => ?_) h
    simp only [mkRepOptional]
    exact hΦ _ _ (stRule_lasts hΦ (hΦ _ _ (hΦ _ _ h1)))
  · rename_i r min rev
    refine key r (fun y s1 h1 => ?_) h
    dsimp only
    obtain ⟨z, zs, e⟩ := replicate_snoc (min - 1) y (mkRepeatable y rev s1).1
    rw [e]
    exact stRule_lasts hΦ (mkRepeatable_lasts hΦ _ _ _ h1)
  · exact key _ (fun y s1 h1 => maxBound_lasts hΦ _ _ _ _ h1) h
  · rename_i r min max rev
    refine key r (fun y s1 h1 => ?_) h
    dsimp only
    obtain ⟨z, zs, e⟩ := replicate_snoc (min - 1) y (maxBound y rev (max - min + 1) s1).1
    rw [e]
    exact stRule_lasts hΦ (maxBound_lasts hΦ _ _ _ _ h1)
  · exact default_lasts Φ hΦ n rec hr a _ s b s' ha h

theorem or_lasts : MethodLasts (orMethod (P := P)) := by
  intro Φ hΦ n rec hr a o s b s' ha h
  unfold orMethod at h
  split at h
  · refine rebuildAll_lasts hΦ (f := visitProd rec) ?_ ha h
    intro r s y s' ha h
    exact rebuild_lasts hΦ hr ha h
  · exact default_lasts Φ hΦ n rec hr a _ s b s' ha h

theorem empty_lasts : MethodLasts (emptyMethod (P := P)) := by
  intro Φ hΦ n rec hr a o s b s' ha h
  unfold emptyMethod at h
  split at h
  · cases h
    exact hΦ _ _ (hΦ _ _ ha)
  · exact default_lasts Φ hΦ n rec hr a _ s b s' ha h

theorem flatten_lasts : MethodLasts (flattenMethod (P := P)) := by
  intro Φ hΦ n rec hr a o s b s' ha h
  unfold flattenMethod at h
  split at h
  · split at h
    · split at h
      · exact hr _ _ _ _ ha h
      · exact rebuildAll_lasts hΦ (flattenTerm_lasts hr n) ha h
    · exact rebuildAll_lasts hΦ (flattenTerm_lasts hr n) ha h
  · exact default_lasts Φ hΦ n rec hr a _ s b s' ha h

/-! ### Wrappers -/

/-- Something put around a rule. -/
def Obj.wrapper : Obj P → Prop
  | .named _ _ | .interp _ _ | .relation _ _ => True
  | _ => False

/-- The same thing is put around something else. -/
def SameWrapper (o o' : Obj P) : Prop := o.wrapper ∧ o'.wrapper ∧ ∀ k, o'.label k = o.label k

/-- Wrappers are visited by the methods of `RuleTransformator`. -/
def Rewraps (m : Method P) : Prop :=
  ∀ n rec a s (o : Obj P), o.wrapper → m n rec a o s = defaultMethod n rec a o s

theorem squash_rewraps : Rewraps (squashMethod (P := P)) := by
  intro n rec a s o h; cases o <;> first | rfl | exact h.elim
theorem extended_rewraps : Rewraps (extendedMethod (P := P)) := by
  intro n rec a s o h; cases o <;> first | rfl | exact h.elim
theorem or_rewraps : Rewraps (orMethod (P := P)) := by
  intro n rec a s o h; cases o <;> first | rfl | exact h.elim
theorem empty_rewraps : Rewraps (emptyMethod (P := P)) := by
  intro n rec a s o h; cases o <;> first | rfl | exact h.elim
theorem flatten_rewraps : Rewraps (flattenMethod (P := P)) := by
  intro n rec a s o h; cases o <;> first | rfl | exact h.elim

theorem visit_appends {m : Method P} {pid : Nat → Nat} (hm : MethodLasts m) (h0 : Heap P) :
    ∀ n, Lasts (fun s => ∃ e, s.heap = h0 ++ e) (visit m pid n) := by
  intro n
  induction n with
  | zero => intro a s b s' _ h; cases h
  | succ n ih =>
    intro a s b s' hs h
    simp only [visit] at h
    split at h
    · cases h; exact hs
    · split at h
      · cases h
      · split at h
        · cases h
        · rename_i hr
          cases h
          have := hm _ (by
            rintro s o ⟨e, h⟩
            exact ⟨e ++ [o], by simp [St.alloc, h]⟩) n _ ih a _ s _ _ hs hr
          exact this

/-- The object at `root` is `o`, and its image, if there is one already, is of its kind. -/
def Marked (root : Nat) (o : Obj P) (s : St P) : Prop :=
  s.heap[root]? = some o ∧ ∀ a b, (a, b) ∈ s.memo → a = root → ∃ o', s.heap[b]? = some o' ∧ SameWrapper o o'

theorem get_append {α : Type} {xs ys : List α} {n : Nat} {x : α} (h : xs[n]? = some x) :
    (xs ++ ys)[n]? = some x := by
  rw [List.getElem?_append_left (List.getElem?_eq_some_iff.1 h).1, h]

theorem marked_lasting (root : Nat) (o : Obj P) : Lasting (Marked root o) := by
  rintro s o1 ⟨h1, h2⟩
  refine ⟨get_append h1, fun a b hm ha => ?_⟩
  obtain ⟨o', k1, k2⟩ := h2 a b hm ha
  exact ⟨o', get_append k1, k2⟩

theorem default_wraps {o : Obj P} (ho : o.wrapper) {n : Nat} {rec : Visit P} {a b : Nat} {s s' : St P}
    (h : defaultMethod n rec a o s = .ok (b, s')) : ∃ o', s'.heap[b]? = some o' ∧ SameWrapper o o' := by
  have key : ∀ r mk, rebuild rec r mk s = .ok (b, s') → ∃ y, s'.heap[b]? = some (mk y) := by
    intro r mk h
    obtain ⟨⟨y, s1⟩, _, h2⟩ := except_map_ok h
    cases h2
    exact ⟨y, by simp [St.alloc]⟩
  cases o <;> first | (exact ho.elim) | skip
  all_goals
    simp only [defaultMethod] at h
    obtain ⟨y, hy⟩ := key _ _ h
    exact ⟨_, hy, trivial, trivial, fun k => by cases k <;> rfl⟩

theorem visit_marked {m : Method P} {pid : Nat → Nat} (hm : MethodLasts m) (hw : Rewraps m) {root : Nat}
    {o : Obj P} (ho : o.wrapper) : ∀ n, Lasts (Marked root o) (visit m pid n) := by
  intro n
  induction n with
  | zero => intro a s b s' _ h; cases h
  | succ n ih =>
    intro a s b s' hs h
    simp only [visit] at h
    split at h
    · cases h; exact hs
    · split at h
      · cases h
      · rename_i o1 h1
        split at h
        · cases h
        · rename_i hr
          cases h
          have hk := hm _ (marked_lasting root o) n _ ih a _ s _ _ hs hr
          refine ⟨hk.1, fun x y hxy hx => ?_⟩
          rcases List.mem_cons.1 hxy with e | e
          · cases e
            subst hx
            rw [hs.1] at h1
            cases h1
            rw [hw _ _ _ _ _ ho] at hr
            have := default_wraps ho hr
            exact this
          · exact hk.2 x y e hx

theorem redefine_marked {m : Method P} {pid : Nat → Nat} (hm : MethodLasts m) (hw : Rewraps m)
    {limit root : Nat} {o : Obj P} (ho : o.wrapper) : ∀ n queue seen (s s' : St P),
    redefine m pid limit n queue seen s = .ok s' → Marked root o s → Marked root o s' := by
  intro n
  induction n with
  | zero => intro queue seen s s' e; cases e
  | succ n ih =>
    intro queue seen s s' e hs
    cases queue with
    | nil => cases e; exact hs
    | cons a queue =>
      simp only [redefine] at e
      split at e
      · rename_i r ha
        split at e
        · cases e
        · rename_i b s1 hv
          have h1 := visit_marked hm hw ho _ _ _ _ _ hs hv
          obtain ⟨ext, hx⟩ := visit_appends hm s.heap _ _ _ _ _ ⟨[], by simp⟩ hv
          split at e
          · cases e
          · rename_i g hg
            refine ih _ _ _ _ e ?_
            have ha1 : s1.heap[a]? = some (.forward (some r)) := by rw [hx]; exact get_append ha
            have hset : ∀ (x : Nat) o', s1.heap[x]? = some o' → o'.wrapper → g[x]? = some o' := by
              intro x o' hx ho'
              have hne : a ≠ x := by
                rintro rfl
                rw [ha1] at hx
                cases hx
                exact ho'
              unfold defineForward at hg
              split at hg
              · cases hg
              · cases hg
                rw [List.getElem?_set_ne hne, hx]
            refine ⟨hset _ _ h1.1 ho, fun x y hxy hx => ?_⟩
            obtain ⟨o', k1, k2⟩ := h1.2 x y hxy hx
            exact ⟨o', hset _ _ k1 k2.2.1, k2⟩
      · exact ih _ _ _ _ e hs

theorem lookup_mem {pid : Nat → Nat} (hp : ∀ a b, pid a = pid b → a = b) {s : St P} {a b : Nat}
    (h : s.lookup pid a = some b) : (a, b) ∈ s.memo := by
  unfold St.lookup at h
  obtain ⟨⟨x, y⟩, h1, h2⟩ := Option.map_eq_some_iff.1 h
  have := List.find?_some h1
  cases h2
  have : x = a := hp _ _ (by simpa using this)
  exact this ▸ List.mem_of_find?_eq_some h1

theorem transform_wraps {m : Method P} (hm : MethodLasts m) (hw : Rewraps m) {pid : Nat → Nat}
    (hp : ∀ a b, pid a = pid b → a = b) {limit root b : Nat} {h h' : Heap P} {o : Obj P}
    (e : transform m pid limit root h = .ok (b, h')) (hr : h[root]? = some o) (ho : o.wrapper) :
    ∃ o', h'[b]? = some o' ∧ SameWrapper o o' := by
  unfold transform at e
  split at e
  · cases e
  · rename_i s hs
    have k := redefine_marked hm hw ho _ _ _ _ _ hs (root := root) (o := o) ⟨hr, fun _ _ h => nomatch h⟩
    obtain ⟨⟨b', s'⟩, h1, h2⟩ := except_map_ok e
    cases h2
    have k' := visit_marked hm hw ho _ _ _ _ _ k h1
    cases limit with
    | zero => cases h1
    | succ limit =>
      simp only [visit] at h1
      split at h1
      · rename_i hl
        cases h1
        exact k.2 root _ (lookup_mem hp hl) rfl
      · split at h1
        · cases h1
        · split at h1
          · cases h1
          · cases h1
            exact k'.2 root _ List.mem_cons_self rfl

theorem SameWrapper.trans {o o' o'' : Obj P} (h1 : SameWrapper o o') (h2 : SameWrapper o' o'') :
    SameWrapper o o'' := ⟨h1.1, h2.2.1, fun k => (h2.2.2 k).trans (h1.2.2 k)⟩

/-- If the last thing done to a rule was to give it a name, an interpretation or a relation, then this is
so after the passes. -/
theorem normalized_wraps {pid : Nat → Nat} (hp : ∀ a b, pid a = pid b → a = b) {limit root b : Nat}
    {h h' : Heap P} {o : Obj P} (e : normalized pid limit root h = .ok (b, h')) (hr : h[root]? = some o)
    (ho : o.wrapper) : ∃ o', h'[b]? = some o' ∧ SameWrapper o o' := by
  unfold normalized replaced at e
  simp only [bind, Except.bind] at e
  split at e
  · cases e
  rename_i h1
  split at e
  · cases e
  rename_i h2
  split at e
  · cases e
  rename_i h3
  split at e
  · cases e
  rename_i h4
  obtain ⟨o1, g1, w1⟩ := transform_wraps squash_lasts squash_rewraps hp h1 hr ho
  obtain ⟨o2, g2, w2⟩ := transform_wraps extended_lasts extended_rewraps hp h2 g1 w1.2.1
  obtain ⟨o3, g3, w3⟩ := transform_wraps or_lasts or_rewraps hp h3 g2 w2.2.1
  obtain ⟨o4, g4, w4⟩ := transform_wraps empty_lasts empty_rewraps hp h4 g3 w3.2.1
  obtain ⟨o5, g5, w5⟩ := transform_wraps flatten_lasts flatten_rewraps hp e g4 w4.2.1
  exact ⟨o5, g5, (((w1.trans w2).trans w3).trans w4).trans w5⟩

end Yargy
