import Verif.Model.Compile
import Verif.Proofs.Util
/-!
Properties of the whole heap that visits keep true.
-/
namespace Yargy.Whole

variable {P : Type} {Ok : Str → Prop} {I : Heap P → Prop}

/-- Neither a gazetteer nor a compiled gazetteer, and without a name that is not known. -/
def Plain (Ok : Str → Prop) : Obj P → Prop
  | .pipe _ => False
  | .bnf _ none _ _ none => True
  | .bnf _ _ _ _ _ => False
  | .named _ n => Ok n
  | _ => True

/-- What visits do to the heap. -/
structure Lasting (Ok : Str → Prop) (I : Heap P → Prop) : Prop where
  alloc : ∀ {g : Heap P} {o : Obj P}, I g → Plain Ok o → I (g ++ [o])
  given : ∀ {g : Heap P} {a r : Nat} {n : Str}, I g → g[a]? = some (.named r n) → Ok n
  attr : ∀ {g : Heap P} {b : Nat} {x : Attr}, I g → (∀ n, x = .name n → Ok n) → I (setAttrAt g b x)
  keys : ∀ {s : St P} {a : Nat} {p : Pipe P} {b : Nat} {s' : St P}, I s.heap → s.heap[a]? = some (.pipe p) →
    pipeBnf p s = .ok (b, s') → I s'.heap

def Keeps {α β : Type} (I : Heap P → Prop) (f : α → St P → Except Err (β × St P)) : Prop :=
  ∀ x s y s', I s.heap → f x s = .ok (y, s') → I s'.heap

def MethodKeeps (I : Heap P → Prop) (m : Method P) : Prop :=
  ∀ n rec, Keeps I rec → ∀ (a : Nat) (o : Obj P) s b s', s.heap[a]? = some o → I s.heap →
    m n rec a o s = .ok (b, s') → I s'.heap

theorem visit_keeps {m : Method P} {pid : Nat → Nat} (hm : MethodKeeps I m) :
    ∀ n, Keeps I (visit m pid n) := by
  intro n
  induction n with
  | zero => intro a s b s' _ h; simp [visit] at h
  | succ n ih =>
    intro a s b s' ha h
    unfold visit at h
    split at h
    · cases h; exact ha
    · split at h
      · cases h
      · rename_i o ho
        split at h
        · cases h
        · rename_i hr
          cases h
          have := hm n _ ih a o s _ _ ho ha hr
          exact this

theorem mapSt_keeps {α β : Type} {f : α → St P → Except Err (β × St P)} (hf : Keeps I f) :
    ∀ (xs : List α) s ys s', I s.heap → mapSt f xs s = .ok (ys, s') → I s'.heap := by
  intro xs
  induction xs with
  | nil => intro s ys s' ha h; cases h; exact ha
  | cons x xs ih =>
    intro s ys s' ha h
    simp only [mapSt] at h
    split at h
    · cases h
    · rename_i h1
      split at h
      · cases h
      · rename_i h2
        cases h
        exact ih _ _ _ (hf _ _ _ _ ha h1) h2

section
variable (hI : Lasting Ok I)
include hI

theorem rebuildAll_keeps {α β : Type} {f : α → St P → Except Err (β × St P)} (hf : Keeps I f)
    {xs : List α} {mk : List β → Obj P} {s s' : St P} {b : Nat} (ha : I s.heap)
    (hmk : ∀ ys, Plain Ok (mk ys)) (h : rebuildAll f xs mk s = .ok (b, s')) : I s'.heap := by
  unfold rebuildAll at h
  cases hm : mapSt f xs s with
  | error e => rw [hm] at h; cases h
  | ok y =>
    obtain ⟨ys, s1⟩ := y
    rw [hm] at h
    cases h
    exact hI.alloc (mapSt_keeps hf _ _ _ _ ha hm) (hmk ys)

theorem rebuild_keeps {rec : Visit P} (hf : Keeps I rec) {r : Nat} {mk : Nat → Obj P} {s s' : St P}
    {b : Nat} (ha : I s.heap) (hmk : ∀ y, Plain Ok (mk y)) (h : rebuild rec r mk s = .ok (b, s')) : I s'.heap := by
  unfold rebuild at h
  cases hm : rec r s with
  | error e => rw [hm] at h; cases h
  | ok y =>
    obtain ⟨y, s1⟩ := y
    rw [hm] at h
    cases h
    exact hI.alloc (hf _ _ _ _ ha hm) (hmk y)

omit hI in
theorem visitTerm_keeps {rec : Visit P} (hf : Keeps I rec) : Keeps I (visitTerm rec) := by
  intro t s y s' ha h
  cases t with
  | pred p => cases h; exact ha
  | rule r =>
    simp only [visitTerm] at h
    cases hm : rec r s with
    | error e => rw [hm] at h; cases h
    | ok y => rw [hm] at h; cases h; exact hf _ _ _ _ ha hm

theorem default_keeps : MethodKeeps I (defaultMethod (P := P)) := by
  intro n rec hr a o s b s' ho ha h
  cases o <;> simp only [defaultMethod] at h
  all_goals first
    | exact rebuildAll_keeps hI (visitTerm_keeps hr) ha (fun _ => by trivial) h
    | exact rebuildAll_keeps hI hr ha (fun _ => by trivial) h
    | exact rebuild_keeps hI hr ha (fun _ => by trivial) h
    | (refine rebuild_keeps hI hr ha (fun y => ?_) h; exact hI.given ha ho)
    | (cases h; done)
    | (cases h; exact ha)

theorem visitNew_keeps {rec : Visit P} (hr : Keeps I rec) {o : Obj P} {s s' : St P} {b : Nat}
    (ha : I s.heap) (ho : Plain Ok o) (h : visitNew rec o s = .ok (b, s')) : I s'.heap :=
  hr _ _ _ _ (hI.alloc ha ho) h

theorem squashBounded_keeps {rec : Visit P} (hr : Keeps I rec) {child : Nat}
    {mk : Nat → Obj P} {s s' : St P} {b : Nat} (ha : I s.heap) (hmk : ∀ y, Plain Ok (mk y))
    (h : squashBounded rec child mk s = .ok (b, s')) : I s'.heap := by
  unfold squashBounded at h
  split at h
  · exact visitNew_keeps hI hr ha (by trivial) h
  · cases h
  · exact visitNew_keeps hI hr (hI.alloc ha (hmk _)) (by trivial) h
  · exact rebuild_keeps hI hr ha hmk h

theorem squash_keeps : MethodKeeps I (squashMethod (P := P)) := by
  intro n rec hr a o s b s' ho ha h
  unfold squashMethod at h
  split at h
  iterate 3
    · split at h
      all_goals first
        | exact visitNew_keeps hI hr ha (by trivial) h
        | exact rebuild_keeps hI hr ha (fun _ => by trivial) h
        | (cases h; done)
  iterate 3
    · exact squashBounded_keeps hI hr ha (fun _ => by trivial) h
  · exact default_keeps hI n rec hr a _ s b s' ho ha h

theorem stRule_keeps {s : St P} {items : List Nat} (ha : I s.heap) : I (s.rule items).2.heap :=
  hI.alloc (hI.alloc ha (by trivial)) (by trivial)

theorem maxBound_keeps (item : Nat) (rev : Bool) : ∀ (n : Nat) (s : St P),
    I s.heap → I (maxBound item rev n s).2.heap
  | 0, _, ha => ha
  | 1, _, ha => ha
  | n + 2, s, ha => by
    simp only [maxBound]
    exact hI.alloc (stRule_keeps hI (maxBound_keeps item rev (n + 1) s ha)) (by trivial)

theorem mkRepeatable_keeps (item : Nat) (rev : Bool) (s : St P) (ha : I s.heap) :
    I (mkRepeatable item rev s).2.heap := by
  simp only [mkRepeatable]
  exact hI.alloc (stRule_keeps hI (s := (s.alloc (.forward (some (s.heap.length + 3)))).2)
    (hI.alloc ha (by trivial))) (by trivial)

theorem extended_keeps : MethodKeeps I (extendedMethod (P := P)) := by
  intro n rec hr a o s b s' ho ha h
  have key : ∀ r {f : Nat × St P → Nat × St P} {b s'}, (∀ y s1, I s1.heap → I (f (y, s1)).2.heap) →
      (rec r s).map f = .ok (b, s') → I s'.heap := by
    intro r f b s' hf h
    cases hm : rec r s with
    | error e => rw [hm] at h; cases h
    | ok y =>
      obtain ⟨y, s1⟩ := y
      rw [hm] at h
      have := hf y s1 (hr _ _ _ _ ha hm)
      simp only [Except.map, Except.ok.injEq] at h
      rw [h] at this
      exact this
  unfold extendedMethod at h
  split at h
  · exact key _ (fun y s1 h1 => mkRepeatable_keeps hI _ _ _ h1) h
  · refine key _ (fun y s1 h1 => ?_) h
    simp only [mkOptional]
    exact hI.alloc (hI.alloc h1 (by trivial)) (by trivial)
  · refine key _ (fun y s1 h1 => ?_) h
    simp only [mkRepOptional]
    exact hI.alloc (hI.alloc (hI.alloc (hI.alloc (hI.alloc h1 (by trivial)) (by trivial)) (by trivial)) (by trivial)) (by trivial)
  · refine key _ (fun y s1 h1 => ?_) h
    dsimp only
    exact stRule_keeps hI (mkRepeatable_keeps hI _ _ _ h1)
  · exact key _ (fun y s1 h1 => maxBound_keeps hI _ _ _ _ h1) h
  · refine key _ (fun y s1 h1 => ?_) h
    dsimp only
    exact stRule_keeps hI (maxBound_keeps hI _ _ _ _ h1)
  · exact default_keeps hI n rec hr a _ s b s' ho ha h

theorem or_keeps : MethodKeeps I (orMethod (P := P)) := by
  intro n rec hr a o s b s' ho ha h
  unfold orMethod at h
  split at h
  · refine rebuildAll_keeps hI (f := visitProd rec) ?_ ha (fun _ => by trivial) h
    intro r s y s' ha h
    exact rebuild_keeps hI hr ha (fun _ => by trivial) h
  · exact default_keeps hI n rec hr a _ s b s' ho ha h

theorem empty_keeps : MethodKeeps I (emptyMethod (P := P)) := by
  intro n rec hr a o s b s' ho ha h
  unfold emptyMethod at h
  split at h
  · cases h
    exact hI.alloc (hI.alloc ha (by trivial)) (by trivial)
  · exact default_keeps hI n rec hr a _ s b s' ho ha h

omit hI in
theorem flattenTerm_keeps {rec : Visit P} (hr : Keeps I rec) : ∀ n, Keeps I (flattenTerm rec n) := by
  intro n
  induction n with
  | zero => intro t s y s' _ h; cases h
  | succ n ih =>
    intro t s y s' ha h
    cases t with
    | pred p => cases h; exact ha
    | rule r =>
      simp only [flattenTerm] at h
      split at h
      · split at h
        · exact ih _ _ _ _ ha h
        · exact visitTerm_keeps hr _ _ _ _ ha h
      · exact visitTerm_keeps hr _ _ _ _ ha h

theorem flatten_keeps : MethodKeeps I (flattenMethod (P := P)) := by
  intro n rec hr a o s b s' ho ha h
  unfold flattenMethod at h
  split at h
  · split at h
    · split at h
      · exact hr _ _ _ _ ha h
      · exact rebuildAll_keeps hI (flattenTerm_keeps hr n) ha (fun _ => by trivial) h
    · exact rebuildAll_keeps hI (flattenTerm_keeps hr n) ha (fun _ => by trivial) h
  · exact default_keeps hI n rec hr a _ s b s' ho ha h

theorem lift_keeps {s : St P} {x : Nat} (ha : I s.heap) : I (s.lift x).2.heap :=
  hI.alloc (hI.alloc ha (by trivial)) (by trivial)

theorem visitWrapper_keeps {parents : Nat → Nat} {rec : Visit P} (hr : Keeps I rec)
    {r : Nat} {x : Attr} {s s' : St P} {b : Nat} (ha : I s.heap) (hx : ∀ n, x = .name n → Ok n)
    (h : visitWrapper parents rec r x s = .ok (b, s')) : I s'.heap := by
  unfold visitWrapper at h
  split at h
  · cases h
  · rename_i b1 s1 h1
    have ha1 : I s1.heap := by
      unfold visitWrapped at h1
      split at h1
      · cases h1; exact lift_keeps hI ha
      · split at h1
        · cases h1
        · cases hm : rec r s with
          | error e => rw [hm] at h1; cases h1
          | ok y =>
            obtain ⟨y, s2⟩ := y
            rw [hm] at h1
            have := hr _ _ _ _ ha hm
            simp only [Except.map, Except.ok.injEq] at h1
            split at h1
            · have h3 := lift_keeps hI (x := y) this
              rw [h1] at h3
              exact h3
            · cases h1; exact this
    split at h
    · cases h
    · rename_i has _
      cases has with
      | true => cases h; exact hI.attr (lift_keeps hI ha1) hx
      | false => cases h; exact hI.attr ha1 hx

theorem bnf_keeps (parents : Nat → Nat) : MethodKeeps I (bnfMethod (P := P) parents) := by
  intro n rec hr a o s b s' ho ha h
  unfold bnfMethod at h
  split at h
  · exact rebuildAll_keeps hI hr ha (fun _ => by trivial) h
  · exact rebuildAll_keeps hI hr ha (fun _ => by trivial) h
  · cases h
  · cases h
  · exact visitWrapper_keeps hI hr ha (by rintro m ⟨⟩; exact hI.given ha ho) h
  · exact visitWrapper_keeps hI hr ha (by rintro m ⟨⟩) h
  · exact visitWrapper_keeps hI hr ha (by rintro m ⟨⟩) h
  · exact hI.keys ha ho h
  · exact default_keeps hI n rec hr a _ s b s' ho ha h

end
end Yargy.Whole
