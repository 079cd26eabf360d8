import Verif.Proofs.FrameCompile
/-!
More recursion never hurts: what a transformator makes of a rule with some recursion limit, it makes of
it with every larger one.
-/
namespace Yargy

variable {P : Type}

/-- Whatever the first visit makes, the second one makes as well. -/
def Grows {α β : Type} (f g : α → St P → Except Err (β × St P)) : Prop :=
  ∀ a s x, f a s = .ok x → g a s = .ok x

theorem map_grows {α β : Type} {x y : Except Err α} {f : α → β} {z : β} (h : x.map f = .ok z)
    (hxy : ∀ w, x = .ok w → y = .ok w) : y.map f = .ok z := by
  cases x with
  | error e => cases h
  | ok w => rw [hxy w rfl]; exact h

theorem mapSt_grows {α β : Type} {f g : α → St P → Except Err (β × St P)} (h : Grows f g) :
    Grows (mapSt f) (mapSt g) := by
  intro xs
  induction xs with
  | nil => intro s x e; exact e
  | cons x xs ih =>
    intro s y e
    simp only [mapSt] at e ⊢
    split at e
    · cases e
    · rename_i h1
      rw [h _ _ _ h1]
      split at e
      · cases e
      · rename_i h2
        simp only [ih _ _ h2]
        exact e

theorem visitTerm_grows {rec rec' : Visit P} (h : Grows rec rec') : Grows (visitTerm rec) (visitTerm rec') := by
  intro t s x e
  cases t with
  | pred p => exact e
  | rule r => exact map_grows e (fun w => h _ _ w)

theorem rebuild_grows {rec rec' : Visit P} (h : Grows rec rec') {r : Nat} {mk : Nat → Obj P} {s : St P}
    {x : Nat × St P} (e : rebuild rec r mk s = .ok x) : rebuild rec' r mk s = .ok x :=
  map_grows e (fun w => h _ _ w)

theorem rebuildAll_grows {α β : Type} {f g : α → St P → Except Err (β × St P)} (h : Grows f g)
    {xs : List α} {mk : List β → Obj P} {s : St P} {x : Nat × St P}
    (e : rebuildAll f xs mk s = .ok x) : rebuildAll g xs mk s = .ok x :=
  map_grows e (fun w => mapSt_grows h _ _ w)

/-- The methods of a transformator make the same with more recursion. -/
def MethodGrows (m : Method P) : Prop :=
  ∀ n n' rec rec', n ≤ n' → Grows rec rec' → ∀ a o s x, m n rec a o s = .ok x → m n' rec' a o s = .ok x

theorem default_grows : MethodGrows (defaultMethod : Method P) := by
  intro n n' rec rec' _ h a o s x e
  cases o <;> simp only [defaultMethod] at e ⊢ <;>
    first
    | exact e
    | exact rebuildAll_grows (visitTerm_grows h) e
    | exact rebuildAll_grows h e
    | exact rebuild_grows h e

theorem squashBounded_grows {rec rec' : Visit P} (h : Grows rec rec') {c : Nat} {mk : Nat → Obj P}
    {s : St P} {x : Nat × St P} (e : squashBounded rec c mk s = .ok x) : squashBounded rec' c mk s = .ok x := by
  unfold squashBounded at e ⊢
  split at e
  · exact h _ _ _ e
  · cases e
  · exact h _ _ _ e
  · exact rebuild_grows h e

theorem squash_grows : MethodGrows (squashMethod : Method P) := by
  intro n n' rec rec' hn h a o s x e
  cases o with
  | optional c v =>
    simp only [squashMethod] at e ⊢
    split at e
    · exact h _ _ _ e
    · cases e
    · exact h _ _ _ e
    · exact rebuild_grows h e
  | repeatable c v =>
    simp only [squashMethod] at e ⊢
    split at e
    · exact h _ _ _ e
    · cases e
    · exact h _ _ _ e
    · exact h _ _ _ e
    · exact h _ _ _ e
    · exact h _ _ _ e
    · exact rebuild_grows h e
  | repOptional c v w =>
    simp only [squashMethod] at e ⊢
    split at e
    · exact h _ _ _ e
    · exact h _ _ _ e
    · exact h _ _ _ e
    · exact h _ _ _ e
    · exact h _ _ _ e
    · exact h _ _ _ e
    · exact rebuild_grows h e
  | minBounded c k v => exact squashBounded_grows h e
  | maxBounded c k v => exact squashBounded_grows h e
  | minMaxBounded c k l v => exact squashBounded_grows h e
  | _ =>
    simp only [squashMethod] at e ⊢
    exact default_grows n n' rec rec' hn h a _ s x e

theorem extended_grows : MethodGrows (extendedMethod : Method P) := by
  intro n n' rec rec' hn h a o s x e
  cases o <;> simp only [extendedMethod] at e ⊢ <;>
    first
    | exact map_grows e (fun w => h _ _ w)
    | exact default_grows n n' rec rec' hn h a _ s x e

theorem or_grows : MethodGrows (orMethod : Method P) := by
  intro n n' rec rec' hn h a o s x e
  cases o <;> simp only [orMethod] at e ⊢ <;>
    first
    | exact rebuildAll_grows (fun _ _ _ e => rebuild_grows h e) e
    | exact default_grows n n' rec rec' hn h a _ s x e

theorem empty_grows : MethodGrows (emptyMethod : Method P) := by
  intro n n' rec rec' hn h a o s x e
  cases o <;> simp only [emptyMethod] at e ⊢ <;>
    first
    | exact e
    | exact default_grows n n' rec rec' hn h a _ s x e

theorem flattenTerm_grows {rec rec' : Visit P} (h : Grows rec rec') :
    ∀ {n n' : Nat}, n ≤ n' → Grows (flattenTerm rec n) (flattenTerm rec' n') := by
  intro n
  induction n with
  | zero => intro n' _ t s x e; simp [flattenTerm] at e
  | succ n ih =>
    intro n' hn t s x e
    obtain ⟨k, rfl⟩ : ∃ k, n' = k + 1 := ⟨n' - 1, by omega⟩
    cases t with
    | pred p => exact e
    | rule r =>
      simp only [flattenTerm] at e ⊢
      split at e
      · split at e
        · exact ih (by omega) _ _ _ e
        · exact visitTerm_grows h _ _ _ e
      · exact visitTerm_grows h _ _ _ e

theorem flatten_grows : MethodGrows (flattenMethod : Method P) := by
  intro n n' rec rec' hn h a o s x e
  cases o with
  | prod ts k =>
    simp only [flattenMethod] at e ⊢
    split at e
    · split at e
      · exact h _ _ _ e
      · exact rebuildAll_grows (flattenTerm_grows h hn) e
    · exact rebuildAll_grows (flattenTerm_grows h hn) e
  | _ =>
    simp only [flattenMethod] at e ⊢
    exact default_grows n n' rec rec' hn h a _ s x e

theorem visitWrapped_grows {parents : Nat → Nat} {rec rec' : Visit P} (h : Grows rec rec') {r : Nat} {s : St P}
    {x : Nat × St P} (e : visitWrapped parents rec r s = .ok x) : visitWrapped parents rec' r s = .ok x := by
  unfold visitWrapped at e ⊢
  split at e
  · exact e
  · split at e
    · cases e
    · rename_i hn
      rw [if_neg hn]
      exact map_grows e (fun w => h _ _ w)

theorem visitWrapper_grows {parents : Nat → Nat} {rec rec' : Visit P} (h : Grows rec rec') {r : Nat} {y : Attr}
    {s : St P} {x : Nat × St P} (e : visitWrapper parents rec r y s = .ok x) :
    visitWrapper parents rec' r y s = .ok x := by
  unfold visitWrapper at e ⊢
  split at e
  · cases e
  · rename_i h1
    rw [visitWrapped_grows h h1]
    exact e

theorem bnf_grows (parents : Nat → Nat) : MethodGrows (bnfMethod parents : Method P) := by
  intro n n' rec rec' hn h a o s x e
  cases o <;> simp only [bnfMethod] at e ⊢ <;>
    first
    | exact e
    | exact rebuildAll_grows h e
    | exact visitWrapper_grows h e
    | exact default_grows n n' rec rec' hn h a _ s x e

theorem visit_grows {m : Method P} (hm : MethodGrows m) {pid : Nat → Nat} :
    ∀ {n n' : Nat}, n ≤ n' → Grows (visit m pid n) (visit m pid n') := by
  intro n
  induction n with
  | zero => intro n' _ a s x e; simp [visit] at e
  | succ n ih =>
    intro n' hn a s x e
    obtain ⟨k, rfl⟩ : ∃ k, n' = k + 1 := ⟨n' - 1, by omega⟩
    unfold visit at e ⊢
    split at e
    · exact e
    · split at e
      · cases e
      · split at e
        · cases e
        · rename_i h1
          rw [hm n k _ _ (by omega) (ih (by omega)) _ _ _ _ h1]
          exact e

theorem redefine_grows {m : Method P} (hm : MethodGrows m) {pid : Nat → Nat} {limit limit' : Nat}
    (hl : limit ≤ limit') : ∀ {n n' : Nat}, n ≤ n' → ∀ {queue seen : List Nat} {s s' : St P},
      redefine m pid limit n queue seen s = .ok s' → redefine m pid limit' n' queue seen s = .ok s' := by
  intro n
  induction n with
  | zero => intro n' _ queue seen s s' e; simp [redefine] at e
  | succ n ih =>
    intro n' hn queue seen s s' e
    obtain ⟨k, rfl⟩ : ∃ k, n' = k + 1 := ⟨n' - 1, by omega⟩
    cases queue with
    | nil => exact e
    | cons a queue =>
      simp only [redefine] at e ⊢
      split at e
      · split at e
        · cases e
        · rename_i h1
          rw [visit_grows hm hl _ _ _ h1]
          simp only
          split at e
          · cases e
          · exact ih (by omega) e
      · exact ih (by omega) e

theorem transform_grows {m : Method P} (hm : MethodGrows m) {pid : Nat → Nat} {limit limit' root : Nat}
    {h : Heap P} (hl : limit ≤ limit') {x : Nat × Heap P} (e : transform m pid limit root h = .ok x) :
    transform m pid limit' root h = .ok x := by
  unfold transform at e ⊢
  split at e
  · cases e
  · rename_i h1
    rw [redefine_grows hm hl hl h1]
    exact map_grows e (fun w => visit_grows hm hl _ _ w)

end Yargy
