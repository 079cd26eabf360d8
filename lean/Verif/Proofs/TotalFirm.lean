import Verif.Proofs.TotalGrow
/-!
A higher recursion limit changes nothing but `RecursionError`.
-/
namespace Yargy

variable {P : Type}

/-- The second result is the first one, unless that was cut off. -/
def Same {α : Type} (x y : Except Err α) : Prop := y = x ∨ x = .error .recursionError

theorem Same.refl {α : Type} (x : Except Err α) : Same x x := .inl rfl

theorem Same.map {α β : Type} {x y : Except Err α} (h : Same x y) (f : α → β) : Same (x.map f) (y.map f) := by
  rcases h with rfl | rfl
  · exact .inl rfl
  · exact .inr rfl

theorem Same.bind {α β : Type} {x y : Except Err α} (h : Same x y) {f g : α → Except Err β}
    (hf : ∀ a, Same (f a) (g a)) : Same (x.bind f) (y.bind g) := by
  rcases h with rfl | rfl
  · cases y with
    | error e => exact .inl rfl
    | ok a => exact hf a
  · exact .inr rfl

/-- The second visit makes what the first one makes, unless that is cut off. -/
def Firm {α β : Type} (f g : α → St P → Except Err (β × St P)) : Prop := ∀ a s, Same (f a s) (g a s)

theorem mapSt_firm {α β : Type} {f g : α → St P → Except Err (β × St P)} (h : Firm f g) :
    Firm (mapSt f) (mapSt g) := by
  intro xs
  induction xs with
  | nil => intro s; exact .refl _
  | cons x xs ih =>
    intro s
    simp only [mapSt]
    rcases h x s with e | e
    · rw [e]
      cases f x s with
      | error _ => exact .inl rfl
      | ok y =>
        simp only
        rcases ih y.2 with e | e
        · rw [e]; exact .inl rfl
        · rw [e]; exact .inr rfl
    · rw [e]; exact .inr rfl

theorem visitTerm_firm {rec rec' : Visit P} (h : Firm rec rec') : Firm (visitTerm rec) (visitTerm rec') := by
  intro t s
  cases t with
  | pred p => exact .refl _
  | rule r => exact (h r s).map _

theorem rebuild_firm {rec rec' : Visit P} (h : Firm rec rec') (r : Nat) (mk : Nat → Obj P) (s : St P) :
    Same (rebuild rec r mk s) (rebuild rec' r mk s) := (h r s).map _

theorem rebuildAll_firm {α β : Type} {f g : α → St P → Except Err (β × St P)} (h : Firm f g)
    (xs : List α) (mk : List β → Obj P) (s : St P) :
    Same (rebuildAll f xs mk s) (rebuildAll g xs mk s) := (mapSt_firm h xs s).map _

def MethodFirm (m : Method P) : Prop :=
  ∀ n n' rec rec', n ≤ n' → Firm rec rec' → ∀ a o s, Same (m n rec a o s) (m n' rec' a o s)

theorem default_firm : MethodFirm (defaultMethod : Method P) := by
  intro n n' rec rec' _ h a o s
  cases o <;> simp only [defaultMethod] <;>
    first
    | exact .refl _
    | exact rebuildAll_firm (visitTerm_firm h) _ _ _
    | exact rebuildAll_firm h _ _ _
    | exact rebuild_firm h _ _ _

theorem squashBounded_firm {rec rec' : Visit P} (h : Firm rec rec') (c : Nat) (mk : Nat → Obj P) (s : St P) :
    Same (squashBounded rec c mk s) (squashBounded rec' c mk s) := by
  unfold squashBounded
  split
  · exact h _ _
  · exact .refl _
  · exact h _ _
  · exact rebuild_firm h _ _ _

theorem squash_firm : MethodFirm (squashMethod : Method P) := by
  intro n n' rec rec' hn h a o s
  cases o with
  | optional c v =>
    simp only [squashMethod]
    split <;> first | exact h _ _ | exact .refl _ | exact rebuild_firm h _ _ _
  | repeatable c v =>
    simp only [squashMethod]
    split <;> first | exact h _ _ | exact .refl _ | exact rebuild_firm h _ _ _
  | repOptional c v w =>
    simp only [squashMethod]
    split <;> first | exact h _ _ | exact .refl _ | exact rebuild_firm h _ _ _
  | minBounded c k v => exact squashBounded_firm h _ _ _
  | maxBounded c k v => exact squashBounded_firm h _ _ _
  | minMaxBounded c k l v => exact squashBounded_firm h _ _ _
  | _ =>
    simp only [squashMethod]
    exact default_firm n n' rec rec' hn h a _ s

theorem extended_firm : MethodFirm (extendedMethod : Method P) := by
  intro n n' rec rec' hn h a o s
  cases o <;> simp only [extendedMethod] <;>
    first
    | exact (h _ _).map _
    | exact default_firm n n' rec rec' hn h a _ s

theorem or_firm : MethodFirm (orMethod : Method P) := by
  intro n n' rec rec' hn h a o s
  cases o <;> simp only [orMethod] <;>
    first
    | exact rebuildAll_firm (fun _ _ => rebuild_firm h _ _ _) _ _ _
    | exact default_firm n n' rec rec' hn h a _ s

theorem empty_firm : MethodFirm (emptyMethod : Method P) := by
  intro n n' rec rec' hn h a o s
  cases o <;> simp only [emptyMethod] <;>
    first
    | exact .refl _
    | exact default_firm n n' rec rec' hn h a _ s

theorem flattenTerm_firm {rec rec' : Visit P} (h : Firm rec rec') :
    ∀ {n n' : Nat}, n ≤ n' → Firm (flattenTerm rec n) (flattenTerm rec' n') := by
  intro n
  induction n with
  | zero => intro n' _ t s; exact .inr (by simp [flattenTerm])
  | succ n ih =>
    intro n' hn t s
    obtain ⟨k, rfl⟩ : ∃ k, n' = k + 1 := ⟨n' - 1, by omega⟩
    cases t with
    | pred p => exact .refl _
    | rule r =>
      simp only [flattenTerm]
      split
      · split
        · exact ih (by omega) _ _
        · exact visitTerm_firm h _ _
      · exact visitTerm_firm h _ _

theorem flatten_firm : MethodFirm (flattenMethod : Method P) := by
  intro n n' rec rec' hn h a o s
  cases o with
  | prod ts k =>
    simp only [flattenMethod]
    split
    · split
      · exact h _ _
      · exact rebuildAll_firm (flattenTerm_firm h hn) _ _ _
    · exact rebuildAll_firm (flattenTerm_firm h hn) _ _ _
  | _ =>
    simp only [flattenMethod]
    exact default_firm n n' rec rec' hn h a _ s

theorem visitWrapped_firm {parents : Nat → Nat} {rec rec' : Visit P} (h : Firm rec rec') (r : Nat) (s : St P) :
    Same (visitWrapped parents rec r s) (visitWrapped parents rec' r s) := by
  unfold visitWrapped
  split
  · exact .refl _
  · split
    · exact .refl _
    · exact (h _ _).map _

theorem visitWrapper_firm {parents : Nat → Nat} {rec rec' : Visit P} (h : Firm rec rec') (r : Nat) (y : Attr)
    (s : St P) : Same (visitWrapper parents rec r y s) (visitWrapper parents rec' r y s) := by
  unfold visitWrapper
  rcases visitWrapped_firm (parents := parents) h r s with e | e
  · rw [e]; exact .inl rfl
  · rw [e]; exact .inr rfl

theorem bnf_firm (parents : Nat → Nat) : MethodFirm (bnfMethod parents : Method P) := by
  intro n n' rec rec' hn h a o s
  cases o <;> simp only [bnfMethod] <;>
    first
    | exact .refl _
    | exact rebuildAll_firm h _ _ _
    | exact visitWrapper_firm h _ _ _
    | exact default_firm n n' rec rec' hn h a _ s

theorem visit_firm {m : Method P} (hm : MethodFirm m) {pid : Nat → Nat} :
    ∀ {n n' : Nat}, n ≤ n' → Firm (visit m pid n) (visit m pid n') := by
  intro n
  induction n with
  | zero => intro n' _ a s; exact .inr (by simp [visit])
  | succ n ih =>
    intro n' hn a s
    obtain ⟨k, rfl⟩ : ∃ k, n' = k + 1 := ⟨n' - 1, by omega⟩
    unfold visit
    split
    · exact .refl _
    · split
      · exact .refl _
      · rename_i o _
        rcases hm n k _ _ (by omega) (ih (by omega : n ≤ k)) a o s with e | e
        · rw [e]; exact .inl rfl
        · rw [e]; exact .inr rfl

theorem redefine_firm {m : Method P} (hm : MethodFirm m) {pid : Nat → Nat} {limit limit' : Nat}
    (hl : limit ≤ limit') : ∀ {n n' : Nat}, n ≤ n' → ∀ (queue seen : List Nat) (s : St P),
      Same (redefine m pid limit n queue seen s) (redefine m pid limit' n' queue seen s) := by
  intro n
  induction n with
  | zero => intro n' _ queue seen s; exact .inr (by simp [redefine])
  | succ n ih =>
    intro n' hn queue seen s
    obtain ⟨k, rfl⟩ : ∃ k, n' = k + 1 := ⟨n' - 1, by omega⟩
    cases queue with
    | nil => exact .refl _
    | cons a queue =>
      simp only [redefine]
      split
      · rename_i r _
        rcases visit_firm hm (pid := pid) hl r s with e | e
        · rw [e]
          cases visit m pid limit r s with
          | error _ => exact .refl _
          | ok x =>
            simp only
            split
            · exact .refl _
            · exact ih (by omega) _ _ _
        · rw [e]; exact .inr rfl
      · exact ih (by omega) _ _ _

theorem transform_firm {m : Method P} (hm : MethodFirm m) {pid : Nat → Nat} {limit limit' : Nat}
    (hl : limit ≤ limit') (root : Nat) (h : Heap P) :
    Same (transform m pid limit root h) (transform m pid limit' root h) := by
  unfold transform
  rcases redefine_firm hm (pid := pid) hl hl [root] [pid root] { heap := h } with e | e
  · rw [e]
    cases redefine m pid limit limit [root] [pid root] { heap := h } with
    | error _ => exact .refl _
    | ok s => exact (visit_firm hm hl root s).map _
  · rw [e]; exact .inr rfl

theorem normalized_firm {pid : Nat → Nat} {limit limit' : Nat} (hl : limit ≤ limit') (root : Nat) (h : Heap P) :
    Same (normalized pid limit root h) (normalized pid limit' root h) := by
  unfold normalized replaced
  refine Same.bind (transform_firm squash_firm hl _ _) fun x => ?_
  refine Same.bind (transform_firm extended_firm hl _ _) fun x => ?_
  refine Same.bind (transform_firm or_firm hl _ _) fun x => ?_
  exact Same.bind (transform_firm empty_firm hl _ _) fun x => transform_firm flatten_firm hl _ _

theorem asBnf_firm {pid : Nat → Nat} {limit limit' : Nat} (hl : limit ≤ limit') (root : Nat) (h : Heap P) :
    Same (asBnf pid limit root h) (asBnf pid limit' root h) := by
  unfold asBnf toBnf
  exact Same.bind (transform_firm (bnf_firm _) hl _ _) fun x => .refl _

theorem compileRule_firm {A : Activation P} {pid : Nat → Nat} {limit limit' : Nat} (hl : limit ≤ limit')
    (root : Nat) (h : Heap P) : Same (compileRule A pid limit root h) (compileRule A pid limit' root h) := by
  unfold compileRule
  exact Same.bind (.refl _) fun h1 => Same.bind (normalized_firm hl _ _) fun x => asBnf_firm hl _ _

end Yargy
