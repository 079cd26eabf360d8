import Verif.Model.Compile
import Verif.Spec.Choices
import Verif.Proofs.Util
/-!
Properties of single objects that compiling keeps true of all objects.
-/
namespace Yargy

variable {P : Type} {Q : Obj P → Prop}

/-- Objects made from objects with the property have it. -/
structure Stable (Q : Obj P → Prop) : Prop where
  terms : ∀ {ts ts' m}, Q (.prod ts m) → ts'.length = ts.length → Q (.prod ts' m)
  prod : ∀ t ts m, Q (.prod (t :: ts) m)
  pipeProd : ∀ {d ks} v t ts, Q (.pipe (.keys d ks)) → Q (.pipeProd v (t :: ts))
  rule : ∀ ps, Q (.rule ps)
  or : ∀ rs, Q (.or rs)
  forward : ∀ r, Q (.forward r)
  repeatable : ∀ r v, Q (.repeatable r v)
  pipe : ∀ {p p'}, Q (.pipe p) → p'.kind = p.kind → Q (.pipe p')
  pipeBnf : ∀ {d ks} ps, Q (.pipe (.keys d ks)) → Q (.bnf ps none none none (some d))
  optional : ∀ {r v} r' v', Q (.optional r v) → Q (.optional r' v')
  both : ∀ {r v} r' u' v', Q (.optional r v) → Q (.repOptional r' u' v')
  repOptional : ∀ {r u v} r' u' v', Q (.repOptional r u v) → Q (.repOptional r' u' v')
  empty : ∀ {r v}, Q (.optional r v) → Q .empty
  empty' : ∀ {r u v}, Q (.repOptional r u v) → Q .empty
  emptyProd : Q .empty → Q .emptyProd
  minBounded : ∀ {r n v} r', Q (.minBounded r n v) → Q (.minBounded r' n v)
  maxBounded : ∀ {r n v} r', Q (.maxBounded r n v) → Q (.maxBounded r' n v)
  minMaxBounded : ∀ {r n m v} r', Q (.minMaxBounded r n m v) → Q (.minMaxBounded r' n m v)
  named : ∀ {r n} r', Q (.named r n) → Q (.named r' n)
  interp : ∀ {r n} r', Q (.interp r n) → Q (.interp r' n)
  relation : ∀ {r n} r', Q (.relation r n) → Q (.relation r' n)
  bnf : ∀ ps, Q (.bnf ps none none none none)
  setName : ∀ {ps n i r d} n', Q (.bnf ps n i r d) → Q (.bnf ps n' i r d)
  setInterp : ∀ {ps n i r d a x}, Q (.interp a x) → Q (.bnf ps n i r d) → Q (.bnf ps n (some x) r d)
  setRelation : ∀ {ps n i r d a x}, Q (.relation a x) → Q (.bnf ps n i r d) →
    Q (.bnf ps n i (some x) d)

def All (Q : Obj P → Prop) (s : St P) : Prop := ∀ o ∈ s.heap, Q o

def Keeps {α β : Type} (Q : Obj P → Prop) (f : α → St P → Except Err (β × St P)) : Prop :=
  ∀ x s y s', All Q s → f x s = .ok (y, s') → All Q s'

def MethodKeeps (Q : Obj P → Prop) (m : Method P) : Prop :=
  ∀ n rec, Keeps Q rec → ∀ (a : Nat) (o : Obj P) s b s', s.heap[a]? = some o → All Q s →
    m n rec a o s = .ok (b, s') → All Q s'

theorem all_alloc {s : St P} {o : Obj P} (ha : All Q s) (ho : Q o) : All Q (s.alloc o).2 := by
  intro x hx
  simp only [St.alloc, List.mem_append, List.mem_singleton] at hx
  rcases hx with hx | rfl
  · exact ha x hx
  · exact ho

theorem visit_keeps {m : Method P} {pid : Nat → Nat} (hm : MethodKeeps Q m) :
    ∀ n, Keeps Q (visit m pid n) := by
  intro n
  induction n with
  | zero => intro a s b s' _ h; simp [visit] at h
  | succ n ih =>
    intro a s b s' ha h
    unfold visit at h
    split at h
    · cases h; exact ha
    · split at h
      · cases h
      · rename_i o ho
        split at h
        · cases h
        · rename_i hr
          cases h
          have := hm n _ ih a o s _ _ ho ha hr
          exact this

theorem mapSt_keeps {α β : Type} {f : α → St P → Except Err (β × St P)} (hf : Keeps Q f) :
    ∀ (xs : List α) s ys s', All Q s → mapSt f xs s = .ok (ys, s') →
      All Q s' ∧ ys.length = xs.length := by
  intro xs
  induction xs with
  | nil => intro s ys s' ha h; cases h; exact ⟨ha, rfl⟩
  | cons x xs ih =>
    intro s ys s' ha h
    simp only [mapSt] at h
    split at h
    · cases h
    · rename_i h1
      split at h
      · cases h
      · rename_i h2
        cases h
        obtain ⟨h3, h4⟩ := ih _ _ _ (hf _ _ _ _ ha h1) h2
        exact ⟨h3, by simp [h4]⟩

theorem rebuildAll_keeps {α β : Type} {f : α → St P → Except Err (β × St P)} (hf : Keeps Q f)
    {xs : List α} {mk : List β → Obj P} {s s' : St P} {b : Nat} (ha : All Q s)
    (hmk : ∀ ys, ys.length = xs.length → Q (mk ys)) (h : rebuildAll f xs mk s = .ok (b, s')) :
    All Q s' := by
  unfold rebuildAll at h
  cases hm : mapSt f xs s with
  | error e => rw [hm] at h; cases h
  | ok y =>
    obtain ⟨ys, s1⟩ := y
    rw [hm] at h
    cases h
    obtain ⟨h1, h2⟩ := mapSt_keeps hf _ _ _ _ ha hm
    exact all_alloc h1 (hmk ys h2)

theorem rebuild_keeps {rec : Visit P} (hf : Keeps Q rec) {r : Nat} {mk : Nat → Obj P} {s s' : St P}
    {b : Nat} (ha : All Q s) (hmk : ∀ y, Q (mk y)) (h : rebuild rec r mk s = .ok (b, s')) :
    All Q s' := by
  unfold rebuild at h
  cases hm : rec r s with
  | error e => rw [hm] at h; cases h
  | ok y =>
    obtain ⟨y, s1⟩ := y
    rw [hm] at h
    cases h
    exact all_alloc (hf _ _ _ _ ha hm) (hmk y)

theorem visitTerm_keeps {rec : Visit P} (hf : Keeps Q rec) : Keeps Q (visitTerm rec) := by
  intro t s y s' ha h
  cases t with
  | pred p => cases h; exact ha
  | rule r =>
    simp only [visitTerm] at h
    cases hm : rec r s with
    | error e => rw [hm] at h; cases h
    | ok y => rw [hm] at h; cases h; exact hf _ _ _ _ ha hm

theorem default_keeps (hq : Stable Q) : MethodKeeps Q (defaultMethod (P := P)) := by
  intro n rec hr a o s b s' ho ha h
  have hqo := ha o (List.mem_of_getElem? ho)
  cases o <;> simp only [defaultMethod] at h
  case prod ts m => exact rebuildAll_keeps (visitTerm_keeps hr) ha (fun ys hy => hq.terms hqo hy) h
  case rule ps => exact rebuildAll_keeps hr ha (fun ys _ => hq.rule ys) h
  case or ps => exact rebuildAll_keeps hr ha (fun ys _ => hq.or ys) h
  case minBounded => exact rebuild_keeps hr ha (fun y => hq.minBounded y hqo) h
  case maxBounded => exact rebuild_keeps hr ha (fun y => hq.maxBounded y hqo) h
  case minMaxBounded => exact rebuild_keeps hr ha (fun y => hq.minMaxBounded y hqo) h
  case named => exact rebuild_keeps hr ha (fun y => hq.named y hqo) h
  case interp => exact rebuild_keeps hr ha (fun y => hq.interp y hqo) h
  case relation => exact rebuild_keeps hr ha (fun y => hq.relation y hqo) h
  case bnf => exact rebuildAll_keeps hr ha (fun ys _ => hq.rule ys) h
  all_goals (cases h; try exact ha)

theorem transform_keeps (hq : Stable Q) {m : Method P} {pid : Nat → Nat} (hm : MethodKeeps Q m)
    {limit root b : Nat} {h h' : Heap P} (e : transform m pid limit root h = .ok (b, h'))
    (ha : ∀ o ∈ h, Q o) : ∀ o ∈ h', Q o := by
  have hre : ∀ n queue seen (s s' : St P), redefine m pid limit n queue seen s = .ok s' → All Q s →
      All Q s' := by
    intro n
    induction n with
    | zero => intro queue seen s s' e; cases e
    | succ n ih =>
      intro queue seen s s' e ha
      cases queue with
      | nil => cases e; exact ha
      | cons a queue =>
        simp only [redefine] at e
        split at e
        · split at e
          · cases e
          · rename_i hv
            have h1 := visit_keeps hm _ _ _ _ _ ha hv
            split at e
            · cases e
            · rename_i g hg
              refine ih _ _ _ _ e ?_
              unfold defineForward at hg
              split at hg
              · cases hg
              · cases hg
                intro o ho
                rcases List.mem_or_eq_of_mem_set ho with ho | rfl
                · exact h1 o ho
                · exact hq.forward _
        · exact ih _ _ _ _ e ha
  unfold transform at e
  split at e
  · cases e
  · rename_i s hs
    cases hv : visit m pid limit root s with
    | error x => rw [hv] at e; cases e
    | ok y => rw [hv] at e; cases e; exact visit_keeps hm _ _ _ _ _ (hre _ _ _ _ _ hs ha) hv

/-! ### The passes -/

theorem visitNew_keeps {rec : Visit P} (hr : Keeps Q rec) {o : Obj P} {s s' : St P} {b : Nat}
    (ha : All Q s) (ho : Q o) (h : visitNew rec o s = .ok (b, s')) : All Q s' :=
  hr _ _ _ _ (all_alloc ha ho) h

theorem squashBounded_keeps (hq : Stable Q) {rec : Visit P} (hr : Keeps Q rec) {child : Nat}
    {mk : Nat → Obj P} {s s' : St P} {b : Nat} (ha : All Q s) (hmk : ∀ y, Q (mk y))
    (h : squashBounded rec child mk s = .ok (b, s')) : All Q s' := by
  unfold squashBounded at h
  split at h
  · exact visitNew_keeps hr ha (hq.repeatable _ _) h
  · cases h
  · rename_i ho
    exact visitNew_keeps hr (all_alloc ha (hmk _)) (hq.optional _ _ (ha _ (List.mem_of_getElem? ho))) h
  · exact rebuild_keeps hr ha hmk h

theorem squash_keeps (hq : Stable Q) : MethodKeeps Q (squashMethod (P := P)) := by
  intro n rec hr a o s b s' ho ha h
  have hqo := ha o (List.mem_of_getElem? ho)
  unfold squashMethod at h
  split at h
  · split at h
    · rename_i hc
      exact visitNew_keeps hr ha (hq.both _ _ _ (ha _ (List.mem_of_getElem? hc))) h
    · cases h
    all_goals first
      | exact visitNew_keeps hr ha (hq.repeatable _ _) h
      | exact rebuild_keeps hr ha (fun y => hq.repeatable _ _) h
  · split at h
    · exact visitNew_keeps hr ha (hq.both _ _ _ hqo) h
    · cases h
    · exact visitNew_keeps hr ha (hq.optional _ _ hqo) h
    · exact rebuild_keeps hr ha (fun y => hq.optional _ _ hqo) h
  · split at h
    all_goals first
      | exact visitNew_keeps hr ha (hq.repOptional _ _ _ hqo) h
      | exact rebuild_keeps hr ha (fun y => hq.repOptional _ _ _ hqo) h
  · exact squashBounded_keeps hq hr ha (fun y => hq.minBounded y hqo) h
  · exact squashBounded_keeps hq hr ha (fun y => hq.maxBounded y hqo) h
  · exact squashBounded_keeps hq hr ha (fun y => hq.minMaxBounded y hqo) h
  · exact default_keeps hq n rec hr a _ s b s' ho ha h

theorem stRule_keeps (hq : Stable Q) {s : St P} {x : Nat} {items : List Nat} (ha : All Q s) :
    All Q (s.rule (x :: items)).2 :=
  all_alloc (all_alloc ha (hq.prod _ _ _)) (hq.rule _)

theorem maxBound_keeps (hq : Stable Q) (item : Nat) (rev : Bool) : ∀ (n : Nat) (s : St P),
    All Q s → All Q (maxBound item rev n s).2
  | 0, _, ha => ha
  | 1, _, ha => ha
  | n + 2, s, ha => by
    simp only [maxBound]
    exact all_alloc (stRule_keeps hq (maxBound_keeps hq item rev (n + 1) s ha)) (hq.or _)

theorem mkRepeatable_keeps (hq : Stable Q) (item : Nat) (rev : Bool) (s : St P) (ha : All Q s) :
    All Q (mkRepeatable item rev s).2 := by
  simp only [mkRepeatable]
  exact all_alloc (stRule_keeps hq (all_alloc ha (hq.forward _))) (hq.or _)

theorem replicate_snoc {α : Type} (n : Nat) (x y : α) : ∃ z zs, List.replicate n x ++ [y] = z :: zs := by
  cases n with
  | zero => exact ⟨y, [], rfl⟩
  | succ n => exact ⟨x, List.replicate n x ++ [y], by simp [List.replicate_succ]⟩

theorem extended_keeps (hq : Stable Q) : MethodKeeps Q (extendedMethod (P := P)) := by
  intro n rec hr a o s b s' ho ha h
  have hqo := ha o (List.mem_of_getElem? ho)
  have key : ∀ r {f : Nat × St P → Nat × St P} {b s'}, (∀ y s1, All Q s1 → All Q (f (y, s1)).2) →
      (rec r s).map f = .ok (b, s') → All Q s' := by
    intro r f b s' hf h
    cases hm : rec r s with
    | error e => rw [hm] at h; cases h
    | ok y =>
      obtain ⟨y, s1⟩ := y
      rw [hm] at h
      have := hf y s1 (hr _ _ _ _ ha hm)
      simp only [Except.map, Except.ok.injEq] at h
      rw [h] at this
      exact this
  unfold extendedMethod at h
  split at h
  · exact key _ (fun y s1 h1 => mkRepeatable_keeps hq _ _ _ h1) h
  · refine key _ (fun y s1 h1 => ?_) h
    simp only [mkOptional]
    exact all_alloc (all_alloc h1 (hq.empty hqo)) (hq.or _)
  · refine key _ (fun y s1 h1 => ?_) h
    simp only [mkRepOptional]
    exact all_alloc (stRule_keeps hq (all_alloc (all_alloc h1 (hq.forward _)) (hq.empty' hqo)))
      (hq.or _)
  · rename_i r min rev
    refine key r (fun y s1 h1 => ?_) h
    dsimp only
    obtain ⟨z, zs, e⟩ := replicate_snoc (min - 1) y (mkRepeatable y rev s1).1
    rw [e]
    exact stRule_keeps hq (mkRepeatable_keeps hq _ _ _ h1)
  · exact key _ (fun y s1 h1 => maxBound_keeps hq _ _ _ _ h1) h
  · rename_i r min max rev
    refine key r (fun y s1 h1 => ?_) h
    dsimp only
    obtain ⟨z, zs, e⟩ := replicate_snoc (min - 1) y (maxBound y rev (max - min + 1) s1).1
    rw [e]
    exact stRule_keeps hq (maxBound_keeps hq _ _ _ _ h1)
  · exact default_keeps hq n rec hr a _ s b s' ho ha h

theorem or_keeps (hq : Stable Q) : MethodKeeps Q (orMethod (P := P)) := by
  intro n rec hr a o s b s' ho ha h
  unfold orMethod at h
  split at h
  · refine rebuildAll_keeps (f := visitProd rec) ?_ ha (fun ys _ => hq.rule ys) h
    intro r s y s' ha h
    exact rebuild_keeps hr ha (fun y => hq.prod _ _ _) h
  · exact default_keeps hq n rec hr a _ s b s' ho ha h

theorem empty_keeps (hq : Stable Q) : MethodKeeps Q (emptyMethod (P := P)) := by
  intro n rec hr a o s b s' ho ha h
  have hqo := ha o (List.mem_of_getElem? ho)
  unfold emptyMethod at h
  split at h
  · cases h
    exact all_alloc (all_alloc ha (hq.emptyProd hqo)) (hq.rule _)
  · exact default_keeps hq n rec hr a _ s b s' ho ha h

theorem flattenTerm_keeps {rec : Visit P} (hr : Keeps Q rec) : ∀ n, Keeps Q (flattenTerm rec n) := by
  intro n
  induction n with
  | zero => intro t s y s' _ h; cases h
  | succ n ih =>
    intro t s y s' ha h
    cases t with
    | pred p => cases h; exact ha
    | rule r =>
      simp only [flattenTerm] at h
      split at h
      · split at h
        · exact ih _ _ _ _ ha h
        · exact visitTerm_keeps hr _ _ _ _ ha h
      · exact visitTerm_keeps hr _ _ _ _ ha h

theorem flatten_keeps (hq : Stable Q) : MethodKeeps Q (flattenMethod (P := P)) := by
  intro n rec hr a o s b s' ho ha h
  have hqo := ha o (List.mem_of_getElem? ho)
  unfold flattenMethod at h
  split at h
  · split at h
    · split at h
      · exact hr _ _ _ _ ha h
      · exact rebuildAll_keeps (flattenTerm_keeps hr n) ha (fun ys hy => hq.terms hqo hy) h
    · exact rebuildAll_keeps (flattenTerm_keeps hr n) ha (fun ys hy => hq.terms hqo hy) h
  · exact default_keeps hq n rec hr a _ s b s' ho ha h

theorem normalized_keeps (hq : Stable Q) {pid : Nat → Nat} {limit root b : Nat} {h h' : Heap P}
    (e : normalized pid limit root h = .ok (b, h')) (ha : ∀ o ∈ h, Q o) : ∀ o ∈ h', Q o := by
  unfold normalized replaced at e
  simp only [bind, Except.bind] at e
  split at e
  · cases e
  rename_i h1
  split at e
  · cases e
  rename_i h2
  split at e
  · cases e
  rename_i h3
  split at e
  · cases e
  rename_i h4
  exact transform_keeps hq (flatten_keeps hq) e (transform_keeps hq (empty_keeps hq) h4
    (transform_keeps hq (or_keeps hq) h3 (transform_keeps hq (extended_keeps hq) h2
      (transform_keeps hq (squash_keeps hq) h1 ha))))

theorem lift_keeps (hq : Stable Q) {s : St P} {x : Nat} (ha : All Q s) : All Q (s.lift x).2 :=
  all_alloc (all_alloc ha (hq.prod _ _ _)) (hq.bnf _)

theorem all_set {h : Heap P} {a : Nat} {o : Obj P} (ha : ∀ x ∈ h, Q x) (ho : Q o) :
    ∀ x ∈ h.set a o, Q x := by
  intro x hx
  rcases List.mem_or_eq_of_mem_set hx with hx | rfl
  · exact ha x hx
  · exact ho

theorem visitWrapper_keeps (hq : Stable Q) {parents : Nat → Nat} {rec : Visit P} (hr : Keeps Q rec)
    {r : Nat} {x : Attr} {s s' : St P} {b : Nat} (ha : All Q s)
    (hx : ∀ i, x = .relation i → ∃ r', Q (.relation r' i)) (hi : ∀ i, x = .interp i → ∃ r', Q (.interp r' i))
    (h : visitWrapper parents rec r x s = .ok (b, s')) : All Q s' := by
  unfold visitWrapper at h
  split at h
  · cases h
  · rename_i b1 s1 h1
    have ha1 : All Q s1 := by
      unfold visitWrapped at h1
      split at h1
      · cases h1; exact lift_keeps hq ha
      · split at h1
        · cases h1
        · cases hm : rec r s with
          | error e => rw [hm] at h1; cases h1
          | ok y =>
            obtain ⟨y, s2⟩ := y
            rw [hm] at h1
            have := hr _ _ _ _ ha hm
            simp only [Except.map, Except.ok.injEq] at h1
            split at h1
            · have h3 := lift_keeps hq (x := y) this
              rw [h1] at h3
              exact h3
            · cases h1; exact this
    split at h
    · cases h
    · rename_i has _
      have key : ∀ b2 (s2 : St P), All Q s2 → All Q { s2 with heap := setAttrAt s2.heap b2 x } := by
        intro b2 s2 h2
        unfold setAttrAt
        cases hb : s2.heap[b2]? with
        | none => exact h2
        | some o =>
          have hqo := h2 o (List.mem_of_getElem? hb)
          cases o with
          | bnf ps n i r d =>
            cases x with
            | name n => exact all_set h2 (hq.setName _ hqo)
            | interp i => obtain ⟨r', hr'⟩ := hi i rfl; exact all_set h2 (hq.setInterp hr' hqo)
            | relation i => obtain ⟨r', hr'⟩ := hx i rfl; exact all_set h2 (hq.setRelation hr' hqo)
          | _ => exact h2
      cases has with
      | true => cases h; exact key _ _ (lift_keeps hq ha1)
      | false => cases h; exact key _ _ ha1

theorem allocKeys_keeps (hq : Stable Q) {d : PipeKind} {ks : List (Str × List P)} (hp : Q (.pipe (.keys d ks))) : ∀ (keys : List (Str × List P)) (s : St P), All Q s →
    (∀ k ∈ keys, k.2 ≠ []) → All Q (allocKeys keys s).2 := by
  intro keys
  induction keys with
  | nil => intro s ha _; exact ha
  | cons k keys ih =>
    intro s ha hk
    obtain ⟨v, ts⟩ := k
    cases ts with
    | nil => exact absurd rfl (hk _ List.mem_cons_self)
    | cons t ts =>
      simp only [allocKeys]
      exact ih _ (all_alloc ha (hq.pipeProd _ _ _ hp)) (fun k h => hk k (List.mem_cons_of_mem _ h))

theorem bnf_keeps (hq : Stable Q) (parents : Nat → Nat) : MethodKeeps Q (bnfMethod (P := P) parents) := by
  intro n rec hr a o s b s' ho ha h
  have hqo := ha o (List.mem_of_getElem? ho)
  unfold bnfMethod at h
  split at h
  · exact rebuildAll_keeps hr ha (fun ys _ => hq.bnf ys) h
  · exact rebuildAll_keeps hr ha (fun ys _ => hq.bnf ys) h
  · cases h
  · cases h
  · exact visitWrapper_keeps hq hr ha (by simp) (by simp) h
  · exact visitWrapper_keeps hq hr ha (by simp) (fun i e => by cases e; exact ⟨_, hqo⟩) h
  · exact visitWrapper_keeps hq hr ha (fun i e => by cases e; exact ⟨_, hqo⟩) (by simp) h
  · unfold pipeBnf at h
    split at h
    · cases h
    · split at h
      · cases h
      · rename_i keys he
        cases h
        refine all_alloc (allocKeys_keeps hq hqo _ _ ha ?_) (hq.pipeBnf _ hqo)
        intro k hk e
        exact he (List.any_eq_true.2 ⟨k, hk, by simp [e]⟩)
  · exact default_keeps hq n rec hr a _ s b s' ho ha h

theorem mapM_length {α β : Type} {f : α → Except Err β} : ∀ {xs : List α} {ys : List β},
    xs.mapM f = .ok ys → ys.length = xs.length := by
  intro xs
  induction xs with
  | nil => intro ys h; rw [List.mapM_nil] at h; cases h; rfl
  | cons x xs ih =>
    intro ys h
    rw [List.mapM_cons] at h
    cases h1 : f x with
    | error e => rw [h1] at h; cases h
    | ok y =>
      rw [h1] at h
      cases h2 : xs.mapM f with
      | error e => rw [h2] at h; cases h
      | ok ys' => rw [h2] at h; cases h; simp [ih h2]

theorem removeForwards_keeps (hq : Stable Q) {pid : Nat → Nat} : ∀ (n : Nat) (queue seen : List Nat)
    (h h' : Heap P), removeForwards pid n queue seen h = .ok h' → (∀ o ∈ h, Q o) → ∀ o ∈ h', Q o := by
  intro n
  induction n with
  | zero => intro queue seen h h' e ht; cases e; exact ht
  | succ n ih =>
    intro queue seen h h' e ht
    cases queue with
    | nil => cases e; exact ht
    | cons a queue =>
      simp only [removeForwards] at e
      split at e
      · cases e
      · rename_i ts m ha
        split at e
        · cases e
        · rename_i ts' hts
          exact ih _ _ _ _ e (all_set ht (hq.terms (ht _ (List.mem_of_getElem? ha)) (mapM_length hts)))
      · exact ih _ _ _ _ e ht

theorem generateNames_keeps (hq : Stable Q) : ∀ (as : List Nat) (count : Nat) (h : Heap P),
    (∀ o ∈ h, Q o) → ∀ o ∈ generateNames as count h, Q o := by
  intro as
  induction as with
  | nil => intro count h ht; exact ht
  | cons a as ih =>
    intro count h ht
    simp only [generateNames]
    split
    · rename_i ps name i r kind ha
      split
      · exact ih _ _ ht
      · exact ih _ _ (all_set ht (hq.setName _ (ht _ (List.mem_of_getElem? ha))))
    · exact ih _ _ ht

theorem asBnf_keeps (hq : Stable Q) {pid : Nat → Nat} {limit root b : Nat} {h h' : Heap P}
    (e : asBnf pid limit root h = .ok (b, h')) (ha : ∀ o ∈ h, Q o) : ∀ o ∈ h', Q o := by
  unfold asBnf at e
  simp only [bind, Except.bind] at e
  split at e
  · cases e
  · rename_i x hx
    obtain ⟨r1, h1⟩ := x
    simp only at e
    split at e
    · cases e
    · rename_i y hy
      obtain ⟨r2, h2⟩ := y
      cases e
      have a1 := transform_keeps hq (bnf_keeps hq _) hx ha
      refine generateNames_keeps hq _ _ _ ?_
      unfold removeForward at hy
      split at hy
      · cases hy
      · rename_i g hg
        have a2 := removeForwards_keeps hq _ _ _ _ _ hg a1
        split at hy
        · cases hy
        · cases hy; exact a2
        · cases hy; exact a2

theorem activatePipe_kind {A : Activation P} {p p' : Pipe P} (h : activatePipe A p = .ok p') :
    p'.kind = p.kind := by
  cases p with
  | keys d ks => cases h; rfl
  | scheme d lines =>
    simp only [activatePipe] at h
    cases hm : lines.mapM (fun l => (A.key d l).map (fun ts => (l, ts))) with
    | error e => rw [hm] at h; cases h
    | ok ks => rw [hm] at h; cases h; rfl

theorem activateRule_keeps (hq : Stable Q) {A : Activation P} {pid : Nat → Nat} {root : Nat}
    {h h' : Heap P} (e : activateRule A pid root h = .ok h') (ha : ∀ o ∈ h, Q o) : ∀ o ∈ h', Q o := by
  have key : ∀ (as : List Nat) (g h' : Heap P), as.foldlM (activateAt A) g = .ok h' →
      (∀ o ∈ g, Q o) → ∀ o ∈ h', Q o := by
    intro as
    induction as with
    | nil => intro g h' e hg; cases e; exact hg
    | cons a as ih =>
      intro g h' e hg
      rw [List.foldlM_cons] at e
      cases h1 : activateAt A g a with
      | error x => rw [h1] at e; cases e
      | ok g1 =>
        rw [h1] at e
        refine ih g1 h' e ?_
        unfold activateAt at h1
        split at h1
        · cases h1; exact hg
        · rename_i o ho
          have hqo := hg o (List.mem_of_getElem? ho)
          cases h2 : activateObj A o with
          | error x => rw [h2] at h1; cases h1
          | ok o' =>
            rw [h2] at h1
            cases h1
            refine all_set hg ?_
            cases o with
            | prod ts m =>
              simp only [activateObj] at h2
              cases h3 : ts.mapM (activateTerm A) with
              | error x => rw [h3] at h2; cases h2
              | ok us => rw [h3] at h2; cases h2; exact hq.terms hqo (mapM_length h3)
            | pipe p =>
              simp only [activateObj] at h2
              cases h3 : activatePipe A p with
              | error x => rw [h3] at h2; cases h2
              | ok p' => rw [h3] at h2; cases h2; exact hq.pipe hqo (activatePipe_kind h3)
            | _ => cases h2; exact hqo
  exact key _ _ _ e ha

/-- What holds of all objects and is stable holds of all objects of the compiled rule. -/
theorem compileRule_keeps (hq : Stable Q) {A : Activation P} {pid : Nat → Nat} {limit root b : Nat}
    {h h' : Heap P} (e : compileRule A pid limit root h = .ok (b, h')) (ha : ∀ o ∈ h, Q o) :
    ∀ o ∈ h', Q o := by
  unfold compileRule at e
  simp only [bind, Except.bind] at e
  split at e
  · cases e
  · rename_i e1
    split at e
    · cases e
    · rename_i e2
      exact asBnf_keeps hq e (normalized_keeps hq e2 (activateRule_keeps hq e1 ha))

end Yargy
