import Verif.Proofs.Twin
import Verif.Proofs.FrameCompile
/-!
The whole compilation of a rule depends on nothing but what can be reached from it.
-/
namespace Yargy
namespace Twins

variable {P : Type} {F : Map}

/-! ### The transformators -/

theorem childrenAt_twin {h g : Heap P} (T : Twin F h g) {a : Nat} (ha : F.D a) :
    childrenAt g (F.f a) = (childrenAt h a).map F.f ∧ ∀ c ∈ childrenAt h a, F.D c := by
  unfold childrenAt
  rw [T.get a ha]
  cases ho : h[a]? with
  | none => exact ⟨rfl, (by intro c hc; cases hc)⟩
  | some o => exact ⟨children_rename o, T.closed a o ha ho⟩

theorem enqueue_twin : ∀ (cs queue seen : List Nat), (∀ c ∈ cs, F.D c) → (∀ x ∈ seen, F.D x) →
    enqueue id (cs.map F.f) (queue.map F.f) (seen.map F.f) =
      ((enqueue id cs queue seen).1.map F.f, (enqueue id cs queue seen).2.map F.f) ∧
    (∀ x ∈ (enqueue id cs queue seen).1, x ∈ queue ∨ x ∈ cs) ∧
    ∀ x ∈ (enqueue id cs queue seen).2, F.D x := by
  intro cs
  induction cs with
  | nil => intro queue seen _ hs; exact ⟨rfl, fun x hx => .inl hx, hs⟩
  | cons c cs ih =>
    intro queue seen hcs hs
    have hD := hcs c List.mem_cons_self
    have hcs' := fun x hx => hcs x (List.mem_cons_of_mem _ hx)
    have hm : F.f c ∈ seen.map F.f ↔ c ∈ seen := by
      rw [List.mem_map]
      exact ⟨fun ⟨x, h1, h2⟩ => F.inj _ _ (hs x h1) hD h2 ▸ h1, fun h => ⟨c, h, rfl⟩⟩
    simp only [List.map_cons, enqueue, id]
    by_cases hc : c ∈ seen
    · rw [if_pos (hm.2 hc), if_pos hc]
      obtain ⟨h1, h2, h3⟩ := ih queue seen hcs' hs
      refine ⟨h1, fun x hx => (h2 x hx).imp_right (List.mem_cons_of_mem _), h3⟩
    · rw [if_neg (fun h => hc (hm.1 h)), if_neg hc]
      obtain ⟨h1, h2, h3⟩ := ih (queue ++ [c]) (c :: seen) hcs' (by
        intro x hx
        rcases List.mem_cons.1 hx with rfl | hx
        · exact hD
        · exact hs x hx)
      simp only [List.map_append, List.map_cons, List.map_nil] at h1
      refine ⟨h1, fun x hx => ?_, h3⟩
      rcases h2 x hx with h | h
      · rcases List.mem_append.1 h with h | h
        · exact .inl h
        · rw [List.mem_singleton] at h; subst h; exact .inr List.mem_cons_self
      · exact .inr (List.mem_cons_of_mem _ h)

/-- Two results of changing a heap. -/
inductive ResSt (F : Map) : Except Err (St P) → Except Err (St P) → Prop
  | error (e) : ResSt F (.error e) (.error e)
  | ok {s t} : TwinSt F s t → ResSt F (.ok s) (.ok t)

inductive ResHeap (F : Map) : Except Err (Nat × Heap P) → Except Err (Nat × Heap P) → Prop
  | error (e) : ResHeap F (.error e) (.error e)
  | ok {b h g} : F.D b → Twin F h g → ResHeap F (.ok (b, h)) (.ok (F.f b, g))

theorem defineForward_twin {h g : Heap P} (T : Twin F h g) {a b : Nat} (ha : F.D a) (hb : F.D b) :
    (∃ e, defineForward a b h = .error e ∧ defineForward (F.f a) (F.f b) g = .error e) ∨
      ∃ h' g', defineForward a b h = .ok h' ∧ defineForward (F.f a) (F.f b) g = .ok g' ∧ Twin F h' g' := by
  unfold defineForward
  rw [T.get b hb]
  have ok := T.set ha (o := .forward (some b)) (one hb)
  cases ho : h[b]? with
  | none => exact .inr ⟨_, _, rfl, rfl, ok⟩
  | some o =>
    cases o <;> first
      | exact .inl ⟨_, rfl, rfl⟩
      | exact .inr ⟨_, _, rfl, rfl, ok⟩

theorem redefine_twin {m m' : Method P} (hm : MethodTwin F m m') (limit : Nat) :
    ∀ (n : Nat) (queue seen : List Nat) (s t : St P), (∀ x ∈ queue, F.D x) → (∀ x ∈ seen, F.D x) → TwinSt F s t →
      ResSt F (redefine m id limit n queue seen s)
        (redefine m' id limit n (queue.map F.f) (seen.map F.f) t) := by
  intro n
  induction n with
  | zero => intro queue seen s t _ _ _; exact .error _
  | succ n ih =>
    intro queue seen s t hq hse h
    cases queue with
    | nil => exact .ok h
    | cons a queue =>
      have ha := hq a List.mem_cons_self
      have hq' := fun x hx => hq x (List.mem_cons_of_mem _ hx)
      have go : ∀ {s t : St P}, TwinSt F s t → ResSt F
          (redefine m id limit n (enqueue id (childrenAt s.heap a) queue seen).1
            (enqueue id (childrenAt s.heap a) queue seen).2 s)
          (redefine m' id limit n (enqueue id (childrenAt t.heap (F.f a)) (queue.map F.f) (seen.map F.f)).1
            (enqueue id (childrenAt t.heap (F.f a)) (queue.map F.f) (seen.map F.f)).2 t) := by
        intro s t h
        obtain ⟨c1, c2⟩ := childrenAt_twin h.heap ha
        obtain ⟨e1, e2, e3⟩ := enqueue_twin (F := F) (childrenAt s.heap a) queue seen c2 hse
        rw [c1, e1]
        refine ih _ _ _ _ (fun x hx => ?_) e3 h
        rcases e2 x hx with hx | hx
        · exact hq' x hx
        · exact c2 x hx
      simp only [List.map_cons, redefine]
      rw [h.heap.get a ha]
      have hcl := h.heap.closed a
      cases ho : s.heap[a]? with
      | none => exact go h
      | some o =>
        have hcl := hcl o ha ho
        cases o with
        | forward r =>
          cases r with
          | none => exact go h
          | some r =>
            simp only [Option.map_some, Obj.rename]
            have hv := visit_twin hm limit r s t (hcl r List.mem_cons_self) h
            generalize visit m id limit r s = x at hv
            generalize visit m' id limit (F.f r) t = y at hv
            cases hv with
            | error e => exact .error e
            | @ok _ _ s1 t1 h1 h2 =>
              obtain ⟨h1, rfl⟩ := h1
              simp only
              rcases defineForward_twin h2.heap ha h1 with ⟨e, d1, d2⟩ | ⟨h', g', d1, d2, d3⟩
              · rw [d1, d2]; exact .error e
              · rw [d1, d2]
                exact go (s := { s1 with heap := h' }) (t := { t1 with heap := g' }) ⟨d3, h2.memo, h2.inD⟩
        | prod => exact go h
        | emptyProd => exact go h
        | pipeProd => exact go h
        | rule => exact go h
        | or => exact go h
        | optional => exact go h
        | repeatable => exact go h
        | repOptional => exact go h
        | minBounded => exact go h
        | maxBounded => exact go h
        | minMaxBounded => exact go h
        | named => exact go h
        | interp => exact go h
        | relation => exact go h
        | empty => exact go h
        | pipe => exact go h
        | bnf => exact go h

theorem transform_twin {m m' : Method P} (hm : MethodTwin F m m') (limit : Nat) {root : Nat} {h g : Heap P}
    (hr : F.D root) (T : Twin F h g) :
    ResHeap F (transform m id limit root h) (transform m' id limit (F.f root) g) := by
  unfold transform
  have h1 := redefine_twin hm limit limit [root] [root] { heap := h } { heap := g } (one hr) (one hr)
    ⟨T, rfl, (by intro e he; cases he)⟩
  simp only [List.map_cons, List.map_nil, id] at h1 ⊢
  generalize redefine m id limit limit [root] [root] { heap := h } = x at h1
  generalize redefine m' id limit limit [F.f root] [F.f root] { heap := g } = y at h1
  cases h1 with
  | error e => exact .error e
  | ok h1 =>
    simp only
    rename_i s t
    have h2 := visit_twin hm limit root s t hr h1
    generalize visit m id limit root s = x at h2
    generalize visit m' id limit (F.f root) t = y at h2
    cases h2 with
    | error e => exact .error e
    | ok h3 h4 => obtain ⟨h3, rfl⟩ := h3; exact .ok h3 h4.heap

theorem ResHeap.bind {x y : Except Err (Nat × Heap P)} {k l : Nat → Heap P → Except Err (Nat × Heap P)}
    (h : ResHeap F x y) (hk : ∀ b h g, x = .ok (b, h) → F.D b → Twin F h g → ResHeap F (k b h) (l (F.f b) g)) :
    ResHeap F (x >>= fun p => k p.1 p.2) (y >>= fun p => l p.1 p.2) := by
  cases h with
  | error e => exact .error e
  | ok h1 h2 => exact hk _ _ _ rfl h1 h2

theorem normalized_twin (limit : Nat) {root : Nat} {h g : Heap P} (hr : F.D root) (T : Twin F h g) :
    ResHeap F (normalized id limit root h) (normalized id limit (F.f root) g) := by
  refine (transform_twin squash_twin limit hr T).bind (fun b h g _ hb T => ?_)
  show ResHeap F (transform extendedMethod id limit b h >>= fun p => transform orMethod id limit p.1 p.2 >>=
    fun p => transform emptyMethod id limit p.1 p.2 >>= fun p => transform flattenMethod id limit p.1 p.2)
    (transform extendedMethod id limit (F.f b) g >>= fun p => transform orMethod id limit p.1 p.2 >>=
    fun p => transform emptyMethod id limit p.1 p.2 >>= fun p => transform flattenMethod id limit p.1 p.2)
  refine (transform_twin extended_twin limit hb T).bind
    (k := fun b h => transform orMethod id limit b h >>=
      fun p => transform emptyMethod id limit p.1 p.2 >>= fun p => transform flattenMethod id limit p.1 p.2)
    (l := fun b h => transform orMethod id limit b h >>=
      fun p => transform emptyMethod id limit p.1 p.2 >>= fun p => transform flattenMethod id limit p.1 p.2) (fun b h g _ hb T => ?_)
  refine (transform_twin or_method_twin limit hb T).bind
    (k := fun b h => transform emptyMethod id limit b h >>= fun p => transform flattenMethod id limit p.1 p.2)
    (l := fun b h => transform emptyMethod id limit b h >>= fun p => transform flattenMethod id limit p.1 p.2) (fun b h g _ hb T => ?_)
  refine (transform_twin empty_twin limit hb T).bind (fun b h g _ hb T => ?_)
  exact transform_twin flatten_twin limit hb T

/-! ### Compiled rules -/

theorem lift_twin {s t : St P} (h : TwinSt F s t) {a : Nat} (ha : F.D a) :
    Addr F (s.lift a).1 (t.lift (F.f a)).1 ∧ TwinSt F (s.lift a).2 (t.lift (F.f a)).2 := by
  unfold St.lift
  obtain ⟨⟨k1, k2⟩, k3⟩ := alloc_twin' h (o := .prod [.rule a] 0) (o' := .prod [.rule (F.f a)] 0) rfl (one ha)
  generalize s.alloc (.prod [.rule a] 0) = x at k1 k2 k3
  generalize t.alloc (.prod [.rule (F.f a)] 0) = y at k2 k3
  obtain ⟨p, s1⟩ := x
  obtain ⟨q, t1⟩ := y
  simp only at k1 k2 k3 ⊢
  exact alloc_twin' k3 (o := .bnf [p] none none none none) (by rw [k2]; rfl) (one k1)

theorem visitWrapped_twin {parents parents' : Nat → Nat} (hp : ∀ a, F.D a → parents' (F.f a) = parents a)
    {rec rec' : Visit P} (hr : VisitTwin F rec rec') {r : Nat} (hD : F.D r) {s t : St P} (h : TwinSt F s t) :
    ResAddr F (visitWrapped parents rec r s) (visitWrapped parents' rec' (F.f r) t) := by
  have other : ResAddr F
      (if parents r = 0 then .error .keyError
        else (rec r s).map (fun x => if 1 < parents r then x.2.lift x.1 else x))
      (if parents' (F.f r) = 0 then .error .keyError
        else (rec' (F.f r) t).map (fun x => if 1 < parents' (F.f r) then x.2.lift x.1 else x)) := by
    rw [hp r hD]
    by_cases h0 : parents r = 0
    · rw [if_pos h0, if_pos h0]; exact .error _
    · rw [if_neg h0, if_neg h0]
      refine (hr r s t hD h).map ?_
      rintro a b s t ⟨h1, rfl⟩ h2
      by_cases h3 : 1 < parents r
      · rw [if_pos h3, if_pos h3]; exact lift_twin h2 h1
      · rw [if_neg h3, if_neg h3]; exact ⟨⟨h1, rfl⟩, h2⟩
  unfold visitWrapped
  rw [h.heap.get r hD]
  cases ho : s.heap[r]? with
  | none => exact other
  | some o =>
    cases o <;> first
      | exact other
      | skip
    obtain ⟨h1, h2⟩ := lift_twin h hD
    exact .ok h1 h2

theorem hasAttr_twin {h g : Heap P} (T : Twin F h g) {b : Nat} (hb : F.D b) (x : Attr) :
    hasAttr g (F.f b) x = hasAttr h b x := by
  unfold hasAttr
  rw [T.get b hb]
  cases h[b]? with
  | none => rfl
  | some o => cases o <;> rfl

theorem setAttrAt_twin {h g : Heap P} (T : Twin F h g) {b : Nat} (hb : F.D b) (x : Attr) :
    Twin F (setAttrAt h b x) (setAttrAt g (F.f b) x) := by
  unfold setAttrAt
  rw [T.get b hb]
  have hcl := T.closed b
  cases ho : h[b]? with
  | none => exact T
  | some o =>
    have hcl := hcl o hb ho
    cases o <;> first
      | exact T
      | skip
    rename_i ps name i r kind
    cases x with
    | name n => exact T.set hb (o := .bnf ps (some n) i r kind) hcl
    | interp j => exact T.set hb (o := .bnf ps name (some j) r kind) hcl
    | relation j => exact T.set hb (o := .bnf ps name i (some j) kind) hcl

theorem visitWrapper_twin {parents parents' : Nat → Nat} (hp : ∀ a, F.D a → parents' (F.f a) = parents a)
    {rec rec' : Visit P} (hr : VisitTwin F rec rec') {r : Nat} (hD : F.D r) (x : Attr) {s t : St P}
    (h : TwinSt F s t) :
    ResAddr F (visitWrapper parents rec r x s) (visitWrapper parents' rec' (F.f r) x t) := by
  unfold visitWrapper
  have h1 := visitWrapped_twin hp hr hD h
  generalize visitWrapped parents rec r s = u at h1
  generalize visitWrapped parents' rec' (F.f r) t = v at h1
  cases h1 with
  | error e => exact .error e
  | @ok b _ s1 t1 h1 h2 =>
    obtain ⟨h1, rfl⟩ := h1
    simp only
    rw [hasAttr_twin h2.heap h1 x]
    cases hasAttr s1.heap b x with
    | error e => exact .error e
    | ok has =>
      have h3 : Addr F (if has then s1.lift b else (b, s1)).1 (if has then t1.lift (F.f b) else (F.f b, t1)).1 ∧
          TwinSt F (if has then s1.lift b else (b, s1)).2 (if has then t1.lift (F.f b) else (F.f b, t1)).2 := by
        cases has with
        | true => exact lift_twin h2 h1
        | false => exact ⟨⟨h1, rfl⟩, h2⟩
      simp only
      generalize (if has then s1.lift b else (b, s1)) = p at h3
      generalize (if has then t1.lift (F.f b) else (F.f b, t1)) = q at h3
      obtain ⟨b', s2⟩ := p
      obtain ⟨c', t2⟩ := q
      obtain ⟨⟨k1, k2⟩, k3⟩ := h3
      simp only at k1 k2 k3 ⊢
      subst k2
      exact .ok ⟨k1, rfl⟩ ⟨setAttrAt_twin k3.heap k1 x, k3.memo, k3.inD⟩

theorem allocKeys_twin : ∀ (keys : List (Str × List P)) {s t : St P}, TwinSt F s t →
    Both F.D F.f (allocKeys keys s).1 (allocKeys keys t).1 ∧
      TwinSt F (allocKeys keys s).2 (allocKeys keys t).2 := by
  intro keys
  induction keys with
  | nil => intro s t h; exact ⟨⟨(by intro x hx; cases hx), rfl⟩, h⟩
  | cons k keys ih =>
    intro s t h
    obtain ⟨value, terms⟩ := k
    simp only [allocKeys]
    obtain ⟨⟨k1, k2⟩, k3⟩ := alloc_twin' h (o := .pipeProd value terms) (o' := .pipeProd value terms) rfl
      (by intro c hc; cases hc)
    obtain ⟨⟨l1, l2⟩, l3⟩ := ih k3
    refine ⟨⟨fun x hx => ?_, ?_⟩, l3⟩
    · rcases List.mem_cons.1 hx with rfl | hx
      · exact k1
      · exact l1 x hx
    · rw [k2, l2]; rfl

theorem pipeBnf_twin (p : Pipe P) {s t : St P} (h : TwinSt F s t) :
    ResAddr F (pipeBnf p s) (pipeBnf p t) := by
  unfold pipeBnf
  cases p with
  | scheme => exact .error _
  | keys kind keys =>
    simp only
    by_cases hk : keys.any (fun k => k.2.isEmpty) = true
    · rw [if_pos hk, if_pos hk]; exact .error _
    · rw [if_neg hk, if_neg hk]
      obtain ⟨⟨l1, l2⟩, l3⟩ := allocKeys_twin keys h
      obtain ⟨k1, k2⟩ := alloc_twin' l3 (o := .bnf (allocKeys keys s).1 none none none (some kind))
        (o' := .bnf (allocKeys keys t).1 none none none (some kind)) (by rw [l2]; rfl) l1
      exact .ok k1 k2

theorem bnf_twin {parents parents' : Nat → Nat} (hp : ∀ a, F.D a → parents' (F.f a) = parents a) :
    MethodTwin F (bnfMethod (P := P) parents) (bnfMethod parents') := by
  intro n rec rec' a o s t hr ha ho h
  have d := default_twin (F := F) n rec rec' a o s t hr ha ho h
  cases o with
  | rule ps =>
    exact rebuildAll_twin hr ho (makes_all (mk := (Obj.bnf · none none none none))
      (mk' := (Obj.bnf · none none none none)) (fun _ => rfl) (fun _ => rfl)) h
  | bnf ps _ _ _ _ =>
    exact rebuildAll_twin hr ho (makes_all (mk := (Obj.bnf · none none none none))
      (mk' := (Obj.bnf · none none none none)) (fun _ => rfl) (fun _ => rfl)) h
  | or => exact .error _
  | empty => exact .error _
  | named r n => exact visitWrapper_twin hp hr (ho r List.mem_cons_self) _ h
  | interp r n => exact visitWrapper_twin hp hr (ho r List.mem_cons_self) _ h
  | relation r n => exact visitWrapper_twin hp hr (ho r List.mem_cons_self) _ h
  | pipe p => exact pipeBnf_twin p h
  | repeatable => exact d
  | optional => exact d
  | repOptional => exact d
  | minBounded => exact d
  | maxBounded => exact d
  | minMaxBounded => exact d
  | prod => exact d
  | emptyProd => exact d
  | pipeProd => exact d
  | forward => exact d

/-! ### Walks -/

theorem mapped_nodup {l : List Nat} (hD : ∀ x ∈ l, F.D x) (h : l.Nodup) : (l.map F.f).Nodup := by
  induction l with
  | nil => exact List.nodup_nil
  | cons a l ih =>
    rw [List.nodup_cons] at h
    rw [List.map_cons, List.nodup_cons]
    refine ⟨fun hm => ?_, ih (fun x hx => hD x (List.mem_cons_of_mem _ hx)) h.2⟩
    obtain ⟨x, h1, h2⟩ := List.mem_map.1 hm
    exact h.1 (F.inj _ _ (hD x (List.mem_cons_of_mem _ h1)) (hD a List.mem_cons_self) h2 ▸ h1)

/-- No more objects are visited than the other heap has. -/
theorem twin_fuel {h g : Heap P} (T : Twin F h g) {done queue seen : List Nat} (hi : WalkInv h done queue seen)
    (hD : ∀ x ∈ done ++ queue, F.D x) : done.length ≤ g.length := by
  have := nodup_lt_length (mapped_nodup (F := F) (fun x hx => hD x (List.mem_append_left _ hx)) (List.nodup_append.1 hi.nodup).1) (n := g.length) (by
    intro x hx
    obtain ⟨y, h1, rfl⟩ := List.mem_map.1 hx
    have := List.mem_append_left queue h1
    exact T.lt (hD y this) (hi.lt y this))
  simpa using this

theorem own_fuel {h : Heap P} {done queue seen : List Nat} (hi : WalkInv h done queue seen) :
    done.length ≤ h.length :=
  nodup_lt_length (List.nodup_append.1 hi.nodup).1 (fun x hx => hi.lt x (List.mem_append_left _ hx))

theorem walkFrom_twin {h g : Heap P} (hc : ClosedHeap h) (T : Twin F h g) :
    ∀ (n n' : Nat) (done queue seen : List Nat), WalkInv h done queue seen → (∀ x ∈ done ++ queue, F.D x) →
      h.length + 1 ≤ done.length + n → g.length + 1 ≤ done.length + n' →
      walkFrom id g n' (queue.map F.f) (seen.map F.f) = (walkFrom id h n queue seen).map F.f ∧
        ∀ x ∈ walkFrom id h n queue seen, F.D x := by
  intro n
  induction n with
  | zero =>
    intro n' done queue seen hi _ h1 _
    have := own_fuel hi
    omega
  | succ n ih =>
    intro n' done queue seen hi hD h1 h2
    cases n' with
    | zero => have := twin_fuel T hi hD; omega
    | succ n' =>
      cases queue with
      | nil => exact ⟨rfl, (by intro x hx; cases hx)⟩
      | cons a queue =>
        have ha := hD a (by simp)
        obtain ⟨new, e, hi', hnew⟩ := hi.step (pid := id) (fun _ _ h => h) hc
        simp only [List.map_id] at e
        obtain ⟨c1, c2⟩ := childrenAt_twin T ha
        obtain ⟨e1, _⟩ := enqueue_twin (F := F) (childrenAt h a) queue seen c2
          (fun x hx => hD x ((hi.seen_iff x).1 hx))
        simp only [List.map_cons, walkFrom]
        rw [c1, e1, e]
        obtain ⟨k1, k2⟩ := ih n' _ _ _ hi' (by
          intro x hx
          simp only [List.mem_append, List.mem_cons, List.not_mem_nil, or_false] at hx hD
          rcases hx with (hx | rfl) | hx | hx
          · exact hD x (.inl hx)
          · exact ha
          · exact hD x (.inr (.inr hx))
          · exact c2 x (hnew x hx)) (by simp; omega) (by simp; omega)
        refine ⟨by rw [k1], fun x hx => ?_⟩
        rcases List.mem_cons.1 hx with rfl | hx
        · exact ha
        · exact k2 x hx

theorem walk_twin {h g : Heap P} (hc : ClosedHeap h) (T : Twin F h g) {root : Nat} (hr : F.D root)
    (hl : root < h.length) :
    walk id g (F.f root) = (walk id h root).map F.f ∧ ∀ x ∈ walk id h root, F.D x := by
  refine walkFrom_twin hc T (h.length + 1) (g.length + 1) [] [root] [root] ⟨by simp, by simp, by simp, ?_⟩ ?_
    (by simp) (by simp)
  · intro x hx; simp only [List.nil_append, List.mem_singleton] at hx; exact hx ▸ hl
  · exact one hr

theorem parentCount_twin {h g : Heap P} (hc : ClosedHeap h) (T : Twin F h g) {root : Nat} (hr : F.D root)
    (hl : root < h.length) {a : Nat} (ha : F.D a) : parentCount id g (F.f root) (F.f a) = parentCount id h root a := by
  obtain ⟨w1, w2⟩ := walk_twin hc T hr hl
  unfold parentCount
  rw [w1]
  have : ((walk id h root).map F.f).flatMap (childrenAt g) = ((walk id h root).flatMap (childrenAt h)).map F.f := by
    generalize walk id h root = l at w2
    induction l with
    | nil => rfl
    | cons x l ih =>
      simp only [List.map_cons, List.flatMap_cons, List.map_append]
      rw [ih (fun y hy => w2 y (List.mem_cons_of_mem _ hy)), (childrenAt_twin T (w2 x List.mem_cons_self)).1]
  rw [this, List.filter_map, List.length_map]
  congr 1
  refine List.filter_congr (fun c hc' => ?_)
  obtain ⟨x, h1, h2⟩ := List.mem_flatMap.1 hc'
  have : F.f c = F.f a ↔ c = a :=
    ⟨F.inj _ _ ((childrenAt_twin T (w2 x h1)).2 c h2) ha, fun h => by rw [h]⟩
  simp only [Function.comp, id, this]

theorem toBnf_twin (limit : Nat) {root : Nat} {h g : Heap P} (hc : ClosedHeap h) (hl : root < h.length)
    (hr : F.D root) (T : Twin F h g) : ResHeap F (toBnf id limit root h) (toBnf id limit (F.f root) g) :=
  transform_twin (bnf_twin (fun a ha => parentCount_twin hc T hr hl ha)) limit hr T

/-! ### Removing forward rules -/

theorem removeTerm_twin {h g : Heap P} (T : Twin F h g) (t : Term P) (ht : TermIn F t) :
    removeTerm g (t.rename F.f) = (removeTerm h t).map (Term.rename F.f) ∧
      ∀ u, removeTerm h t = .ok u → TermIn F u := by
  cases t with
  | pred p => exact ⟨rfl, (by intro u e; cases e; intro r hr; cases hr)⟩
  | rule r =>
    simp only [Term.rename, removeTerm]
    rw [T.get r (ht r rfl)]
    have hcl := T.closed r
    cases ho : h[r]? with
    | none => exact ⟨rfl, (by intro u e; cases e; exact ht)⟩
    | some o =>
      have hcl := hcl o (ht r rfl) ho
      cases o with
      | forward c =>
        cases c with
        | none => exact ⟨rfl, (by intro u e; cases e)⟩
        | some c => exact ⟨rfl, (by intro u e; cases e; intro r hr; cases hr; exact hcl _ List.mem_cons_self)⟩
      | prod => exact ⟨rfl, (by intro u e; cases e; exact ht)⟩
      | emptyProd => exact ⟨rfl, (by intro u e; cases e; exact ht)⟩
      | pipeProd => exact ⟨rfl, (by intro u e; cases e; exact ht)⟩
      | rule => exact ⟨rfl, (by intro u e; cases e; exact ht)⟩
      | or => exact ⟨rfl, (by intro u e; cases e; exact ht)⟩
      | optional => exact ⟨rfl, (by intro u e; cases e; exact ht)⟩
      | repeatable => exact ⟨rfl, (by intro u e; cases e; exact ht)⟩
      | repOptional => exact ⟨rfl, (by intro u e; cases e; exact ht)⟩
      | minBounded => exact ⟨rfl, (by intro u e; cases e; exact ht)⟩
      | maxBounded => exact ⟨rfl, (by intro u e; cases e; exact ht)⟩
      | minMaxBounded => exact ⟨rfl, (by intro u e; cases e; exact ht)⟩
      | named => exact ⟨rfl, (by intro u e; cases e; exact ht)⟩
      | interp => exact ⟨rfl, (by intro u e; cases e; exact ht)⟩
      | relation => exact ⟨rfl, (by intro u e; cases e; exact ht)⟩
      | empty => exact ⟨rfl, (by intro u e; cases e; exact ht)⟩
      | pipe => exact ⟨rfl, (by intro u e; cases e; exact ht)⟩
      | bnf => exact ⟨rfl, (by intro u e; cases e; exact ht)⟩

theorem removeTerms_twin {h g : Heap P} (T : Twin F h g) (ts : List (Term P)) (ht : ∀ t ∈ ts, TermIn F t) :
    (ts.map (Term.rename F.f)).mapM (removeTerm g) =
      (ts.mapM (removeTerm h)).map (List.map (Term.rename F.f)) ∧
      ∀ us, ts.mapM (removeTerm h) = .ok us → ∀ u ∈ us, TermIn F u := by
  induction ts with
  | nil => exact ⟨rfl, (by intro us e; cases e; intro u hu; cases hu)⟩
  | cons t ts ih =>
    obtain ⟨i1, i2⟩ := ih (fun x hx => ht x (List.mem_cons_of_mem _ hx))
    obtain ⟨k1, k2⟩ := removeTerm_twin T t (ht t List.mem_cons_self)
    simp only [List.map_cons, List.mapM_cons]
    rw [i1, k1]
    cases e1 : removeTerm h t with
    | error e => exact ⟨rfl, (by intro us e; cases e)⟩
    | ok u =>
      cases e2 : ts.mapM (removeTerm h) with
      | error e => exact ⟨rfl, (by intro us e; cases e)⟩
      | ok us =>
        refine ⟨rfl, ?_⟩
        intro vs e
        cases e
        intro v hv
        rcases List.mem_cons.1 hv with rfl | hv
        · exact k2 _ e1
        · exact i2 _ e2 v hv

/-- Two results of changing a heap in place. -/
inductive ResIn (F : Map) : Except Err (Heap P) → Except Err (Heap P) → Prop
  | error (e) : ResIn F (.error e) (.error e)
  | ok {h g} : Twin F h g → ResIn F (.ok h) (.ok g)

theorem removed_lt {h : Heap P} (hc : ClosedHeap h) {t u : Term P} (ht : ∀ r, t = .rule r → r < h.length)
    (e : removeTerm h t = .ok u) : ∀ r, u = .rule r → r < h.length := by
  cases t with
  | pred p => cases e; exact ht
  | rule r =>
    simp only [removeTerm] at e
    split at e
    · cases e
    · rename_i x hx
      cases e
      intro r' hr'; cases hr'
      exact hc _ (List.mem_of_getElem? hx) _ List.mem_cons_self
    · cases e; exact ht

theorem removeForwards_twin : ∀ (n n' : Nat) (done queue seen : List Nat) (h g : Heap P), ClosedHeap h →
      WalkInv h done queue seen → (∀ x ∈ done ++ queue, F.D x) → Twin F h g →
      h.length + 1 ≤ done.length + n → g.length + 1 ≤ done.length + n' →
      ResIn F (removeForwards id n queue seen h) (removeForwards id n' (queue.map F.f) (seen.map F.f) g) := by
  intro n
  induction n with
  | zero =>
    intro n' done queue seen h g _ hi _ _ h1 _
    have := own_fuel hi
    omega
  | succ n ih =>
    intro n' done queue seen h g hc hi hD T h1 h2
    cases n' with
    | zero => have := twin_fuel T hi hD; omega
    | succ n' =>
      cases queue with
      | nil => exact .ok T
      | cons a queue =>
        have ha := hD a (by simp)
        have hlt := hi.lt a (by simp)
        have go : ∀ {h g : Heap P}, ClosedHeap h → WalkInv h done (a :: queue) seen → Twin F h g →
            h.length + 1 ≤ done.length + (n + 1) → g.length + 1 ≤ done.length + (n' + 1) →
            ResIn F (removeForwards id n (enqueue id (childrenAt h a) queue seen).1
              (enqueue id (childrenAt h a) queue seen).2 h)
            (removeForwards id n' (enqueue id (childrenAt g (F.f a)) (queue.map F.f) (seen.map F.f)).1
              (enqueue id (childrenAt g (F.f a)) (queue.map F.f) (seen.map F.f)).2 g) := by
          intro h g hc hi T h1 h2
          obtain ⟨new, e, hi', hnew⟩ := hi.step (pid := id) (fun _ _ h => h) hc
          simp only [List.map_id] at e
          obtain ⟨c1, c2⟩ := childrenAt_twin T ha
          obtain ⟨e1, _⟩ := enqueue_twin (F := F) (childrenAt h a) queue seen c2
            (fun x hx => hD x ((hi.seen_iff x).1 hx))
          rw [c1, e1, e]
          refine ih n' _ _ _ _ _ hc hi' ?_ T (by simp; omega) (by simp; omega)
          intro x hx
          simp only [List.mem_append, List.mem_cons, List.not_mem_nil, or_false] at hx hD
          rcases hx with (hx | rfl) | hx | hx
          · exact hD x (.inl hx)
          · exact ha
          · exact hD x (.inr (.inr hx))
          · exact c2 x (hnew x hx)
        have go' := go hc hi T h1 h2
        have hcl := T.closed a
        simp only [List.map_cons, removeForwards]
        rw [T.get a ha]
        cases ho : h[a]? with
        | none => exact go'
        | some o =>
          have hcl := hcl o ha ho
          cases o with
          | forward r =>
            cases r with
            | none => exact .error _
            | some r => exact go'
          | prod ts m =>
            simp only [Option.map_some, Obj.rename]
            obtain ⟨m1, m2⟩ := removeTerms_twin T ts (termIn_iff.2 hcl)
            rw [m1]
            cases e : ts.mapM (removeTerm h) with
            | error er => exact .error er
            | ok us =>
              have m2 := m2 us e
              have hnd : a ∉ done := fun hd =>
                (List.nodup_append.1 hi.nodup).2.2 a hd a List.mem_cons_self rfl
              refine go (h := h.set a (.prod us m)) (g := g.set (F.f a) (.prod (us.map (Term.rename F.f)) m))
                ?_ ?_ (T.set ha (o := .prod us m) (termIn_iff.1 m2)) (by simpa using h1) (by simpa using h2)
              · intro o ho' c hc'
                rw [List.length_set]
                rcases List.mem_or_eq_of_mem_set ho' with ho' | rfl
                · exact hc o ho' c hc'
                · obtain ⟨t, ht, hu⟩ := (mapM_mem e _).1 (termRules_mem.1 hc')
                  refine removed_lt hc (fun r hr => ?_) hu c rfl
                  subst hr
                  exact hc _ (List.mem_of_getElem? ho) r (termRules_mem.2 ht)
              · refine ⟨hi.nodup, hi.seen_iff, ?_, ?_⟩
                · intro d hd c hcd
                  have hda : d ≠ a := fun e => hnd (e ▸ hd)
                  refine hi.closed d hd c ?_
                  unfold childrenAt at hcd ⊢
                  rwa [List.getElem?_set_ne (Ne.symm hda)] at hcd
                · intro x hx
                  rw [List.length_set]
                  exact hi.lt x hx
          | emptyProd => exact go'
          | pipeProd => exact go'
          | rule => exact go'
          | or => exact go'
          | optional => exact go'
          | repeatable => exact go'
          | repOptional => exact go'
          | minBounded => exact go'
          | maxBounded => exact go'
          | minMaxBounded => exact go'
          | named => exact go'
          | interp => exact go'
          | relation => exact go'
          | empty => exact go'
          | pipe => exact go'
          | bnf => exact go'

theorem removeForward_twin {root : Nat} {h g : Heap P} (hc : ClosedHeap h) (hl : root < h.length)
    (hr : F.D root) (T : Twin F h g) : ResHeap F (removeForward id root h) (removeForward id (F.f root) g) := by
  unfold removeForward
  have h1 := removeForwards_twin (F := F) (h.length + 1) (g.length + 1) [] [root] [root] h g hc
    ⟨by simp, by simp, by simp, (by
      intro x hx; simp only [List.nil_append, List.mem_singleton] at hx; exact hx ▸ hl)⟩ (one hr) T
    (by simp) (by simp)
  simp only [List.map_cons, List.map_nil, id] at h1 ⊢
  generalize removeForwards id (h.length + 1) [root] [root] h = x at h1
  generalize removeForwards id (g.length + 1) [F.f root] [F.f root] g = y at h1
  cases h1 with
  | error e => exact .error e
  | @ok h' g' T' =>
    simp only
    rw [T'.get root hr]
    have hcl := T'.closed root
    cases ho : h'[root]? with
    | none => exact .ok hr T'
    | some o =>
      have hcl := hcl o hr ho
      cases o with
      | forward c =>
        cases c with
        | none => exact .error _
        | some c => exact .ok (hcl c List.mem_cons_self) T'
      | prod => exact .ok hr T'
      | emptyProd => exact .ok hr T'
      | pipeProd => exact .ok hr T'
      | rule => exact .ok hr T'
      | or => exact .ok hr T'
      | optional => exact .ok hr T'
      | repeatable => exact .ok hr T'
      | repOptional => exact .ok hr T'
      | minBounded => exact .ok hr T'
      | maxBounded => exact .ok hr T'
      | minMaxBounded => exact .ok hr T'
      | named => exact .ok hr T'
      | interp => exact .ok hr T'
      | relation => exact .ok hr T'
      | empty => exact .ok hr T'
      | pipe => exact .ok hr T'
      | bnf => exact .ok hr T'

theorem generateNames_twin : ∀ (as : List Nat) (count : Nat) {h g : Heap P}, (∀ a ∈ as, F.D a) → Twin F h g →
    Twin F (generateNames as count h) (generateNames (as.map F.f) count g) := by
  intro as
  induction as with
  | nil => intro count h g _ T; exact T
  | cons a as ih =>
    intro count h g hD T
    have ha := hD a List.mem_cons_self
    have hD' := fun x hx => hD x (List.mem_cons_of_mem _ hx)
    have go := fun count => ih count hD' T
    have hcl := T.closed a
    simp only [List.map_cons, generateNames]
    rw [T.get a ha]
    cases ho : h[a]? with
    | none => exact go count
    | some o =>
      have hcl := hcl o ha ho
      cases o with
      | bnf ps name i r kind =>
        have new := ih (count + 1) hD' (T.set ha (o := .bnf ps (some (genName count)) i r kind) hcl)
        cases name with
        | none => exact new
        | some n =>
          cases n with
          | nil => exact new
          | cons _ _ => exact go count
      | prod => exact go count
      | emptyProd => exact go count
      | pipeProd => exact go count
      | rule => exact go count
      | or => exact go count
      | optional => exact go count
      | repeatable => exact go count
      | repOptional => exact go count
      | minBounded => exact go count
      | maxBounded => exact go count
      | minMaxBounded => exact go count
      | named => exact go count
      | interp => exact go count
      | relation => exact go count
      | empty => exact go count
      | pipe => exact go count
      | forward => exact go count

theorem asBnf_twin (limit : Nat) {X : P → Prop} {root : Nat} {h g : Heap P} (ht : Typed bnfIn X h root)
    (hs : Sorted h) (hp : isProdAt h root = false) (hr : F.D root) (T : Twin F h g) :
    ResHeap F (asBnf id limit root h) (asBnf id limit (F.f root) g) := by
  refine (toBnf_twin limit hs.closed ht.lt hr T).bind
    (k := fun b h => removeForward id b h >>= fun p => .ok (p.1, generateNames (walk id p.2 p.1) 0 p.2))
    (l := fun b h => removeForward id b h >>= fun p => .ok (p.1, generateNames (walk id p.2 p.1) 0 p.2))
    (fun b h1 g1 e hb T1 => ?_)
  have l1 := toBnf_left (fun _ _ h => h) ht hs hp e
  refine (removeForward_twin l1.sorted.closed l1.typed.lt hb T1).bind
    (k := fun b h => .ok (b, generateNames (walk id h b) 0 h))
    (l := fun b h => .ok (b, generateNames (walk id h b) 0 h)) (fun b h2 g2 e hb T2 => ?_)
  have l2 := removeForward_left (fun _ _ h => h) l1 e
  obtain ⟨w1, w2⟩ := walk_twin l2.sorted.closed T2 hb l2.typed.lt
  rw [w1]
  exact .ok hb (generateNames_twin _ 0 w2 T2)

/-! ### Activation -/

theorem activateObj_twin (A : Activation P) (o : Obj P) :
    activateObj A (o.rename F.f) = (activateObj A o).map (Obj.rename F.f) := by
  cases o with
  | prod ts m =>
    simp only [Obj.rename, activateObj]
    have : (ts.map (Term.rename F.f)).mapM (activateTerm A) =
        (ts.mapM (activateTerm A)).map (List.map (Term.rename F.f)) := by
      induction ts with
      | nil => rfl
      | cons t ts ih =>
        simp only [List.map_cons, List.mapM_cons]
        rw [ih]
        have : activateTerm A (t.rename F.f) = (activateTerm A t).map (Term.rename F.f) := by
          cases t with
          | rule r => rfl
          | pred p => simp only [Term.rename, activateTerm]; cases A.activate p <;> rfl
        rw [this]
        cases activateTerm A t with
        | error e => rfl
        | ok t => cases ts.mapM (activateTerm A) <;> rfl
    rw [this]
    cases ts.mapM (activateTerm A) <;> rfl
  | pipe p =>
    simp only [Obj.rename, activateObj]
    cases activatePipe A p <;> rfl
  | _ => rfl

theorem activateAt_twin (A : Activation P) {h g : Heap P} (T : Twin F h g) {a : Nat} (ha : F.D a) :
    ResIn F (activateAt A h a) (activateAt A g (F.f a)) := by
  unfold activateAt
  rw [T.get a ha]
  have hcl := T.closed a
  cases ho : h[a]? with
  | none => exact .ok T
  | some o =>
    have hcl := hcl o ha ho
    simp only [Option.map_some]
    rw [activateObj_twin]
    cases e : activateObj A o with
    | error er => exact .error er
    | ok o' => exact .ok (T.set ha (by rw [(activateObj_shape e).2.1]; exact hcl))

theorem activateAll_twin (A : Activation P) : ∀ (as : List Nat) {h g : Heap P}, (∀ a ∈ as, F.D a) → Twin F h g →
    ResIn F (as.foldlM (activateAt A) h) ((as.map F.f).foldlM (activateAt A) g) := by
  intro as
  induction as with
  | nil => intro h g _ T; exact .ok T
  | cons a as ih =>
    intro h g hD T
    simp only [List.map_cons, List.foldlM_cons]
    have h1 := activateAt_twin A T (hD a List.mem_cons_self)
    generalize activateAt A h a = x at h1
    generalize activateAt A g (F.f a) = y at h1
    cases h1 with
    | error e => exact .error e
    | ok T' => exact ih (fun x hx => hD x (List.mem_cons_of_mem _ hx)) T'

theorem activateRule_twin (A : Activation P) {root : Nat} {h g : Heap P} (hc : ClosedHeap h)
    (hl : root < h.length) (hr : F.D root) (T : Twin F h g) :
    ResIn F (activateRule A id root h) (activateRule A id (F.f root) g) := by
  obtain ⟨w1, w2⟩ := walk_twin hc T hr hl
  unfold activateRule
  rw [w1]
  have := activateAll_twin A (F := F) (walk id h root ++ [root]) (h := h) (g := g) (by
    intro a ha
    rcases List.mem_append.1 ha with ha | ha
    · exact w2 a ha
    · exact one hr a ha) T
  simpa only [List.map_append, List.map_cons, List.map_nil] using this

/-- Activating changes no addresses. -/
theorem activated {A : Activation P} {root : Nat} {h h1 : Heap P} (hs : Sorted h) (hlt : root < h.length)
    (hr : isProdAt h root = false) (e1 : activateRule A id root h = .ok h1) :
    Sorted h1 ∧ Typed (fun _ => true) (fun _ => True) h1 root ∧ isProdAt h1 root = false ∧
      h1.length = h.length := by
  have w := activateRule_awake (fun _ _ h => h) hs.closed hlt (by
    intro ts m hm
    rw [Pass.isProdAt_some hm] at hr; cases hr) e1
  have back : ∀ (a : Nat) o, h1[a]? = some o → ∃ o', h[a]? = some o' ∧ o.tag = o'.tag ∧
      o.children = o'.children := by
    intro a o ha
    have hal : a < h.length := w.length ▸ (List.getElem?_eq_some_iff.1 ha).1
    by_cases hra : Reach h root a
    · obtain ⟨o', k1, k2⟩ := w.done a _ hra (List.getElem?_eq_getElem hal)
      rw [ha] at k1; cases k1
      have := activateObj_shape k2
      exact ⟨_, List.getElem?_eq_getElem hal, this.1, this.2.1⟩
    · have := w.rest a hra
      rw [ha] at this
      exact ⟨o, this.symm, rfl, rfl⟩
  have isProd : ∀ c, isProdAt h1 c = isProdAt h c := by
    intro c
    by_cases hc : c < h1.length
    · obtain ⟨o', k1, k2, _⟩ := back c _ (List.getElem?_eq_getElem hc)
      rw [Pass.isProdAt_some (List.getElem?_eq_getElem hc), Pass.isProdAt_some k1, k2]
    · unfold isProdAt
      rw [List.getElem?_eq_none (Nat.le_of_not_lt hc), List.getElem?_eq_none (by rw [← w.length]; omega)]
  have hs1 : Sorted h1 := by
    intro a o ha c hc
    obtain ⟨o', k1, k2, k3⟩ := back a o ha
    rw [isProd, w.length, k2]
    exact hs a o' k1 c (k3 ▸ hc)
  refine ⟨hs1, ?_, (isProd root).trans hr, w.length⟩
  intro x hx
  have hxl := hs1.reach (by rw [w.length]; exact hlt) hx
  exact ⟨_, List.getElem?_eq_getElem hxl, rfl, fun _ _ => trivial,
    fun c hc => (hs1 x _ (List.getElem?_eq_getElem hxl) c hc).2⟩

/-- Compiling a rule, its predicates being activated already. -/
theorem finish_twin (limit : Nat) {root : Nat} {h g : Heap P} (hs : Sorted h)
    (ht : Typed (fun _ => true) (fun _ => True) h root) (hp : isProdAt h root = false) (hr : F.D root)
    (T : Twin F h g) :
    ResHeap F (normalized id limit root h >>= fun p => asBnf id limit p.1 p.2)
      (normalized id limit (F.f root) g >>= fun p => asBnf id limit p.1 p.2) := by
  refine (normalized_twin limit hr T).bind (fun b h1 g1 e hb T1 => ?_)
  have l1 := normalized_left (fun _ _ h => h) ht hs hp e
  exact asBnf_twin limit (l1.typed.mono (T' := bnfIn) (by
    intro t ht; cases t <;> first | rfl | (cases ht; done))) l1.sorted l1.prod hb T1

theorem compileRule_twin (A : Activation P) (limit : Nat) {root : Nat} {h g : Heap P} (hs : Sorted h)
    (hl : root < h.length) (hp : isProdAt h root = false) (hr : F.D root) (T : Twin F h g) :
    ResHeap F (compileRule A id limit root h) (compileRule A id limit (F.f root) g) := by
  unfold compileRule
  have h1 := activateRule_twin A hs.closed hl hr T
  cases e1 : activateRule A id root h with
  | error er =>
    rw [e1] at h1
    generalize activateRule A id (F.f root) g = y at h1
    cases h1; exact .error er
  | ok h' =>
    rw [e1] at h1
    generalize activateRule A id (F.f root) g = y at h1
    cases h1 with
    | ok T' =>
      obtain ⟨k1, k2, k3, _⟩ := activated hs hl hp e1
      exact finish_twin limit k1 k2 k3 hr T'

end Twins
end Yargy
