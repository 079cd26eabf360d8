import Verif.Properties.Locality
/-!
C21: building parsers from one rule again and again.
-/
namespace Yargy
open Spec Twins

variable {L : Lang} {setOrder : List Str → List Str}

/-! ### Activating again -/

theorem actWith_act {allowed : Context → (Str → List Str) → Prop} {h h' : Heap Pred}
    (ha : ActWith L setOrder allowed h h') : Act L setOrder h h' := by
  cases ha with
  | make hm => exact .make hm
  | define h1 h2 => exact .define h1 h2
  | build h1 h2 _ h3 => exact .build h1 h2 h3
  | failed h1 h2 _ h3 => exact .failed h1 h2 h3

theorem runWith_run {allowed : Context → (Str → List Str) → Prop} {h h' : Heap Pred}
    (hr : RunWith L setOrder allowed h h') : Run L setOrder h h' := by
  induction hr with
  | nil => exact .nil
  | cons h1 _ ih => exact .cons (actWith_act h1) ih

theorem mapM_congr' {α β : Type} {f g : α → Except Err β} : ∀ {xs : List α}, (∀ x ∈ xs, f x = g x) →
    xs.mapM f = xs.mapM g := by
  intro xs
  induction xs with
  | nil => intro _; rfl
  | cons x xs ih =>
    intro h
    rw [List.mapM_cons, List.mapM_cons, h x List.mem_cons_self, ih (fun y hy => h y (List.mem_cons_of_mem _ hy))]

theorem activateObj_sameFor {c c' : Context} {split split' : Str → List Str} {o : Obj Pred}
    (hs : SameFor L c split c' split' o) :
    activateObj (c'.activation L split') o = activateObj (c.activation L split) o := by
  cases o with
  | prod ts m =>
    simp only [activateObj]
    rw [mapM_congr' (g := activateTerm (c.activation L split))]
    intro t ht
    cases t with
    | rule r => rfl
    | pred p => simp only [activateTerm, Context.activation, hs.preds ts m rfl p ht]
  | pipe pl =>
    cases pl with
    | scheme k ls =>
      simp only [activateObj, activatePipe]
      rw [mapM_congr' (g := fun l => ((c.activation L split).key k l).map (fun ts => (l, ts)))]
      intro l hl
      simp only [Context.activation, hs.lines k ls rfl l hl]
    | keys k ks => rfl
  | _ => rfl

theorem mapM_ok_self {α : Type} : ∀ xs : List α, xs.mapM (fun x => (.ok x : Except Err α)) = .ok xs
  | [] => rfl
  | x :: xs => by rw [List.mapM_cons, mapM_ok_self xs]; rfl

theorem rename_id {P : Type} (o : Obj P) : o.rename id = o := by
  have terms : ∀ ts : List (Term P), ts.map (Term.rename id) = ts := by
    intro ts
    have : (Term.rename id : Term P → Term P) = id := by funext t; cases t <;> rfl
    rw [this, List.map_id]
  cases o with
  | prod ts m => simp only [Obj.rename, terms]
  | _ => simp [Obj.rename]

/-- Activating once more changes nothing. -/
theorem activateObj_twice {c c' : Context} {split split' : Str → List Str} {o o' : Obj Pred}
    (hst : (∀ v ps, o = .pipeProd v ps → ∀ p ∈ ps, Fixed p) ∧
      ∀ k ks, o = .pipe (.keys k ks) → ∀ e ∈ ks, ∀ p ∈ e.2, Fixed p)
    (e : activateObj (c.activation L split) o = .ok o') : activateObj (c'.activation L split') o' = .ok o' := by
  have hf := activateObj_fixed hst e
  cases o with
  | prod ts m =>
    obtain ⟨us, _, rfl⟩ := except_map_ok e
    simp only [activateObj]
    have : us.mapM (activateTerm (c'.activation L split')) = us.mapM (fun t => .ok t) := by
      refine mapM_congr' fun t ht => ?_
      cases t with
      | rule r => rfl
      | pred p => simp only [activateTerm, Context.activation, hf p (Pass.preds_prod.2 ht) c']; rfl
    rw [this]
    rw [mapM_ok_self]; rfl
  | pipe pl =>
    obtain ⟨pl', h1, rfl⟩ := except_map_ok e
    cases pl with
    | scheme k ls => obtain ⟨ks, _, rfl⟩ := except_map_ok h1; rfl
    | keys k ks => cases h1; rfl
  | _ => cases e; rfl

/-! ### What a history leaves of a rule -/

/-- The object is as it was, or it was activated. -/
def Kept (A : Activation Pred) (h : Heap Pred) (S : Nat → Prop) (k : Heap Pred) : Prop :=
  ∀ (x : Nat) o, S x → h[x]? = some o → k[x]? = some o ∨ ∃ o', activateObj A o = .ok o' ∧ k[x]? = some o'

theorem act_kept {c : Context} {split : Str → List Str} {h k k' : Heap Pred} {S : Nat → Prop}
    {allowed : Context → (Str → List Str) → Prop} (hst : Stored h)
    (hall : ∀ c' split', allowed c' split' → ∀ (x : Nat) o, S x → h[x]? = some o → SameFor L c split c' split' o)
    (hfwd : ∀ (x : Nat) d, S x → h[x]? ≠ some (.forward d))
    (hk : Healthy L setOrder k) (ha : ActWith L setOrder allowed k k')
    (hkept : Kept (c.activation L split) h S k) : Kept (c.activation L split) h S k' := by
  intro x o hx ho
  have notfwd : ∀ o', activateObj (c.activation L split) o = .ok o' → ∀ d, o' ≠ .forward d := by
    rintro o' e d rfl
    exact hfwd x d hx (ho.trans (congrArg some ((activateObj_shape e).2.2.2 d rfl)))
  have stay : k'[x]? = k[x]? → k'[x]? = some o ∨
      ∃ o', activateObj (c.activation L split) o = .ok o' ∧ k'[x]? = some o' := by
    intro e; rw [e]; exact hkept x o hx ho
  have some_at : ∃ ox, k[x]? = some ox ∧ ∀ d, ox ≠ .forward d := by
    rcases hkept x o hx ho with h1 | ⟨o', h1, h2⟩
    · exact ⟨o, h1, fun d e => hfwd x d hx (e ▸ ho)⟩
    · exact ⟨o', h2, notfwd o' h1⟩
  obtain ⟨ox, hox, hnf⟩ := some_at
  have hlt := (List.getElem?_eq_some_iff.1 hox).1
  cases ha with
  | make _ => exact stay (List.getElem?_append_left hlt)
  | @define a d r hd _ =>
    refine stay (List.getElem?_set_ne (fun e => ?_))
    subst e
    rw [hd] at hox; cases hox; exact hnf d rfl
  | @build c' split' relation pid limit root b _ hp hr hal e =>
    obtain ⟨start', h1, _⟩ := buildParser_parts e
    obtain ⟨hc, _⟩ := compile_healthy hk.sorted hk.stored hp hr h1
    by_cases hrx : Reach k root x
    · obtain ⟨o2, q1, q2⟩ := hc.done x ox hox hrx
      rcases q2 with q2 | ⟨⟨d, hd⟩, _⟩
      · right
        rcases hkept x o hx ho with k1 | ⟨o', k1, k2⟩
        · rw [hox] at k1; cases k1
          rw [activateObj_sameFor (hall c' split' hal x _ hx ho)] at q1
          exact ⟨o2, q1, q2⟩
        · rw [hox] at k2; cases k2
          rw [activateObj_twice (hst o (List.mem_of_getElem? ho)) k1] at q1
          cases q1
          exact ⟨ox, k1, q2⟩
      · exact absurd hd (hnf d)
    · exact stay ((hc.rest x ox hox hrx).trans hox.symm)
  | @failed c' split' relation pid limit root e hp hr hal _ =>
    obtain ⟨hc, _⟩ := left_healthy (limit := limit) (c := c') (split := split') hk.sorted hk.stored hk.filed hp hr
    by_cases hrx : Reach k root x
    · rcases hc.done x ox hox hrx with q | ⟨o2, q1, q2⟩ | ⟨⟨d, hd⟩, _⟩
      · exact stay (q.trans hox.symm)
      · right
        rcases hkept x o hx ho with k1 | ⟨o', k1, k2⟩
        · rw [hox] at k1; cases k1
          rw [activateObj_sameFor (hall c' split' hal x _ hx ho)] at q1
          exact ⟨o2, q1, q2⟩
        · rw [hox] at k2; cases k2
          rw [activateObj_twice (hst o (List.mem_of_getElem? ho)) k1] at q1
          cases q1
          exact ⟨ox, k1, q2⟩
      · exact absurd hd (hnf d)
    · exact stay ((hc.rest x ox hox hrx).trans hox.symm)

theorem run_kept {c : Context} {split : Str → List Str} {h k k' : Heap Pred} {S : Nat → Prop}
    {allowed : Context → (Str → List Str) → Prop} (hst : Stored h)
    (hall : ∀ c' split', allowed c' split' → ∀ (x : Nat) o, S x → h[x]? = some o → SameFor L c split c' split' o)
    (hfwd : ∀ (x : Nat) d, S x → h[x]? ≠ some (.forward d)) (hr : RunWith L setOrder allowed k k') :
    Healthy L setOrder k → Kept (c.activation L split) h S k → Kept (c.activation L split) h S k' := by
  induction hr with
  | nil => exact fun _ h => h
  | cons h1 _ ih =>
    exact fun hk hkept => ih (act_healthy (actWith_act h1) hk) (act_kept hst hall hfwd hk h1 hkept)

/-! ### Activating a rule that is partly activated -/

/-- Two heaps that are the same as far as activation and the places in `S` are concerned. -/
structure Near {P : Type} (A : Activation P) (S : Nat → Prop) (h k : Heap P) : Prop where
  some_iff : ∀ x, S x → (h[x]? = none ↔ k[x]? = none)
  same : ∀ (x : Nat) o o', S x → h[x]? = some o → k[x]? = some o' → activateObj A o = activateObj A o' ∧
    o.children = o'.children

theorem Near.children {P : Type} {A : Activation P} {S : Nat → Prop} {h k : Heap P} (N : Near A S h k) {x : Nat}
    (hx : S x) : childrenAt h x = childrenAt k x := by
  unfold childrenAt
  have := N.some_iff x hx
  cases ho : h[x]? with
  | none => rw [this.1 ho]
  | some o =>
    cases ho' : k[x]? with
    | none => rw [this.2 ho'] at ho; cases ho
    | some o' => exact (N.same x o o' hx ho ho').2

theorem walkFrom_children {P : Type} {h k : Heap P} (e : ∀ a, childrenAt h a = childrenAt k a) :
    ∀ (n : Nat) (queue seen : List Nat), walkFrom id h n queue seen = walkFrom id k n queue seen := by
  intro n
  induction n with
  | zero => intros; rfl
  | succ n ih =>
    intro queue seen
    cases queue with
    | nil => rfl
    | cons a queue => simp only [walkFrom, e a, ih]

/-- The addresses in a heap. -/
def bones {P : Type} (h : Heap P) : Heap P := h.map (fun o => .or o.children)

theorem bones_children {P : Type} (h : Heap P) (a : Nat) : childrenAt (bones h) a = childrenAt h a := by
  unfold childrenAt bones
  rw [List.getElem?_map]
  cases h[a]? <;> rfl

theorem bones_walk {P : Type} (h : Heap P) (root : Nat) : walk id (bones h) root = walk id h root := by
  unfold walk
  rw [walkFrom_children (bones_children h)]
  simp only [bones, List.length_map]

theorem bones_reach {P : Type} {h : Heap P} {root x : Nat} (hx : Reach (bones h) root x) : Reach h root x := by
  induction hx with
  | root => exact .root
  | @step a o c _ ho hc ih =>
    unfold bones at ho
    rw [List.getElem?_map] at ho
    cases hha : h[a]? with
    | none => rw [hha] at ho; cases ho
    | some o' => rw [hha] at ho; cases ho; exact .step ih hha hc

theorem near_walk {P : Type} {A : Activation P} {h k : Heap P} {root : Nat} (hc : ClosedHeap h)
    (hlt : root < h.length) (N : Near A (Reach h root) h k) : walk id k root = walk id h root := by
  have hcb : ClosedHeap (bones h) := by
    intro o ho c hc'
    obtain ⟨o', h1, rfl⟩ := List.mem_map.1 ho
    simp only [bones, List.length_map]
    exact hc o' h1 c hc'
  have hltb : root < (bones h).length := by simp only [bones, List.length_map]; exact hlt
  have ha : Alike id (bones h) root (bones k) root := by
    refine ⟨rfl, fun _ _ _ _ h => h, fun x o hx ho => ?_⟩
    have hx' := bones_reach hx
    have := N.children hx'
    unfold bones at ho ⊢
    rw [List.getElem?_map] at ho ⊢
    cases hha : h[x]? with
    | none => rw [hha] at ho; cases ho
    | some o1 =>
      rw [hha] at ho; cases ho
      cases hka : k[x]? with
      | none => rw [(N.some_iff x hx').2 hka] at hha; cases hha
      | some o2 =>
        have e := (N.same x o1 o2 hx' hha hka).2
        show Option.map (fun o => Obj.or o.children) k[x]? = some (.or (o1.children.map id))
        rw [hka, List.map_id, e]; rfl
  obtain ⟨w1, w2⟩ := walk_twin hcb (ruleMap_twin ha hcb hltb) (root := root) (.inl .root) hltb
  have hf : ∀ x, x < (bones h).length → (ruleMap ha hcb hltb).f x = x := by
    intro x hx
    show (if x < (bones h).length then id x else _) = x
    rw [if_pos hx]; rfl
  rw [hf root hltb, bones_walk, bones_walk] at w1
  rw [w1]
  have : ∀ x ∈ walk id h root, (ruleMap ha hcb hltb).f x = x := by
    intro x hx
    rw [← bones_walk] at hx
    refine hf x ?_
    have := (reach_iff (fun _ _ h => h) hcb hltb x).1 hx
    cases this with
    | root => exact hltb
    | step _ ho hx => exact hcb _ (List.mem_of_getElem? ho) _ hx
  rw [List.map_congr_left this, List.map_id']

theorem activateAll_near {P : Type} {A : Activation P} {S : Nat → Prop} : ∀ (as : List Nat) {h k : Heap P}
    (done : Nat → Prop), (∀ a ∈ as, S a) → Near A S h k → (∀ x, done x → h[x]? = k[x]?) →
    (∃ e, as.foldlM (activateAt A) h = .error e ∧ as.foldlM (activateAt A) k = .error e) ∨
      ∃ h' k', as.foldlM (activateAt A) h = .ok h' ∧ as.foldlM (activateAt A) k = .ok k' ∧
        ∀ x, done x ∨ x ∈ as → h'[x]? = k'[x]? := by
  intro as
  induction as with
  | nil => intro h k done _ _ hd; exact .inr ⟨h, k, rfl, rfl, by simpa using hd⟩
  | cons a as ih =>
    intro h k done hS N hd
    have ha := hS a List.mem_cons_self
    simp only [List.foldlM_cons]
    have hS' : ∀ x ∈ as, S x := fun x hx => hS x (List.mem_cons_of_mem _ hx)
    cases ho : h[a]? with
    | none =>
      have ho' := (N.some_iff a ha).1 ho
      have e1 : activateAt A h a = .ok h := by unfold activateAt; rw [ho]
      have e2 : activateAt A k a = .ok k := by unfold activateAt; rw [ho']
      rw [e1, e2]
      rcases ih (fun x => done x ∨ x = a) hS' N (by
        rintro x (hx | rfl)
        · exact hd x hx
        · rw [ho, ho']) with h1 | ⟨h', k', h1, h2, h3⟩
      · exact .inl h1
      · refine .inr ⟨h', k', h1, h2, fun x hx => h3 x ?_⟩
        rcases hx with hx | hx
        · exact .inl (.inl hx)
        · rcases List.mem_cons.1 hx with hx | hx
          · exact .inl (.inr hx)
          · exact .inr hx
    | some o =>
      cases ho' : k[a]? with
      | none => rw [(N.some_iff a ha).2 ho'] at ho; cases ho
      | some o' =>
        obtain ⟨q1, q2⟩ := N.same a o o' ha ho ho'
        cases e : activateObj A o with
        | error er =>
          refine .inl ⟨er, ?_, ?_⟩
          · unfold activateAt; rw [ho]; simp only [e]; rfl
          · unfold activateAt; rw [ho']; simp only [← q1, e]; rfl
        | ok o2 =>
          have e1 : activateAt A h a = .ok (h.set a o2) := by unfold activateAt; rw [ho]; simp only [e]; rfl
          have e2 : activateAt A k a = .ok (k.set a o2) := by
            unfold activateAt; rw [ho']; simp only [← q1, e]; rfl
          rw [e1, e2]
          have hal := (List.getElem?_eq_some_iff.1 ho).1
          have hal' := (List.getElem?_eq_some_iff.1 ho').1
          have at_a : (h.set a o2)[a]? = (k.set a o2)[a]? := by
            rw [List.getElem?_set_self hal, List.getElem?_set_self hal']
          have N' : Near A S (h.set a o2) (k.set a o2) := by
            constructor
            · intro x hx
              by_cases hxa : x = a
              · subst hxa; rw [at_a]
              · rw [List.getElem?_set_ne (fun e => hxa e.symm), List.getElem?_set_ne (fun e => hxa e.symm)]
                exact N.some_iff x hx
            · intro x u v hx hu hv
              by_cases hxa : x = a
              · subst hxa; rw [← at_a, hu] at hv; cases hv; exact ⟨rfl, rfl⟩
              · rw [List.getElem?_set_ne (fun e => hxa e.symm)] at hu hv
                exact N.same x u v hx hu hv
          rcases ih (fun x => done x ∨ x = a) hS' N' (by
            rintro x (hx | rfl)
            · by_cases hxa : x = a
              · subst hxa; exact at_a
              · rw [List.getElem?_set_ne (fun e => hxa e.symm), List.getElem?_set_ne (fun e => hxa e.symm)]
                exact hd x hx
            · exact at_a) with h1 | ⟨h', k', h1, h2, h3⟩
          · exact .inl h1
          · refine .inr ⟨h', k', h1, h2, fun x hx => h3 x ?_⟩
            rcases hx with hx | hx
            · exact .inl (.inl hx)
            · rcases List.mem_cons.1 hx with hx | hx
              · exact .inl (.inr hx)
              · exact .inr hx

theorem activateRule_near {P : Type} {A : Activation P} {h k : Heap P} {root : Nat} (hc : ClosedHeap h)
    (hlt : root < h.length) (N : Near A (Reach h root) h k) :
    (∃ e, activateRule A id root h = .error e ∧ activateRule A id root k = .error e) ∨
      ∃ h' k', activateRule A id root h = .ok h' ∧ activateRule A id root k = .ok k' ∧
        ∀ x, Reach h root x → h'[x]? = k'[x]? := by
  unfold activateRule
  rw [near_walk hc hlt N]
  rcases activateAll_near (A := A) (S := Reach h root) (walk id h root ++ [root]) (fun _ => False) (by
    intro a ha
    rcases List.mem_append.1 ha with ha | ha
    · exact (reach_iff (fun _ _ h => h) hc hlt a).1 ha
    · rw [List.mem_singleton] at ha; exact ha ▸ .root) N (by simp) with h1 | ⟨h', k', h1, h2, h3⟩
  · exact .inl h1
  · exact .inr ⟨h', k', h1, h2, fun x hx =>
      h3 x (.inr (List.mem_append_left _ ((reach_iff (fun _ _ h => h) hc hlt x).2 hx)))⟩

/-! ### C21 -/

/-- C21 for rules without forward rules: a parser built after any history of making rules, defining
forward rules and building parsers, from this rule or others, does the same as the parser built right
away, provided the tokenizers used in between are the same for the words of the rule. Missing: rules with
forward rules (`rebuild_recursion`, `rebuild_loses_label`) and tokenizers that differ
(`rebuild_keeps_tokenizer`). -/
theorem rebuild_same_partial {h h2 : Heap Pred} (hs : SetOrder setOrder) (hrun : Run L setOrder [] h)
    {c : Context} {split : Str → List Str} {relation : Nat → Relation} {pid pid' : Nat → Nat}
    (hp : ∀ a b, pid a = pid b → a = b) (hp' : ∀ a b, pid' a = pid' b → a = b) {limit root : Nat}
    (hr : RuleAt h root) (hfwd : ∀ (x : Nat) d, Reach h root x → h[x]? ≠ some (.forward d))
    {allowed : Context → (Str → List Str) → Prop}
    (hall : ∀ c' split', allowed c' split' → ∀ (x : Nat) o, Reach h root x → h[x]? = some o →
      SameFor L c split c' split' o)
    (hrun' : RunWith L setOrder allowed h h2) :
    SameBuilds (buildParser L setOrder c split relation pid limit root h)
      (buildParser L setOrder c split relation pid' limit root h2) := by
  have hh := run_healthy hrun healthy_nil
  have hh2 := run_healthy (runWith_run hrun') hh
  obtain ⟨hlt, hpr⟩ := rule_at hr
  have hkept := run_kept (S := Reach h root) hh.stored hall hfwd hrun' hh (fun x o _ ho => .inl ho)
  have hRlt : ∀ x, Reach h root x → x < h.length := fun x hx => hh.sorted.reach hlt hx
  have N : Near (c.activation L split) (Reach h root) h h2 := by
    constructor
    · intro x hx
      have ho := List.getElem?_eq_getElem (hRlt x hx)
      rcases hkept x _ hx ho with k1 | ⟨o', _, k2⟩
      · rw [ho, k1]
      · rw [ho, k2]; simp
    · intro x o o' hx ho ho'
      rcases hkept x o hx ho with k1 | ⟨o1, k1, k2⟩
      · rw [ho'] at k1; cases k1; exact ⟨rfl, rfl⟩
      · rw [ho'] at k2; cases k2
        refine ⟨?_, (activateObj_shape k1).2.1.symm⟩
        rw [k1, activateObj_twice (hh.stored o (List.mem_of_getElem? ho)) k1]
  have hr2 : RuleAt h2 root := by
    obtain ⟨o, h1, h3⟩ := hr
    rcases hkept root o .root h1 with k1 | ⟨o1, k1, k2⟩
    · exact ⟨o, k1, h3⟩
    · refine ⟨o1, k2, ?_⟩
      rw [production_tag, (activateObj_shape k1).1, ← production_tag]; exact h3
  have hlt2 := (rule_at hr2).1
  rcases activateRule_near hh.sorted.closed hlt N with ⟨e, k1, k2⟩ | ⟨h', k', k1, k2, k3⟩
  · have hid : ∀ a b : Nat, id a = id b → a = b := fun _ _ h => h
    unfold buildParser
    rw [addresses_irrelevant_partial hp hid, addresses_irrelevant_partial hp' hid]
    unfold compileRule
    rw [k1, k2]
    exact .error e
  · obtain ⟨q1, q2, q3, q4⟩ := activated hh.sorted hlt hpr k1
    obtain ⟨_, _, _, q4'⟩ := activated hh2.sorted hlt2 (rule_at hr2).2 k2
    have hreach : ∀ x, Reach h' root x → Reach h root x := by
      have w := activateRule_awake (fun _ _ h => h) hh.sorted.closed hlt (by
        intro ts m hm
        rw [Pass.isProdAt_some hm] at hpr; cases hpr) k1
      intro x hx
      induction hx with
      | root => exact .root
      | @step a o d _ ho hd ih =>
        obtain ⟨o', w1, w2⟩ := w.done a _ ih (List.getElem?_eq_getElem (hRlt a ih))
        rw [ho] at w1; cases w1
        exact .step ih (List.getElem?_eq_getElem (hRlt a ih)) ((activateObj_shape w2).2.1 ▸ hd)
    have ha : Alike id h' root k' root := by
      refine ⟨rfl, fun _ _ _ _ h => h, fun x o hx ho => ?_⟩
      rw [rename_id, ← ho]
      exact (k3 x (hreach x hx)).symm
    have hltq : root < h'.length := by rw [q4]; exact hlt
    have T := ruleMap_twin ha q1.closed hltq
    have hroot : (ruleMap ha q1.closed hltq).f root = root := by
      show (if root < h'.length then id root else _) = root
      rw [if_pos hltq]; rfl
    have hres := finish_twin limit q1 q2 q3 (F := ruleMap ha q1.closed hltq) (.inl .root) T
    have := same_builds (F := ruleMap ha q1.closed hltq) hs hh hh2 (c := c) (split := split)
      (relation := relation) hp hp' (limit := limit) hr (hroot.symm ▸ hr2) (by rw [← q4, ← q4']; exact T.fresh) (by
        unfold compileRule
        rw [hroot, k1, k2]
        rw [hroot] at hres
        exact hres)
    rw [hroot] at this
    exact this

/-! ### The hypotheses can be met -/

/-- Two sentences that share a gazetteer and a repetition. -/
def sharedSource : Heap Pred :=
  [.prod [.pred (.normalized "a".toList)] 0, .rule [0], .maxBounded 1 2 false,
   .pipe (.scheme .exact ["b c".toList]), .named 3 "names".toList, .prod [.rule 2, .rule 4] 0, .rule [5],
   .or [6, 4]]

def noForward : Obj Pred → Bool
  | .forward _ => false
  | _ => true

/-- The hypotheses of `rebuild_same_partial` are met: a rule is used for two parsers, a part of it for a
third one in between. -/
example : SetOrder sampleOrder ∧ Run sampleLang sampleOrder [] sharedSource ∧ RuleAt sharedSource 7 ∧
    (∀ (x : Nat) d, Reach sharedSource 7 x → sharedSource[x]? ≠ some (.forward d)) ∧
    (∀ c' split', (c' = sampleContext ∧ split' = sampleSplit) → ∀ (x : Nat) o, Reach sharedSource 7 x →
      sharedSource[x]? = some o → SameFor sampleLang sampleContext sampleSplit c' split' o) ∧
    ∃ b h1 b2 h2, sampleBuild 7 sharedSource = .ok (b, h1) ∧ sampleBuild 6 h1 = .ok (b2, h2) ∧
      RunWith sampleLang sampleOrder (fun c' split' => c' = sampleContext ∧ split' = sampleSplit) sharedSource h2 ∧
      sharedSource.length + 40 < h2.length := by
  refine ⟨sampleOrder_ok, makeAll_run (h := []) (by decide +kernel), ⟨_, rfl, rfl⟩, ?_, ?_, ?_⟩
  · intro x d _ h
    have : sharedSource.all noForward = true := by decide +kernel
    cases List.all_eq_true.1 this _ (List.mem_of_getElem? h)
  · rintro c' split' ⟨rfl, rfl⟩ x o _ _
    exact ⟨fun _ _ _ _ _ => rfl, fun _ _ _ _ _ => rfl⟩
  · have key : (match sampleBuild 7 sharedSource with
        | .ok (_, h1) => isRuleAt h1 6 && (match sampleBuild 6 h1 with
          | .ok (_, h2) => decide (sharedSource.length + 40 < h2.length)
          | .error _ => false)
        | .error _ => false) = true := by decide +kernel
    split at key
    · rename_i b h1 e1
      rw [Bool.and_eq_true] at key
      obtain ⟨kr, key⟩ := key
      split at key
      · rename_i b2 h2 e2
        rw [decide_eq_true_iff] at key
        exact ⟨b, h1, b2, h2, e1, e2, .cons (.build (fun _ _ h => h) ⟨_, rfl, rfl⟩ ⟨rfl, rfl⟩ e1)
          (.cons (.build (fun _ _ h => h) (isRuleAt_ok kr) ⟨rfl, rfl⟩ e2) .nil), key⟩
      · cases key
    · cases key

/-! ### C21 is false in general -/

/-- `X = forward(); X.define(or_(rule('a'), rule('b', X)))` -/
def loopSource : Heap Pred :=
  [.forward (some 5), .prod [.pred (.eq "a".toList)] 0, .rule [1], .prod [.pred (.eq "b".toList), .rule 0] 0,
   .rule [3], .or [2, 4]]

theorem loopSource_run : Run L setOrder [] loopSource := by
  have h1 : Run L setOrder [] (.forward none :: loopSource.tail) := makeAll_run (h := []) (by decide +kernel)
  exact run_trans h1 (.cons (.define (a := 0) (c := none) (r := 5) rfl ⟨.or [2, 4], rfl, rfl⟩) .nil)

/-- A compiled rule that contains itself. -/
structure Loop (h : Heap Pred) (x p q : Nat) : Prop where
  rule : ∃ n i r k, h[x]? = some (.bnf [p, q] n i r k)
  first : ∃ a m, h[p]? = some (.prod [.pred a] m)
  second : ∃ b m, h[q]? = some (.prod [.pred b, .rule x] m)

theorem Loop.append {h : Heap Pred} {x p q : Nat} (l : Loop h x p q) (os : Heap Pred) : Loop (h ++ os) x p q := by
  have get : ∀ {a : Nat} {o : Obj Pred}, h[a]? = some o → (h ++ os)[a]? = some o := by
    intro a o ha
    rw [List.getElem?_append_left (List.getElem?_eq_some_iff.1 ha).1]; exact ha
  obtain ⟨⟨n, i, r, k, h1⟩, ⟨a, m, h2⟩, ⟨b, m', h3⟩⟩ := l
  exact ⟨⟨n, i, r, k, get h1⟩, ⟨a, m, get h2⟩, ⟨b, m', get h3⟩⟩

/-- Squashing such a rule never ends. -/
theorem loop_visit {x p q : Nat} (hpx : p ≠ x) (hpq : p ≠ q) : ∀ (n : Nat) (s : St Pred), Loop s.heap x p q →
    s.lookup id x = none → s.lookup id q = none →
    visit squashMethod id n x s = .error .recursionError := by
  intro n
  induction n using Nat.strongRecOn with
  | ind n ih =>
    intro s hl h1 h2
    obtain ⟨⟨nm, i, r, k, e1⟩, ⟨a, m, e2⟩, ⟨b, m', e3⟩⟩ := hl
    match n, ih with
    | 0, _ => rfl
    | 1, _ => simp only [visit, h1, e1, squashMethod, defaultMethod, rebuildAll, mapSt]; rfl
    | n + 2, ih =>
      -- the first production
      have first : ∃ y s1, visit squashMethod id (n + 1) p s = .ok (y, s1) ∧ Loop s1.heap x p q ∧
          s1.lookup id x = none ∧ s1.lookup id q = none := by
        cases hp : s.lookup id p with
        | some y =>
          exact ⟨y, s, by simp only [visit, hp], ⟨⟨nm, i, r, k, e1⟩, ⟨a, m, e2⟩, ⟨b, m', e3⟩⟩, h1, h2⟩
        | none =>
          refine ⟨s.heap.length, ⟨s.heap ++ [.prod [.pred a] m], (p, s.heap.length) :: s.memo⟩, ?_, ?_, ?_, ?_⟩
          · simp only [visit, hp, e2, squashMethod, defaultMethod, rebuildAll, mapSt, visitTerm, Except.map, St.alloc]
          · exact Loop.append ⟨⟨nm, i, r, k, e1⟩, ⟨a, m, e2⟩, ⟨b, m', e3⟩⟩ _
          · simp only [St.lookup, id, List.find?_cons, decide_eq_false hpx]; exact h1
          · simp only [St.lookup, id, List.find?_cons, decide_eq_false hpq]; exact h2
      obtain ⟨y, s1, f1, f2, f3, f4⟩ := first
      have second : visit squashMethod id (n + 1) q s1 = .error .recursionError := by
        obtain ⟨b', m2, e3'⟩ := f2.second
        have := ih n (by omega) s1 f2 f3 f4
        simp only [visit, f4, e3', squashMethod, defaultMethod, rebuildAll, mapSt, visitTerm, this, Except.map]
      rw [show n + 2 = (n + 1) + 1 from rfl, visit]
      simp only [h1, e1, squashMethod, defaultMethod, rebuildAll, mapSt, f1, second, Except.map]

theorem loop_build {h : Heap Pred} {x p q f : Nat} {A : Activation Pred} {h' : Heap Pred}
    (e : activateRule A id f h = .ok h') (hl : Loop h' x p q) (hf : h'[f]? = some (.forward (some x)))
    (hpx : p ≠ x) (hpq : p ≠ q) (limit : Nat) : compileRule A id limit f h = .error .recursionError := by
  unfold compileRule
  rw [e]
  show (normalized id limit f h' >>= _) = _
  have : normalized id limit f h' = .error .recursionError := by
    unfold normalized
    have : transform squashMethod id limit f h' = .error .recursionError := by
      unfold transform
      cases limit with
      | zero => rfl
      | succ n =>
        unfold redefine
        simp only [hf, loop_visit hpx hpq (n + 1) { heap := h' } hl rfl rfl]
    rw [this]; rfl
  rw [this]; rfl

def isLoop (h : Heap Pred) (x p q : Nat) : Bool :=
  (match h[x]? with
    | some (.bnf [p', q'] _ _ _ _) => p' == p && q' == q
    | _ => false) &&
  (match h[p]? with
    | some (.prod [.pred _] _) => true
    | _ => false) &&
  (match h[q]? with
    | some (.prod [.pred _, .rule x'] _) => x' == x
    | _ => false)

theorem isLoop_ok {h : Heap Pred} {x p q : Nat} (e : isLoop h x p q = true) : Loop h x p q := by
  unfold isLoop at e
  rw [Bool.and_eq_true, Bool.and_eq_true] at e
  obtain ⟨⟨k1, k2⟩, k3⟩ := e
  refine ⟨?_, ?_, ?_⟩
  · split at k1
    · rename_i h'
      rw [Bool.and_eq_true, beq_iff_eq, beq_iff_eq] at k1
      obtain ⟨rfl, rfl⟩ := k1
      exact ⟨_, _, _, _, h'⟩
    · cases k1
  · split at k2
    · rename_i h'; exact ⟨_, _, h'⟩
    · cases k2
  · split at k3
    · rename_i h'
      rw [beq_iff_eq] at k3; subst k3
      exact ⟨_, _, h'⟩
    · cases k3

/-- C21 is false for recursive rules: the parser of `X = or_(rule('a'), rule('b', X))` can be built once;
building it again fails with `RecursionError`, however deep the recursion may go. The first construction
leaves compiled rules inside the forward rule, and these contain themselves. -/
theorem rebuild_recursion : ∃ h : Heap Pred, Run sampleLang sampleOrder [] h ∧ RuleAt h 0 ∧
    ∃ b h1, sampleBuild 0 h = .ok (b, h1) ∧ RuleAt h1 0 ∧
      ∀ limit, buildParser sampleLang sampleOrder sampleContext sampleSplit (fun _ => .gender) id limit 0 h1 =
        .error .recursionError := by
  refine ⟨loopSource, loopSource_run, ⟨_, rfl, rfl⟩, ?_⟩
  have key : (match sampleBuild 0 loopSource with
      | .ok (_, h1) => isRuleAt h1 0 && (match activateRule (sampleContext.activation sampleLang sampleSplit) id 0 h1 with
        | .ok h' => isLoop h' 35 33 34 && isForwardTo h' 0 == some 35
        | .error _ => false)
      | .error _ => false) = true := by decide +kernel
  split at key
  · rename_i b h1 e1
    rw [Bool.and_eq_true] at key
    obtain ⟨kr, key⟩ := key
    split at key
    · rename_i h' e2
      rw [Bool.and_eq_true, beq_iff_eq] at key
      refine ⟨b, h1, e1, isRuleAt_ok kr, fun limit => ?_⟩
      have hf : h'[0]? = some (.forward (some 35)) := by
        have := key.2
        unfold isForwardTo at this
        split at this
        · rename_i h3; rw [h3, this]
        · cases this
      unfold buildParser
      rw [loop_build e2 (isLoop_ok key.1) hf (by decide) (by decide) limit]
      rfl
    · cases key
  · cases key

/-- `X = forward().define(rule('a').interpretation(…))`, used in `rule(X)`. -/
def labelSource : Heap Pred :=
  [.forward (some 3), .prod [.pred (.eq "a".toList)] 0, .rule [1], .interp 2 7, .prod [.rule 0] 0, .rule [4]]

/-- C21 is false for labels inside forward rules: the parser built first has a rule with the
interpretator, the parser built second has none. -/
theorem rebuild_loses_label : ∃ h : Heap Pred, Run sampleLang sampleOrder [] h ∧ RuleAt h 5 ∧
    ∃ b h1 b2 h2, sampleBuild 5 h = .ok (b, h1) ∧ RuleAt h1 5 ∧ sampleBuild 5 h1 = .ok (b2, h2) ∧
      (∃ x, Reach h1 b.grammar.start x ∧ interpretatorAt h1 x = some 7) ∧
      ∀ x, Reach h2 b2.grammar.start x → interpretatorAt h2 x = none := by
  have hrun : Run sampleLang sampleOrder [] labelSource := by
    have h1 : Run sampleLang sampleOrder [] (.forward none :: labelSource.tail) :=
      makeAll_run (h := []) (by decide +kernel)
    exact run_trans h1 (.cons (.define (a := 0) (c := none) (r := 3) rfl ⟨.interp 2 7, rfl, rfl⟩) .nil)
  refine ⟨labelSource, hrun, ⟨_, rfl, rfl⟩, ?_⟩
  have key : (match sampleBuild 5 labelSource with
      | .ok (b, h1) => isRuleAt h1 5 && (walk id h1 b.grammar.start).any (fun x => interpretatorAt h1 x == some 7) &&
        (match sampleBuild 5 h1 with
        | .ok (b2, h2) => (walk id h2 b2.grammar.start).all (fun x => interpretatorAt h2 x == none)
        | .error _ => false)
      | .error _ => false) = true := by decide +kernel
  split at key
  · rename_i b h1 e1
    rw [Bool.and_eq_true, Bool.and_eq_true] at key
    obtain ⟨⟨kr, ka⟩, key⟩ := key
    split at key
    · rename_i b2 h2 e2
      have hh := run_healthy hrun healthy_nil
      have hh1 := act_healthy (.build (fun _ _ h => h) ⟨_, rfl, rfl⟩ e1) hh
      obtain ⟨s1, c1, g1, _⟩ := buildParser_parts e1
      obtain ⟨s2, c2, g2, _⟩ := buildParser_parts e2
      obtain ⟨q1, _⟩ := compile_healthy hh.sorted hh.stored (fun _ _ h => h) ⟨_, rfl, rfl⟩ c1
      obtain ⟨q2, _⟩ := compile_healthy hh1.sorted hh1.stored (fun _ _ h => h) (isRuleAt_ok kr) c2
      rw [(toGrammar_ok q1.sorted.closed q1.typed.lt g1).1] at ka
      rw [(toGrammar_ok q2.sorted.closed q2.typed.lt g2).1] at key
      refine ⟨b, h1, b2, h2, e1, isRuleAt_ok kr, e2, ?_, ?_⟩
      · rw [(toGrammar_ok q1.sorted.closed q1.typed.lt g1).1]
        obtain ⟨x, hx, k⟩ := List.any_eq_true.1 ka
        exact ⟨x, (reach_iff (fun _ _ h => h) q1.sorted.closed q1.typed.lt x).1 hx, beq_iff_eq.1 k⟩
      · rw [(toGrammar_ok q2.sorted.closed q2.typed.lt g2).1]
        intro x hx
        exact beq_iff_eq.1 (List.all_eq_true.1 key x
          ((reach_iff (fun _ _ h => h) q2.sorted.closed q2.typed.lt x).2 hx))
    · cases key
  · cases key

/-- An analyzer with other normal forms. -/
def otherContext : Context :=
  { sampleContext with morph := some { sampleMorph with normalized := fun w => [w ++ "s".toList] } }

def wordSource : Heap Pred := [.prod [.pred (.normalized "a".toList)] 0, .rule [0]]

def wordBuild (c : Context) (h : Heap Pred) : Except Err (Built × Heap Pred) :=
  buildParser sampleLang sampleOrder c sampleSplit (fun _ => .gender) id 60 1 h

def wordFound (b : Built) : Nat :=
  match findall b.grammar b.agreement (id : Key → Key) [{ value := "a".toList, span := (0, 1), type := "RU".toList }] 60 with
  | some (.ok (ms, _)) => ms.length
  | _ => 7

/-- C21 is false for tokenizers that differ: `rule(normalized('a'))` finds the word with the sample
analyzer; after a parser with another analyzer was built from the same rule, the parser with the sample
analyzer does not find it any more. -/
theorem rebuild_keeps_tokenizer : ∃ h : Heap Pred, Run sampleLang sampleOrder [] h ∧ RuleAt h 1 ∧
    ∃ b0 h0 b1 h1 b2 h2, wordBuild sampleContext h = .ok (b0, h0) ∧ wordBuild otherContext h = .ok (b1, h1) ∧
      wordBuild sampleContext h1 = .ok (b2, h2) ∧ wordFound b0 = 1 ∧ wordFound b2 = 0 := by
  refine ⟨wordSource, makeAll_run (h := []) (by decide +kernel), ⟨_, rfl, rfl⟩, ?_⟩
  have key : (match wordBuild sampleContext wordSource with
      | .ok (b0, _) => wordFound b0 == 1 && (match wordBuild otherContext wordSource with
        | .ok (_, h1) => (match wordBuild sampleContext h1 with
          | .ok (b2, _) => wordFound b2 == 0
          | .error _ => false)
        | .error _ => false)
      | .error _ => false) = true := by decide +kernel
  split at key
  · rename_i b0 h0 e0
    rw [Bool.and_eq_true, beq_iff_eq] at key
    obtain ⟨k0, key⟩ := key
    split at key
    · rename_i b1 h1 e1
      split at key
      · rename_i b2 h2 e2
        exact ⟨b0, h0, b1, h1, b2, h2, e0, e1, e2, k0, beq_iff_eq.1 key⟩
      · cases key
    · cases key
  · cases key

end Yargy
