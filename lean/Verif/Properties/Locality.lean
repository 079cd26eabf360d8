import Verif.Proofs.RenamedFacts
/-!
C49: what a parser does depends only on the objects its rule consists of.
-/
namespace Yargy
open Spec Twins

variable {L : Lang} {setOrder : List Str → List Str}

/-! ### Pipelines keep their index -/

/-- Activation leaves the first words of a gazetteer line as they are. -/
theorem indexValues_activated {c : Context} {split : Str → List Str} {g g' : Heap Pred} {p : Nat} {o o' : Obj Pred}
    {kind : PipeKind} {vs : List Str} (ho : g[p]? = some o) (hact : activateObj (c.activation L split) o = .ok o')
    (h' : g'[p]? = some o' ∨ (∃ d, o = .forward d) ∧ ∃ r, g'[p]? = some (.forward (some r)))
    (e : indexValues kind (productionAt g p) = .ok vs) : indexValues kind (productionAt g' p) = .ok vs := by
  unfold productionAt at e ⊢
  rw [ho] at e
  cases o with
  | prod ts m =>
    obtain ⟨ts', h1, rfl⟩ := except_map_ok hact
    rcases h' with h' | ⟨⟨d, hd⟩, _⟩
    · rw [h']
      cases ts with
      | nil => cases kind <;> cases e
      | cons t ts =>
        rw [List.mapM_cons] at h1
        obtain ⟨t', k1, k2⟩ := except_bind_ok h1
        obtain ⟨us, _, k4⟩ := except_bind_ok k2
        cases k4
        cases t with
        | rule r => cases kind <;> cases e
        | pred q =>
          obtain ⟨q', hq, rfl⟩ := except_map_ok k1
          cases kind <;> cases q <;> first | (cases e; done) | (cases hq; exact e)
    · cases hd
  | pipeProd v ps =>
    cases hact
    rcases h' with h' | ⟨⟨d, hd⟩, _⟩
    · rw [h']; exact e
    · cases hd
  | _ => cases kind <;> cases e

/-- The gazetteers of parsers built before are still there. -/
theorem charted_old {g g' : Heap Pred} (hg : Healthy L setOrder g) {c : Context} {split : Str → List Str}
    {root start : Nat} (hc : Compiled (c.activation L split) Fixed g root g' start) {a : Nat} {o : Obj Pred}
    (ha : a < g.length) (ho : g'[a]? = some o) : ∃ r, chartRuleOf L setOrder g' o = .ok r := by
  cases o with
  | bnf ps n i r k =>
    have hold : g[a]? = some (.bnf ps n i r k) := by
      have hga := List.getElem?_eq_getElem ha
      rw [hga]
      by_cases hr : Reach g root a
      · obtain ⟨o', k1, k2⟩ := hc.done a _ hga hr
        rcases k2 with k2 | ⟨_, _, k2⟩
        · rw [ho] at k2; cases k2
          generalize g[a] = old at k1
          cases old <;> first
            | (cases k1; rfl)
            | (obtain ⟨_, _, h⟩ := except_map_ok k1; cases h; done)
            | (cases k1; done)
        · rw [ho] at k2; cases k2
      · have := hc.rest a _ hga hr
        rw [ho] at this; exact this.symm
    cases k with
    | none => exact ⟨_, rfl⟩
    | some kind =>
      have := hg.charted _ (List.mem_of_getElem? hold)
      simp only [chartRuleOf] at this ⊢
      rw [pipeRule_ok] at this ⊢
      intro q hq
      obtain ⟨p, hp, rfl⟩ := List.mem_map.1 hq
      obtain ⟨vs, hvs⟩ := this _ (List.mem_map_of_mem hp)
      refine ⟨vs, ?_⟩
      have hpl := (hg.sorted a _ hold p hp).1
      have hgp := List.getElem?_eq_getElem hpl
      by_cases hr : Reach g root p
      · obtain ⟨o', k1, k2⟩ := hc.done p _ hgp hr
        exact indexValues_activated hgp k1 k2 hvs
      · rw [productionAt_congr ((hc.rest p _ hgp hr).trans hgp.symm)]; exact hvs
  | _ => exact ⟨_, rfl⟩

/-! ### The new objects -/

theorem mapM_append_ok {α β : Type} {f : α → Except Err β} {xs : List α} (h : ∀ x ∈ xs, ∃ y, f x = .ok y)
    (ys : List α) : ∃ us, (xs ++ ys).mapM f = (ys.mapM f).map (us ++ ·) := by
  induction xs with
  | nil => exact ⟨[], by cases h : ys.mapM f <;> simp [h, Except.map]⟩
  | cons x xs ih =>
    obtain ⟨y, hy⟩ := h x List.mem_cons_self
    obtain ⟨us, hus⟩ := ih (fun z hz => h z (List.mem_cons_of_mem _ hz))
    refine ⟨y :: us, ?_⟩
    rw [List.cons_append, List.mapM_cons, hy, hus]
    cases ys.mapM f <;> rfl

theorem mapM_mirrored {α β : Type} {f f' : α → Except Err β} {ρ : α → α} {σ : β → β} : ∀ {ys : List α},
    (∀ y ∈ ys, f' (ρ y) = (f y).map σ) → (ys.map ρ).mapM f' = (ys.mapM f).map (List.map σ) := by
  intro ys
  induction ys with
  | nil => intro _; rfl
  | cons y ys ih =>
    intro h
    rw [List.map_cons, List.mapM_cons, List.mapM_cons, h y List.mem_cons_self,
      ih (fun z hz => h z (List.mem_cons_of_mem _ hz))]
    cases f y with
    | error e => rfl
    | ok u => cases ys.mapM f <;> rfl

theorem grammars_twin {F : Map} {h h' g g' : Heap Pred} (hh : Healthy L setOrder h) (hg : Healthy L setOrder g)
    {c : Context} {split : Str → List Str} {root root' start : Nat}
    (hc : Compiled (c.activation L split) Fixed h root h' start)
    (hc' : Compiled (c.activation L split) Fixed g root' g' (F.f start))
    (hfresh : ∀ k, F.D (h.length + k) ∧ F.f (h.length + k) = g.length + k) (T : Twin F h' g') :
    (∃ e, toGrammar L setOrder start h' = .error e ∧ toGrammar L setOrder (F.f start) g' = .error e) ∨
      ∃ G G', toGrammar L setOrder start h' = .ok G ∧ toGrammar L setOrder (F.f start) g' = .ok G' := by
  have p1 := fit_proper hc.sorted.closed hc.bnf (fun x hx => typed_fit hc.typed hx)
  have p2 := fit_proper hc'.sorted.closed hc'.bnf (fun x hx => typed_fit hc'.typed hx)
  unfold toGrammar
  rw [if_pos p1, if_pos p2]
  have old : ∀ {k : Heap Pred} {k' : Heap Pred} {r s : Nat}, Healthy L setOrder k →
      Compiled (c.activation L split) Fixed k r k' s → ∀ x ∈ k'.take k.length,
      ∃ y, chartRuleOf L setOrder k' x = .ok y := by
    intro k k' r s hk hc x hx
    obtain ⟨a, ha⟩ := List.mem_iff_getElem?.1 hx
    rw [List.getElem?_take] at ha
    split at ha
    · rename_i hl; exact charted_old hk hc hl ha
    · cases ha
  have hnew : g'.drop g.length = (h'.drop h.length).map (Obj.rename F.f) := by
    apply List.ext_getElem?
    intro i
    rw [List.getElem?_drop, List.getElem?_map, List.getElem?_drop, ← (hfresh i).2]
    exact T.get _ (hfresh i).1
  have hmir : ∀ y ∈ h'.drop h.length, chartRuleOf L setOrder g' (y.rename F.f) =
      (chartRuleOf L setOrder h' y).map (ChartRule.rename F.f) := by
    intro y hy
    obtain ⟨i, hi⟩ := List.mem_iff_getElem?.1 hy
    rw [List.getElem?_drop] at hi
    exact chartRuleOf_mirror (S := F.D) ⟨T.get, T.closed⟩ (T.closed _ y (hfresh i).1 hi)
  obtain ⟨us, e1⟩ := mapM_append_ok (old hh hc) (h'.drop h.length)
  obtain ⟨us', e2⟩ := mapM_append_ok (old hg hc') (g'.drop g.length)
  rw [List.take_append_drop] at e1 e2
  rw [hnew, mapM_mirrored hmir] at e2
  rw [e1, e2]
  cases List.mapM (chartRuleOf L setOrder h') (h'.drop h.length) with
  | error e => exact .inl ⟨e, rfl, rfl⟩
  | ok vs => exact .inr ⟨_, _, rfl, rfl⟩

/-- Rules that were compiled alike make parsers that do the same. -/
theorem twins_interchangeable {F : Map} {h g : Heap Pred} {start : Nat} {G G' : Grammar Pred Token}
    (hs : SetOrder setOrder) (hc : ClosedHeap h) (hlt : start < h.length) (hD : F.D start) (T : Twin F h g)
    (e : toGrammar L setOrder start h = .ok G) (e' : toGrammar L setOrder (F.f start) g = .ok G')
    (hc' : ClosedHeap g) (hlt' : F.f start < g.length)
    (relation : Nat → Relation) :
    ∃ f, Interchangeable f h ⟨G, ⟨relationAt h, relation⟩⟩ g ⟨G', ⟨relationAt g, relation⟩⟩ := by
  have hRD : ∀ x, Reach h start x → F.D x := by
    intro x hx
    induction hx with
    | root => exact hD
    | step _ ho hc ih => exact T.closed _ _ ih ho _ hc
  have hRlt : ∀ x, Reach h start x → x < h.length := by
    intro x hx
    cases hx with
    | root => exact hlt
    | step _ ho hx => exact hc _ (List.mem_of_getElem? ho) _ hx
  have M0 : Mirror (Reach h start) F.f h g :=
    ⟨fun a ha => T.get a (hRD a ha), fun a o ha ho c hc => .step ha ho hc⟩
  have hinj : ∀ a b, Reach h start a → Reach h start b → F.f a = F.f b → a = b :=
    fun a b ha hb => F.inj a b (hRD a ha) (hRD b hb)
  have hbound : ∀ a, Reach h start a → F.f a < g.length := fun a ha => T.lt (hRD a ha) (hRlt a ha)
  have hf := stretch_inj hinj hbound
  have M := M0.stretched g.length
  generalize hdef : stretch (Reach h start) F.f g.length = f at hf M
  have hst : f start = F.f start := by rw [← hdef]; exact stretch_on .root
  rw [← hst] at e' hlt'
  have hG := grammar_mirror hs hc hlt M e e'
  have hA := agreement_mirror M relation
  have g1 := toGrammar_ok hc hlt e
  have g1' := toGrammar_ok hc' hlt' e'
  refine ⟨f, ?_, ?_, ?_, ?_, ?_⟩
  · simp only [g1.1, g1'.1]
    exact ⟨rfl, fun x y _ _ h => hf x y h, fun x o hx ho => by rw [M.get x hx, ho]; rfl⟩
  · intro H H' _ _ hash hash' hh hh' toks all fuel
    exact extract_renamed hf hh hh' hG hA all fuel
  · intro H H' _ _ hash hash' hh hh' toks fuel
    exact findall_renamed hf hh hh' hG hA fuel
  · intro H H' _ _ hash hash' hh hh' toks fuel
    exact matchText_renamed hf hh hh' hG hA fuel
  · intro H _ hash toks fuel ms σ hfa m hm Fx its
    obtain ⟨rules, rfl, hlib⟩ := g1.2.2.2
    obtain ⟨k1, k2⟩ := library_predict (start := start) hs hlib
    have ok := findall_matches k1 k2 (pred_narrows L rules start) hfa m hm
    obtain ⟨d, d1, d2⟩ := ok.derives
    have hin := trims_rulesIn d2 (derives_rulesIn (S := Reach h start) hG.closed d1 (by
      intro r hr; cases hr; exact .root))
    simp only [Match.rename, Tree.rename, load_rename]
    refine matchFact_rename (S := Reach h start) (fun r hr => ?_) hin
    simp only [interpretators, interpretatorAt]
    rw [M.get r hr]
    cases h[r]? with
    | none => rfl
    | some o => cases o <;> rfl

/-- Rules that are compiled alike in two programs make parsers that do the same. -/
theorem same_builds {F : Map} {h g : Heap Pred} (hs : SetOrder setOrder) (hh : Healthy L setOrder h)
    (hg : Healthy L setOrder g) {c : Context} {split : Str → List Str} {relation : Nat → Relation}
    {pid pid' : Nat → Nat} (hp : ∀ a b, pid a = pid b → a = b) (hp' : ∀ a b, pid' a = pid' b → a = b)
    {limit root : Nat} (hr : RuleAt h root) (hr' : RuleAt g (F.f root))
    (hfresh : ∀ k, F.D (h.length + k) ∧ F.f (h.length + k) = g.length + k)
    (hres : ResHeap F (compileRule (c.activation L split) id limit root h)
      (compileRule (c.activation L split) id limit (F.f root) g)) :
    SameBuilds (buildParser L setOrder c split relation pid limit root h)
      (buildParser L setOrder c split relation pid' limit (F.f root) g) := by
  have hid : ∀ a b : Nat, id a = id b → a = b := fun _ _ h => h
  unfold buildParser
  rw [addresses_irrelevant_partial hp hid, addresses_irrelevant_partial hp' hid]
  cases e1 : compileRule (c.activation L split) id limit root h with
  | error er =>
    rw [e1] at hres
    generalize compileRule (c.activation L split) id limit (F.f root) g = y at hres
    cases hres; exact .error er
  | ok x =>
    obtain ⟨start, h'⟩ := x
    rw [e1] at hres
    cases e2 : compileRule (c.activation L split) id limit (F.f root) g with
    | error er => rw [e2] at hres; cases hres
    | ok y =>
      obtain ⟨start', g'⟩ := y
      rw [e2] at hres
      cases hres with
      | ok hD T =>
        obtain ⟨hc, _⟩ := compile_healthy hh.sorted hh.stored hid hr e1
        obtain ⟨hc', _⟩ := compile_healthy hg.sorted hg.stored hid hr' e2
        rcases grammars_twin hh hg hc hc' hfresh T with ⟨er, k1, k2⟩ | ⟨G, G', k1, k2⟩
        · simp only [bind, Except.bind, k1, k2]; exact .error er
        · obtain ⟨f, hf⟩ := twins_interchangeable hs hc.sorted.closed hc.typed.lt hD T k1 k2
            hc'.sorted.closed hc'.typed.lt relation
          simp only [bind, Except.bind, k1, k2]
          exact .ok f hf

/-! ### C49 -/

/-- The correspondence of the objects of a rule, continued to the objects made later. -/
def ruleMap {P : Type} {f : Nat → Nat} {h g : Heap P} {root root' : Nat} (ha : Alike f h root g root')
    (hc : ClosedHeap h) (hlt : root < h.length) : Map where
  f a := if a < h.length then f a else a - h.length + g.length
  D a := Reach h root a ∨ h.length ≤ a
  inj := by
    have lt : ∀ a, Reach h root a → a < h.length ∧ f a < g.length := by
      intro a hra
      have : a < h.length := by
        cases hra with
        | root => exact hlt
        | step _ ho hx => exact hc _ (List.mem_of_getElem? ho) _ hx
      exact ⟨this, (List.getElem?_eq_some_iff.1 (ha.same a _ hra (List.getElem?_eq_getElem this))).1⟩
    intro a b h1 h2 e
    rcases h1 with h1 | h1 <;> rcases h2 with h2 | h2
    · rw [if_pos (lt a h1).1, if_pos (lt b h2).1] at e
      exact ha.inj a b h1 h2 e
    · rw [if_pos (lt a h1).1, if_neg (by omega)] at e
      have := (lt a h1).2; omega
    · rw [if_pos (lt b h2).1, if_neg (by omega)] at e
      have := (lt b h2).2; omega
    · rw [if_neg (by omega), if_neg (by omega)] at e
      omega

theorem ruleMap_twin {P : Type} {f : Nat → Nat} {h g : Heap P} {root root' : Nat} (ha : Alike f h root g root')
    (hc : ClosedHeap h) (hlt : root < h.length) : Twin (ruleMap ha hc hlt) h g where
  get a hD := by
    rcases hD with hD | hD
    · have hal : a < h.length := by
        cases hD with
        | root => exact hlt
        | step _ ho hx => exact hc _ (List.mem_of_getElem? ho) _ hx
      have hga := List.getElem?_eq_getElem hal
      show g[if a < h.length then f a else a - h.length + g.length]? = _
      rw [if_pos hal, ha.same a _ hD hga, hga, Option.map_some, Option.some.injEq]
      refine rename_congr fun c hcc => ?_
      show f c = if c < h.length then f c else c - h.length + g.length
      rw [if_pos (hc _ (List.mem_of_getElem? hga) c hcc)]
    · show g[if a < h.length then f a else a - h.length + g.length]? = _
      rw [if_neg (by omega), List.getElem?_eq_none (by omega), List.getElem?_eq_none hD]
      rfl
  closed a o hD ho c hcc := by
    rcases hD with hD | hD
    · exact .inl (.step hD ho hcc)
    · have := (List.getElem?_eq_some_iff.1 ho).1; omega
  fresh k := by
    refine ⟨.inr (by omega), ?_⟩
    show (if h.length + k < h.length then f (h.length + k) else h.length + k - h.length + g.length) = _
    rw [if_neg (by omega)]; omega

/-- C49: what a parser does depends only on the objects its rule consists of and on the arguments of
`Parser`. Two programs may have made any other rules and parsers before, in any order, also from parts of
these rules; if the objects of the two rules correspond to each other, then both parsers are built or both
are refused with the same exception, and the parsers find the same matches with the same facts. -/
theorem parser_locality {h g : Heap Pred} (hs : SetOrder setOrder) (hrun : Run L setOrder [] h)
    (hrun' : Run L setOrder [] g) {c : Context} {split : Str → List Str} {relation : Nat → Relation}
    {pid pid' : Nat → Nat} (hp : ∀ a b, pid a = pid b → a = b) (hp' : ∀ a b, pid' a = pid' b → a = b)
    {limit root root' : Nat} (hr : RuleAt h root) {f : Nat → Nat} (ha : Alike f h root g root') :
    SameBuilds (buildParser L setOrder c split relation pid limit root h)
      (buildParser L setOrder c split relation pid' limit root' g) := by
  have hh := run_healthy hrun healthy_nil
  have hg := run_healthy hrun' healthy_nil
  obtain ⟨hlt, hpr⟩ := rule_at hr
  have T := ruleMap_twin ha hh.sorted.closed hlt
  have hroot : (ruleMap ha hh.sorted.closed hlt).f root = root' := by
    show (if root < h.length then f root else _) = root'
    rw [if_pos hlt, ha.root]
  have hr' : RuleAt g root' := by
    obtain ⟨o, h1, h2⟩ := hr
    refine ⟨o.rename f, ha.root ▸ ha.same root o .root h1, ?_⟩
    cases o <;> exact h2
  rw [← hroot]
  rw [← hroot] at hr'
  exact same_builds hs hh hg hp hp' hr hr' T.fresh
    (compileRule_twin (c.activation L split) limit hh.sorted hlt hpr (.inl .root) T)

/-- Another program: it makes one more rule and a parser for it before it makes the same rules. -/
def otherStart : Heap Pred := [.prod [.pred (.eq "c".toList)] 0, .rule [0], .optional 1 true]

def otherBuild : Except Err (Built × Heap Pred) := sampleBuild 2 otherStart

def otherObjects (n : Nat) : Heap Pred := programSource.map (Obj.rename (· + n))

/-- The hypotheses of `parser_locality` are met: the rules are at other addresses, and there are other
objects and another parser. The parser is built. -/
example : SetOrder sampleOrder ∧ Run sampleLang sampleOrder [] programSource ∧ RuleAt programSource 0 ∧
    (∃ b h', sampleBuild 0 programSource = .ok (b, h')) ∧
    ∃ (h1 g : Heap Pred), Run sampleLang sampleOrder [] g ∧ 3 < h1.length ∧
      (∃ b, otherBuild = .ok (b, h1)) ∧ g = h1 ++ otherObjects h1.length ∧
      Alike (· + h1.length) programSource 0 g (0 + h1.length) := by
  refine ⟨sampleOrder_ok, programSource_run, ⟨_, rfl, rfl⟩, ?_, ?_⟩
  · have key : (match sampleBuild 0 programSource with | .ok _ => true | .error _ => false) = true := by
      decide +kernel
    split at key
    · rename_i x hx; exact ⟨x.1, x.2, hx⟩
    · cases key
  · have key : (match otherBuild with
        | .ok (_, h1) => decide (3 < h1.length) && (makeAll h1 (.forward none :: (otherObjects h1.length).tail)) &&
          isRuleAt (h1 ++ .forward none :: (otherObjects h1.length).tail) (7 + h1.length)
        | .error _ => false) = true := by decide +kernel
    split at key
    · rename_i b h1 e
      rw [Bool.and_eq_true, Bool.and_eq_true, decide_eq_true_iff] at key
      refine ⟨h1, h1 ++ otherObjects h1.length, ?_, key.1.1, ⟨b, e⟩, rfl, rfl, ?_, ?_⟩
      · refine run_trans (makeAll_run (h := []) (os := otherStart) (by decide +kernel)) ?_
        refine .cons (.build (fun _ _ h => h) ⟨_, rfl, rfl⟩ e) ?_
        refine run_trans (makeAll_run key.1.2) (.cons (.define (a := h1.length) (c := none) (r := 7 + h1.length)
          ?_ (isRuleAt_ok key.2)) ?_)
        · rw [List.getElem?_append_right (Nat.le_refl _), Nat.sub_self]; rfl
        · have : (h1 ++ .forward none :: (otherObjects h1.length).tail).set h1.length
              (.forward (some (7 + h1.length))) = h1 ++ otherObjects h1.length := by
            rw [List.set_append_right _ _ (Nat.le_refl _), Nat.sub_self]; rfl
          rw [this]; exact .nil
      · intro x y _ _ h; exact Nat.add_right_cancel h
      · intro x o _ ho
        rw [List.getElem?_append_right (by omega), Nat.add_sub_cancel]
        unfold otherObjects
        rw [List.getElem?_map, ho]; rfl
    · cases key

end Yargy
