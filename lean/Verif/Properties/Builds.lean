import Verif.Spec.Buildable
import Verif.Proofs.TotalPasses
import Verif.Proofs.TotalFirm
import Verif.Properties.Activation
import Verif.Properties.Locality
/-!
C51: `Parser(rule)` succeeds for every rule that is in order. C52: the recursion limit.
-/
namespace Yargy
open Spec

variable {L : Lang} {setOrder : List Str → List Str}

/-- A gazetteer that can be compiled: it was split, and every key begins with a word to be found by. -/
def Indexed (p : Pipe Pred) : Prop :=
  ∃ kind keys, p = .keys kind keys ∧ ∀ k ∈ keys, ∃ q qs, k.2 = q :: qs ∧ indexes kind q = true

theorem indexed_fine {p : Pipe Pred} (h : Indexed p) : Pass.PipeFine p := by
  obtain ⟨kind, keys, rfl, hk⟩ := h
  refine ⟨kind, keys, rfl, fun k hkm e => ?_⟩
  obtain ⟨q, qs, h1, _⟩ := hk k hkm
  rw [h1] at e; cases e

theorem definite_solid {P : Type} {o : Obj P} (h : definite o = true) : solid o.tag = true := by
  cases o <;> first | (cases h; done) | rfl

theorem settled_firm {P : Type} {o : Obj P} (h : settled o = true) : firmQuant o = true := by
  cases o <;> first | rfl | (cases h; done) | exact h

theorem grounded_deep {P : Type} {h : Heap P} {a : Nat} (hg : Grounded h a) : ∃ k, Deep Any h a k := by
  induction hg with
  | forward h => exact ⟨0, .forward h⟩
  | @node a o ho _ ih =>
    by_cases hf : o.tag = .forward
    · cases o <;> first | (cases hf; done) | exact ⟨0, .forward ho⟩
    · obtain ⟨j, hj⟩ := exists_bound (Q := fun c k => Deep Any h c k) (fun c k k' hk hd => hd.le hk) o.children ih
      exact ⟨o.cost j, .node ho hf trivial hj (Nat.le_refl _)⟩

/-- The objects an activated rule consists of. -/
theorem awake_back {P : Type} {A : Activation P} {root : Nat} {h h1 : Heap P} (w : Awake A (Reach h root) h h1) :
    (∀ x, Reach h1 root x → Reach h root x) ∧
      ∀ (a : Nat) o, Reach h1 root a → h1[a]? = some o → ∃ o', h[a]? = some o' ∧ activateObj A o' = .ok o := by
  have back : ∀ (a : Nat) o, Reach h root a → h1[a]? = some o → ∃ o', h[a]? = some o' ∧
      activateObj A o' = .ok o := by
    intro a o hra ha
    have hal : a < h.length := w.length ▸ (List.getElem?_eq_some_iff.1 ha).1
    obtain ⟨o', k1, k2⟩ := w.done a _ hra (List.getElem?_eq_getElem hal)
    rw [ha] at k1; cases k1
    exact ⟨_, List.getElem?_eq_getElem hal, k2⟩
  have reach : ∀ x, Reach h1 root x → Reach h root x := by
    intro x hx
    induction hx with
    | root => exact .root
    | step _ hu hc ih =>
      obtain ⟨o', k1, k2⟩ := back _ _ ih hu
      exact .step ih k1 ((activateObj_shape k2).2.1 ▸ hc)
  exact ⟨reach, fun a o ha => back a o (reach a ha)⟩

theorem awake_at {P : Type} {A : Activation P} {root : Nat} {h h1 : Heap P} (w : Awake A (Reach h root) h h1)
    {a : Nat} {o : Obj P} (ho : h[a]? = some o) :
    ∃ o', h1[a]? = some o' ∧ (o' = o ∨ activateObj A o = .ok o') := by
  by_cases hr : Reach h root a
  · obtain ⟨o', k1, k2⟩ := w.done a o hr ho
    exact ⟨o', k1, .inr k2⟩
  · exact ⟨o, by rw [w.rest a hr]; exact ho, .inl rfl⟩

theorem awake_tag {P : Type} {A : Activation P} {root : Nat} {h h1 : Heap P} (w : Awake A (Reach h root) h h1)
    {a : Nat} {o : Obj P} (ho : h[a]? = some o) :
    ∃ o', h1[a]? = some o' ∧ o'.tag = o.tag ∧ o'.children = o.children ∧ (∀ c, o = .forward c → o' = .forward c) := by
  obtain ⟨o', k1, rfl | k2⟩ := awake_at w ho
  · exact ⟨_, k1, rfl, rfl, fun _ h => h⟩
  · have := activateObj_shape k2
    exact ⟨o', k1, this.1, this.2.1, this.2.2.1⟩

theorem grounded_awake {P : Type} {A : Activation P} {root : Nat} {h h1 : Heap P}
    (w : Awake A (Reach h root) h h1) {a : Nat} (hg : Grounded h a) : Grounded h1 a := by
  induction hg with
  | forward h =>
    obtain ⟨o', k1, _, _, k4⟩ := awake_tag w h
    rw [k4 _ rfl] at k1
    exact .forward k1
  | node h _ ih =>
    obtain ⟨o', k1, _, k3, _⟩ := awake_tag w h
    exact .node k1 (by rw [k3]; exact ih)

/-- A rule that may define a forward rule still may after activation. -/
theorem defining_hard {P : Type} {A : Activation P} {root : Nat} {h h1 : Heap P}
    (w : Awake A (Reach h root) h h1) {a : Nat} (hd : Defining h a) : Hard h1 a := by
  have keep : ∀ {x : Nat} {o : Obj P}, h[x]? = some o → settled o = true → h1[x]? = some o := by
    intro x o hx hs
    obtain ⟨o', k1, rfl | k2⟩ := awake_at w hx
    · exact k1
    · cases o <;> first | (cases hs; done) | (cases k2; exact k1)
  induction hd with
  | plain h2 h3 =>
    obtain ⟨o', q1, q2, _⟩ := awake_tag w h2
    exact SolidAt.hard ⟨o', q1, by rw [q2]; exact definite_solid h3⟩
  | quantifier h2 h3 h4 _ ih => exact hard_quant (keep h2 h3) (settled_firm h3) h4 ih.1
  | around h2 h3 h4 hc =>
    obtain ⟨o', q1, _, _, q4⟩ := awake_tag w hc
    rw [q4 _ rfl] at q1
    exact hard_quant (keep h2 h3) (settled_firm h3) h4 (.forward q1)

section
variable {c : Context} {split : Str → List Str} {relation : Nat → Relation} {pid : Nat → Nat} {root : Nat}
  {h : Heap Pred}

/-- Every object of a sound rule can be activated. -/
theorem sound_activates {a : Nat} {o : Obj Pred} (hs : Sound c split h a o) :
    ∃ o', activateObj (c.activation L split) o = .ok o' := by
  cases o with
  | prod ts m =>
    have : ∃ us, ts.mapM (activateTerm (c.activation L split)) = .ok us := by
      rw [mapM_ok_iff]
      intro t ht
      cases t with
      | rule r => exact ⟨_, rfl⟩
      | pred p =>
        obtain ⟨q, hq⟩ := (activate_iff_known_partial c p).2 (hs.known ts m rfl p ht)
        exact ⟨.pred q, by simp only [activateTerm, Context.activation, hq, Except.map]⟩
    obtain ⟨us, e⟩ := this
    exact ⟨.prod us m, by simp only [activateObj, e, Except.map]⟩
  | pipe p =>
    cases p with
    | keys d ks => exact ⟨_, rfl⟩
    | scheme d lines =>
      have : ∃ ks, lines.mapM (fun l => ((c.activation L split).key d l).map (fun ts => (l, ts))) = .ok ks := by
        rw [mapM_ok_iff]
        intro l hl
        have hk : ∃ ps, (c.activation L split).key d l = .ok ps := by
          refine (pipeKey_ok d l).2 ?_
          rintro rfl _
          exact hs.morph lines rfl (List.ne_nil_of_mem hl)
        obtain ⟨ps, hps⟩ := hk
        exact ⟨(l, ps), by rw [hps]; rfl⟩
      obtain ⟨ks, e⟩ := this
      exact ⟨.pipe (.keys d ks), by simp only [activateObj, activatePipe]; rw [e]; rfl⟩
  | _ => exact ⟨_, rfl⟩

theorem quant_cases {P : Type} {o : Obj P} (h : o.tag = .quant) (hr : Pass.isRepOptional o = false) :
    quantifier o = true := by
  cases o <;> first | (cases h; done) | (cases hr; done) | rfl

/-- An activated rule that was sound can be compiled. -/
theorem sound_ripe (hh : Healthy L setOrder h) (hr : RuleAt h root)
    (hs : ∀ a o, Reach h root a → h[a]? = some o → Sound c split h a o) {h1 : Heap Pred}
    (w : Awake (c.activation L split) (Reach h root) h h1) :
    Ripe (fun _ => true) Fixed Indexed h1 root ∧
      ∀ x o, Reach h1 root x → h1[x]? = some o → Pass.Clean h1 x o := by
  obtain ⟨hlt, hpr⟩ := rule_at hr
  obtain ⟨reach, back⟩ := awake_back w
  have lt : ∀ x, Reach h root x → x < h.length := by
    intro x hx
    cases hx with
    | root => exact hlt
    | step _ hu hc => exact (hh.sorted _ _ hu _ hc).1
  have isProd : ∀ c, isProdAt h1 c = isProdAt h c := by
    intro x
    by_cases hx : x < h.length
    · obtain ⟨o', k1, k2, _⟩ := awake_tag w (List.getElem?_eq_getElem hx)
      rw [Pass.isProdAt_some (List.getElem?_eq_getElem hx), Pass.isProdAt_some k1, k2]
    · unfold isProdAt
      rw [List.getElem?_eq_none (Nat.le_of_not_lt hx), List.getElem?_eq_none (by rw [w.length]; omega)]
  have hs1 : Sorted h1 := by
    intro a o ha x hx
    have hal : a < h.length := w.length ▸ (List.getElem?_eq_some_iff.1 ha).1
    obtain ⟨o', k1, k2, k3, _⟩ := awake_tag w (List.getElem?_eq_getElem hal)
    rw [ha] at k1; cases k1
    rw [isProd, w.length, k2]
    exact hh.sorted a _ (List.getElem?_eq_getElem hal) x (k3 ▸ hx)
  refine ⟨⟨?_, hs1, (isProd root).trans hpr, ?_, ?_, ?_⟩, ?_⟩
  · intro x hx
    have hxl : x < h1.length := by rw [w.length]; exact lt x (reach x hx)
    obtain ⟨o', k1, k2⟩ := back x _ hx (List.getElem?_eq_getElem hxl)
    exact ⟨_, List.getElem?_eq_getElem hxl, rfl,
      activateObj_fixed (hh.stored o' (List.mem_of_getElem? k1)) k2,
      fun y hy => (hs1 x _ (List.getElem?_eq_getElem hxl) y hy).2⟩
  · intro x hx
    exact grounded_deep (grounded_awake w
      (hs x _ (reach x hx) (List.getElem?_eq_getElem (lt x (reach x hx)))).grounded)
  · intro x d hx hxd
    obtain ⟨o', k1, k2⟩ := back x _ hx hxd
    have e := (activateObj_shape k2).2.2.2 d rfl
    obtain ⟨r, h1', h2'⟩ := (hs x o' (reach x hx) k1).defined d e
    exact ⟨r, h1', defining_hard w h2'⟩
  · intro x p hx hxp
    obtain ⟨o', k1, k2⟩ := back x _ hx hxp
    have ho := hs x o' (reach x hx) k1
    have ht := (activateObj_shape k2).1
    cases o' <;> first | (cases ht; done) | skip
    rename_i p'
    cases p' with
    | keys d ks =>
      cases k2
      exact ⟨d, ks, rfl, ho.keys d ks rfl⟩
    | scheme d ls =>
      obtain ⟨p1, e1, e2⟩ := except_map_ok k2
      obtain ⟨ks, e3, e4⟩ := except_map_ok e1
      cases e4; cases e2
      refine ⟨d, ks, rfl, fun key hkey => ?_⟩
      obtain ⟨l, hl, e5⟩ := (mapM_mem e3 key).1 hkey
      obtain ⟨ps, e6, e7⟩ := except_map_ok e5
      cases e7
      exact key_indexed (ho.words d ls rfl l hl) e6
  · intro x o hx hxo hq hro y hy
    obtain ⟨o', k1, k2⟩ := back x _ hx hxo
    have hshape := activateObj_shape k2
    have hy' : y ∈ o'.children := hshape.2.1 ▸ hy
    have hoo : o' = o := by
      cases o' <;> first
        | (cases k2; rfl)
        | (rw [hshape.1] at hq; cases hq; done)
    subst hoo
    have hyl := lt y (.step (reach x hx) k1 hy')
    obtain ⟨oy, q1, q2, _⟩ := awake_tag w (List.getElem?_eq_getElem hyl)
    refine ⟨oy, q1, ?_⟩
    have hno := (hs x o' (reach x hx) k1).quantified (quant_cases hq hro) y hy'
    obtain ⟨oy', w1, w2⟩ := awake_at w (List.getElem?_eq_getElem hyl)
    rw [q1] at w1; cases w1
    cases oy <;> first | rfl | skip
    rcases w2 with w2 | w2
    · exact absurd (by rw [List.getElem?_eq_getElem hyl, ← w2]) (hno _ _ _)
    · have hold := List.getElem?_eq_getElem hyl
      generalize h[y] = old at w2 hold
      cases old <;> first
        | (cases w2; exact absurd hold (hno _ _ _))
        | (obtain ⟨_, _, h⟩ := except_map_ok w2; cases h; done)
        | (cases w2; done)

/-- C51 (partial): whatever a program did before: `Parser(rule)` does not raise if the rule is in order and
the recursion limit of Python is high enough. Missing: forward rules defined by repetitions without
bounds, which are refused (`forward_to_repeatable_never_builds`, `forward_to_optional_repeatable_never_builds`,
`forward_to_once_never_builds`), and rules that contain themselves through compiled rules that
an earlier construction left (`rebuild_recursion`). -/
theorem parser_builds_partial (hrun : Run L setOrder [] h) (hp : ∀ a b, pid a = pid b → a = b) (hr : RuleAt h root)
    (hs : ∀ a o, Reach h root a → h[a]? = some o → Sound c split h a o) :
    ∃ N b h', ∀ limit, N ≤ limit → buildParser L setOrder c split relation pid limit root h = .ok (b, h') := by
  have hh := run_healthy hrun healthy_nil
  obtain ⟨hlt, hpr⟩ := rule_at hr
  have hroot : ∀ ts m, h[root]? ≠ some (.prod ts m) := by
    intro ts m hm
    rw [Pass.isProdAt_some hm] at hpr; cases hpr
  obtain ⟨h1, e1⟩ := (activateRule_succeeds (A := c.activation L split) hp hh.sorted.closed hlt hroot).2
    (fun a o ha ho => sound_activates (hs a o ha ho))
  have w := activateRule_awake hp hh.sorted.closed hlt hroot e1
  obtain ⟨ripe, clean⟩ := sound_ripe hh hr hs w
  obtain ⟨N, start, h', e2, keyed⟩ := compiled_total hp ripe clean (fun p => indexed_fine)
  have ec : ∀ limit, N ≤ limit → compileRule (c.activation L split) pid limit root h = .ok (start, h') := by
    intro limit hl
    have := e2 limit hl
    unfold compileRule
    simp only [bind, Except.bind, e1] at this ⊢
    exact this
  have hc := (compile_healthy hh.sorted hh.stored hp hr (ec N (Nat.le_refl _))).1
  have hprop : proper start h' = true :=
    fit_proper hc.sorted.closed hc.bnf (fun x hx => typed_fit hc.typed hx)
  obtain ⟨rs, ers⟩ : ∃ rs, h'.mapM (chartRuleOf L setOrder h') = .ok rs := by
    refine mapM_succeeds (fun o ho => ?_)
    obtain ⟨a, ha⟩ := List.mem_iff_getElem?.1 ho
    rcases Nat.lt_or_ge a h.length with hl | hl
    · exact charted_old hh hc hl ha
    · cases o with
      | bnf ps n i r k =>
        cases k with
        | none => exact ⟨_, rfl⟩
        | some kind =>
          simp only [chartRuleOf]
          rw [pipeRule_ok]
          intro q hq
          obtain ⟨p, hpm, rfl⟩ := List.mem_map.1 hq
          obtain ⟨v, ts, keys, k1, k3, k2⟩ := keyed a ps n i r kind (by rw [w.length]; exact hl) ha p hpm
          obtain ⟨kind', keys', e, k4⟩ := k3
          cases e
          obtain ⟨q, qs, k5, k6⟩ := k4 _ k2
          simp only at k5
          subst k5
          refine indexes_values k6 (ts := qs.map .pred) ?_
          unfold productionAt
          rw [k1]
          rfl
      | _ => exact ⟨_, rfl⟩
  refine ⟨N, ⟨predGrammar L rs start, ⟨relationAt h', relation⟩⟩, h', fun limit hl => ?_⟩
  unfold buildParser
  simp only [bind, Except.bind, ec limit hl, toGrammar, hprop, if_true, ers, Except.map, pure, Except.pure]

/-! ### Programs that have not built a parser yet -/

theorem fresh_run : ∀ {g h : Heap Pred}, RunWith L setOrder (fun _ _ => False) g h → Run L setOrder g h := by
  intro g h hr
  induction hr with
  | nil => exact .nil
  | cons h1 _ ih =>
    refine .cons ?_ ih
    cases h1 with
    | make h => exact .make h
    | define h1 h2 => exact .define h1 h2
    | build _ _ h _ => exact h.elim
    | failed _ _ h _ => exact h.elim

/-- Objects refer to older ones, and no gazetteer is split. -/
def Raw (h : Heap Pred) : Prop :=
  ∀ (a : Nat) o, h[a]? = some o → (∀ k ks, o ≠ .pipe (.keys k ks)) ∧
    ((∃ c, o = .forward c) ∨ ∀ c ∈ o.children, c < a)

theorem fresh_raw : ∀ {g h : Heap Pred}, RunWith L setOrder (fun _ _ => False) g h → Raw g → Raw h := by
  intro g h hr
  induction hr with
  | nil => exact id
  | @cons g _ _ h1 _ ih =>
    intro hg
    apply ih
    cases h1 with
    | @make o hm =>
      intro a o' ha
      rcases Nat.lt_or_ge a g.length with hl | hl
      · rw [List.getElem?_append_left hl] at ha
        exact hg a o' ha
      · rw [List.getElem?_append_right hl] at ha
        have ho : o' = o := by
          cases hk : a - g.length with
          | zero => rw [hk] at ha; cases ha; rfl
          | succ n => rw [hk] at ha; cases ha
        subst ho
        refine ⟨hm.keys, .inr fun x hx => ?_⟩
        obtain ⟨ox, hox, _⟩ := hm.parts x hx
        have := (List.getElem?_eq_some_iff.1 hox).1
        omega
    | @define a d r h1 h2 =>
      intro b o hb
      by_cases e : a = b
      · subst e
        rw [List.getElem?_set_self (List.getElem?_eq_some_iff.1 h1).1] at hb
        cases hb
        exact ⟨(by intro k ks h; cases h), .inl ⟨_, rfl⟩⟩
      · rw [List.getElem?_set_ne e] at hb
        exact hg b o hb
    | build _ _ h _ => exact h.elim
    | failed _ _ h _ => exact h.elim

theorem raw_grounded {h : Heap Pred} (hr : Raw h) : ∀ a, a < h.length → Grounded h a := by
  intro a
  induction a using Nat.strongRecOn with
  | ind a ih =>
    intro hl
    have ha := List.getElem?_eq_getElem hl
    rcases (hr a _ ha).2 with ⟨c, e⟩ | hlt
    · exact .forward (c := c) (by rw [ha, e])
    · exact .node ha (fun x hx => ih x (hlt x hx) (Nat.lt_trans (hlt x hx) hl))

/-- C51 (partial) for a program that only made rules and defined forward rules: what is asked of the rule is
what the user controls: forward rules are defined, and not by a repetition without bounds or a forward rule;
predicates refer to what there is; lines of gazetteers have words. -/
theorem fresh_parser_builds_partial (hrun : Fresh L setOrder h) (hp : ∀ a b, pid a = pid b → a = b) (hr : RuleAt h root)
    (defined : ∀ a d, Reach h root a → h[a]? = some (.forward d) → ∃ r, d = some r ∧ Defining h r)
    (quantified : ∀ a d b r, Reach h root a → h[a]? ≠ some (.repOptional d b r))
    (known : ∀ a ts m, Reach h root a → h[a]? = some (.prod ts m) → ∀ p, .pred p ∈ ts →
      ∀ q, PredPart q p → Known c q)
    (words : ∀ a k ls, Reach h root a → h[a]? = some (.pipe (.scheme k ls)) → ∀ l ∈ ls, split l ≠ [])
    (morph : ∀ a ls, Reach h root a → h[a]? = some (.pipe (.scheme .morph ls)) → ls ≠ [] →
      ∃ m, c.morph = some m) :
    ∃ N b h', ∀ limit, N ≤ limit → buildParser L setOrder c split relation pid limit root h = .ok (b, h') := by
  have hrun' := fresh_run hrun
  have raw := fresh_raw hrun (by intro a o h; cases h)
  refine parser_builds_partial hrun' hp hr (fun a o ha ho => ⟨?_, ?_, ?_, ?_, ?_, ?_, ?_⟩)
  · exact raw_grounded raw a (List.getElem?_eq_some_iff.1 ho).1
  · rintro d rfl; exact defined a d ha ho
  · intro _ d hd e b r hno
    exact quantified d e b r (.step ha ho hd) hno
  · rintro ts m rfl; exact known a ts m ha ho
  · rintro k ls rfl; exact words a k ls ha ho
  · rintro ls rfl; exact morph a ls ha ho
  · rintro k ks rfl; exact absurd rfl ((raw a _ ho).1 k ks)

/-! ### The recursion limit -/

/-- C52: a higher recursion limit changes nothing but `RecursionError`: it gives the same parser and leaves
the same objects, and a build that raises anything else raises it with every higher limit. -/
theorem limit_only_recursion {limit limit' : Nat} (hl : limit ≤ limit') :
    buildParser L setOrder c split relation pid limit' root h =
        buildParser L setOrder c split relation pid limit root h ∨
      buildParser L setOrder c split relation pid limit root h = .error .recursionError := by
  unfold buildParser
  exact Same.bind (compileRule_firm hl root h) fun x => .refl _

/-- A build that failed for another reason cannot be helped. -/
theorem never_builds {limit : Nat} {e : Err} (he : e ≠ .recursionError)
    (hb : buildParser L setOrder c split relation pid limit root h = .error e) (limit' : Nat) (x : Built × Heap Pred) :
    buildParser L setOrder c split relation pid limit' root h ≠ .ok x := by
  intro hx
  rcases Nat.le_total limit limit' with hl | hl
  · rcases limit_only_recursion (relation := relation) (pid := pid) (L := L) (setOrder := setOrder) (c := c)
      (split := split) (root := root) (h := h) hl with k | k
    · rw [hx, hb] at k; cases k
    · rw [hb] at k; cases k; exact he rfl
  · rcases limit_only_recursion (relation := relation) (pid := pid) (L := L) (setOrder := setOrder) (c := c)
      (split := split) (root := root) (h := h) hl with k | k
    · rw [hx, hb] at k; cases k
    · rw [hx] at k; cases k

end

/-! ### Examples -/

/-- A grammar of nested lists with a gazetteer: `list` is a forward rule that contains itself and is defined by
an optional rule. -/
def nestedSource : Heap Pred :=
  [.forward (some 14),
   .prod [.pred (.eq "a".toList)] 0, .rule [1],
   .pipe (.scheme .exact ["b c".toList, "b".toList]),
   .prod [.pred (.eq "(".toList), .rule 0, .pred (.eq ")".toList)] 0, .rule [4],
   .or [2, 3, 5], .optional 6 true, .repeatable 7 false, .minMaxBounded 8 2 4 false, .named 9 "n".toList,
   .prod [.rule 10, .rule 2] 1, .rule [11],
   .maxBounded 12 3 false, .optional 13 false]

theorem nestedSource_fresh : Fresh L setOrder nestedSource := by
  have makes : ∀ {os g : Heap Pred}, makeAll g os = true →
      RunWith L setOrder (fun _ _ => False) g (g ++ os) := by
    intro os
    induction os with
    | nil => intro g _; rw [List.append_nil]; exact .nil
    | cons o os ih =>
      intro g e
      simp only [makeAll, Bool.and_eq_true] at e
      have := ih e.2
      rw [List.append_assoc] at this
      exact .cons (.make (makeable_ok e.1)) this
  have trans : ∀ {f g k : Heap Pred}, RunWith L setOrder (fun _ _ => False) f g →
      RunWith L setOrder (fun _ _ => False) g k → RunWith L setOrder (fun _ _ => False) f k := by
    intro f g k h1 h2
    induction h1 with
    | nil => exact h2
    | cons a _ ih => exact .cons a (ih h2)
  exact trans (makes (g := []) (os := .forward none :: nestedSource.tail) (by decide +kernel))
    (.cons (.define (a := 0) (c := none) (r := 14) rfl ⟨.optional 13 false, rfl, rfl⟩) .nil)

/-- The hypotheses of `fresh_parser_builds_partial` hold of it. -/
example : ∃ N b h', ∀ limit, N ≤ limit →
    buildParser sampleLang sampleOrder sampleContext sampleSplit (fun _ => .gender) id limit 0 nestedSource =
      .ok (b, h') := by
  have at_ : ∀ {a : Nat} {o : Obj Pred}, nestedSource[a]? = some o → o ∈ nestedSource := List.mem_of_getElem?
  refine fresh_parser_builds_partial nestedSource_fresh (fun _ _ h => h) ⟨_, rfl, rfl⟩ ?_ ?_ ?_ ?_ ?_
  · intro a d _ h
    have h12 : nestedSource[12]? = some (.rule [11]) := rfl
    have h13 : nestedSource[13]? = some (.maxBounded 12 3 false) := rfl
    have h14 : nestedSource[14]? = some (.optional 13 false) := rfl
    have hm := at_ h
    simp only [nestedSource, List.mem_cons, List.not_mem_nil, reduceCtorEq, or_false, Obj.forward.injEq] at hm
    exact ⟨14, hm, .quantifier h14 rfl rfl (.quantifier h13 rfl rfl (.plain h12 rfl))⟩
  · intro a d b r _ h
    have hm := at_ h
    simp [nestedSource] at hm
  · intro a ts m _ h p hp q hq
    have hm := at_ h
    simp only [nestedSource, List.mem_cons, List.not_mem_nil, reduceCtorEq, or_false, false_or,
      Obj.prod.injEq] at hm
    rcases hm with ⟨rfl, _⟩ | ⟨rfl, _⟩ | ⟨rfl, _⟩ <;> simp at hp
    · subst hp; cases hq; trivial
    · rcases hp with rfl | rfl <;> (cases hq; trivial)
  · intro a k ls _ h l hl
    have hm := at_ h
    simp only [nestedSource, List.mem_cons, List.not_mem_nil, reduceCtorEq, or_false, false_or,
      Obj.pipe.injEq, Pipe.scheme.injEq] at hm
    obtain ⟨_, rfl⟩ := hm
    simp only [List.mem_cons, List.not_mem_nil, or_false] at hl
    rcases hl with rfl | rfl <;> decide +kernel
  · intro a ls _ h _
    have hm := at_ h
    simp [nestedSource] at hm

/-! ### What is asked of a rule is needed -/

/-- The error of a build. -/
def failsWith (e : Err) (root : Nat) (h : Heap Pred) : Bool :=
  match sampleBuild root h with
  | .error e' => decide (e' = e)
  | .ok _ => false

theorem failsWith_ok {e : Err} {root : Nat} {h : Heap Pred} (hf : failsWith e root h = true) :
    sampleBuild root h = .error e := by
  unfold failsWith at hf
  split at hf
  · rename_i e' he; rw [he, of_decide_eq_true hf]
  · cases hf

/-- No recursion limit helps. -/
def NeverBuilds (root : Nat) (h : Heap Pred) : Prop :=
  ∀ limit x, buildParser sampleLang sampleOrder sampleContext sampleSplit (fun _ => .gender) id limit root h ≠ .ok x

theorem failsWith_never {e : Err} {root : Nat} {h : Heap Pred} (hf : failsWith e root h = true)
    (he : e ≠ .recursionError := by decide) : NeverBuilds root h :=
  never_builds he (failsWith_ok hf)

/-- A forward rule that was never defined (`TypeError`). -/
theorem undefined_never_builds : NeverBuilds 2 [.forward none, .prod [.rule 0] 0, .rule [1]] :=
  failsWith_never (e := .typeError) (by decide +kernel)

/-- `f = forward(); f.define(A.repeatable())` (`ValueError`): the repetition becomes a forward rule
itself, and a forward rule must not be defined by one (`yargy/rule/constructors.py:283-292`,
`yargy/rule/transformators.py:62-66,320-335,374-377`). -/
theorem forward_to_repeatable_never_builds : NeverBuilds 5
    [.forward (some 3), .prod [.pred (.eq "a".toList)] 0, .rule [1], .repeatable 2 false,
      .prod [.rule 0] 0, .rule [4]] :=
  failsWith_never (e := .valueError) (by decide +kernel)

/-- The same for `f.define(A.repeatable().optional())`, which is squashed to a repetition. -/
theorem forward_to_optional_repeatable_never_builds : NeverBuilds 6
    [.forward (some 4), .prod [.pred (.eq "a".toList)] 0, .rule [1], .repeatable 2 false, .optional 3 false,
      .prod [.rule 0] 0, .rule [5]] :=
  failsWith_never (e := .valueError) (by decide +kernel)

/-- The same for `f.define(g.repeatable(max=1))` with a forward rule `g`: what is repeated at most once is put in
the place of the repetition. -/
theorem forward_to_once_never_builds : NeverBuilds 6
    [.forward (some 4), .forward (some 3), .prod [.pred (.eq "a".toList)] 0, .rule [2], .maxBounded 1 1 false,
      .prod [.rule 0] 0, .rule [5]] :=
  failsWith_never (e := .valueError) (by decide +kernel)

/-- The condition on forward rules is not necessary: a repetition does no harm where squashing leaves an optional
rule around it. -/
example : ∃ b h', sampleBuild 7
    [.forward (some 5), .prod [.pred (.eq "a".toList)] 0, .rule [1], .repeatable 2 false, .optional 3 false,
      .minBounded 4 2 false, .prod [.rule 0] 0, .rule [6]] = .ok (b, h') := by
  have key : (match sampleBuild 7
    [.forward (some 5), .prod [.pred (.eq "a".toList)] 0, .rule [1], .repeatable 2 false, .optional 3 false,
      .minBounded 4 2 false, .prod [.rule 0] 0, .rule [6]] with
      | .ok _ => true | .error _ => false) = true := by decide +kernel
  split at key
  · rename_i x hx; exact ⟨x.1, x.2, hx⟩
  · cases key

/-- A line without words (`IndexError`). -/
theorem empty_line_never_builds : NeverBuilds 0 [.pipe (.scheme .exact ["a".toList, [' ']])] :=
  failsWith_never (e := .indexError) (by decide +kernel)

/-- An unknown grammeme (`ValueError`). -/
theorem unknown_gram_never_builds : NeverBuilds 1 [.prod [.pred (.gram "nomn".toList)] 0, .rule [0]] :=
  failsWith_never (e := .valueError) (by decide +kernel)

/-- A `RepeatableOptionalRule` inside another quantifier (`AttributeError`). -/
theorem rep_optional_never_builds : NeverBuilds 3
    [.prod [.pred (.eq "a".toList)] 0, .rule [0], .repOptional 1 false false, .optional 2 false] :=
  failsWith_never (e := .attributeError) (by decide +kernel)

end Yargy
