import Verif.Proofs.ApiFaults
/-!
C55: what the calls of a program mean. The rules that `rule`, `or_`, `optional`, `repeatable`, … return
say what the arguments say, combined in the way of the call; what is wrong is refused.
-/
namespace Yargy.Api

open Spec

variable {L : Lang} {setOrder : List Str → List Str} {builds : Prop} {w w' : World} {log : List (Call × Arg)}
  {c : Context} {split : Str → List Str} {k : Kind}

/-- C55: a program of calls, with parsers built in between, is one of the programs that the other claims
speak of; what its calls returned is there and can be used further. -/
theorem api_program (hd : Does L setOrder builds {} log w) :
    Run L setOrder [] w.heap ∧ ∀ y ∈ log, Holds w y.2 := by
  obtain ⟨h1, _, _, _, h2⟩ := does_run hd healthy_nil
  exact ⟨h1, h2⟩

/-- C55: the words of the rule that a call returned are those that the call says, with its label around
them; later calls do not change this. -/
theorem api_words (hd : Does L setOrder False {} log w) {x : Call} {a : Nat} (hx : (x, .rule a) ∈ log)
    (hf : x ≠ .forward) (hn : ∀ y items, x ≠ .define y items) :
    ∃ b, Label w k x b ∧ ∀ s, Reads (c.activation L split) k w.heap [.rule a] s ↔
      ∃ u, CallWords (c.activation L split) k w.heap x u ∧ s = wrap b u :=
  (does_made hd hx hn).words (fixed_activation L c split) hf

/-- C55: a forward rule says what it was defined as last, and nothing before it is defined. -/
theorem api_forward (hd : Does L setOrder False {} log w) {f : Nat} :
    (∀ l1 l2 y items, log = l1 ++ (.define y items, .rule f) :: l2 →
      (∀ y' items', (Call.define y' items', Arg.rule f) ∉ l2) →
      ∀ s, Reads (c.activation L split) k w.heap [.rule f] s ↔
        ArgWords (c.activation L split) k w.heap items s) ∧
    ((Call.forward, Arg.rule f) ∈ log → (∀ y items, (Call.define y items, Arg.rule f) ∉ log) →
      ∀ s, ¬ Reads (c.activation L split) k w.heap [.rule f] s) := by
  constructor
  · intro l1 l2 y items hl hn s
    obtain ⟨w1, w2, _, k2, k3, k4⟩ := does_split hd hl
    have o := apply_ok k2 k3
    have hm := o.made f rfl
    cases hm with
    | define hd' ho =>
      have hs := does_still k4 (List.getElem?_eq_some_iff.1 ho).1 hn
      obtain ⟨g1, _, _⟩ := does_grown k4
      rw [forward_words (hs.trans ho)]
      exact definedAs_words (fixed_activation L c split) (hd'.imp id (fun hc => hc.grown g1)) s
  · intro hf hn s hs
    obtain ⟨l1, l2, hl⟩ := List.append_of_mem hf
    obtain ⟨w1, w2, _, k2, k3, k4⟩ := does_split hd hl
    have ho : w2.heap[f]? = some (.forward none) := by
      cases k3
      simp
    have hs' := does_still k4 (List.getElem?_eq_some_iff.1 ho).1
      (fun y items h => hn y items (by rw [hl]; simp [h]))
    rw [ho] at hs'
    obtain ⟨o, us, u, h1, h2, _⟩ := reads_rule.1 hs
    rw [hs'] at h1; cases h1
    rw [opens_spells (by rintro _ _ ⟨⟩) (by rintro _ _ ⟨⟩)] at h2
    cases h2

/-! ### Structure and order -/

theorem item_forms {A : Activation Pred} {h : Heap Pred} (hA : Fixed A) (x : Arg) (s : Outline Pred) :
    ArgForm A h x s ↔ ∃ t, Activated A (prepareItem x).1 t ∧ Forms A h t s := by
  have hrule (a : Nat) : Forms A h (.rule a) s ↔ ∃ t, Activated A (.rule a) t ∧ Forms A h t s :=
    ⟨fun h => ⟨_, .rule a, h⟩, by rintro ⟨t, ⟨⟩, h⟩; exact h⟩
  have hpred (p : Pred) : (∃ q, A.activate p = .ok q ∧ s = .leaf q) ↔
      ∃ t, Activated A (.pred p) t ∧ Forms A h t s := by
    constructor
    · rintro ⟨q, h1, rfl⟩; exact ⟨_, .pred h1, .pred⟩
    · rintro ⟨t, h1, h2⟩
      cases h1 with
      | pred h1 => cases h2; exact ⟨_, h1, rfl⟩
  have heq {p : Pred} (hp : A.activate p = .ok p) : s = .leaf p ↔
      ∃ t, Activated A (.pred p) t ∧ Forms A h t s := by
    rw [← hpred p, hp]
    simp
  cases x with
  | rule a => exact hrule a
  | pred p => exact hpred p
  | main t =>
    cases t with
    | rule a => exact hrule a
    | pred p => exact hpred p
  | str v => exact heq (hA.1 v)
  | _ => exact heq hA.2

theorem items_forms {A : Activation Pred} {h : Heap Pred} (hA : Fixed A) (items : List Arg) :
    ∀ ss : List (Outline Pred), ArgForms A h items ss ↔
      ∃ us, ActivatedAll A (items.map (fun x => (prepareItem x).1)) us ∧ FormsAll A h us ss := by
  induction items with
  | nil =>
    intro ss
    constructor
    · rintro ⟨⟩; exact ⟨_, .nil, .nil⟩
    · rintro ⟨us, ⟨⟩, ⟨⟩⟩; exact .nil
  | cons x xs ih =>
    intro ss
    constructor
    · intro hw
      cases hw with
      | cons h1 h2 =>
        obtain ⟨t, g1, g2⟩ := (item_forms hA x _).1 h1
        obtain ⟨us, g3, g4⟩ := (ih _).1 h2
        exact ⟨_, .cons g1 g3, .cons g2 g4⟩
    · rintro ⟨us, h1, h2⟩
      cases h1 with
      | cons g1 g2 =>
        cases h2 with
        | cons g3 g4 => exact .cons ((item_forms hA x _).2 ⟨_, g1, g3⟩) ((ih _).2 ⟨_, g2, g4⟩)

/-- C55: the parts of `rule(*items)` are its items, and the main one is the one marked by `main`, or the
first. -/
theorem api_head (hd : Does L setOrder False {} log w) {items : List Arg} {a : Nat}
    (hx : (.rule items, .rule a) ∈ log) (s : Outline Pred) :
    Forms (c.activation L split) w.heap (.rule a) s ↔
      ∃ ss, ArgForms (c.activation L split) w.heap items ss ∧ s = group (mainItem items) ss := by
  cases does_made hd hx (by rintro _ _ ⟨⟩) with
  | rule hc =>
    obtain ⟨p, h1, h2⟩ := hc
    constructor
    · intro hs
      cases hs with
      | rule g1 g2 g3 =>
        rw [h1] at g1; cases g1
        rw [List.mem_singleton] at g2; subst g2
        cases g3 with
        | prod g1 g2 g3 =>
          rw [h2] at g1; cases g1
          exact ⟨_, (items_forms (fixed_activation L c split) _ _).2 ⟨_, g2, g3⟩, rfl⟩
        | _ => simp_all [Obj.repetition]
      | _ => simp_all [Obj.repetition]
    · rintro ⟨ss, g1, rfl⟩
      obtain ⟨us, g2, g3⟩ := (items_forms (fixed_activation L c split) _ _).1 g1
      exact .rule h1 List.mem_cons_self (.prod h2 g2 g3)

theorem stands_picks {A : Activation Pred} {h : Heap Pred} {x : Arg} {r : Nat} (hs : Stands h x r)
    (u : List (Mark Pred)) : Picks A h [.rule r] u ↔ ArgPick A h x u := by
  cases hs with
  | rule => exact Iff.rfl
  | @pred p r q h1 h2 =>
    rw [picks_rule h1]
    constructor
    · rintro ⟨us, ho, hu⟩
      cases ho with
      | other _ hdl =>
        cases hdl with
        | @rule _ i p' hi =>
          cases i with
          | succ i => cases hi
          | zero =>
            cases hi
            rw [show choiceOf (P := Pred) [q].length 0 = [] from rfl, List.nil_append, picks_rule h2] at hu
            obtain ⟨us, ho, hu⟩ := hu
            cases ho with
            | prod ha =>
              cases ha with
              | cons h3 h4 =>
                cases h4
                cases h3 with
                | pred h3 =>
                  cases hu with
                  | pred hu => cases hu; exact ⟨_, h3, rfl⟩
            | other hn => exact absurd rfl (hn _ _)
    · rintro ⟨q', h3, rfl⟩
      refine ⟨_, .other (by rintro _ _ ⟨⟩) (.rule (i := 0) rfl), ?_⟩
      rw [show choiceOf (P := Pred) [q].length 0 = [] from rfl, List.nil_append, picks_rule h2]
      exact ⟨_, .prod (.cons (.pred h3) .nil), .pred .nil⟩

/-- C55: `optional` may leave its item out; to leave it out comes first, or, with `reverse`, to have
it. -/
theorem api_optional (hd : Does L setOrder False {} log w) {x : Arg} {v : Option Arg} {a : Nat}
    (hx : (.optional x v, .rule a) ∈ log) : ∃ b, v.getD (.bool false) = .bool b ∧ ∀ u : List (Mark Pred),
      Picks (c.activation L split) w.heap [.rule a] u ↔
        u = [.note (.alt (if b then 1 else 0)), .note (.head 0 0)] ∨
        ∃ s, ArgPick (c.activation L split) w.heap x s ∧ u = .note (.alt (if b then 0 else 1)) :: s := by
  cases does_made hd hx (by rintro _ _ ⟨⟩) with
  | optional hs hv ho =>
    refine ⟨_, hv, fun u => ?_⟩
    rw [picks_rule ho]
    constructor
    · rintro ⟨us, h1, h2⟩
      cases h1 with
      | other _ hdl =>
        cases hdl with
        | optional hp =>
          cases hp with
          | skip => exact .inl (picks_fill_nothing.1 h2)
          | take =>
            obtain ⟨s, h3, rfl⟩ := picks_fill_last.1 h2
            exact .inr ⟨s, (stands_picks hs s).1 h3, rfl⟩
    · rintro (rfl | ⟨s, h3, rfl⟩)
      · exact ⟨_, .other (by rintro _ _ ⟨⟩) (.optional .skip), picks_fill_nothing.2 rfl⟩
      · exact ⟨_, .other (by rintro _ _ ⟨⟩) (.optional .take),
          picks_fill_last.2 ⟨s, (stands_picks hs s).2 h3, rfl⟩⟩

/-- C55: `repeatable` repeats its item within its bounds; to go on comes before stopping, or, with
`reverse`, the other way round. -/
theorem api_repeatable (hd : Does L setOrder False {} log w) {x min max v : Arg} {a : Nat}
    (hx : (.repeatable x min max v, .rule a) ∈ log) : ∃ b, v = .bool b ∧ ∀ u : List (Mark Pred),
      Picks (c.activation L split) w.heap [.rule a] u ↔
        ∃ us, Often min max us.length ∧ (∀ s ∈ us, ArgPick (c.activation L split) w.heap x s) ∧
          u = rounds b (least min) (most max) us := by
  cases does_made hd hx (by rintro _ _ ⟨⟩) with
  | @repeatable _ _ _ b r _ o lo hi hs ho h3 h4 h5 h6 h7 =>
    refine ⟨b, rfl, fun u => ?_⟩
    have hb : o.bounds := by
      cases o <;> cases h3 <;> first
        | exact trivial
        | exact h7
        | exact h6 _ rfl
        | exact ⟨h7, h6 _ rfl⟩
    have hl : least min = lo := by
      unfold least
      split at h4
      · rename_i hg; rw [if_pos hg, h4]; simp
      · rename_i hg; rw [if_neg hg, h4]
    have hm : most max = hi := by
      unfold most
      split at h5
      · rename_i hg
        obtain ⟨n, rfl, h5⟩ := h5
        rw [if_pos hg, h5]; simp
      · rename_i hg; rw [if_neg hg, h5]
    rw [picks_repetition ho hb h3, hl, hm]
    constructor
    · rintro ⟨us, g1, g2, g3, rfl⟩
      exact ⟨us, (often_iff h4 h5 _).2 ⟨g1, g2⟩, fun s hs' => (stands_picks hs s).1 (g3 s hs'), rfl⟩
    · rintro ⟨us, g1, g2, rfl⟩
      obtain ⟨g3, g4⟩ := (often_iff h4 h5 _).1 g1
      exact ⟨us, g3, g4, fun s hs' => (stands_picks hs s).2 (g2 s hs'), rfl⟩

/-- C55: of the rules given to `or_` the earlier ones come first. -/
theorem api_or (hd : Does L setOrder False {} log w) {items : List Arg} {a : Nat}
    (hx : (.or_ items, .rule a) ∈ log) (u : List (Mark Pred)) :
      Picks (c.activation L split) w.heap [.rule a] u ↔
        ∃ (i : Nat) (x : Arg) (s : List (Mark Pred)), items[i]? = some x ∧
          ArgPick (c.activation L split) w.heap x s ∧
          u = (if items.length ≤ 1 then [] else [.note (.alt i)]) ++ s := by
  cases does_made hd hx (by rintro _ _ ⟨⟩) with
  | or_ hr ho =>
    have hit : items = (argRules items).map .rule := by
      clear hx ho
      induction items with
      | nil => rfl
      | cons x xs ih =>
        rw [List.all_cons, Bool.and_eq_true] at hr
        cases x with
        | rule r => rw [show argRules (.rule r :: xs) = r :: argRules xs from rfl, List.map_cons, ← ih hr.2]
        | _ => cases hr.1
    have hlen : items.length = (argRules items).length := by
      conv => lhs; rw [hit]
      rw [List.length_map]
    rw [picks_rule ho]
    constructor
    · rintro ⟨us, h1, h2⟩
      cases h1 with
      | other _ hdl =>
        cases hdl with
        | @or _ i r hi =>
          have hget : items[i]? = some (.rule r) := by rw [hit, List.getElem?_map, hi]; rfl
          refine ⟨i, .rule r, ?_⟩
          unfold choiceOf at h2
          rw [hlen]
          split at h2
          · rename_i hl
            exact ⟨u, hget, h2, by rw [if_pos hl]; rfl⟩
          · rename_i hl
            cases h2 with
            | note h2 => exact ⟨_, hget, h2, by rw [if_neg hl]; rfl⟩
    · rintro ⟨i, x, s, h1, h2, rfl⟩
      have hx' : ∃ r, (argRules items)[i]? = some r ∧ x = .rule r := by
        rw [hit, List.getElem?_map] at h1
        cases hr' : (argRules items)[i]? with
        | none => rw [hr'] at h1; cases h1
        | some r => rw [hr'] at h1; cases h1; exact ⟨r, rfl, rfl⟩
      obtain ⟨r, h3, rfl⟩ := hx'
      refine ⟨_, .other (by rintro _ _ ⟨⟩) (.or h3), ?_⟩
      unfold choiceOf
      rw [hlen]
      split
      · exact h2
      · exact .note h2

/-! ### What is refused -/

/-- C55: a call raises in the cases listed, with the exception listed, and in no other case. For `define`
this is said about programs that have not built a parser yet. -/
theorem api_refuses {x : Call}
    (hd : (∀ y items, x ≠ .define y items) ∨ Does L setOrder False {} log w)
    (hh : ∀ y ∈ args x, Holds w y) (e : Err) : x.apply w = .error e ↔ Refused w x e := by
  have key : ∀ y items, x = .define y items → Descends w.heap := by
    intro y items e
    rcases hd with hn | hd
    · exact absurd e (hn y items)
    · exact descends_makes (does_grown hd).2.2 (by intro a o r e; cases e)
  rcases call_cases key hh with ⟨e', h1, h2, h3⟩ | ⟨⟨y, h1⟩, h2⟩
  · constructor
    · intro h
      rw [h1] at h; cases h; exact h2
    · intro h
      rw [h3 e h, h1]
  · constructor
    · intro h; rw [h1] at h; cases h
    · intro h; exact absurd h (h2 e)

/-! ### Relations and normalizers -/

/-- C55: relations given to `and_`, `or_` and `not_` are combined as these words say. -/
theorem api_relations {x : Call} {r : Nat} (hh : ∀ y ∈ args x, Holds w y)
    (e : x.apply w = .ok (.relation r, w')) (f g : Form) :
    (∀ items, x = .and_ items → agrees w' f g (.relation r) = items.all (agrees w' f g)) ∧
    (∀ items, x = .or_ items → agrees w' f g (.relation r) = items.any (agrees w' f g)) ∧
    (∀ y, x = .not_ y → agrees w' f g (.relation r) = !agrees w' f g y) := by
  have later {R : Relation} {y : Arg} (hy : Holds w y) (hr : y.isRelation = true) :
      ∃ i R', y = .relation i ∧ w.rels[i]? = some R' ∧
        agrees { w with rels := w.rels ++ [R] } f g y = R'.call f g := by
    cases y with
    | relation i =>
      have hi : i < w.rels.length := hy
      refine ⟨i, w.rels[i], rfl, List.getElem?_eq_getElem hi, ?_⟩
      show (match (w.rels ++ [R])[i]? with | some x => x.call f g | none => false) = _
      rw [List.getElem?_append_left hi, List.getElem?_eq_getElem hi]
    | _ => cases hr
  have new (R : Relation) : agrees { w with rels := w.rels ++ [R] } f g (.relation w.rels.length) = R.call f g := by
    show (match (w.rels ++ [R])[w.rels.length]? with | some x => x.call f g | none => false) = _
    simp
  refine ⟨?_, ?_, ?_⟩
  · rintro items rfl
    replace e : apiAnd items w = .ok (.relation r, w') := e
    unfold apiAnd at e
    split at e
    · cases e
    · split at e
      · rename_i ha
        cases e
        rw [new]
        generalize hR : Relation.and (argRelations w items) = R
        have : ∀ l : List Arg, (∀ y ∈ l, Holds w y) → l.all Arg.isRelation = true →
            Relation.callAll (argRelations w l) f g = l.all (agrees { w with rels := w.rels ++ [R] } f g) := by
          intro l
          induction l with
          | nil => intros; rfl
          | cons y ys ih =>
            intro h1 h2
            rw [List.all_cons, Bool.and_eq_true] at h2
            obtain ⟨i, R', rfl, h3, h4⟩ := later (R := R) (h1 y List.mem_cons_self) h2.1
            rw [List.all_cons, h4, ← ih (fun z hz => h1 z (List.mem_cons_of_mem _ hz)) h2.2]
            have : argRelations w (.relation i :: ys) = R' :: argRelations w ys := by
              simp [argRelations, h3]
            rw [this]; rfl
        rw [← this items hh ha, ← hR]; rfl
      · cases e
  · rintro items rfl
    replace e : apiOr items w = .ok (.relation r, w') := e
    unfold apiOr at e
    split at e
    · cases e
    · split at e
      · rename_i ha
        cases e
        rw [new]
        generalize hR : Relation.or (argRelations w items) = R
        have : ∀ l : List Arg, (∀ y ∈ l, Holds w y) → l.all Arg.isRelation = true →
            Relation.callAny (argRelations w l) f g = l.any (agrees { w with rels := w.rels ++ [R] } f g) := by
          intro l
          induction l with
          | nil => intros; rfl
          | cons y ys ih =>
            intro h1 h2
            rw [List.all_cons, Bool.and_eq_true] at h2
            obtain ⟨i, R', rfl, h3, h4⟩ := later (R := R) (h1 y List.mem_cons_self) h2.1
            rw [List.any_cons, h4, ← ih (fun z hz => h1 z (List.mem_cons_of_mem _ hz)) h2.2]
            have : argRelations w (.relation i :: ys) = R' :: argRelations w ys := by
              simp [argRelations, h3]
            rw [this]; rfl
        rw [← this items hh ha, ← hR]; rfl
      · split at e <;> cases e
  · rintro y rfl
    replace e : apiNot y w = .ok (.relation r, w') := e
    unfold apiNot at e
    split at e
    · cases e
    · split at e
      · rename_i i _ R hR
        cases e
        obtain ⟨_, R', ⟨⟩, h3, h4⟩ := later (R := .not R) (hh _ List.mem_cons_self) rfl
        rw [new, h4]
        rw [hR] at h3; cases h3; rfl
      · cases e
    · cases e

/-- C55: `inflected`, `normalized`, `const` and `custom` give an attribute the normalizer they name, and
`custom` after them works on what they give. -/
theorem api_normalizers {x : Call} {y : Arg} (e : x.apply w = .ok (y, w')) (F : Facts) (input : Result) :
    (∀ z m, x = .morph z m → ∃ cls name n, z = .attr cls name ∧ y = .normAttr cls name n ∧
      n.call F input = m.call F input) ∧
    (∀ z v, x = .const z v → ∃ cls name n, z = .attr cls name ∧ y = .normAttr cls name n ∧
      n.call F input = .ok v) ∧
    (∀ z f, x = .custom z f →
      (∃ cls name n, z = .attr cls name ∧ y = .normAttr cls name n ∧
        n.call F input = input.normalized F >>= f) ∨
      (∃ cls name m n, z = .normAttr cls name m ∧ y = .normAttr cls name n ∧
        n.call F input = m.call F input >>= f) ∨
      (∃ m n, z = .normalizer m ∧ y = .normalizer n ∧ n.call F input = m.call F input >>= f)) := by
  have custom {m n : Normalizer} {f : Val → Except Err Val} (h : m.custom f = .ok n) :
      n.call F input = m.call F input >>= f := by
    cases m <;> cases h <;> rfl
  refine ⟨?_, ?_, ?_⟩
  · rintro z m rfl
    cases z <;> cases e
    exact ⟨_, _, _, rfl, rfl, rfl⟩
  · rintro z m rfl
    cases z <;> cases e
    exact ⟨_, _, _, rfl, rfl, rfl⟩
  · rintro z f rfl
    replace e : apiCustom z f w = .ok (y, w') := e
    cases z with
    | attr cls name => cases e; exact .inl ⟨_, _, _, rfl, rfl, rfl⟩
    | normAttr cls name m =>
      obtain ⟨n, h1, h2⟩ := except_map_ok e
      cases h2
      exact .inr (.inl ⟨_, _, _, _, rfl, rfl, custom h1⟩)
    | normalizer m =>
      obtain ⟨n, h1, h2⟩ := except_map_ok e
      cases h2
      exact .inr (.inr ⟨_, _, rfl, rfl, custom h1⟩)
    | _ => cases e

/-! ### C56: what `define` returns -/

theorem inside_grown {h h' : Heap Pred} (hg : Grown h h') {a f : Nat} (hi : Carries h a f) : Carries h' a f := by
  induction hi with
  | forward e =>
    obtain ⟨c, e'⟩ := hg.forward _ _ e
    exact .forward e'
  | wrapper ho hw _ ih =>
    refine .wrapper (hg.keep _ _ ho ?_) hw ih
    rintro c rfl
    rcases hw with ⟨v, h | h⟩ | ⟨v, u, h⟩ | ⟨n, v, h | h⟩ | ⟨n, m, v, h⟩ | ⟨n, h⟩ | ⟨i, h⟩ | ⟨x, h⟩ <;> cases h

/-- `define` returns the forward rule inside what it is called on. -/
theorem api_define (hd : Does L setOrder False {} log w) {y x : Arg} {items : List Arg}
    (hx : (.define y items, x) ∈ log) : ∃ a f, y = .rule a ∧ x = .rule f ∧ Carries w.heap a f := by
  obtain ⟨l1, l2, hl⟩ := List.append_of_mem hx
  obtain ⟨w1, w2, k1, k2, k3, k4⟩ := does_split hd hl
  have g1 := (does_grown k4).1
  have g0 := makes_grown ((apply_ok k2 k3).makes L setOrder)
  replace k3 : apiDefine y items w1 = .ok (x, w2) := k3
  cases y with
  | rule a =>
    obtain ⟨f, h1, h2⟩ := except_bind_ok (show (forwardOf w1.heap _ a >>= _) = _ from k3)
    refine ⟨a, f, rfl, ?_, inside_grown (g0.trans g1) (forwardOf_inside h1)⟩
    split at h2
    · cases h2
    · obtain ⟨h, _, h4⟩ := except_bind_ok h2
      cases h4; rfl
    · obtain ⟨_, _, h4⟩ := except_bind_ok h2
      obtain ⟨_, _, h5⟩ := except_bind_ok h4
      cases h5; rfl
  | _ => cases k3

/-- C56 (partial): what `define` returns is the rule it was called on, if this is a forward rule itself.
Missing: forward rules with something put on them (`define_drops`). -/
theorem define_returns_partial (hd : Does L setOrder False {} log w) {a : Nat} {x : Arg} {items : List Arg}
    (hx : (.define (.rule a) items, x) ∈ log) (hf : (.forward, .rule a) ∈ log) : x = .rule a := by
  obtain ⟨a', f, h1, rfl, h2⟩ := api_define hd hx
  cases h1
  cases does_made hd hf (by rintro _ _ ⟨⟩) with
  | forward ho =>
    rcases inside_of h2 with ⟨c, _, rfl⟩ | ⟨o, r, h3, h4, _⟩
    · rfl
    · rw [ho] at h3; cases h3; cases h4

/-- `forward().interpretation(F).define('a')` -/
def droppingCalls : List (Call × Arg) :=
  [(.forward, .rule 0), (.interpretation (.rule 0) (.fact 0), .rule 1),
   (.define (.rule 1) [.str ['a']], .rule 0)]

def droppingWorld : World where
  heap := [.forward (some 3), .interp 0 0, .prod [.pred (.eq ['a'])] 0, .rule [2]]
  its := [.fact 0]

theorem droppingCalls_does : Does L setOrder False {} droppingCalls droppingWorld :=
  .call (by intro y hy; cases hy) rfl
    (.call (by
        intro y hy
        simp only [args, List.mem_cons, List.not_mem_nil, or_false] at hy
        rcases hy with rfl | rfl
        · exact ⟨_, rfl, rfl⟩
        · trivial) rfl
      (.call (by
          intro y hy
          simp only [args, List.mem_cons, List.not_mem_nil, or_false] at hy
          rcases hy with rfl | rfl
          · exact ⟨_, rfl, rfl⟩
          · trivial) rfl .nil))

/-- C56 is false in general: `forward().interpretation(F).define('a')` returns a rule without the
interpretation. -/
theorem define_drops : ∃ log w y items a f, Does L setOrder False {} log w ∧
    (Call.define y items, Arg.rule f) ∈ log ∧ y = .rule a ∧
    ∃ s, Reads (c.activation L split) .interp w.heap [.rule f] s ∧
      ¬ Reads (c.activation L split) .interp w.heap [.rule a] s ∧
      Reads (c.activation L split) .interp w.heap [.rule a] (.opn (.interp 0) :: s ++ [.cls (.interp 0)]) := by
  refine ⟨droppingCalls, droppingWorld, _, _, 1, 0, droppingCalls_does,
    List.mem_cons_of_mem _ (List.mem_cons_of_mem _ List.mem_cons_self), rfl, [.pred (.eq ['a'])], ?_, ?_, ?_⟩
  · have h0 : droppingWorld.heap[0]? = some (.forward (some 3)) := rfl
    rw [forward_words h0, Consists.words (fixed_activation L c split) (items := [.str ['a']]) ⟨2, rfl, rfl⟩,
      argWords_one]
    rfl
  · intro h
    obtain ⟨o, us, u, h1, _, _, h2⟩ := reads_rule.1 h
    cases h1
    cases h2
  · refine reads_rule.2 ⟨_, _, _, rfl, .other (by rintro _ _ ⟨⟩) .interp, ?_, rfl⟩
    have h0 : droppingWorld.heap[0]? = some (.forward (some 3)) := rfl
    rw [forward_words h0, Consists.words (fixed_activation L c split) (items := [.str ['a']]) ⟨2, rfl, rfl⟩,
      argWords_one]
    rfl

/-! ### The hypotheses can be met -/

/-- Whether something is there. -/
def there (w : World) : Arg → Bool
  | .rule a | .main (.rule a) => match w.heap[a]? with
    | some o => !production o
    | none => false
  | .relation r => decide (r < w.rels.length)
  | .interpretator i => decide (i < w.its.length)
  | _ => true

theorem there_holds {x : Arg} (h : there w x = true) : Holds w x := by
  have rule {a : Nat} (h : (match w.heap[a]? with | some o => !production o | none => false) = true) :
      RuleAt w.heap a := by
    split at h
    · exact ⟨_, by assumption, by simpa using h⟩
    · cases h
  cases x with
  | rule a => exact rule h
  | main t =>
    cases t with
    | rule a => exact rule h
    | pred p => trivial
  | relation r => exact of_decide_eq_true (p := r < w.rels.length) h
  | interpretator r => exact of_decide_eq_true (p := r < w.its.length) h
  | _ => trivial

/-- Calls one after another. -/
def runCalls (w : World) : List Call → Option (List (Call × Arg) × World)
  | [] => some ([], w)
  | x :: rest =>
    if (args x).all (there w) then
      match x.apply w with
      | .ok (y, w') => (runCalls w' rest).map (fun z => ((x, y) :: z.1, z.2))
      | .error _ => runCalls w rest
    else none

theorem runCalls_does : ∀ {calls : List Call} {w : World} {log : List (Call × Arg)} {w' : World},
    runCalls w calls = some (log, w') → Does L setOrder builds w log w' := by
  intro calls
  induction calls with
  | nil => intro w log w' e; cases e; exact .nil
  | cons x rest ih =>
    intro w log w' e
    unfold runCalls at e
    split at e
    · rename_i ha
      rw [List.all_eq_true] at ha
      split at e
      · rename_i y w1 h1
        cases h2 : runCalls w1 rest with
        | none => rw [h2] at e; cases e
        | some z => rw [h2] at e; cases e; exact .call (fun y hy => there_holds (ha y hy)) h1 (ih h2)
      · rename_i e' h1
        exact .raised (fun y hy => there_holds (ha y hy)) h1 (ih e)
    · cases e

/-- A program with most of the calls, some of them refused:
```
gender = gender_relation(); A = rule('a'); f = forward()
f.define(); rule(main(A), main(A)); or_('a', 'b')            # raise
X = or_(A, eq('b').repeatable(min=2, max=3, reverse=True))
f.define(X, main(f.optional())); n = rule(f, 5).named('N').interpretation(Fact).match(not_(and_(gender)))
morph_pipeline(['a b']).optional(reverse=True)
```
-/
def sampleCalls : List Call :=
  [.agreement .gender, .rule [.str ['a']], .forward, .define (.rule 2) [], .main (.rule 1),
   .rule [.main (.rule 1), .main (.rule 1)], .or_ [.str ['a'], .str ['b']],
   .repeatable (.pred (.eq ['b'])) (.int 2) (.int 3) (.bool true), .or_ [.rule 1, .rule 5],
   .optional (.rule 2) none, .define (.rule 2) [.rule 6, .main (.rule 7)], .rule [.rule 2, .int 5],
   .named (.rule 11) (.str ['N']), .interpretation (.rule 12) (.fact 0), .and_ [.relation 0], .not_ (.relation 1),
   .match_ (.rule 13) (.relation 2), .pipeline .morph [.str "a b".toList], .optional (.rule 15) (some (.bool true))]

def sampleAfter : List (Call × Arg) × World :=
  (runCalls {} sampleCalls).getD ([], {})

theorem sampleAfter_runs : runCalls {} sampleCalls = some (sampleAfter.1, sampleAfter.2) := rfl

/-- What the calls returned; three were refused. -/
example : sampleAfter.1.map (fun y => match y.2 with | .rule a => some a | _ => none) =
    [none, some 1, some 2, none, some 5, some 6, some 7, some 2, some 11, some 12, some 13, none, none, some 14,
     some 15, some 16] := rfl

theorem sample_does : Does L setOrder False {} sampleAfter.1 sampleAfter.2 := runCalls_does sampleAfter_runs

/-- The hypotheses of `api_program`, `api_words`, `api_forward`, `api_head`, `api_optional`,
`api_repeatable`, `api_or` and `api_define` are met. -/
example : Does L setOrder False {} sampleAfter.1 sampleAfter.2 ∧
    (.rule [.str ['a']], .rule 1) ∈ sampleAfter.1 ∧ (.forward, .rule 2) ∈ sampleAfter.1 ∧
    (.repeatable (.pred (.eq ['b'])) (.int 2) (.int 3) (.bool true), .rule 5) ∈ sampleAfter.1 ∧
    (.or_ [.rule 1, .rule 5], .rule 6) ∈ sampleAfter.1 ∧ (.optional (.rule 2) none, .rule 7) ∈ sampleAfter.1 ∧
    (∃ l1 l2, sampleAfter.1 = l1 ++ (.define (.rule 2) [.rule 6, .main (.rule 7)], .rule 2) :: l2 ∧
      ∀ y' items', (Call.define y' items', Arg.rule 2) ∉ l2) := by
  refine ⟨sample_does, ?_, ?_, ?_, ?_, ?_, sampleAfter.1.take 7, sampleAfter.1.drop 8, rfl, ?_⟩
  · exact List.mem_of_getElem? (i := 1) rfl
  · exact List.mem_of_getElem? (i := 2) rfl
  · exact List.mem_of_getElem? (i := 4) rfl
  · exact List.mem_of_getElem? (i := 5) rfl
  · exact List.mem_of_getElem? (i := 6) rfl
  · intro y items h
    have h0 : (sampleAfter.1.drop 8).all (fun y => match y.1 with | .define _ _ => false | _ => true) = true := rfl
    exact absurd (List.all_eq_true.1 h0 _ h) (by simp)

/-- Calls that are refused, as `api_refuses` says. -/
example : Refused sampleAfter.2 (.rule [.main (.rule 1), .main (.rule 1)]) .valueError ∧
    Refused sampleAfter.2 (.repeatable (.rule 1) (.int 3) (.int 2) (.bool false)) .valueError ∧
    ¬ Refused sampleAfter.2 (.repeatable (.rule 1) (.int 0) .none (.bool false)) .valueError ∧
    Refused sampleAfter.2 (.interpretation (.pred (.eq ['a'])) (.fact 0)) .typeError ∧
    Refused sampleAfter.2 (.define (.rule 7) [.rule 2]) .valueError := by
  have hh : ∀ {x : Call}, (args x).all (there sampleAfter.2) = true → ∀ y ∈ args x, Holds sampleAfter.2 y :=
    fun h y hy => there_holds (List.all_eq_true.1 h y hy)
  have hd {L setOrder} : Does L setOrder False {} sampleAfter.1 sampleAfter.2 := sample_does
  refine ⟨(api_refuses (L := sampleLang) (setOrder := sampleOrder) (.inr hd) (hh rfl) _).1 rfl,
    (api_refuses (L := sampleLang) (setOrder := sampleOrder) (.inr hd) (hh rfl) _).1 rfl, ?_,
    (api_refuses (L := sampleLang) (setOrder := sampleOrder) (.inr hd) (hh rfl) _).1 rfl,
    (api_refuses (L := sampleLang) (setOrder := sampleOrder) (.inr hd) (hh rfl) _).1 rfl⟩
  intro h
  cases (api_refuses (L := sampleLang) (setOrder := sampleOrder) (.inr hd) (hh rfl) _).2 h

/-- The hypothesis of `api_relations` is met. -/
example : (Call.and_ [.relation 0]).apply sampleAfter.2 =
    .ok (.relation 3, { sampleAfter.2 with rels := sampleAfter.2.rels ++ [.and [.gender]] }) := rfl

/-- The hypothesis of `api_normalizers` is met. -/
example (f : Val → Except Err Val) : ∃ n, (Call.custom (.normAttr 0 ['n'] (.morph .normalized)) f).apply {} =
    .ok (.normAttr 0 ['n'] n, {}) := ⟨_, rfl⟩

/-- The hypotheses of `define_returns_partial` are met. -/
example : (.define (.rule 2) [.rule 6, .main (.rule 7)], .rule 2) ∈ sampleAfter.1 ∧
    (.forward, .rule 2) ∈ sampleAfter.1 :=
  ⟨List.mem_of_getElem? (i := 7) rfl, List.mem_of_getElem? (i := 2) rfl⟩

end Yargy.Api
