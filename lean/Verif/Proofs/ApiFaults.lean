import Verif.Proofs.ApiRuns
/-! Lemmas on calls that are refused. -/
namespace Yargy.Api

open Spec

variable {w : World}

/-- A call that is refused with `e`, and with nothing else. -/
def Fails (w : World) (c : Call) (e : Err) : Prop :=
  c.apply w = .error e ∧ Refused w c e ∧ ∀ e', Refused w c e' → e' = e

/-- A call that is not refused. -/
def Works (w : World) (c : Call) : Prop :=
  (∃ y, c.apply w = .ok y) ∧ ∀ e, ¬ Refused w c e

theorem apiRule_cases (items : List Arg) (w : World) :
    (apiRule items w = .error .valueError ∧ TwoHeads items) ∨
    (∃ y, apiRule items w = .ok y ∧ ¬ TwoHeads items) := by
  unfold apiRule
  rcases prepared items with ⟨h1, h2⟩ | ⟨h1, h2⟩
  · rw [h1]; exact .inl ⟨rfl, h2⟩
  · rw [h1]; exact .inr ⟨_, rfl, h2⟩

theorem one_head (x : Arg) : ¬ TwoHeads [x] := by
  unfold TwoHeads
  have := List.length_filter_le marked [x]
  simp only [List.length_cons, List.length_nil] at this
  omega

theorem not_all {p : Arg → Bool} {items : List Arg} (h : items.all p ≠ true) : ∃ x ∈ items, p x = false := by
  rw [ne_eq, Bool.not_eq_true, List.all_eq_false] at h
  obtain ⟨x, h1, h2⟩ := h
  exact ⟨x, h1, by simpa using h2⟩

theorem all_not {p : Arg → Bool} {items : List Arg} (h : items.all p = true) : ¬ ∃ x ∈ items, p x = false := by
  rintro ⟨x, h1, h2⟩
  rw [List.all_eq_true] at h
  rw [h x h1] at h2; cases h2

/-- What has methods of rules, and what has not. -/
theorem receiver_cases (x : Arg) (w : World) :
    (receiver x w = .error .attributeError ∧ ruleLike x = false) ∨
    (∃ y, receiver x w = .ok y ∧ ruleLike x = true) := by
  cases x with
  | rule a => exact .inr ⟨_, rfl, rfl⟩
  | pred p =>
    rcases apiRule_cases [.pred p] w with ⟨_, h⟩ | ⟨y, h, _⟩
    · exact absurd h (one_head _)
    · exact .inr ⟨y, h, rfl⟩
  | _ => exact .inl ⟨rfl, rfl⟩

theorem asBool_cases (x : Arg) : (asBool x = .error .typeError ∧ reverseFault x = some .typeError) ∨
    (∃ b, asBool x = .ok b ∧ reverseFault x = none) := by
  cases x with
  | bool b => exact .inr ⟨b, rfl, rfl⟩
  | _ => exact .inl ⟨rfl, rfl⟩

theorem asBound_cases {x : Arg} (hx : given x = true) :
    (∃ e, asBound x 1 = .error e ∧ boundFault x = some e) ∨
    (∃ n : Nat, asBound x 1 = .ok n ∧ boundFault x = none ∧ bound x = some (n : Int)) := by
  have hb : x.number = bound x := by cases x <;> rfl
  unfold asBound boundFault
  rw [hb, if_pos hx]
  cases hn : bound x with
  | none => exact .inl ⟨_, rfl, rfl⟩
  | some n =>
    simp only
    by_cases h : n < 1
    · exact .inl ⟨.valueError, if_pos h, if_pos h⟩
    · exact .inr ⟨n.toNat, if_neg h, if_neg h, congrArg some (by omega)⟩

theorem works_of {c : Call} {y : Arg × World} (h : c.apply w = .ok y) (hn : ∀ e, ¬ Refused w c e) :
    Works w c := ⟨⟨y, h⟩, hn⟩

theorem call_cases {c : Call} (hd : ∀ y items, c = .define y items → Descends w.heap) (hh : ∀ y ∈ args c, Holds w y) :
    (∃ e, Fails w c e) ∨ Works w c := by
  cases c with
  | rule items =>
    rcases apiRule_cases items w with ⟨h1, h2⟩ | ⟨y, h1, h2⟩
    · refine .inl ⟨.valueError, ?_, .heads h2, by rintro e' ⟨⟩; rfl⟩
      rw [Call.apply, h1]; rfl
    · refine .inr ⟨⟨_, by rw [Call.apply, h1]; rfl⟩, ?_⟩
      rintro e ⟨⟩; exact h2 (by assumption)
  | agreement => exact .inr ⟨⟨_, rfl⟩, by rintro e ⟨⟩⟩
  | interpretator => exact .inr ⟨⟨_, rfl⟩, by rintro e ⟨⟩⟩
  | empty => exact .inr ⟨⟨_, rfl⟩, by rintro e ⟨⟩⟩
  | forward => exact .inr ⟨⟨_, rfl⟩, by rintro e ⟨⟩⟩
  | and_ items =>
    show (∃ e, Fails w (.and_ items) e) ∨ _
    by_cases h1 : items.all Arg.isPred = true
    · refine .inr ⟨⟨_, by rw [Call.apply, apiAnd, if_pos h1]⟩, ?_⟩
      rintro e ⟨⟩; exact all_not h1 (by assumption)
    · by_cases h2 : items.all Arg.isRelation = true
      · refine .inr ⟨⟨_, by rw [Call.apply, apiAnd, if_neg h1, if_pos h2]⟩, ?_⟩
        rintro e ⟨⟩; exact all_not h2 (by assumption)
      · exact .inl ⟨.typeError, by rw [Call.apply, apiAnd, if_neg h1, if_neg h2], .and_ (not_all h1) (not_all h2),
          by rintro e' ⟨⟩; rfl⟩
  | or_ items =>
    by_cases h1 : items.all Arg.isPred = true
    · refine .inr ⟨⟨_, by rw [Call.apply, apiOr, if_pos h1]⟩, ?_⟩
      rintro e ⟨⟩; exact all_not h1 (by assumption)
    · by_cases h2 : items.all Arg.isRelation = true
      · refine .inr ⟨⟨_, by rw [Call.apply, apiOr, if_neg h1, if_pos h2]⟩, ?_⟩
        rintro e ⟨⟩; exact all_not h2 (by assumption)
      · by_cases h3 : items.all Arg.isRule = true
        · refine .inr ⟨⟨_, by rw [Call.apply, apiOr, if_neg h1, if_neg h2, if_pos h3]⟩, ?_⟩
          rintro e ⟨⟩; exact all_not h3 (by assumption)
        · exact .inl ⟨.typeError, by rw [Call.apply, apiOr, if_neg h1, if_neg h2, if_neg h3],
            .or_ (not_all h1) (not_all h2) (not_all h3), by rintro e' ⟨⟩; rfl⟩
  | not_ x =>
    cases x with
    | pred p => exact .inr ⟨⟨_, rfl⟩, by rintro e (_ | _ | _ | ⟨⟨⟩, _⟩)⟩
    | relation r =>
      have hr : r < w.rels.length := hh _ List.mem_cons_self
      refine .inr ⟨⟨w.relate (.not w.rels[r]), ?_⟩, by rintro e (_ | _ | _ | ⟨_, ⟨⟩⟩)⟩
      rw [Call.apply, apiNot]
      simp only [List.getElem?_eq_getElem hr]
    | _ => exact .inl ⟨.typeError, rfl, .not_ rfl rfl, by rintro e' ⟨⟩; rfl⟩
  | main x =>
    cases x with
    | pred p => exact .inr ⟨⟨_, rfl⟩, by rintro e (_ | _ | _ | _ | ⟨⟨⟩⟩)⟩
    | rule r => exact .inr ⟨⟨_, rfl⟩, by rintro e (_ | _ | _ | _ | ⟨⟨⟩⟩)⟩
    | _ => exact .inl ⟨.typeError, rfl, .main rfl, by rintro e' ⟨⟩; rfl⟩
  | optional x v =>
    cases x with
    | pred p =>
      cases v with
      | some v => exact .inl ⟨.typeError, rfl, .optionalPred, by
          intro e' h; cases h with
          | optional h => cases h
          | optionalPred => rfl⟩
      | none =>
        rcases receiver_cases (.pred p) w with ⟨_, h⟩ | ⟨y, h, _⟩
        · cases h
        · refine .inr ⟨⟨_, by rw [Call.apply, apiOptional, h]; rfl; rintro _ _ _ ⟨⟩⟩, ?_⟩
          intro e h; cases h with
          | optional h => cases h
    | rule a =>
      cases v with
      | none =>
        refine .inr ⟨⟨_, rfl⟩, ?_⟩
        intro e h; cases h with
        | optional h => cases h
      | some v =>
        rcases asBool_cases v with ⟨h1, h2⟩ | ⟨b, h1, h2⟩
        · refine .inl ⟨.typeError, ?_, .optionalRule h2, ?_⟩
          · show (asBool v >>= fun v => _) = _
            rw [h1]; rfl
          · intro e h; cases h with
            | optional h => cases h
            | optionalRule h => rw [h2] at h; cases h; rfl
        · refine .inr ⟨⟨w.wrapped (.optional a b), ?_⟩, ?_⟩
          · show (asBool v >>= fun v => _) = _
            rw [h1]; rfl
          · intro e h; cases h with
            | optional h => cases h
            | optionalRule h => rw [h2] at h; cases h
    | _ =>
      refine .inl ⟨.attributeError, by cases v <;> rfl, .optional rfl, ?_⟩
      intro e h; cases h; rfl
  | repeatable x min max v =>
    rcases receiver_cases x w with ⟨h1, h2⟩ | ⟨⟨r, w1⟩, h1, h2⟩
    · refine .inl ⟨.attributeError, ?_, .repeatable h2, ?_⟩
      · rw [Call.apply, apiRepeatable, h1]; rfl
      · intro e h; cases h with
        | repeatable => rfl
        | repeatableFault h => rw [h2] at h; cases h
    · have fails {e : Err} (ha : apiRepeatable x min max v w = .error e)
          (hf : (reverseFault v <|> boundFault min <|> boundFault max <|> orderFault min max) = some e) :
          (∃ e, Fails w (.repeatable x min max v) e) ∨ Works w (.repeatable x min max v) := by
        refine .inl ⟨e, ha, .repeatableFault h2 hf, ?_⟩
        intro e' h; cases h with
        | repeatable h => rw [h2] at h; cases h
        | repeatableFault _ h => rw [hf] at h; cases h; rfl
      have works {y} (ha : apiRepeatable x min max v w = .ok y)
          (hf : (reverseFault v <|> boundFault min <|> boundFault max <|> orderFault min max) = none) :
          (∃ e, Fails w (.repeatable x min max v) e) ∨ Works w (.repeatable x min max v) := by
        refine .inr ⟨⟨y, ha⟩, ?_⟩
        intro e' h; cases h with
        | repeatable h => rw [h2] at h; cases h
        | repeatableFault _ h => rw [hf] at h; cases h
      unfold apiRepeatable at fails works
      rw [h1] at fails works
      simp only [bind, Except.bind, truthy_given] at fails works
      rcases asBool_cases v with ⟨h3, h4⟩ | ⟨b, h3, h4⟩
      · rw [h3] at fails
        exact fails rfl (by rw [h4]; rfl)
      rw [h3, h4] at fails works
      have nofault {x : Arg} (h : given x = false) : boundFault x = none := by
        unfold boundFault; rw [h]; rfl
      cases hmin : given min <;> cases hmax : given max <;> rw [hmin, hmax] at fails works <;>
        simp only [Bool.and_true, Bool.and_false, Bool.false_eq_true, if_false, if_true] at fails works
      · exact works rfl (by rw [nofault hmin, nofault hmax, orderFault, hmin]; rfl)
      · rw [nofault hmin] at fails works
        rcases asBound_cases hmax with ⟨e, g1, g2⟩ | ⟨n, g1, g2, g3⟩
        · rw [g1, g2] at fails
          exact fails rfl rfl
        · rw [g1, g2] at works
          exact works rfl (by rw [orderFault, hmin]; rfl)
      · rw [nofault hmax] at fails works
        rcases asBound_cases hmin with ⟨e, g1, g2⟩ | ⟨n, g1, g2, g3⟩
        · rw [g1, g2] at fails
          exact fails rfl rfl
        · rw [g1, g2] at works
          exact works rfl (by rw [orderFault, hmax, Bool.and_false]; rfl)
      · rcases asBound_cases hmin with ⟨e, g1, g2⟩ | ⟨n, g1, g2, g3⟩
        · rw [g1, g2] at fails
          exact fails rfl rfl
        · rw [g1, g2] at fails works
          rcases asBound_cases hmax with ⟨e, q1, q2⟩ | ⟨m, q1, q2, q3⟩
          · rw [q1, q2] at fails
            exact fails rfl rfl
          · rw [q1, q2] at fails works
            have hb : max.number = bound max := by cases max <;> rfl
            by_cases hlt : (m : Int) < n
            · refine fails (e := .valueError) ?_ ?_
              · unfold asBound
                rw [hb, q3]
                simp only [if_pos hlt]
              · rw [orderFault, hmin, hmax, g3, q3]
                simp only [Bool.and_true, if_true, if_pos hlt]
                rfl
            · refine works (y := w1.wrapped (.minMaxBounded r n m b)) ?_ ?_
              · unfold asBound
                rw [hb, q3]
                simp only [if_neg hlt]
                rfl
              · rw [orderFault, hmin, hmax, g3, q3]
                simp only [Bool.and_true, if_true, if_neg hlt]
                rfl
  | named x n =>
    rcases receiver_cases x w with ⟨h1, h2⟩ | ⟨⟨r, w1⟩, h1, h2⟩
    · refine .inl ⟨.attributeError, ?_, .named h2, ?_⟩
      · rw [Call.apply, apiNamed, h1]; rfl
      · intro e h; cases h with
        | named => rfl
        | name h => rw [h2] at h; cases h
    · cases n with
      | str s =>
        refine .inr ⟨⟨w1.wrapped (.named r s), ?_⟩, ?_⟩
        · rw [Call.apply, apiNamed, h1]; rfl
        · intro e h; cases h with
          | named h => rw [h2] at h; cases h
          | name _ h => exact h s rfl
      | _ =>
        refine .inl ⟨.typeError, ?_, .name h2 (by rintro s ⟨⟩), ?_⟩
        · rw [Call.apply, apiNamed, h1]; rfl
        · intro e h; cases h with
          | named h => rw [h2] at h; cases h
          | name => rfl
  | match_ x n =>
    rcases receiver_cases x w with ⟨h1, h2⟩ | ⟨⟨r, w1⟩, h1, h2⟩
    · refine .inl ⟨.attributeError, ?_, .match_ h2, ?_⟩
      · rw [Call.apply, apiMatch, h1]; rfl
      · intro e h; cases h with
        | match_ => rfl
        | relation h => rw [h2] at h; cases h
    · cases n with
      | relation s =>
        refine .inr ⟨⟨w1.wrapped (.relation r s), ?_⟩, ?_⟩
        · rw [Call.apply, apiMatch, h1]; rfl
        · intro e h; cases h with
          | match_ h => rw [h2] at h; cases h
          | relation _ h => cases h
      | _ =>
        refine .inl ⟨.typeError, ?_, .relation h2 rfl, ?_⟩
        · rw [Call.apply, apiMatch, h1]; rfl
        · intro e h; cases h with
          | match_ h => rw [h2] at h; cases h
          | relation => rfl
  | interpretation x t =>
    cases x with
    | rule a =>
      cases t <;> first
        | (refine .inr ⟨⟨_, rfl⟩, ?_⟩
           intro e h; cases h with
           | interpretation h => cases h
           | ruleTarget h => cases h)
        | (refine .inl ⟨.typeError, rfl, .ruleTarget rfl, ?_⟩
           intro e h; cases h with
           | interpretation h => cases h
           | ruleTarget h => rfl)
    | pred p =>
      cases t <;> first
        | (refine .inr ⟨⟨_, rfl⟩, ?_⟩
           intro e h; cases h with
           | interpretation h => cases h
           | tokenTarget h => cases h)
        | (refine .inl ⟨.typeError, rfl, .tokenTarget rfl, ?_⟩
           intro e h; cases h with
           | interpretation h => cases h
           | tokenTarget h => rfl)
    | _ =>
      refine .inl ⟨.attributeError, rfl, .interpretation rfl, ?_⟩
      intro e h; cases h; rfl
  | define x items =>
    cases x with
    | rule a =>
      have ha : a < w.heap.length := by
        obtain ⟨o, ho, _⟩ : RuleAt w.heap a := hh _ List.mem_cons_self
        exact (List.getElem?_eq_some_iff.1 ho).1
      rcases forwardOf_iff (hd _ _ rfl) (n := w.heap.length + 1) (a := a) (by omega) with ⟨f, h1, h2⟩ | ⟨h1, h2⟩
      · have split (hi : items ≠ []) (hr : ∀ r, items ≠ [.rule r]) :
            (∃ e, Fails w (.define (.rule a) items) e) ∨ Works w (.define (.rule a) items) := by
          have e : apiDefine (.rule a) items w = (do
              let (r, w1) ← apiRule items w
              let h ← defineForward f r w1.heap
              return (Arg.rule f, { w1 with heap := h })) := by
            unfold apiDefine
            simp only [h1, bind, Except.bind]
          rcases apiRule_cases items w with ⟨g1, g2⟩ | ⟨⟨r, w1⟩, g1, g2⟩
          · refine .inl ⟨.valueError, ?_, .definitionHeads h2 g2, ?_⟩
            · rw [Call.apply, e, g1]; rfl
            · intro e h; cases h with
              | define h => cases h
              | noForward h => exact absurd h2 (h f)
              | noItems => exact absurd rfl hi
              | forward => rfl
              | definitionHeads => rfl
          · refine .inr ⟨⟨(.rule f, { w1 with heap := w1.heap.set f (.forward (some r)) }), ?_⟩, ?_⟩
            · rw [Call.apply, e, g1]
              simp only [bind, Except.bind]
              have : defineForward f r w1.heap = .ok (w1.heap.set f (.forward (some r))) := by
                obtain ⟨_, _, _, _, p, k1, _⟩ := apiRule_ok
                  (fun z hz => hh z (List.mem_cons_of_mem _ hz)) g1
                unfold defineForward
                rw [k1]
              rw [this]; rfl
            · intro e h; cases h with
              | define h => cases h
              | noForward h => exact absurd h2 (h f)
              | noItems => exact absurd rfl hi
              | forward => exact absurd rfl (hr _)
              | definitionHeads _ h => exact g2 h
        match items, split, hh with
        | [], _, _ =>
          refine .inl ⟨.typeError, ?_, .noItems h2, ?_⟩
          · rw [Call.apply, apiDefine]
            simp only [h1, bind, Except.bind]; rfl
          · intro e h; cases h with
            | define h => cases h
            | noForward h => exact absurd h2 (h f)
            | noItems => rfl
            | definitionHeads _ h => simp [TwoHeads] at h
        | x :: y :: rest, split, _ => exact split (by simp) (by simp)
        | [.rule r], _, hh =>
          obtain ⟨o, ho, hp⟩ : RuleAt w.heap r := hh (.rule r) (by simp [args])
          by_cases hf : ∃ c, o = .forward c
          · obtain ⟨c, rfl⟩ := hf
            refine .inl ⟨.valueError, ?_, .forward h2 ho, ?_⟩
            · rw [Call.apply, apiDefine]
              simp only [h1, bind, Except.bind, defineForward, ho]
            · intro e h; cases h with
              | define h => cases h
              | noForward h => exact absurd h2 (h f)
              | forward => rfl
              | definitionHeads _ h => rfl
          · have hdf : defineForward f r w.heap = .ok (w.heap.set f (.forward (some r))) := by
              unfold defineForward
              split
              · rename_i c hc
                rw [ho] at hc; cases hc; exact absurd ⟨_, rfl⟩ hf
              · rfl
            refine .inr ⟨⟨(.rule f, { w with heap := w.heap.set f (.forward (some r)) }), ?_⟩, ?_⟩
            · rw [Call.apply, apiDefine]
              simp only [h1, bind, Except.bind, hdf]; rfl
            · intro e h; cases h with
              | define h => cases h
              | noForward h => exact absurd h2 (h f)
              | forward _ hc => rw [ho] at hc; cases hc; exact hf ⟨_, rfl⟩
              | definitionHeads _ h => exact one_head _ h
        | [.pred p], split, _ => exact split (by simp) (by simp)
        | [.main t], split, _ => exact split (by simp) (by simp)
        | [.relation r], split, _ => exact split (by simp) (by simp)
        | [.interpretator i], split, _ => exact split (by simp) (by simp)
        | [.fact c], split, _ => exact split (by simp) (by simp)
        | [.attr c n], split, _ => exact split (by simp) (by simp)
        | [.repeatableAttr c n], split, _ => exact split (by simp) (by simp)
        | [.normAttr c n m], split, _ => exact split (by simp) (by simp)
        | [.normalizer n], split, _ => exact split (by simp) (by simp)
        | [.str s], split, _ => exact split (by simp) (by simp)
        | [.int n], split, _ => exact split (by simp) (by simp)
        | [.bool b], split, _ => exact split (by simp) (by simp)
        | [.none], split, _ => exact split (by simp) (by simp)
        | [.other], split, _ => exact split (by simp) (by simp)
      · refine .inl ⟨.attributeError, ?_, .noForward h2, ?_⟩
        · rw [Call.apply, apiDefine]
          simp only [h1, bind, Except.bind]
        · intro e h; cases h with
          | define h => cases h
          | noForward h => rfl
          | noItems h => exact absurd h (h2 _)
          | forward h => exact absurd h (h2 _)
          | definitionHeads h => exact absurd h (h2 _)
    | _ =>
      refine .inl ⟨.attributeError, rfl, .define rfl, ?_⟩
      intro e h; cases h; rfl
  | pipeline kind lines =>
    have hl : (∃ ls, asLines lines = .ok ls ∧ ∀ x ∈ lines, ∃ s, x = .str s) ∨
        (asLines lines = .error .typeError ∧ ∃ x ∈ lines, ∀ s, x ≠ .str s) := by
      clear hh hd
      induction lines with
      | nil => exact .inl ⟨_, rfl, by intro x hx; cases hx⟩
      | cons x xs ih =>
        cases x with
        | str s =>
          rcases ih with ⟨ls, h1, h2⟩ | ⟨h1, h2⟩
          · refine .inl ⟨s :: ls, by rw [asLines, h1]; rfl, ?_⟩
            intro x hx
            rcases List.mem_cons.1 hx with rfl | hx
            · exact ⟨s, rfl⟩
            · exact h2 x hx
          · obtain ⟨x, h2, h3⟩ := h2
            exact .inr ⟨by rw [asLines, h1]; rfl, x, List.mem_cons_of_mem _ h2, h3⟩
        | _ => exact .inr ⟨rfl, _, List.mem_cons_self, by rintro s ⟨⟩⟩
    rcases hl with ⟨ls, h1, h2⟩ | ⟨h1, h2⟩
    · refine .inr ⟨⟨_, by rw [Call.apply, apiPipeline, h1]; rfl⟩, ?_⟩
      intro e h; cases h with
      | pipeline h =>
        obtain ⟨x, g1, g2⟩ := h
        obtain ⟨s, rfl⟩ := h2 x g1
        exact g2 s rfl
    · refine .inl ⟨.typeError, by rw [Call.apply, apiPipeline, h1]; rfl, .pipeline h2, ?_⟩
      intro e h; cases h; rfl
  | morph x m =>
    cases x with
    | attr c n =>
      refine .inr ⟨⟨_, rfl⟩, ?_⟩
      intro e h; cases h with
      | morph h => exact h _ _ rfl
    | _ =>
      refine .inl ⟨.attributeError, rfl, .morph (by rintro _ _ ⟨⟩), ?_⟩
      intro e h; cases h; rfl
  | const x v =>
    cases x with
    | attr c n =>
      refine .inr ⟨⟨_, rfl⟩, ?_⟩
      intro e h; cases h with
      | const h => exact h _ _ rfl
    | _ =>
      refine .inl ⟨.attributeError, rfl, .const (by rintro _ _ ⟨⟩), ?_⟩
      intro e h; cases h; rfl
  | custom x f =>
    have fails (ha : apiCustom x f w = .error .attributeError) (h1 : ∀ c n, x ≠ .attr c n)
        (h2 : ∀ c n m, x = .normAttr c n m → extensible m = false)
        (h3 : ∀ m, x = .normalizer m → extensible m = false) :
        (∃ e, Fails w (.custom x f) e) ∨ Works w (.custom x f) := by
      refine .inl ⟨.attributeError, ha, .custom h1 h2 h3, ?_⟩
      intro e h; cases h; rfl
    cases x with
    | attr c n =>
      refine .inr ⟨⟨_, rfl⟩, ?_⟩
      intro e h; cases h with
      | custom h => exact h _ _ rfl
    | normAttr c n m =>
      cases m <;> first
        | (refine .inr ⟨⟨_, rfl⟩, ?_⟩
           intro e h; cases h with
           | custom _ h => exact absurd (h _ _ _ rfl) (by simp [extensible]))
        | exact fails rfl (by rintro _ _ ⟨⟩) (by rintro _ _ _ ⟨⟩; rfl) (by rintro _ ⟨⟩)
    | normalizer m =>
      cases m <;> first
        | (refine .inr ⟨⟨_, rfl⟩, ?_⟩
           intro e h; cases h with
           | custom _ _ h => exact absurd (h _ rfl) (by simp [extensible]))
        | exact fails rfl (by rintro _ _ ⟨⟩) (by rintro _ _ _ ⟨⟩) (by rintro _ ⟨⟩; rfl)
    | _ => exact fails rfl (by rintro _ _ ⟨⟩) (by rintro _ _ _ ⟨⟩) (by rintro _ ⟨⟩)

end Yargy.Api
