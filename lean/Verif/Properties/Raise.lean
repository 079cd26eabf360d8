import Verif.Proofs.Raise
import Verif.Properties.Surroundings
/-!
C72: exceptions of predicates reach the caller, and change nothing else.
-/
namespace Yargy
open Spec

/-! ### The chart -/

section
variable {P T H : Type} [DecidableEq H] {M : Methods P T} {G : Grammar P T} {hash : Key → H} {toks : List T} {all : Bool}

theorem chartE_cases (hM : Tamed M G) (hG : PredictSound G) (fuel : Nat) :
    (chartE M G hash toks all fuel = (chart G hash toks all fuel).map .ok ∧
      ∀ m, m < fuel → ∀ p t e, Asks toks (runN G hash toks all m) p t → ¬ Raises M p t e) ∨
    ∃ k t p e, toks[k]? = some t ∧ Wanted G toks all k p ∧ Raises M p t e ∧
      chartE M G hash toks all fuel = some (.error e) := by
  rcases runE_cases (hash := hash) (toks := toks) (all := all) hM fuel with ⟨h1, h2⟩ | ⟨m, p, t, e, _, h2, h3, h4⟩
  · refine .inl ⟨?_, h2⟩
    unfold chartE chart
    rw [h1]
    dsimp only
    cases (runN G hash toks all fuel).phase <;> rfl
  · obtain ⟨k, g1, g2⟩ := asks_wanted hG h2
    refine .inr ⟨k, t, p, e, g1, g2, h3, ?_⟩
    unfold chartE
    rw [h4]

/-- C72: the chart is what it would be if exceptions were refusals, or it is the exception of a predicate of interest
about the token in question. -/
theorem chart_raises (hM : Tamed M G) (hG : PredictSound G) {fuel : Nat} {x : Except Err (List (Column P T H))}
    (h : chartE M G hash toks all fuel = some x) :
    (∃ cols, x = .ok cols ∧ chart G hash toks all fuel = some cols) ∨
      ∃ k t p e, x = .error e ∧ toks[k]? = some t ∧ Wanted G toks all k p ∧ Raises M p t e := by
  rcases chartE_cases (hash := hash) (toks := toks) (all := all) hM hG fuel with ⟨h1, _⟩ | ⟨k, t, p, e, h1, h2, h3, h4⟩
  · rw [h1] at h
    obtain ⟨cols, g1, g2⟩ := Option.map_eq_some_iff.1 h
    exact .inl ⟨cols, g2.symm, g1⟩
  · rw [h4] at h
    cases h
    exact .inr ⟨k, t, p, e, rfl, h1, h2, h3⟩

/-- C72: a predicate that is preceded in its production by predicates only, which accept what precedes, is asked
wherever the production may begin: if it raises there, so does the call. -/
theorem chart_must_raise_partial (hM : Tamed M G) (hG : PredictSound G) (hD : DistinctProductions G)
    (hh : ∀ a b, hash a = hash b → a = b) {fuel : Nat} {cols : List (Column P T H)}
    (h : chart G hash toks all fuel = some cols) {i r : Nat} (hb : Begins G toks all i r) {prod : Production P}
    (h1 : prod ∈ G.productions r) (h2 : ∀ t, toks[i]? = some t → prod ∈ G.predict r t) {xs : List P} {p : P}
    {ys : List (Term P)} (h3 : prod.terms = xs.map .pred ++ .pred p :: ys)
    (h4 : ∀ (j : Nat) x, xs[j]? = some x → ∃ t, toks[i + j]? = some t ∧ M.call x t = .ok true) {t : T} {e : Err}
    (h5 : toks[i + xs.length]? = some t) (h6 : Raises M p t e) :
    ∃ e', chartE M G hash toks all fuel = some (.error e') := by
  rcases chartE_cases (hash := hash) (toks := toks) (all := all) hM hG fuel with ⟨_, g2⟩ | ⟨_, _, _, e', _, _, _, g⟩
  · exfalso
    have hd : (runN G hash toks all fuel).phase = .done ∧ (runN G hash toks all fuel).cols = cols := by
      unfold chart at h
      split at h
      · next e => cases h; exact ⟨e, rfl⟩
      · cases h
    have hc := closed_of_done hG hD hh hd.1
    have hi : i ≤ toks.length := by
      have := (List.getElem?_eq_some_iff.1 h5).1
      omega
    obtain ⟨s, s1, s2, s3, s4, _⟩ := begins_pred hc hi hb prod (predicted_of h1 h2)
    obtain ⟨u, u1, u2, u3, u4⟩ := led_state hc xs (i := i) (d := 0) (r := r) (rest := .pred p :: ys)
      ⟨s, s1, s2, s3, s4⟩ h3 (fun j x hx => by
        obtain ⟨t', e1, e2⟩ := h4 j x hx
        exact ⟨t', e1, (hM.yes x t').2 e2⟩)
    have hn : u.next = some (.pred p) := by
      unfold State.next
      rw [u3, u4, h3, Nat.zero_add, List.getElem?_append_right (by rw [List.length_map]; exact Nat.le_refl _),
        List.length_map, Nat.sub_self]
      rfl
    obtain ⟨m, m1, m2⟩ := finished_asked fuel hd.1 u1 hn h5
    exact g2 m m1 p t e m2 h6
  · exact ⟨e', g⟩

end

/-! ### The predicates of the library -/

section
variable {L : Lang}

theorem pred_tamed (rules : List (ChartRule Pred Token)) (start : Nat) :
    Tamed (predMethods L) (predGrammar L rules start) := by
  refine ⟨fun p t => ?_, fun p t t' h => ?_⟩
  · show p.accepts L t = true ↔ p.call L t = .ok true
    unfold Pred.accepts
    cases p.call L t with
    | error e => exact ⟨fun h => (nomatch h), fun h => (nomatch h)⟩
    | ok b => exact ⟨fun h => by rw [show b = true from h], fun h => by cases h; rfl⟩
  · show p.narrow t = t'
    unfold Pred.narrow
    rw [show p.constrain t = .ok t' from h]

/-- Narrowing a token that was accepted does not raise. -/
theorem raises_call {p : Pred} {t : Token} {e : Err} (h : Raises (predMethods L) p t e) : p.call L t = .error e := by
  rcases h with h | ⟨h1, h2⟩
  · exact h
  · obtain ⟨t', g, _⟩ := constrain_narrows L p t h1
    have : p.constrain t = .error e := h2
    rw [g] at this
    cases this

theorem int_culprit {t : Token} {f : Int → Bool} {e : Err} (h : intRequired L t f = .error e) :
    t.type = intType ∧ L.parseInt t.value = none ∧ e = .valueError := by
  unfold intRequired at h
  split at h
  · next h1 =>
    split at h
    · cases h
    · next h2 => cases h; exact ⟨h1, h2, rfl⟩
  · cases h

theorem morph_mild {t : Token} {f : Form → Bool} {e : Err} : morphRequired t f ≠ .error e := by
  unfold morphRequired
  split <;> exact fun h => nomatch h

theorem custom_culprit {f : Nat} {types : List Str} {t : Token} {e : Err}
    (h : (Pred.customP f types).call L t = .error e) : (types = [] ∨ t.type ∈ types) ∧ L.fn f t.value = .error e := by
  unfold Pred.call at h
  split at h
  · cases h
  · next hc =>
    refine ⟨?_, h⟩
    by_cases h1 : types = []
    · exact .inl h1
    · right
      have h2 : types.isEmpty = false := by
        cases types with
        | nil => exact absurd rfl h1
        | cons => rfl
      rw [h2] at hc
      simpa using hc

mutual
theorem cause {c : Context} {t : Token} {e : Err} : ∀ {p q : Pred}, p.activate c = .ok q → q.call L t = .error e →
    ∃ r, PredPart r p ∧ Culprit L t r e
  | .normalized v, q, h, hq => by
    unfold Pred.activate at h
    obtain ⟨m, _, h⟩ := except_bind_ok h
    cases h
    unfold Pred.call at hq
    split at hq <;> cases hq
  | .dictionary [], q, h, hq => by
    unfold Pred.activate at h
    cases h
    unfold Pred.call at hq
    split at hq <;> cases hq
  | .dictionary (v :: vs), q, h, hq => by
    unfold Pred.activate at h
    obtain ⟨m, _, h⟩ := except_bind_ok h
    cases h
    unfold Pred.call at hq
    split at hq <;> cases hq
  | .dict v, q, h, hq => by
    cases h
    unfold Pred.call at hq
    split at hq <;> cases hq
  | .gram v, q, h, hq => by
    unfold Pred.activate at h
    obtain ⟨m, _, h⟩ := except_bind_ok h
    split at h
    · cases h
      exact absurd hq morph_mild
    · cases h
  | .gramP v, q, h, hq => by
    cases h
    exact absurd hq morph_mild
  | .isSingle, q, h, hq => by
    cases h
    exact absurd hq morph_mild
  | .type v, q, h, hq => by
    unfold Pred.activate at h
    obtain ⟨m, _, h⟩ := except_bind_ok h
    cases h
    cases hq
  | .typeP v, q, h, hq => by
    cases h
    cases hq
  | .tag v, q, h, hq => by
    cases h
    unfold Pred.call at hq
    split at hq <;> cases hq
  | .tagP v, q, h, hq => by
    cases h
    unfold Pred.call at hq
    split at hq <;> cases hq
  | .custom f types, q, h, hq => by
    unfold Pred.activate at h
    obtain ⟨m, _, h⟩ := except_bind_ok h
    cases h
    obtain ⟨h1, h2⟩ := custom_culprit hq
    exact ⟨_, .refl, .custom h1 h2⟩
  | .customP f types, q, h, hq => by
    cases h
    obtain ⟨h1, h2⟩ := custom_culprit hq
    exact ⟨_, .refl, .customP h1 h2⟩
  | .gte n, q, h, hq => by
    cases h
    obtain ⟨h1, h2, rfl⟩ := int_culprit hq
    exact ⟨_, .refl, .gte h1 h2⟩
  | .lte n, q, h, hq => by
    cases h
    obtain ⟨h1, h2, rfl⟩ := int_culprit hq
    exact ⟨_, .refl, .lte h1 h2⟩
  | .isCapitalized, q, h, hq => by
    cases h
    unfold Pred.call at hq
    split at hq
    · next h1 => cases hq; exact ⟨_, .refl, .isCapitalized h1⟩
    · cases hq
  | .and_ ps, q, h, hq => by
    unfold Pred.activate at h
    obtain ⟨qs, h1, h⟩ := except_bind_ok h
    cases h
    obtain ⟨p, h2, r, h3, h4⟩ := causeAll h1 (fun hn => by
      unfold Pred.call at hq
      have : ∀ ps : List Pred, (∀ p ∈ ps, p.call L t ≠ .error e) → callAnd L t ps ≠ .error e := by
        intro ps
        induction ps with
        | nil => intro _ h; cases h
        | cons p ps ih =>
          intro hp h
          unfold callAnd at h
          split at h
          · next e1 => cases h; exact hp p List.mem_cons_self e1
          · cases h
          · exact ih (fun x hx => hp x (List.mem_cons_of_mem _ hx)) h
      exact this qs hn hq)
    exact ⟨r, .and_ h2 h3, h4⟩
  | .or_ ps, q, h, hq => by
    unfold Pred.activate at h
    obtain ⟨qs, h1, h⟩ := except_bind_ok h
    cases h
    obtain ⟨p, h2, r, h3, h4⟩ := causeAll h1 (fun hn => by
      unfold Pred.call at hq
      have : ∀ ps : List Pred, (∀ p ∈ ps, p.call L t ≠ .error e) → callOr L t ps ≠ .error e := by
        intro ps
        induction ps with
        | nil => intro _ h; cases h
        | cons p ps ih =>
          intro hp h
          unfold callOr at h
          split at h
          · next e1 => cases h; exact hp p List.mem_cons_self e1
          · cases h
          · exact ih (fun x hx => hp x (List.mem_cons_of_mem _ hx)) h
      exact this qs hn hq)
    exact ⟨r, .or_ h2 h3, h4⟩
  | .not_ p, q, h, hq => by
    unfold Pred.activate at h
    obtain ⟨q', h1, h⟩ := except_bind_ok h
    cases h
    unfold Pred.call at hq
    obtain ⟨r, h2, h3⟩ := cause h1 (show q'.call L t = .error e by
      cases hx : q'.call L t with
      | error e' => rw [hx] at hq; cases hq; rfl
      | ok b => rw [hx] at hq; cases hq)
    exact ⟨r, .not_ h2, h3⟩
  | .true, q, h, hq => by cases h; cases hq
  | .isLower, q, h, hq => by cases h; cases hq
  | .isUpper, q, h, hq => by cases h; cases hq
  | .isTitle, q, h, hq => by cases h; cases hq
  | .eq v, q, h, hq => by cases h; cases hq
  | .lengthEq n, q, h, hq => by cases h; cases hq
  | .caseless v, q, h, hq => by cases h; cases hq
  | .in_ vs, q, h, hq => by cases h; cases hq
  | .inCaseless vs, q, h, hq => by cases h; cases hq
theorem causeAll {c : Context} {t : Token} {e : Err} : ∀ {ps qs : List Pred}, activateAll c ps = .ok qs →
    ¬ (∀ q ∈ qs, q.call L t ≠ .error e) → ∃ p ∈ ps, ∃ r, PredPart r p ∧ Culprit L t r e
  | [], qs, h, hq => by
    unfold activateAll at h
    cases h
    exact absurd (fun q hq => absurd hq List.not_mem_nil) hq
  | p :: ps, qs, h, hq => by
    unfold activateAll at h
    obtain ⟨q, h1, h⟩ := except_bind_ok h
    obtain ⟨qs', h2, h⟩ := except_bind_ok h
    cases h
    by_cases hx : q.call L t = .error e
    · obtain ⟨r, h3, h4⟩ := cause h1 hx
      exact ⟨p, List.mem_cons_self, r, h3, h4⟩
    · obtain ⟨p', h3, r, h4, h5⟩ := causeAll h2 (fun hn => hq (fun y hy => by
        rcases List.mem_cons.1 hy with rfl | hy
        · exact hx
        · exact hn y hy))
      exact ⟨p', List.mem_cons_of_mem _ h3, r, h4, h5⟩
end

end

/-! ### Parsers of programs -/

section
variable {L : Lang} {setOrder : List Str → List Str} {relation : Nat → Relation} {pid : Nat → Nat} {limit root : Nat}
  {h h' : Heap Pred} {H : Type} [DecidableEq H] {hash : Key → H} {r : Reader} {p : TextParser}

/-- Where the predicates of a grammar come from: predicates of the rule, activated, and words of gazetteers, which do
not raise. -/
def Comes (L : Lang) (c : Context) (h : Heap Pred) (root : Nat) (q : Pred) : Prop :=
  (∃ a o p, Reach h root a ∧ h[a]? = some o ∧ Bears o p ∧ p.activate c = .ok q) ∨ ∀ t e, q.call L t ≠ .error e

theorem key_mild {c : Context} {split : Str → List Str} {k : PipeKind} {l : Str} {ps : List Pred}
    (e : pipeKey L c split k l = .ok ps) : ∀ p ∈ ps, ∀ t e, p.call L t ≠ .error e := by
  cases k with
  | exact =>
    cases e
    intro p hp
    obtain ⟨w, _, rfl⟩ := List.mem_map.1 hp
    intro t e h; cases h
  | caseless =>
    cases e
    intro p hp
    obtain ⟨w, _, rfl⟩ := List.mem_map.1 hp
    intro t e h; cases h
  | morph =>
    intro p hp
    obtain ⟨w, _, hw⟩ := (mapM_mem e p).1 hp
    obtain ⟨m, _, rfl⟩ := except_map_ok hw
    intro t e h
    unfold Pred.call at h
    split at h <;> cases h

theorem activateObj_comes {c : Context} {split : Str → List Str} (hst : Stored h) {a : Nat} {o o' : Obj Pred}
    (ha : Reach h root a) (ho : h[a]? = some o) (e : activateObj (c.activation L split) o = .ok o') :
    ∀ q ∈ o'.preds, Comes L c h root q := by
  have hs := hst o (List.mem_of_getElem? ho)
  cases o with
  | prod ts m =>
    obtain ⟨ts', h1, rfl⟩ := except_map_ok e
    intro p hp
    obtain ⟨t, ht0, ht⟩ := (mapM_mem h1 _).1 (Pass.preds_prod.1 hp)
    cases t with
    | rule r => cases ht
    | pred q =>
      obtain ⟨q', hq, e⟩ := except_map_ok ht
      cases e
      exact .inl ⟨a, _, q, ha, ho, .prod ht0, hq⟩
  | pipe pl =>
    obtain ⟨pl', h1, rfl⟩ := except_map_ok e
    cases pl with
    | scheme k lines =>
      obtain ⟨ks, h2, rfl⟩ := except_map_ok h1
      intro p hp
      obtain ⟨x, hx, hpx⟩ := List.mem_flatMap.1 hp
      obtain ⟨l, _, hl⟩ := (mapM_mem h2 x).1 hx
      obtain ⟨ps, hps, rfl⟩ := except_map_ok hl
      exact .inr (key_mild hps p hpx)
    | keys k ks =>
      cases h1
      intro p hp
      obtain ⟨x, hx, hpx⟩ := List.mem_flatMap.1 hp
      exact .inl ⟨a, _, p, ha, ho, .keys hx hpx, hs.2 k ks rfl x hx p hpx c⟩
  | pipeProd v ps =>
    cases e
    intro p hp
    exact .inl ⟨a, _, p, ha, ho, .pipeProd hp, hs.1 v ps rfl p hp c⟩
  | _ => cases e; intro p hp; cases hp

/-- Rules of interest are rules of the compiled grammar. -/
theorem expects_reach {G : Grammar Pred Token} {start : Nat} (hB : Belongs L h' G (Reach h' start))
    (hs : G.start = start) {toks : List Token} {all : Bool} {i x : Nat} (he : Expects G toks all i x)
    (hfit : ∀ y, Reach h' start y → ∃ o, h'[y]? = some o ∧ FitFor (fun _ => True) h' o) : Reach h' start x := by
  induction he with
  | start _ => rw [hs]; exact .root
  | @part i k x x' prod xs ys ts _ h2 h3 _ ih =>
    have hm : Term.rule x' ∈ prod.terms := by rw [h3]; simp
    obtain ⟨o, ho, hf⟩ := hfit x ih
    by_cases hb : isBnf h' x = true
    · cases hf with
      | bnf hps =>
        rename_i ps n i r k
        rw [hB.productions x ps n i r k ho] at h2
        obtain ⟨y, hy, rfl⟩ := List.mem_map.1 h2
        have hry : Reach h' start y := .step ih ho hy
        obtain ⟨oy, g1, g2⟩ := hfit y hry
        unfold productionAt at hm
        rw [g1] at hm
        cases g2 with
        | prod q1 q2 => exact .step hry g1 (termRules_mem.2 hm)
        | emptyProd => cases hm
        | pipeProd q =>
          obtain ⟨z, _, e⟩ := List.mem_map.1 hm
          cases e
        | bnf _ => cases hm
      | _ =>
        unfold isBnf at hb
        rw [ho] at hb
        cases hb
    · have := hB.none x (by simpa using hb)
      rw [this] at h2
      cases h2

/-- What the chart asks about comes from the rule. -/
theorem wanted_comes (hrun : Run L setOrder [] h) (hroot : RuleAt h root) (hp : ∀ a b, pid a = pid b → a = b)
    {c : Context} {split : Str → List Str} {b : Built}
    (hb : buildParser L setOrder c split relation pid limit root h = .ok (b, h')) {toks : List Token} {all : Bool}
    {k : Nat} {q : Pred} (hw : Wanted b.grammar toks all k q) : Comes L c h root q := by
  obtain ⟨k1, k2, k3, k4, k5, _⟩ := program_parts hrun hroot hp hb
  have hh := run_healthy hrun healthy_nil
  have hc := compileRule_compiled (X := Comes L c h root) hp k1 k2 k3
    (fun x o o' hx ho e => activateObj_comes hh.stored hx ho e) k4
  obtain ⟨i, x, prod, xs, ys, ts, w1, w2, w3, _⟩ := hw
  have hfit := fun y hy => typed_fit (ask := Comes L c h root) hc.typed (x := y) hy
  have hx := expects_reach k5 rfl w1 (fun y hy => by
    obtain ⟨o, g1, g2⟩ := hfit y hy
    refine ⟨o, g1, ?_⟩
    cases g2 with
    | bnf h1 => exact .bnf h1
    | prod h1 h2 => exact .prod h1 (fun _ _ => trivial)
    | emptyProd => exact .emptyProd
    | pipeProd h1 => exact .pipeProd (fun _ _ => trivial))
  have hm : Term.pred q ∈ prod.terms := by rw [w3]; simp
  obtain ⟨o, ho, hf⟩ := hfit x hx
  by_cases hbn : isBnf h' x = true
  · cases hf with
    | bnf hps =>
      rename_i ps n i r k
      rw [k5.productions x ps n i r k ho] at w2
      obtain ⟨y, hy, rfl⟩ := List.mem_map.1 w2
      obtain ⟨oy, g1, g2⟩ := hfit y (.step hx ho hy)
      unfold productionAt at hm
      rw [g1] at hm
      cases g2 with
      | prod q1 q2 => exact q2 q hm
      | emptyProd => cases hm
      | pipeProd g =>
        obtain ⟨z, hz, e⟩ := List.mem_map.1 hm
        cases e
        exact g q hz
      | bnf _ => cases hm
    | _ =>
      unfold isBnf at hbn
      rw [ho] at hbn
      cases hbn
  · have := k5.none x (by simpa using hbn)
    rw [this] at w2
    cases w2

/-- The exception of a call: raised by a predicate that is written in the rule, about a token of the text, and the
chart asks because what precedes matches. -/
def Fault (L : Lang) (h : Heap Pred) (root : Nat) (r : Reader) (G : Grammar Pred Token) (text : Str) (all : Bool)
    (e : Err) : Prop :=
  ∃ toks k t q w, r.tokens text = .ok toks ∧ toks[k]? = some t ∧ Wanted G toks all k w ∧ w.call L t = .error e ∧
    Written h root q ∧ Culprit L t q e

theorem matchStatesE_cases (hrun : Run L setOrder [] h) (hroot : RuleAt h root) (hp : ∀ a b, pid a = pid b → a = b)
    (hs : SetOrder setOrder) (hb : newParser L setOrder r relation pid limit root h = .ok (p, h')) {text : Str}
    {toks : List Token} (ht : r.tokens text = .ok toks) (all : Bool) (fuel : Nat) :
    matchStatesE (predMethods L) p.built.grammar hash toks all fuel =
        (matchStates p.built.grammar hash toks all fuel).map .ok ∨
      ∃ e, Fault L h root r p.built.grammar text all e ∧
        matchStatesE (predMethods L) p.built.grammar hash toks all fuel = some (.error e) := by
  obtain ⟨_, hb'⟩ := newParser_parts hb
  obtain ⟨_, _, _, _, _, _, rules, h5, _⟩ := program_parts hrun hroot hp hb'
  obtain ⟨q1, _⟩ := program_predict hrun hroot hp hs hb'
  have hM : Tamed (predMethods L) p.built.grammar := by rw [h5]; exact pred_tamed _ _
  unfold matchStatesE matchStates
  rcases chartE_cases (hash := hash) (toks := toks) (all := all) hM q1 fuel with ⟨g, _⟩ | ⟨k, t, w, e, g1, g2, g3, g4⟩
  · left
    rw [g]
    cases chart p.built.grammar hash toks all fuel <;> rfl
  · right
    have hcall := raises_call g3
    rcases wanted_comes hrun hroot hp hb' g2 with ⟨a, o, q, c1, c2, c3, c4⟩ | hm
    · obtain ⟨q', d1, d2⟩ := cause c4 hcall
      refine ⟨e, ⟨toks, k, t, q', w, ht, g1, g2, hcall, ⟨a, o, q, c1, c2, c3, d1⟩, d2⟩, ?_⟩
      rw [g4]
      rfl
    · exact absurd hcall (hm t e)

/-- C72: what the methods of a parser return or raise when the exceptions of predicates are passed on is what they
return or raise when a predicate that raises counts as refusing, or it is an exception of a predicate that is
written in the rule, about a token of the text that comes after a beginning of the rule. -/
theorem exceptions_reach (hrun : Run L setOrder [] h) (hroot : RuleAt h root) (hp : ∀ a b, pid a = pid b → a = b)
    (hs : SetOrder setOrder) (hb : newParser L setOrder r relation pid limit root h = .ok (p, h')) (text : Str)
    (fuel : Nat) :
    (∀ all, p.extractE L hash text all fuel = p.extract hash text all fuel ∨
      ∃ e, Fault L h root r p.built.grammar text all e ∧
        p.extractE L hash text all fuel = some ([], Store.init, some e)) ∧
    (p.findallE L hash text fuel = p.findall hash text fuel ∨
      ∃ e, Fault L h root r p.built.grammar text true e ∧ p.findallE L hash text fuel = some (.error e)) ∧
    (p.matchE L hash text fuel = p.match hash text fuel ∨
      ∃ e, Fault L h root r p.built.grammar text false e ∧ p.matchE L hash text fuel = some (.error e)) := by
  obtain ⟨hr, _⟩ := newParser_parts hb
  unfold TextParser.extractE TextParser.extract TextParser.findallE TextParser.findall TextParser.matchE TextParser.match
  rw [hr]
  cases ht : r.tokens text with
  | error e => exact ⟨fun _ => .inl rfl, .inl rfl, .inl rfl⟩
  | ok toks =>
    have key := fun all => matchStatesE_cases (hash := hash) hrun hroot hp hs hb ht all fuel
    refine ⟨fun all => ?_, ?_, ?_⟩
    · dsimp only
      unfold Yargy.extractE Yargy.extract
      rcases key all with g | ⟨e, g1, g2⟩
      · left
        rw [g]
        cases matchStates p.built.grammar hash toks all fuel <;> rfl
      · exact .inr ⟨e, g1, by rw [g2]; rfl⟩
    · dsimp only
      unfold Yargy.findallE Yargy.findall
      rcases key true with g | ⟨e, g1, g2⟩
      · left
        rw [g]
        cases matchStates p.built.grammar hash toks true fuel <;> rfl
      · exact .inr ⟨e, g1, by rw [g2]; rfl⟩
    · dsimp only
      unfold Yargy.matchTextE Yargy.matchText
      rcases key false with g | ⟨e, g1, g2⟩
      · left
        rw [g]
        cases matchStates p.built.grammar hash toks false fuel <;> rfl
      · exact .inr ⟨e, g1, by rw [g2]; rfl⟩

theorem harmless_faultless {G : Grammar Pred Token} {text : Str} {all : Bool} {e : Err} {toks : List Token}
    (ht : r.tokens text = .ok toks) (hq : ∀ t ∈ toks, ∀ q e, Written h root q → ¬ Culprit L t q e) :
    ¬ Fault L h root r G text all e := by
  rintro ⟨toks', k, t, q, w, h1, h2, _, _, h5, h6⟩
  rw [ht] at h1
  cases h1
  exact hq t (List.mem_of_getElem? h2) q e h5 h6

theorem quiet_harmless {t : Token} (hq : Quiet L t) (q : Pred) (e : Err) : ¬ Culprit L t q e := by
  intro h
  cases h with
  | custom _ h =>
    obtain ⟨b, g⟩ := hq.fn _
    rw [g] at h
    cases h
  | customP _ h =>
    obtain ⟨b, g⟩ := hq.fn _
    rw [g] at h
    cases h
  | gte h1 h2 =>
    obtain ⟨v, g⟩ := hq.int h1
    rw [g] at h2
    cases h2
  | lte h1 h2 =>
    obtain ⟨v, g⟩ := hq.int h1
    rw [g] at h2
    cases h2
  | isCapitalized h => exact hq.text h

/-- C72: on texts without tokens that predicates of the rule raise on nothing is raised, and the results are those of the other
properties. -/
theorem quiet_same (hrun : Run L setOrder [] h) (hroot : RuleAt h root) (hp : ∀ a b, pid a = pid b → a = b)
    (hs : SetOrder setOrder) (hb : newParser L setOrder r relation pid limit root h = .ok (p, h')) {text : Str}
    {toks : List Token} (ht : r.tokens text = .ok toks) (hq : ∀ t ∈ toks, ∀ q e, Written h root q → ¬ Culprit L t q e)
    (fuel : Nat) :
    (∀ all, p.extractE L hash text all fuel = p.extract hash text all fuel) ∧
    p.findallE L hash text fuel = p.findall hash text fuel ∧ p.matchE L hash text fuel = p.match hash text fuel := by
  obtain ⟨h1, h2, h3⟩ := exceptions_reach (hash := hash) hrun hroot hp hs hb text fuel
  refine ⟨fun all => (h1 all).resolve_right ?_, h2.resolve_right ?_, h3.resolve_right ?_⟩ <;>
  · rintro ⟨e, g, _⟩
    exact harmless_faultless ht hq g

/-- C72: results are never changed by exceptions: a call that returns returns what it would return if exceptions were
refusals, and one that ends with exceptions as refusals ends. -/
theorem results_same (hrun : Run L setOrder [] h) (hroot : RuleAt h root) (hp : ∀ a b, pid a = pid b → a = b)
    (hs : SetOrder setOrder) (hb : newParser L setOrder r relation pid limit root h = .ok (p, h')) (text : Str)
    (fuel : Nat) :
    (∀ x, p.findallE L hash text fuel = some (.ok x) → p.findall hash text fuel = some (.ok x)) ∧
    (∀ x, p.findall hash text fuel = some x → ∃ y, p.findallE L hash text fuel = some y) ∧
    (∀ x, p.matchE L hash text fuel = some (.ok x) → p.match hash text fuel = some (.ok x)) ∧
    (∀ x, p.match hash text fuel = some x → ∃ y, p.matchE L hash text fuel = some y) := by
  obtain ⟨_, h2, h3⟩ := exceptions_reach (hash := hash) hrun hroot hp hs hb text fuel
  refine ⟨fun x hx => ?_, fun x hx => ?_, fun x hx => ?_, fun x hx => ?_⟩
  · rcases h2 with g | ⟨e, _, g⟩
    · rw [← g]; exact hx
    · rw [g] at hx; cases hx
  · rcases h2 with g | ⟨e, _, g⟩
    · exact ⟨x, by rw [g]; exact hx⟩
    · exact ⟨_, g⟩
  · rcases h3 with g | ⟨e, _, g⟩
    · rw [← g]; exact hx
    · rw [g] at hx; cases hx
  · rcases h3 with g | ⟨e, _, g⟩
    · exact ⟨x, by rw [g]; exact hx⟩
    · exact ⟨_, g⟩

/-- C72 with C61 (partial): on texts without tokens that predicates of the rule raise on the methods, with exceptions
passed on, end without raising, `extract` reports exactly the ranges of tokens that the rule accepts and `findall`
the best choice among them. -/
theorem text_correct_raising_partial (hrun : Fresh L setOrder h) (hroot : RuleAt h root)
    (hp : ∀ a b, pid a = pid b → a = b) (hs : SetOrder setOrder) (hh : ∀ a b, hash a = hash b → a = b) (hr : Answers r)
    (hc : Complete r.context r.split h root ∨ CompleteOptionals r.context r.split h root) :
    ∃ N p h', (∀ limit, N ≤ limit → newParser L setOrder r relation pid limit root h = .ok (p, h')) ∧
      ∀ text, ∃ toks, r.tokens text = .ok toks ∧
        ((∀ t ∈ toks, ∀ q e, Written h root q → ¬ Culprit L t q e) →
          (∃ fuel ms σ, p.extractE L hash text true fuel = some (ms, σ, none) ∧
            ∀ i j, (∃ m ∈ ms, m.tree.range = (i, j)) ↔ Accepts L (r.context.activation L r.split) h root toks i j) ∧
          ∃ fuel ms σ, p.findallE L hash text fuel = some (.ok (ms, σ)) ∧
            Chosen (Accepts L (r.context.activation L r.split) h root toks) (ms.map (fun m => m.tree.range))) := by
  obtain ⟨N, p, h', h1, h2⟩ := text_correct_optionals_partial (relation := relation) hrun hroot hp hs hh hr hc
  refine ⟨N, p, h', h1, fun text => ?_⟩
  obtain ⟨toks, g1, _, ⟨f1, ms1, σ1, e1, e2⟩, ⟨f2, ms2, σ2, e3, e4⟩, _⟩ := h2 text
  refine ⟨toks, g1, fun hq => ⟨⟨f1, ms1, σ1, ?_, e2⟩, f2, ms2, σ2, ?_, e4⟩⟩
  · rw [(quiet_same (hash := hash) (fresh_run hrun) hroot hp hs (h1 N (Nat.le_refl _)) g1 hq f1).1 true]
    exact e1
  · rw [(quiet_same (hash := hash) (fresh_run hrun) hroot hp hs (h1 N (Nat.le_refl _)) g1 hq f2).2.1]
    exact e3

end

/-! ### Non-vacuity -/

/-- A function of the user that raises on «b». -/
def fussyLang : Lang := { sampleLang with fn := fun _ v => if v = "b".toList then .error .keyError else .ok true }

/-- `rule(type('INT'), custom(f))` and `rule(custom(f))`. -/
def fussySource : Heap Pred :=
  [.prod [.pred (.type intType), .pred (.custom 0 [])] 0, .rule [0], .prod [.pred (.custom 0 [])] 0, .rule [2]]

/-- The outcome of `findall`: spans or the exception. -/
def fussyFound (h : Heap Pred) (root : Nat) (text : Str) : Option (List (Nat × Nat) × Option Err) :=
  match newParser fussyLang sampleOrder sampleReader (fun _ => .gender) id 60 root h with
  | .error _ => none
  | .ok (p, _) =>
    match p.findallE fussyLang (id : Key → Key) text 2000 with
    | some (.ok (ms, _)) => some (ms.map (·.span), none)
    | some (.error e) => some ([], some e)
    | none => none

/-- The same for given tokens. -/
def fussyFoundIn (h : Heap Pred) (root : Nat) (toks : List Token) : Option (List (Nat × Nat) × Option Err) :=
  match buildParser fussyLang sampleOrder sampleReader.context sampleReader.split (fun _ => .gender) id 60 root h with
  | .error _ => none
  | .ok (b, _) =>
    match Yargy.findallE (predMethods fussyLang) b.grammar b.agreement (id : Key → Key) toks 2000 with
    | some (.ok (ms, _)) => some (ms.map (·.span), none)
    | some (.error e) => some ([], some e)
    | none => none

theorem fussyFound_tokens {text : Str} {toks : List Token} (ht : (sampleReader.tokens text).toOption = some toks)
    (h : Heap Pred) (root : Nat) : fussyFound h root text = fussyFoundIn h root toks := by
  have e : sampleReader.tokens text = .ok toks := by
    cases hx : sampleReader.tokens text with
    | error e => rw [hx] at ht; cases ht
    | ok ts => rw [hx] at ht; cases ht; rfl
  unfold fussyFound fussyFoundIn newParser
  cases buildParser fussyLang sampleOrder sampleReader.context sampleReader.split (fun _ => .gender) id 60 root
    h with
  | error e => rfl
  | ok x =>
    dsimp only [Except.map]
    unfold TextParser.findallE
    dsimp only
    rw [e]

theorem fussyGood_tokens : (sampleReader.tokens "b 7 x".toList).toOption =
    some [latinWord "b" 0, { value := "7".toList, span := (2, 3), type := intType }, latinWord "x" 4] := by
  decide +kernel

theorem fussyBad_tokens : (sampleReader.tokens "7 b".toList).toOption =
    some [{ value := "7".toList, span := (0, 1), type := intType }, latinWord "b" 2] := by
  decide +kernel

/-- The function is asked about what follows a number only, so that «b» does no harm elsewhere. -/
theorem fussy_good : fussyFound fussySource 1 "b 7 x".toList = some ([(2, 5)], none) := by
  rw [fussyFound_tokens fussyGood_tokens]
  decide +kernel

theorem fussy_bad : fussyFound fussySource 1 "7 b".toList = some ([], some .keyError) := by
  rw [fussyFound_tokens fussyBad_tokens]
  decide +kernel

theorem fussy_first : fussyFound fussySource 3 "b 7 x".toList = some ([], some .keyError) := by
  rw [fussyFound_tokens fussyGood_tokens]
  decide +kernel

/-- A program and a text on which a function raises: the exception is the result of `findall`; and a text with the
same word on which it is not asked. -/
example : Fresh fussyLang sampleOrder fussySource ∧ RuleAt fussySource 1 ∧
    Written fussySource 1 (.custom 0 []) ∧ Culprit fussyLang (latinWord "b" 2) (.custom 0 []) .keyError ∧
    ¬ Culprit fussyLang (latinWord "x" 4) (.custom 0 []) .keyError ∧
    fussyFound fussySource 1 "b 7 x".toList = some ([(2, 5)], none) ∧ fussyFound fussySource 1 "7 b".toList = some ([], some .keyError) ∧
    fussyFound fussySource 3 "b 7 x".toList = some ([], some .keyError) := by
  refine ⟨fresh_makes (g := []) (os := fussySource) (by decide +kernel), ⟨_, rfl, rfl⟩,
    ⟨0, _, _, .step .root rfl (by decide), rfl, .prod (p := .custom 0 []) (by simp), .refl⟩, .custom (.inl rfl) (by rfl), ?_,
    fussy_good, fussy_bad, fussy_first⟩
  intro h
  cases h with
  | custom _ h => cases h

/-- `A = rule('a').optional(); or_(rule('x', A, 'c'), rule(A, custom(f)).named('R').named('Q'))`. -/
def fussyShadow : Heap Pred :=
  [.prod [.pred (.eq "a".toList)] 0, .rule [0], .optional 1 false,
   .prod [.pred (.eq "x".toList), .rule 2, .pred (.eq "c".toList)] 0, .rule [3],
   .prod [.rule 2, .pred (.custom 0 [])] 0, .rule [5], .named 6 "R".toList, .named 7 "Q".toList, .or [4, 8]]

theorem fussyShadow_alone : fussyFound fussyShadow 9 "b".toList = some ([], some .keyError) := by
  rw [fussyFound_tokens (toks := [latinWord "b" 0]) (by decide +kernel)]
  decide +kernel

theorem fussyShadow_after : fussyFound fussyShadow 9 "x b".toList = some ([(0, 1)], none) := by
  rw [fussyFound_tokens (toks := [latinWord "x" 0, latinWord "b" 2]) (by decide +kernel)]
  decide +kernel

theorem fussyShadow_part : fussyFound fussyShadow 8 "x b".toList = some ([], some .keyError) := by
  rw [fussyFound_tokens (toks := [latinWord "x" 0, latinWord "b" 2]) (by decide +kernel)]
  decide +kernel

/-- C72: not everything of interest is asked. The function raises on the text `b`, and an alternative alone raises on
`x b`, but the rule does not: there the alternative is not seen (C71). -/
theorem exception_missed : ∃ (h : Heap Pred) (root part : Nat) (a b : Str), Fresh fussyLang sampleOrder h ∧
    RuleAt h root ∧ (∃ rs, h[root]? = some (.or rs) ∧ part ∈ rs) ∧
    fussyFound h root b = some ([], some .keyError) ∧ fussyFound h part (a ++ ' ' :: b) = some ([], some .keyError) ∧
    fussyFound h root (a ++ ' ' :: b) = some ([(0, 1)], none) :=
  ⟨fussyShadow, 9, 8, "x".toList, "b".toList, fresh_makes (g := []) (os := fussyShadow) (by decide +kernel),
    ⟨_, rfl, rfl⟩, ⟨[4, 8], rfl, by decide⟩, fussyShadow_alone, fussyShadow_part, fussyShadow_after⟩

end Yargy
