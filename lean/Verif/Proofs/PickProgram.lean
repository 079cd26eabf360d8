import Verif.Proofs.PickGrammar
import Verif.Proofs.Cut
import Verif.Proofs.Keeps
/-!
Choices of compiled rules in any program; gazetteers whose alternatives keep their order.
-/
namespace Yargy.Pick
open Spec Twins

section
variable {P : Type} {A : Activation P}

theorem offers_children {o : Obj P} {us : List (Piece P)} (hs : Offers A o us) :
    ∀ a, Piece.rule a ∈ us → a ∈ o.children := by
  intro a ha
  cases hs with
  | @prod ts us m h =>
    rcases List.mem_append.1 ha with ha | ha
    · exact (notes_rule ha).elim
    obtain ⟨t, ht, e⟩ := List.mem_map.1 ha
    cases t with
    | pred p => cases e
    | rule q =>
      cases e
      show a ∈ termRules ts
      rw [← activated_rules h]
      exact termRules_mem.2 ht
  | line =>
    rcases List.mem_append.1 ha with ha | ha
    · unfold choiceOf at ha; split at ha <;> simp at ha
    · rcases List.mem_append.1 ha with ha | ha
      · exact (notes_rule ha).elim
      · obtain ⟨_, _, e⟩ := List.mem_map.1 ha; cases e
  | other _ h => exact deals_children h a ha

theorem picks_agree {D : Nat → Prop} {h g : Heap P} (hget : ∀ a, D a → g[a]? = h[a]?)
    (hclosed : ∀ (a : Nat) o, D a → h[a]? = some o → ∀ c ∈ o.children, D c) {ts : List (Piece P)}
    {w : List (Mark P)} (s : Picks A h ts w) : (∀ r, .rule r ∈ ts → D r) → Picks A g ts w := by
  induction s with
  | nil => intro _; exact .nil
  | pred _ ih => intro hr; exact .pred (ih fun r h => hr r (List.mem_cons_of_mem _ h))
  | note _ ih => intro hr; exact .note (ih fun r h => hr r (List.mem_cons_of_mem _ h))
  | @rule a o us ts w v ho hs _ _ ih1 ih2 =>
    intro hr
    have hD := hr a List.mem_cons_self
    exact .rule ((hget a hD).trans ho) hs
      (ih1 fun r h => hclosed a o hD ho r (offers_children hs r h))
      (ih2 fun r h => hr r (List.mem_cons_of_mem _ h))

theorem rule_picks_agree {D : Nat → Prop} {h g : Heap P} (hget : ∀ a, D a → g[a]? = h[a]?)
    (hclosed : ∀ (a : Nat) o, D a → h[a]? = some o → ∀ c ∈ o.children, D c) {r : Nat} (hr : D r)
    (w : List (Mark P)) : Picks A g [.rule r] w ↔ Picks A h [.rule r] w := by
  constructor
  · intro s
    exact picks_agree (h := g) (g := h) (D := D) (fun a ha => (hget a ha).symm)
      (fun a o ha ho => hclosed a o ha (hget a ha ▸ ho)) s (by simpa using hr)
  · intro s
    exact picks_agree hget hclosed s (by simpa using hr)

variable {h : Heap P} {root : Nat}

/-- What is below a rule is also below it when quantifiers on quantifiers are read as what they stand for,
unless it is a quantifier that another one is put on. -/
theorem reach_settle {x : Nat} (hx : Reach h root x) : Reach (settle h) root x ∨
    ∃ (a : Nat) (o q o1 : Obj P), Reach (settle h) root a ∧ h[a]? = some o ∧ o.repeats = some x ∧
      h[x]? = some q ∧ o.on q = some o1 ∧ o.settled h = o1 := by
  induction hx with
  | root => exact .inl .root
  | @step a o c _ ho hc ih =>
    rcases ih with ih | ⟨a', o', q, o1, h1, h2, h3, h4, h5, h6⟩
    · rcases settled_cases h o with e | ⟨d, q, o1, k1, k2, k3, e⟩
      · exact .inl (.step ih (settle_some ho) (by rw [e]; exact hc))
      · right
        rw [quant_children k1] at hc
        cases List.mem_singleton.1 hc
        exact ⟨a, o, q, o1, ih, ho, k1, k2, k3, e⟩
    · left
      obtain rfl : q = o := Option.some.inj (h4.symm.trans ho)
      refine .step h1 (settle_some h2) ?_
      rw [h6]
      cases hq : q.repeats with
      | none => exact absurd (on_quant h5).2.2 (by simp [repeats_none.1 hq])
      | some d =>
        rw [quant_children hq] at hc
        rw [quant_children ((on_repeats h5).trans hq)]
        exact hc

theorem settle_reach {x : Nat} (hx : Reach (settle h) root x) : Reach h root x := by
  induction hx with
  | root => exact .root
  | step _ ho hc ih =>
    obtain ⟨o', k1, rfl⟩ := settle_back ho
    rcases settled_children hc with k2 | ⟨d, q, k2, k3, k4⟩
    · exact .step ih k1 k2
    · exact .step (.step ih k1 k2) k3 k4

theorem entry_settled {o : Obj P} : (o.settled h).entry = o.entry := by
  rcases settled_cases h o with e | ⟨_, _, _, _, _, h3, e⟩
  · rw [e]
  · rw [e, quant_entry (on_quant h3).1, quant_entry (on_quant h3).2.1]

theorem on_orderly {o q o1 : Obj P} (e : o.on q = some o1) : q.orderly ∧ q.bounds ∧ o.orderly ∧ o.bounds := by
  cases o <;> first | (cases q <;> first | exact ⟨trivial, trivial, trivial, trivial⟩ | cases e) | cases e

/-- What is asked of the objects of a rule holds of those that quantifiers are put on, too. -/
theorem reach_orderly (ho : Orderly (settle h) root) {x : Nat} {o : Obj P} (hx : Reach h root x)
    (e : h[x]? = some o) : o.bounds ∧ o.orderly ∧ o.entry = false := by
  rcases reach_settle hx with k | ⟨a, o', q, o1, k1, k2, k3, k4, k5, k6⟩
  · have h1 := ho.bounds x _ k (settle_some e)
    have h2 := ho.orderly x _ k (settle_some e)
    have h3 := ho.fresh x _ k (settle_some e)
    rw [entry_settled] at h3
    rcases settled_cases h o with e' | ⟨_, _, _, _, _, k3, _⟩
    · rw [e'] at h1 h2; exact ⟨h1, h2, h3⟩
    · exact ⟨(on_orderly k3).2.2.2, (on_orderly k3).2.2.1, h3⟩
  · rw [e] at k4; cases k4
    exact ⟨(on_orderly k5).2.1, (on_orderly k5).1, quant_entry (on_quant k5).2.2⟩

theorem cutAway_settled (hc : ClosedHeap h) (hl : root < h.length) {a : Nat} {o : Obj P}
    (ha : Reach h root a) (ho : h[a]? = some o) : o.settled (cutAway h root) = o.settled h := by
  unfold Obj.settled
  cases hr : o.repeats with
  | none => rfl
  | some c =>
    show (match (cutAway h root)[c]? with | some q => (o.on q).getD o | none => o) =
      (match h[c]? with | some q => (o.on q).getD o | none => o)
    rw [cutAway_reach hc hl (.step ha ho (by simp [quant_children hr]))]

theorem cutAway_settle (hc : ClosedHeap h) (hl : root < h.length) {a : Nat} (ha : Reach h root a) :
    (settle (cutAway h root))[a]? = (settle h)[a]? := by
  rw [settle_get, settle_get, cutAway_reach hc hl ha]
  cases ho : h[a]? with
  | none => rfl
  | some o => rw [Option.map_some, Option.map_some, cutAway_settled hc hl ha ho]

theorem cutAway_single (hc : ClosedHeap h) (hl : root < h.length)
    (hs : ∀ (x : Nat) o, Reach (settle h) root x → (settle h)[x]? = some o → ∀ (c : Nat) (q : Obj P),
      o.repeats = some c → (settle h)[c]? = some q → q.repeats = none) : Single (settle (cutAway h root)) := by
  intro o ho c q hoc hq
  obtain ⟨a, ha⟩ := List.mem_iff_getElem?.1 ho
  obtain ⟨o0, h0, e0⟩ := settle_back ha
  rcases cutAway_back hc hl h0 with rfl | ⟨h1, h2⟩
  · rw [← e0] at hoc; cases hoc
  rw [cutAway_settled hc hl h2 h1] at e0
  have hra : Reach h root c := by
    have : c ∈ o.children := by rw [quant_children hoc]; simp
    rw [← e0] at this
    rcases settled_children this with k2 | ⟨d, q, k2, k3, k4⟩
    · exact .step h2 h1 k2
    · exact .step (.step h2 h1 k2) k3 k4
  rw [cutAway_settle hc hl hra] at hq
  rcases reach_settle h2 with k | ⟨a', o', q', o1, k1, k2, k3, k4, k5, k6⟩
  · exact hs a o k (by rw [settle_some h1, e0]) c q hoc hq
  · rw [h1] at k4; cases k4
    -- what is below a quantifier that another one is put on
    rcases settled_cases h o0 with e | ⟨d, r, o2, m1, m2, m3, e⟩
    · rw [e] at e0; subst e0
      refine hs a' _ k1 (settle_some k2) c q ?_ hq
      rw [k6, on_repeats k5, hoc]
    · have := hs a' _ k1 (settle_some k2) d _ (by rw [k6, on_repeats k5, m1]) (settle_some m2)
      rw [repeats_none, settled_quant, (on_quant m3).2.2] at this
      cases this

theorem orderly_stable : Stable (Obj.orderly (P := P)) where
  terms h _ := h
  prod _ _ _ := trivial
  pipeProd _ _ _ _ := trivial
  rule _ := trivial
  or _ := trivial
  forward _ := trivial
  repeatable _ _ := trivial
  pipe h e := by rw [Obj.orderly, e]; exact h
  pipeBnf _ h := fun e => h (Option.some.inj e)
  optional _ _ h := h
  both _ _ _ _ := trivial
  repOptional _ _ _ h := h
  empty _ := trivial
  empty' _ := trivial
  emptyProd _ := trivial
  minBounded _ h := h
  maxBounded _ h := h
  minMaxBounded _ h := h
  named _ h := h
  interp _ h := h
  relation _ h := h
  bnf _ := nofun
  setName _ h := h
  setInterp _ h := h
  setRelation _ h := h

/-- Compiling keeps the words with choices, with nothing asked of the objects that are not part of the
rule. -/
theorem compileRule_picks {pid : Nat → Nat} (hp : ∀ a b, pid a = pid b → a = b) {limit b : Nat} {h' : Heap P}
    (hs : Sorted h) (hlt : root < h.length) (hr : isProdAt h root = false) (ho : Orderly (settle h) root)
    (e : compileRule A pid limit root h = .ok (b, h')) :
    (∀ w, Words h' b w ↔ Picks A (settle h) [.rule root] w) ∧
      ∀ (x : Nat) o, Reach h' b x → h'[x]? = some o → o.orderly := by
  obtain ⟨g, e', hD, hget, hcl⟩ := compileRule_same hp hs hlt hr e
  have hr' := (cutAway_prod hs hlt .root).trans hr
  obtain ⟨_, _, h3⟩ := compileRule_words hp e' (cutAway_sorted hs hlt)
    (cutAway_all hs.closed hlt ⟨trivial, rfl⟩ (fun x o hx e => by
      have := reach_orderly ho hx e
      exact ⟨this.1, this.2.2⟩))
    (cutAway_single hs.closed hlt ho.single)
    (by rw [cutAway_length]; exact hlt) (by
      intro ts m hm
      rw [Pass.isProdAt_some hm] at hr'; cases hr')
  constructor
  · intro w
    rw [← words_agree hget hcl hD, h3]
    exact rule_picks_agree (D := Reach h root) (fun a ha => cutAway_settle hs.closed hlt ha)
      (fun a o ha ho c hc => by
        obtain ⟨o', k1, rfl⟩ := settle_back ho
        rcases settled_children hc with k2 | ⟨d, q, k2, k3, k4⟩
        · exact .step ha k1 k2
        · exact .step (.step ha k1 k2) k3 k4) .root w
  · exact compileRule_kept orderly_stable hp hs hlt hr e (fun x o hx e => (reach_orderly ho hx e).2.1)

end

section grammar
variable {L : Lang} {setOrder : List Str → List Str} {h : Heap Pred} {toks : List Token}
  {G : Grammar Pred Token}

theorem toGrammar_rule {start : Nat} (e : toGrammar L setOrder start h = .ok G) {r : Nat} {o : Obj Pred}
    (ho : h[r]? = some o) : ∃ y, G.rules[r]? = some y ∧ chartRuleOf L setOrder h o = .ok y := by
  unfold toGrammar at e
  split at e
  · obtain ⟨rules, h1, rfl⟩ := except_map_ok e
    exact (mapM_get h1).2 r o ho
  · cases e

theorem offeredBefore_filed {kind : PipeKind} (hk : kind ≠ .morph) (w : Str) {a b : Production Pred}
    {ps : List (Production Pred)} (hps : ∀ p ∈ ps, ∃ vs, indexValues kind p = .ok vs)
    (ha : filed kind w a = 1) (hb : filed kind w b = 1)
    (ho : OfferedBefore (ps.flatMap (fun p => List.replicate (filed kind w p) p)) a b) :
    OfferedBefore ps a b := by
  induction ps with
  | nil => exact ho
  | cons p ps ih =>
    rw [List.flatMap_cons] at ho
    have h3 := ih (fun q hq => hps q (List.mem_cons_of_mem _ hq))
    obtain ⟨vs, hvs⟩ := hps p (List.mem_cons_self ..)
    have : filed kind w p ≤ 1 := by
      simp only [filed, hvs]
      rcases indexValues_ok hvs with ⟨v, rest, _, _, rfl⟩ | ⟨v, rest, _, _, rfl⟩ | ⟨rest, h4, _⟩
      · exact List.count_le_length
      · exact List.count_le_length
      · exact absurd h4 hk
    rcases Nat.le_one_iff_eq_zero_or_eq_one.1 this with h4 | h4
    · rw [h4] at ho
      refine offeredBefore_cons.2 ⟨?_, .inr (h3 ho)⟩
      rintro rfl
      rw [h4] at hb; cases hb
    · rw [h4] at ho
      obtain ⟨k1, k2⟩ := offeredBefore_cons.1 ho
      refine offeredBefore_cons.2 ⟨k1, ?_⟩
      rcases k2 with k2 | k2
      · exact .inl k2
      · exact .inr (h3 k2)

theorem filed_mem {kind : PipeKind} (hk : kind ≠ .morph) {w : Str} {a : Production Pred}
    {ps : List (Production Pred)} (hps : ∀ p ∈ ps, ∃ vs, indexValues kind p = .ok vs)
    (ha : a ∈ ps.flatMap (fun p => List.replicate (filed kind w p) p)) : filed kind w a = 1 := by
  obtain ⟨p, hp, hap⟩ := List.mem_flatMap.1 ha
  obtain ⟨h1, rfl⟩ := List.mem_replicate.1 hap
  obtain ⟨vs, hvs⟩ := hps a hp
  have : filed kind w a ≤ 1 := by
    simp only [filed, hvs]
    rcases indexValues_ok hvs with ⟨v, rest, _, _, rfl⟩ | ⟨v, rest, _, _, rfl⟩ | ⟨rest, h4, _⟩
    · exact List.count_le_length
    · exact List.count_le_length
    · exact absurd h4 hk
  omega

/-- Ordinary rules and gazetteers that look up single values offer their alternatives in the order of
the productions. -/
theorem keepsOrder {start : Nat} {Z : Nat → Prop} (e : toGrammar L setOrder start h = .ok G)
    (hb : Belongs L h G Z)
    (hZ : ∀ (x : Nat) o, Z x → h[x]? = some o → o.orderly) : KeepsOrder G toks Z := by
  intro i r a b hz ha hb' ho
  unfold offered at ha hb' ho
  cases ht : toks[i]? with
  | none => rw [ht] at ho; exact ho
  | some t =>
    rw [ht] at ha hb' ho
    dsimp only at ha hb' ho
    have hG : G.predict r t ≠ [] := fun h => by rw [h] at ha; cases ha
    unfold Grammar.predict at ha hb' ho
    unfold Grammar.productions
    cases hr : G.rules[r]? with
    | none => rw [hr] at ha; cases ha
    | some y =>
      rw [hr] at ha hb' ho
      dsimp only at ha hb' ho ⊢
      cases hor : h[r]? with
      | none =>
        have hp := hb.none r (by unfold isBnf; rw [hor])
        unfold toGrammar at e
        split at e
        · obtain ⟨rules, h1, rfl⟩ := except_map_ok e
          have h2 := (mapM_get h1).1
          have h3 : r < rules.length := (List.getElem?_eq_some_iff.1 hr).1
          rw [h2] at h3
          rw [List.getElem?_eq_getElem h3] at hor
          cases hor
        · cases e
      | some o =>
        obtain ⟨y', hy, hc⟩ := toGrammar_rule e hor
        rw [hr] at hy; cases hy
        have hq := hZ r o hz hor
        unfold chartRuleOf at hc
        split at hc
        · cases hc; exact ho
        · rename_i ps n i x kind
          unfold pipeRule at hc
          obtain ⟨index, h1, h2⟩ := except_map_ok hc
          subst h2
          have hk : kind ≠ .morph := fun e => hq (congrArg some e)
          have hps := (buildIndex_ok_iff kind (ps.map (productionAt h)) []).1 ⟨index, h1⟩
          dsimp only at ha hb' ho ⊢
          have key : ∀ w, indexGet index w =
              (ps.map (productionAt h)).flatMap (fun p => List.replicate (filed kind w p) p) := by
            intro w
            rw [buildIndex_get kind _ _ _ h1 w]
            rfl
          cases kind with
          | exact =>
            unfold pipePredict at ha hb' ho
            dsimp only at ha hb' ho
            rw [key] at ha hb' ho
            exact offeredBefore_filed hk _ hps (filed_mem hk hps ha) (filed_mem hk hps hb') ho
          | caseless =>
            unfold pipePredict at ha hb' ho
            dsimp only at ha hb' ho
            rw [key] at ha hb' ho
            exact offeredBefore_filed hk _ hps (filed_mem hk hps ha) (filed_mem hk hps hb') ho
          | morph => exact absurd rfl hk
        · cases hc; exact ho

end grammar
end Yargy.Pick
