import Verif.Proofs.ThinExtended
/-! Quantifiers are replaced by forward rules that stand for lower ones. -/
namespace Yargy.Thin.Grow
open Yargy.Thin

variable {P : Type} {h h' : Heap P} {g : Ghost} {n0 : Nat}

theorem quantified_fixed {o : Obj P} (hq : quantified o = true) : ∀ c, o ≠ .forward c := by
  intro c e; subst e; cases hq

/-- Something in place of a quantifier. -/
theorem covers {s s2 : St P} {g g2 : Ghost} {a t : Nat} {o : Obj P} (ho : s.heap[a]? = some o)
    (hq : quantified o = true) (hg2 : Good' n0 g2 s2) (hm : More s.heap g s2.heap g2) (ht : t < s2.heap.length)
    (hc : Clean s2.heap t) (hnull : Open g2.N s2.heap [.rule t] [] → ∃ vs, Gives o vs ∧ Open g2.N s2.heap vs [])
    (hbound : ∀ L, (∀ vs, Gives o vs → ∀ b, Open g2.N s2.heap vs [b] → g2.lev b ≤ L) →
      ∀ b, Open g2.N s2.heap [.rule t] [b] → g2.lev b ≤ L) : Made' n0 g s s2 a t := by
  obtain ⟨oa, q1, q2⟩ := hm.ext.at_ a o ho
  have hf := quantified_fixed hq
  refine ⟨g2, hg2, hm, ?_, ?_, ⟨?_, ?_⟩, ?_, ?_⟩
  · intro r e; cases e; exact (List.getElem?_eq_some_iff.1 q1).1
  · intro r e; cases e; exact ht
  · intro k
    obtain ⟨vs, k1, k2⟩ := hnull k
    exact (open_one q1 (q2.fixed hf)).2 ⟨vs, q2.spells hf k1, k2⟩
  · intro L hL b hb
    refine hbound L (fun vs k1 b k2 => hL b ?_) b hb
    exact (open_one q1 (q2.fixed hf)).2 ⟨vs, q2.spells hf k1, k2⟩
  · intro r e; cases e; exact hc
  · intro k
    cases k a rfl with
    | forward k => rw [q1] at k; cases k; exact absurd rfl (q2.fixed hf _)
    | node k k' => rw [q1] at k; cases k; rw [Shape.quantified q2, hq] at k'; cases k'

theorem covers_sim {s s2 : St P} {g g2 : Ghost} {a t : Nat} {o : Obj P} (ho : s.heap[a]? = some o)
    (hq : quantified o = true) (hg2 : Good' n0 g2 s2) (hm : More s.heap g s2.heap g2) (ht : t < s2.heap.length)
    (hc : Clean s2.heap t) {vs : List (Term P)} (hv : Gives o vs) (hs : Sim g2 s2.heap vs [.rule t]) :
    Made' n0 g s s2 a t :=
  covers ho hq hg2 hm ht hc (fun k => ⟨vs, hv, hs.null k⟩) (fun L k => hs.bound L (k vs hv))

theorem sim_replicate {r x : Nat} (hs : Sim g h [.rule r] [.rule x]) (n : Nat) :
    Sim g h (List.replicate n (.rule r)) (List.replicate n (.rule x)) := by
  induction n with
  | zero => exact Sim.refl _
  | succ n ih => exact Sim.append (ts := [_]) (us := [_]) hs ih

/-- Some copies and something in place of the last one. -/
theorem copies_fed {s s1 s2 : St P} {g1 g2 : Ghost} {a r item t : Nat} {o : Obj P} (ho : s.heap[a]? = some o)
    (hq : quantified o = true) (hm : More s.heap g s1.heap g1) (hg1 : Good' n0 g1 s1)
    (hi : RuleImage' g1 s1.heap r item) (hp : Piece n0 g1 g2 s1 s2 item t) (k : Nat)
    (hv : Gives o (List.replicate (k + 1) (.rule r))) :
    Made' n0 g s (s2.rule (List.replicate k item ++ [t])).2 a (s2.rule (List.replicate k item ++ [t])).1 := by
  have hi2 := hi.more hp.more hg1.fed.tame.closed
  have r := rule_piece hp.good (items := List.replicate k item ++ [t]) (by
    intro x hx
    rcases List.mem_append.1 hx with hx | hx
    · obtain ⟨_, rfl⟩ := List.mem_replicate.1 hx; exact ⟨hi2.dst _ rfl, hi2.clean _ rfl⟩
    · rw [List.mem_singleton] at hx; subst hx; exact ⟨hp.dst, hp.clean⟩)
  generalize hr : s2.rule (List.replicate k item ++ [t]) = m at r ⊢
  obtain ⟨y, s3⟩ := m
  obtain ⟨r1, r2, r3, r4, r5⟩ := r
  simp only at r1 r2 r3 r4 r5
  have mo : More s2.heap g2 s3.heap g2 := More.of_ext r2
  have hi3 := hi2.more mo hp.good.fed.tame.closed
  have hs3 := hp.sim.more mo hp.good.fed.tame.closed (within_one (hi2.dst _ rfl)) (within_one hp.dst)
  refine covers_sim ho hq r1 ((hm.trans hp.more).trans mo) r3 r4 hv ?_
  have e : List.replicate (k + 1) (Term.rule (P := P) r) = List.replicate k (.rule r) ++ [.rule r] :=
    List.replicate_succ'
  rw [e]
  refine Sim.trans ((sim_replicate hi3.sim k).append (hi3.sim.trans hs3)) (Sim.of_inc (fun w hop => ?_))
  have := r5 _ _ hop
  simpa using this

theorem extended_fed : MethodFed n0 (extendedMethod : Method P) := by
  intro k rec hr a o g s b s' hg ho h
  -- what is repeated is not empty
  have firm : ∀ {r : Nat}, repeated o = some r → ∀ {item g1 s1}, More s.heap g s1.heap g1 → Good' n0 g1 s1 →
      RuleImage' g1 s1.heap r item → ¬ Open g1.N s1.heap [.rule item] [] := by
    intro r e item g1 s1 hm hg1 hi k
    have hl : r < s.heap.length := hg.fed.tame.closed _ (List.mem_of_getElem? ho) r (repeated_child e)
    exact hg.fed.tame.firm a o r ho e (hm.down hg.fed.tame.closed (within_one hl) (hi.sim.null k))
  unfold extendedMethod at h
  split at h
  · rename_i r rev
    cases hx : rec r s with
    | error e => rw [hx] at h; cases h
    | ok x =>
      obtain ⟨item, s1⟩ := x
      rw [hx] at h
      simp only [Except.map, Except.ok.injEq] at h
      obtain ⟨g1, h1, h2, h3⟩ := hr _ _ _ _ _ hg hx
      obtain ⟨g2, hp⟩ := mkRepeatable_fed h1 (h3.dst _ rfl) (h3.clean _ rfl) (firm rfl h2 h1 h3) rev
      rw [h] at hp
      refine covers_sim ho rfl hp.good (h2.trans hp.more) hp.dst hp.clean (.repeatable (n := 1) (Nat.le_refl _)) ?_
      exact (h3.more hp.more h1.fed.tame.closed).sim.trans hp.sim
  · rename_i r rev
    cases hx : rec r s with
    | error e => rw [hx] at h; cases h
    | ok x =>
      obtain ⟨item, s1⟩ := x
      rw [hx] at h
      simp only [Except.map, Except.ok.injEq] at h
      obtain ⟨g1, h1, h2, h3⟩ := hr _ _ _ _ _ hg hx
      have g2 := h1.alloc (o := .empty) (by intro c e; cases e) (by intro c hc; cases hc) rfl
      have e2 : Ext s1.heap (s1.alloc .empty).2.heap := Ext.append _ _
      have q0 : (s1.alloc .empty).2.heap[s1.heap.length]? = some .empty := by simp [St.alloc]
      have hi2 := h3.more (More.of_ext (g := g1) e2) h1.fed.tame.closed
      have q := or_piece g2 (items := if rev then [item, s1.heap.length] else [s1.heap.length, item]) (by
        intro x hx
        have : x = item ∨ x = s1.heap.length := by cases rev <;> simp at hx <;> omega
        rcases this with rfl | rfl
        · exact ⟨hi2.dst _ rfl, hi2.clean _ rfl⟩
        · exact ⟨(List.getElem?_eq_some_iff.1 q0).1, .node q0 rfl (fun c hc => by cases hc)⟩)
      have e : mkOptional item rev s1 =
        (s1.alloc .empty).2.alloc (.or (if rev then [item, s1.heap.length] else [s1.heap.length, item])) := rfl
      rw [← e, h] at q
      obtain ⟨q1, q2, q3, q4, q5⟩ := q
      simp only at q1 q2 q3 q4 q5
      have hi3 := hi2.more (More.of_ext (g := g1) q2) g2.fed.tame.closed
      have q0' := q2.at_ _ _ q0
      obtain ⟨o', w1, w2⟩ := q0'
      cases w2
      refine covers ho rfl q1 (h2.trans (More.of_ext (e2.trans q2))) q3 q4 (fun _ => ⟨[], .none, .nil⟩) ?_
      intro L hL y hy
      obtain ⟨x, hx, k⟩ := q5 _ _ hy
      have : x = item ∨ x = s1.heap.length := by cases rev <;> simp at hx <;> omega
      rcases this with rfl | rfl
      · exact hi3.sim.bound L (hL _ .one) y k
      · obtain ⟨us, r1, r2⟩ := (open_one w1 (by intro c e; cases e)).1 k
        cases r1
        cases r2
  · rename_i r rr ro
    cases hx : rec r s with
    | error e => rw [hx] at h; cases h
    | ok x =>
      obtain ⟨item, s1⟩ := x
      rw [hx] at h
      simp only [Except.map, Except.ok.injEq] at h
      obtain ⟨g1, h1, h2, h3⟩ := hr _ _ _ _ _ hg hx
      obtain ⟨g2, p1, p2, p3, p4, p5⟩ :=
        mkRepOptional_fed h1 (h3.dst _ rfl) (h3.clean _ rfl) (firm rfl h2 h1 h3) rr ro
      rw [h] at p1 p2 p3 p4 p5
      refine covers ho rfl p1 (h2.trans p2) p3 p4 (fun _ => ⟨[], .repOptional 0, .nil⟩) ?_
      intro L hL
      exact p5 L ((h3.more p2 h1.fed.tame.closed).sim.bound L (hL _ (.repOptional 1)))
  · rename_i r min rev
    cases hx : rec r s with
    | error e => rw [hx] at h; cases h
    | ok x =>
      obtain ⟨item, s1⟩ := x
      rw [hx] at h
      simp only [Except.map, Except.ok.injEq] at h
      obtain ⟨g1, h1, h2, h3⟩ := hr _ _ _ _ _ hg hx
      obtain ⟨g2, hp⟩ := mkRepeatable_fed h1 (h3.dst _ rfl) (h3.clean _ rfl) (firm rfl h2 h1 h3) rev
      have := copies_fed ho rfl h2 h1 h3 hp (min - 1) (.minBounded (by omega))
      rwa [h] at this
  · rename_i r max rev
    cases hx : rec r s with
    | error e => rw [hx] at h; cases h
    | ok x =>
      obtain ⟨item, s1⟩ := x
      rw [hx] at h
      simp only [Except.map, Except.ok.injEq] at h
      obtain ⟨g1, h1, h2, h3⟩ := hr _ _ _ _ _ hg hx
      have hp := maxBound_fed h1 (h3.dst _ rfl) (h3.clean _ rfl) rev max
      rw [h] at hp
      refine covers_sim ho rfl hp.good (h2.trans hp.more) hp.dst hp.clean (.maxBounded (n := 1) (Nat.le_refl _)) ?_
      exact (h3.more hp.more h1.fed.tame.closed).sim.trans hp.sim
  · rename_i r min max rev
    cases hx : rec r s with
    | error e => rw [hx] at h; cases h
    | ok x =>
      obtain ⟨item, s1⟩ := x
      rw [hx] at h
      simp only [Except.map, Except.ok.injEq] at h
      obtain ⟨g1, h1, h2, h3⟩ := hr _ _ _ _ _ hg hx
      have hp := maxBound_fed h1 (h3.dst _ rfl) (h3.clean _ rfl) rev (max - min + 1)
      have := copies_fed ho rfl h2 h1 h3 hp (min - 1) (.minMaxBounded (by omega))
      rwa [h] at this
  · rename_i n1 n2 n3 n4 n5 n6
    refine plain_fed hr hg ho ?_ h
    cases o with
    | repeatable r v => exact absurd rfl (n1 r v)
    | optional r v => exact absurd rfl (n2 r v)
    | repOptional r v u => exact absurd rfl (n3 r v u)
    | minBounded r m v => exact absurd rfl (n4 r m v)
    | maxBounded r m v => exact absurd rfl (n5 r m v)
    | minMaxBounded r m m' v => exact absurd rfl (n6 r m m' v)
    | _ => rfl

theorem redefine_fed {m : Method P} {pid : Nat → Nat} (hp : ∀ a b, pid a = pid b → a = b)
    (hm : MethodFed n0 m) {limit : Nat} : ∀ n queue seen g (s s' : St P), Good' n0 g s →
    redefine m pid limit n queue seen s = .ok s' → ∃ g', Good' n0 g' s' ∧ More s.heap g s'.heap g' := by
  intro n
  induction n with
  | zero => intro queue seen g s s' _ h; simp [redefine] at h
  | succ n ih =>
    intro queue seen g s s' hg h
    cases queue with
    | nil =>
      simp only [redefine, Except.ok.injEq] at h
      subst h
      exact ⟨g, hg, More.refl _ _⟩
    | cons a queue =>
      unfold redefine at h
      split at h
      · rename_i r ho
        cases h1 : visit m pid limit r s with
        | error e => simp [h1] at h
        | ok x =>
          obtain ⟨b, s1⟩ := x
          simp only [h1] at h
          cases h2 : defineForward a b s1.heap with
          | error e => simp [h2] at h
          | ok h' =>
            simp only [h2] at h
            obtain ⟨g1, k1, k2, k3⟩ := visit_fed hp hm limit _ _ _ _ _ hg h1
            have hh' : h' = s1.heap.set a (.forward (some b)) := by
              unfold defineForward at h2
              split at h2
              · cases h2
              · cases h2; rfl
            subst hh'
            obtain ⟨o1, q1, q2⟩ := k2.ext.at_ a _ ho
            obtain ⟨d, rfl⟩ := q2.is_forward
            have hlt := (List.getElem?_eq_some_iff.1 q1).1
            have hlt0 := (List.getElem?_eq_some_iff.1 ho).1
            have at' : ∀ (x : Nat) o, (s1.heap.set a (.forward (some b)))[x]? = some o →
                (x = a ∧ o = .forward (some b)) ∨ (x ≠ a ∧ s1.heap[x]? = some o) := by
              intro x o hx
              by_cases e : x = a
              · subst e
                rw [List.getElem?_set_self hlt] at hx
                cases hx
                exact .inl ⟨rfl, rfl⟩
              · rw [List.getElem?_set_ne (Ne.symm e)] at hx
                exact .inr ⟨e, hx⟩
            have he : Ext s1.heap (s1.heap.set a (.forward (some b))) := by
              refine ⟨by simp, fun x o hx => ?_⟩
              by_cases e : a = x
              · subst e
                rw [q1] at hx; cases hx
                exact ⟨_, List.getElem?_set_self hlt, .forward _ _⟩
              · exact ⟨o, by rw [List.getElem?_set_ne e]; exact hx, .refl o⟩
            have hblt : b < s1.heap.length := k3.dst _ rfl
            have hrlt : r < s.heap.length := hg.fed.tame.closed _ (List.mem_of_getElem? ho) r (by simp [Obj.children])
            have hcl1 := k1.fed.tame.closed
            -- the levels of the new contents
            have hdown : ∀ y, Open g1.N s1.heap [.rule b] [y] → Rank n0 g1.lev y a := by
              intro y hy
              by_cases hn : a < n0
              · have hle : g1.lev y ≤ g.lev a - 1 := by
                  refine k3.sim.bound _ (fun z hz => ?_) y hy
                  have hz' := k2.down hg.fed.tame.closed (within_one hrlt) hz
                  have hzl := letters_lt hz' z List.mem_cons_self
                  rw [k2.lev z hzl]
                  rcases hg.fed.tame.down a r ho z hz' with k | ⟨_, k⟩
                  · omega
                  · simp [second, hn] at k
                have hpos := hg.fed.positive a hn
                left
                rw [k2.lev a hlt0]
                omega
              · have hc : Clean s1.heap r := (hg.fed.contents a r (by omega) ho).ext k2.ext
                have hy' := k3.keep (fun x e => by cases e; exact hc) _ hy
                have hy'' := k2.down hg.fed.tame.closed (within_one hrlt) hy'
                have hzl := letters_lt hy'' y List.mem_cons_self
                have := hg.fed.tame.down a r ho y hy''
                unfold Rank at this ⊢
                rwa [k2.lev y hzl, k2.lev a hlt0]
            have hnull : Open g1.N s1.heap [.rule b] [] → g1.N a := by
              intro k
              have := k2.down hg.fed.tame.closed (within_one hrlt) (k3.sim.null k)
              exact (k2.nul a hlt0).2 (hg.fed.tame.null a r ho this)
            have hcl : ClosedHeap (s1.heap.set a (.forward (some b))) := by
              intro o hm c hc
              obtain ⟨x, hx⟩ := List.mem_iff_getElem?.1 hm
              rw [List.length_set]
              rcases at' x o hx with ⟨_, rfl⟩ | ⟨_, e⟩
              · have : c = b := by simpa [Obj.children] using hc
                omega
              · exact hcl1 _ (List.mem_of_getElem? e) c hc
            have ht : Tame g1.N (Rank n0 g1.lev) (s1.heap.set a (.forward (some b))) := by
              refine ⟨hcl, fun x o hx hf c hc => ?_, fun x c hx y hy => ?_, fun x c hx hy => ?_,
                fun x o r' hx hr hy => ?_⟩
              · rcases at' x o hx with ⟨_, rfl⟩ | ⟨_, e⟩
                · exact absurd rfl (hf _)
                · exact k1.fed.tame.young x o e hf c hc
              · rcases at' x _ hx with ⟨rfl, e⟩ | ⟨_, e⟩
                · cases e
                  exact hdown y (hy.back he hcl1 (within_one hblt))
                · have hl : c < s1.heap.length := hcl1 _ (List.mem_of_getElem? e) c (by simp [Obj.children])
                  exact k1.fed.tame.down x c e y (hy.back he hcl1 (within_one hl))
              · rcases at' x _ hx with ⟨rfl, e⟩ | ⟨_, e⟩
                · cases e
                  exact hnull (hy.back he hcl1 (within_one hblt))
                · have hl : c < s1.heap.length := hcl1 _ (List.mem_of_getElem? e) c (by simp [Obj.children])
                  exact k1.fed.tame.null x c e (hy.back he hcl1 (within_one hl))
              · rcases at' x o hx with ⟨_, rfl⟩ | ⟨_, e⟩
                · cases hr
                · have hl : r' < s1.heap.length := hcl1 _ (List.mem_of_getElem? e) r' (repeated_child hr)
                  exact k1.fed.tame.firm x o r' e hr (hy.back he hcl1 (within_one hl))
            have mo : More s1.heap g1 (s1.heap.set a (.forward (some b))) g1 := More.of_ext he
            have hgood : Good' n0 g1 { s1 with heap := s1.heap.set a (.forward (some b)) } := by
              refine ⟨⟨ht, ?_, ?_, k1.fed.positive⟩, fun e he' => (k1.memo e he').more mo hcl1⟩
              · show n0 ≤ (s1.heap.set a _).length
                rw [List.length_set]; exact k1.fed.big
              · intro x c hn hx
                rcases at' x _ hx with ⟨rfl, e⟩ | ⟨_, e⟩
                · cases e; exact (k3.clean _ rfl).ext he
                · exact (k1.fed.contents x c hn e).ext he
            obtain ⟨g2, w1, w2⟩ := ih _ _ _ _ _ hgood h
            exact ⟨g2, w1, (k2.trans mo).trans w2⟩
      · exact ih _ _ _ _ _ hg h

theorem transform_fed {m : Method P} {pid : Nat → Nat} (hp : ∀ a b, pid a = pid b → a = b) (hm : MethodFed n0 m)
    {limit root : Nat} (hf : Fed n0 g h) {b : Nat} {h' : Heap P} (ht : transform m pid limit root h = .ok (b, h')) :
    ∃ g', Fed n0 g' h' ∧ b < h'.length := by
  unfold transform at ht
  split at ht
  · cases ht
  · rename_i s hr
    obtain ⟨g1, k1, k2⟩ := redefine_fed hp hm _ _ _ _ _ _ ⟨hf, fun e he => by cases he⟩ hr
    cases hx : visit m pid limit root s with
    | error e => rw [hx] at ht; cases ht
    | ok x =>
      rw [hx] at ht
      simp only [Except.map, Except.ok.injEq, Prod.mk.injEq] at ht
      obtain ⟨rfl, rfl⟩ := ht
      obtain ⟨g2, w1, w2, w3⟩ := visit_fed hp hm limit _ _ _ _ _ k1 hx
      exact ⟨g2, w1.fed, w3.dst _ rfl⟩

/-- Where forward rules have levels, replacing quantifiers keeps a well-founded order. -/
theorem replace_tame {pid : Nat → Nat} (hp : ∀ a b, pid a = pid b → a = b) {lev : Nat → Nat} {N : Nat → Prop}
    (ht : Tame N (fun b a => lev b < lev a) h) {limit root b : Nat}
    (he : transform extendedMethod pid limit root h = .ok (b, h')) :
    ∃ N' lt, WellFounded lt ∧ Tame N' lt h' ∧ b < h'.length := by
  have hfed : Fed h.length ⟨N, fun a => lev a + 1⟩ h := by
    refine ⟨⟨ht.closed, ht.young, fun a c ho b hb => .inl ?_, ht.null, ht.firm⟩, Nat.le_refl _, ?_, fun a _ => ?_⟩
    · exact Nat.add_lt_add_right (ht.down a c ho b hb) 1
    · intro a c ha ho
      have := (List.getElem?_eq_some_iff.1 ho).1
      omega
    · exact Nat.le_add_left 1 _
  obtain ⟨g', k1, k2⟩ := transform_fed hp extended_fed hfed he
  exact ⟨g'.N, _, rank_wf _ _, k1.tame, k2⟩

end Yargy.Thin.Grow
