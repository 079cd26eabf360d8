import Verif.Model.Compile
import Verif.Proofs.Activation
import Verif.Properties.Pipelines
/-!
The grammar of the chart parser derives what the compiled rule objects say.
-/
namespace Yargy
open Spec

variable {L : Lang} {setOrder : List Str → List Str} {h : Heap Pred} {toks : List Token}

theorem fits_append {P : Type} {accepts : P → Token → Bool} {w v : List (Sym P)} {i k : Nat} :
    Fits accepts toks (w ++ v) i k ↔ ∃ j, Fits accepts toks w i j ∧ Fits accepts toks v j k := by
  induction w generalizing i with
  | nil =>
    constructor
    · exact fun h => ⟨i, .nil, h⟩
    · rintro ⟨j, h1, h2⟩; cases h1; exact h2
  | cons s w ih =>
    constructor
    · intro h
      cases h with
      | pred h1 h2 h3 => obtain ⟨j, h4, h5⟩ := ih.1 h3; exact ⟨j, .pred h1 h2 h4, h5⟩
      | opn h3 => obtain ⟨j, h4, h5⟩ := ih.1 h3; exact ⟨j, .opn h4, h5⟩
      | cls h3 => obtain ⟨j, h4, h5⟩ := ih.1 h3; exact ⟨j, .cls h4, h5⟩
    · rintro ⟨j, h1, h5⟩
      cases h1 with
      | pred h1 h2 h3 => exact .pred h1 h2 (ih.2 ⟨j, h3, h5⟩)
      | opn h3 => exact .opn (ih.2 ⟨j, h3, h5⟩)
      | cls h3 => exact .cls (ih.2 ⟨j, h3, h5⟩)

/-- The grammar belongs to the heap, and the objects in `Z` are as they should be. -/
structure Belongs (L : Lang) (h : Heap Pred) (G : Grammar Pred Token) (Z : Nat → Prop) : Prop where
  accepts : G.accepts = Pred.accepts L
  constrain : G.constrain = Pred.narrow
  productions : ∀ (a : Nat) (ps : List Nat) n i r d, h[a]? = some (.bnf ps n i r d) →
    G.productions a = ps.map (productionAt h)
  none : ∀ a, isBnf h a = false → G.productions a = []
  bnf : ∀ (a : Nat) (ps : List Nat) n i r d, Z a → h[a]? = some (.bnf ps n i r d) →
    ∀ p ∈ ps, Z p ∧ isProduction h p = true
  prod : ∀ (a : Nat) (ts : List (Term Pred)) m, Z a → h[a]? = some (.prod ts m) →
    ∀ r, .rule r ∈ ts → Z r ∧ isBnf h r = true

theorem termsProper_iff {ts : List (Term Pred)} :
    termsProper h ts = true ↔ ∀ r, .rule r ∈ ts → isBnf h r = true := by
  induction ts with
  | nil => simp [termsProper]
  | cons t ts ih => cases t <;> simp [termsProper, ih]

theorem mapM_get {α β : Type} {f : α → Except Err β} : ∀ {xs : List α} {ys : List β},
    xs.mapM f = .ok ys → ys.length = xs.length ∧
      ∀ (n : Nat) (x : α), xs[n]? = some x → ∃ y, ys[n]? = some y ∧ f x = .ok y := by
  intro xs
  induction xs with
  | nil => intro ys h; rw [List.mapM_nil] at h; cases h; simp
  | cons x xs ih =>
    intro ys h
    rw [List.mapM_cons] at h
    cases h1 : f x with
    | error e => rw [h1] at h; cases h
    | ok z =>
      rw [h1] at h
      cases h2 : xs.mapM f with
      | error e => rw [h2] at h; cases h
      | ok ys' =>
        rw [h2] at h; cases h
        obtain ⟨l, hg⟩ := ih h2
        refine ⟨by simp [l], fun n y hy => ?_⟩
        cases n with
        | zero => simp at hy; subst hy; exact ⟨z, rfl, h1⟩
        | succ n => simpa using hg n y (by simpa using hy)

theorem toGrammar_ok {start : Nat} {G : Grammar Pred Token} (hc : ClosedHeap h)
    (hs : start < h.length) (e : toGrammar L setOrder start h = .ok G) :
    G.start = start ∧ Belongs L h G (Reach h start) ∧ isBnf h start = true ∧
    ∃ rules, G = predGrammar L rules start ∧ LibraryRules L setOrder rules := by
  unfold toGrammar at e
  split at e
  · rename_i hpr
    obtain ⟨rules, h1, rfl⟩ := except_map_ok e
    unfold proper at hpr
    rw [Bool.and_eq_true, List.all_eq_true] at hpr
    obtain ⟨hl, hg⟩ := mapM_get h1
    have hid : ∀ a b : Nat, id a = id b → a = b := fun _ _ h => h
    have hreach := reach_iff hid hc hs
    refine ⟨rfl, ⟨rfl, rfl, ?_, ?_, ?_, ?_⟩, hpr.1, rules, rfl, ?_⟩
    · intro a ps n i r d ha
      obtain ⟨y, hy, hf⟩ := hg a _ ha
      unfold Grammar.productions predGrammar
      dsimp only
      rw [hy]
      cases d with
      | none => simp only [chartRuleOf, Except.ok.injEq] at hf; subst hf; rfl
      | some kind =>
        simp only [chartRuleOf, pipeRule] at hf
        obtain ⟨index, _, rfl⟩ := except_map_ok hf
        rfl
    · intro a ha
      unfold Grammar.productions predGrammar
      dsimp only
      cases hy : rules[a]? with
      | none => rfl
      | some y =>
        have hlt : a < h.length := hl ▸ (List.getElem?_eq_some_iff.1 hy).1
        obtain ⟨y', hy', hf⟩ := hg a _ (List.getElem?_eq_getElem hlt)
        rw [hy] at hy'; cases hy'
        unfold isBnf at ha
        rw [List.getElem?_eq_getElem hlt] at ha
        cases ho : h[a] <;> rw [ho] at ha hf <;> first | (cases ha; done) | skip
        all_goals
          simp only [chartRuleOf, Except.ok.injEq] at hf
          subst hf
          rfl
    · intro a ps n i r d hz ha p hp
      refine ⟨.step hz ha hp, ?_⟩
      have := hpr.2 a ((hreach a).2 hz)
      unfold properAt at this
      rw [ha] at this
      exact List.all_eq_true.1 this p hp
    · intro a ts m hz ha r hr
      refine ⟨.step hz ha (termRules_mem.2 hr), ?_⟩
      have := hpr.2 a ((hreach a).2 hz)
      unfold properAt at this
      rw [ha] at this
      exact termsProper_iff.1 this r hr
    · intro y hy
      obtain ⟨n, hn⟩ := List.mem_iff_getElem?.1 hy
      have hlt : n < h.length := hl ▸ (List.getElem?_eq_some_iff.1 hn).1
      obtain ⟨y', hy', hf⟩ := hg n _ (List.getElem?_eq_getElem hlt)
      rw [hn] at hy'; cases hy'
      unfold chartRuleOf at hf
      split at hf
      · cases hf; exact .inl ⟨_, rfl⟩
      · exact .inr ⟨_, _, hf⟩
      · cases hf; exact .inl ⟨_, rfl⟩
  · cases e

/-- Productions of the grammar are told apart by their address. -/
theorem belongs_distinct {G : Grammar Pred Token} {Z : Nat → Prop} (hb : Belongs L h G Z) :
    DistinctProductions G := by
  have key : ∀ r prod, prod ∈ G.productions r → prod = productionAt h prod.id := by
    intro r prod hp
    cases hr : isBnf h r with
    | false => rw [hb.none r hr] at hp; cases hp
    | true =>
      unfold isBnf at hr
      split at hr
      · rename_i ps n i x d ho
        rw [hb.productions r ps n i x d ho] at hp
        obtain ⟨p, _, rfl⟩ := List.mem_map.1 hp
        have : (productionAt h p).id = p := by unfold productionAt; split <;> rfl
        rw [this]
      · cases hr
  intro r r' prod prod' hp hp' he
  rw [key r prod hp, key r' prod' hp', he]

section
variable {G : Grammar Pred Token} {Z : Nat → Prop}

theorem prod_spells {p : Nat} (hp : isProduction h p = true) :
    ∃ o, h[p]? = some o ∧ (∀ us, Spells o us ↔ us = (productionAt h p).terms) ∧
      o.label .plain = none := by
  unfold isProduction at hp
  split at hp
  · rename_i ts m ho
    refine ⟨_, ho, fun us => ?_, rfl⟩
    unfold productionAt; rw [ho]
    exact ⟨fun hs => by cases hs; rfl, fun e => by subst e; exact .prod⟩
  · rename_i ho
    refine ⟨_, ho, fun us => ?_, rfl⟩
    unfold productionAt; rw [ho]
    exact ⟨fun hs => by cases hs; rfl, fun e => by subst e; exact .emptyProd⟩
  · rename_i v ts ho
    refine ⟨_, ho, fun us => ?_, rfl⟩
    unfold productionAt; rw [ho]
    exact ⟨fun hs => by cases hs; rfl, fun e => by subst e; exact .pipeProd⟩
  · cases hp

theorem prod_terms (hb : Belongs L h G Z) {p : Nat} (hz : Z p) :
    ∀ r, .rule r ∈ (productionAt h p).terms → Z r ∧ isBnf h r = true := by
  intro r hr
  unfold productionAt at hr
  split at hr
  · rename_i ts m ho
    exact hb.prod p ts m hz ho r hr
  · obtain ⟨_, _, e⟩ := List.mem_map.1 hr; cases e
  · cases hr

/-- What a term of the heap covers. -/
def Covers (h : Heap Pred) (G : Grammar Pred Token) (toks : List Token) : Term Pred → Nat → Nat → Prop
  | .pred p, i, j => ∃ d, Derives G toks (.pred p) i j d
  | .rule r, i, j => (isBnf h r = true → ∃ d, Derives G toks (.rule r) i j d) ∧
      (isProduction h r = true → ∃ cs, DerivesAll G toks (productionAt h r).terms i j cs)

inductive CoversAll (h : Heap Pred) (G : Grammar Pred Token) (toks : List Token) :
    List (Term Pred) → Nat → Nat → Prop
  | nil {i} : CoversAll h G toks [] i i
  | cons {t ts i j k} : Covers h G toks t i j → CoversAll h G toks ts j k →
      CoversAll h G toks (t :: ts) i k

theorem coversAll_derives {ts : List (Term Pred)} {i j : Nat} (hc : CoversAll h G toks ts i j)
    (ht : ∀ r, .rule r ∈ ts → isBnf h r = true) : ∃ cs, DerivesAll G toks ts i j cs := by
  induction hc with
  | nil => exact ⟨[], .nil⟩
  | @cons t ts i j k h1 _ ih =>
    obtain ⟨cs, hcs⟩ := ih (fun r hr => ht r (List.mem_cons_of_mem _ hr))
    cases t with
    | pred p => obtain ⟨d, hd⟩ := h1; exact ⟨d :: cs, .cons hd hcs⟩
    | rule r => obtain ⟨d, hd⟩ := h1.1 (ht r List.mem_cons_self); exact ⟨d :: cs, .cons hd hcs⟩

theorem says_covers (hb : Belongs L h G Z) {ts : List (Term Pred)} {w : List (Sym Pred)}
    (s : Says .plain h ts w) : (∀ r, .rule r ∈ ts → Z r) → ∀ i j, Fits (Pred.accepts L) toks w i j →
      CoversAll h G toks ts i j := by
  induction s with
  | nil => intro _ i j hf; cases hf; exact .nil
  | pred _ ih =>
    intro hz i j hf
    cases hf with
    | pred h1 h2 h3 =>
      exact .cons (j := i + 1) ⟨_, .leaf h1 (by rw [hb.accepts]; exact h2)⟩
        (ih (fun r hr => hz r (List.mem_cons_of_mem _ hr)) _ _ h3)
  | @rule a o us ts w v ho hs _ _ ih1 ih2 =>
    intro hz i k hf
    rw [label_plain] at hf
    obtain ⟨j, hf1, hf2⟩ := fits_append.1 hf
    have hza := hz a List.mem_cons_self
    refine .cons ⟨fun hbnf => ?_, fun hprod => ?_⟩
      (ih2 (fun r hr => hz r (List.mem_cons_of_mem _ hr)) _ _ hf2)
    · unfold isBnf at hbnf
      rw [ho] at hbnf
      cases o with
      | bnf ps n x r d =>
        cases hs with
        | @bnf _ _ _ _ _ p hp =>
          obtain ⟨hzp, hpp⟩ := hb.bnf a ps n x r d hza ho p hp
          have hcov := ih1 (by simpa using hzp) i j hf1
          cases hcov with
          | cons h1 h2 =>
            cases h2
            obtain ⟨cs, hcs⟩ := h1.2 hpp
            exact ⟨_, .node (by rw [hb.productions a ps n x r d ho]; exact List.mem_map.2 ⟨p, hp, rfl⟩) hcs⟩
      | _ => cases hbnf
    · obtain ⟨o', ho', hsp, _⟩ := prod_spells hprod
      rw [ho] at ho'; cases ho'
      have := (hsp us).1 hs
      subst this
      exact coversAll_derives (ih1 (fun r hr => (prod_terms hb hza r hr).1) i j hf1)
        (fun r hr => (prod_terms hb hza r hr).2)

theorem derives_says (hb : Belongs L h G Z) {x : Term Pred} {i j : Nat} {d : DTree Pred Token}
    (hd : Derives G toks x i j d) : (∀ r, x = .rule r → Z r ∧ isBnf h r = true) →
      ∃ w, Says .plain h [x] w ∧ Fits (Pred.accepts L) toks w i j := by
  refine Derives.rec
    (motive_1 := fun x i j d _ => (∀ r, x = .rule r → Z r ∧ isBnf h r = true) →
      ∃ w, Says .plain h [x] w ∧ Fits (Pred.accepts L) toks w i j)
    (motive_2 := fun xs i j ds _ => (∀ r, .rule r ∈ xs → Z r ∧ isBnf h r = true) →
      ∃ w, Says .plain h xs w ∧ Fits (Pred.accepts L) toks w i j) ?_ ?_ ?_ ?_ hd
  · intro p i t ht ha _
    exact ⟨[.pred p], .pred .nil, .pred ht (by rw [← hb.accepts]; exact ha) .nil⟩
  · intro r i j prod cs hp hall ih hz
    obtain ⟨hzr, hbnf⟩ := hz r rfl
    have hbnf' := hbnf
    unfold isBnf at hbnf'
    split at hbnf'
    · rename_i ps n x y dd ho
      rw [hb.productions r ps n x y dd ho] at hp
      obtain ⟨p, hpm, rfl⟩ := List.mem_map.1 hp
      obtain ⟨hzp, hpp⟩ := hb.bnf r ps n x y dd hzr ho p hpm
      obtain ⟨w, hw, hf⟩ := ih (prod_terms hb hzp)
      obtain ⟨o', ho', hsp, hlab⟩ := prod_spells hpp
      refine ⟨w, ?_, hf⟩
      have h1 : Says .plain h [.rule p] (wrap (o'.label .plain) w ++ []) :=
        .rule ho' ((hsp _).2 rfl) hw .nil
      rw [hlab] at h1
      have h2 : Says .plain h [.rule r] _ := .rule ho (.bnf hpm) h1 .nil
      rw [label_plain] at h2
      simpa [wrap] using h2
    · cases hbnf'
  · intro i _
    exact ⟨[], .nil, .nil⟩
  · intro x xs i j k t ts _ _ ih1 ih2 hz
    obtain ⟨w1, s1, f1⟩ := ih1 (fun r hr => hz r (by rw [hr]; exact List.mem_cons_self))
    obtain ⟨w2, s2, f2⟩ := ih2 (fun r hr => hz r (List.mem_cons_of_mem _ hr))
    exact ⟨w1 ++ w2, says_append.2 ⟨w1, w2, s1, s2, rfl⟩, fits_append.2 ⟨j, f1, f2⟩⟩

/-- The grammar derives what the compiled rules say. -/
theorem derives_iff (hb : Belongs L h G Z) {r : Nat} (hz : Z r) (hr : isBnf h r = true) (i j : Nat) :
    (∃ d, Derives G toks (.rule r) i j d) ↔
      ∃ w, Words .plain h r w ∧ Fits (Pred.accepts L) toks w i j := by
  constructor
  · rintro ⟨d, hd⟩
    exact derives_says hb hd (fun x e => by cases e; exact ⟨hz, hr⟩)
  · rintro ⟨w, hw, hf⟩
    have := says_covers hb hw (by simpa using hz) i j hf
    cases this with
    | cons h1 h2 => cases h2; exact h1.1 hr

end

end Yargy
