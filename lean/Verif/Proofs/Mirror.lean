import Verif.Proofs.Renaming
import Verif.Properties.Reuse
import Verif.Properties.Addresses
import Verif.Proofs.TwinCompile
/-!
Compiled rules that correspond to each other make up the same grammar, up to the numbers.
-/
namespace Yargy
open Spec

variable {L : Lang} {setOrder : List Str → List Str}

/-- Two heaps correspond to each other on a set of addresses. -/
structure Mirror {P : Type} (S : Nat → Prop) (f : Nat → Nat) (h g : Heap P) : Prop where
  get : ∀ a, S a → g[f a]? = (h[a]?).map (Obj.rename f)
  closed : ∀ (a : Nat) o, S a → h[a]? = some o → ∀ c ∈ o.children, S c

def ChartRule.rename {P T : Type} (f : Nat → Nat) (r : ChartRule P T) : ChartRule P T :=
  ⟨r.productions.map (Production.rename f), fun t => (r.predict t).map (Production.rename f)⟩

theorem productionAt_mirror {S : Nat → Prop} {f : Nat → Nat} {h g : Heap Pred} (M : Mirror S f h g) {p : Nat}
    (hp : S p) : productionAt g (f p) = (productionAt h p).rename f := by
  unfold productionAt
  rw [M.get p hp]
  cases h[p]? with
  | none => rfl
  | some o =>
    cases o <;> first
      | rfl
      | skip
    simp only [Option.map_some, Obj.rename, Production.rename, List.map_map]
    rfl

theorem indexValues_rename (f : Nat → Nat) (kind : PipeKind) (p : Production Pred) :
    indexValues kind (p.rename f) = indexValues kind p := by
  obtain ⟨i, ts, m, k⟩ := p
  cases ts with
  | nil => cases kind <;> rfl
  | cons t ts =>
    cases t with
    | rule r => cases kind <;> rfl
    | pred q => cases kind <;> cases q <;> rfl

def renameIndex (f : Nat → Nat) (index : PipeIndex) : PipeIndex :=
  index.map (fun e => (e.1, e.2.map (Production.rename f)))

theorem indexAppend_rename (f : Nat → Nat) (v : Str) (p : Production Pred) : ∀ index : PipeIndex,
    indexAppend (renameIndex f index) v (p.rename f) = renameIndex f (indexAppend index v p) := by
  intro index
  induction index with
  | nil => rfl
  | cons e index ih =>
    obtain ⟨v', ps⟩ := e
    simp only [renameIndex, List.map_cons, indexAppend] at ih ⊢
    by_cases h : v' = v
    · rw [if_pos h, if_pos h]; simp only [List.map_cons, List.map_append, List.map_nil]
    · rw [if_neg h, if_neg h, ih]; simp only [List.map_cons]

theorem indexAppends_rename (f : Nat → Nat) (p : Production Pred) : ∀ (vs : List Str) (index : PipeIndex),
    vs.foldl (fun i v => indexAppend i v (p.rename f)) (renameIndex f index) =
      renameIndex f (vs.foldl (fun i v => indexAppend i v p) index) := by
  intro vs
  induction vs with
  | nil => intro index; rfl
  | cons v vs ih => intro index; simp only [List.foldl_cons, indexAppend_rename, ih]

theorem buildIndex_rename (f : Nat → Nat) (kind : PipeKind) : ∀ (ps : List (Production Pred)) (index : PipeIndex),
    buildIndex kind (renameIndex f index) (ps.map (Production.rename f)) =
      (buildIndex kind index ps).map (renameIndex f) := by
  intro ps
  induction ps with
  | nil => intro index; rfl
  | cons p ps ih =>
    intro index
    simp only [List.map_cons, buildIndex, indexValues_rename]
    cases indexValues kind p with
    | error e => rfl
    | ok vs => simp only [indexAppends_rename, ih]

theorem indexGet_rename (f : Nat → Nat) (index : PipeIndex) (v : Str) :
    indexGet (renameIndex f index) v = (indexGet index v).map (Production.rename f) := by
  unfold indexGet renameIndex
  rw [List.find?_map]
  have : ((fun e : Str × List (Production Pred) => decide (e.1 = v)) ∘
      fun e : Str × List (Production Pred) => (e.1, e.2.map (Production.rename f))) =
      fun e => decide (e.1 = v) := rfl
  rw [this]
  cases index.find? (fun e => decide (e.1 = v)) <;> rfl

theorem pipePredict_rename (f : Nat → Nat) (kind : PipeKind) (index : PipeIndex) (t : Token) :
    pipePredict L setOrder kind (renameIndex f index) t =
      (pipePredict L setOrder kind index t).map (Production.rename f) := by
  unfold pipePredict
  cases kind with
  | exact => exact indexGet_rename f index _
  | caseless => exact indexGet_rename f index _
  | morph =>
    simp only
    cases t.forms with
    | none => exact indexGet_rename f index _
    | some fs =>
      simp only
      generalize setOrder (fs.map Form.normalized) = vs
      induction vs with
      | nil => rfl
      | cons v vs ih => simp only [List.flatMap_cons, List.map_append, ih, indexGet_rename]

theorem pipeRule_rename (f : Nat → Nat) (kind : PipeKind) (ps : List (Production Pred)) :
    pipeRule L setOrder kind (ps.map (Production.rename f)) =
      (pipeRule L setOrder kind ps).map (ChartRule.rename f) := by
  unfold pipeRule
  have := buildIndex_rename f kind ps []
  simp only [renameIndex, List.map_nil] at this
  rw [this]
  cases buildIndex kind [] ps with
  | error e => rfl
  | ok index =>
    simp only [Except.map, ChartRule.rename]
    congr 2
    funext t
    exact pipePredict_rename f kind index t

theorem chartRuleOf_mirror {S : Nat → Prop} {f : Nat → Nat} {h g : Heap Pred} (M : Mirror S f h g) {o : Obj Pred}
    (hc : ∀ c ∈ o.children, S c) :
    chartRuleOf L setOrder g (o.rename f) = (chartRuleOf L setOrder h o).map (ChartRule.rename f) := by
  cases o with
  | bnf ps n i r k =>
    have : (ps.map f).map (productionAt g) = (ps.map (productionAt h)).map (Production.rename f) := by
      rw [List.map_map, List.map_map]
      exact List.map_congr_left fun p hp => productionAt_mirror M (hc p hp)
    cases k with
    | none => simp only [Obj.rename, chartRuleOf, this]; rfl
    | some kind => simp only [Obj.rename, chartRuleOf, this]; exact pipeRule_rename f kind _
  | _ => rfl

/-- The grammars of corresponding compiled rules. -/
theorem grammar_mirror {f : Nat → Nat} {h g : Heap Pred} {start : Nat} {G G' : Grammar Pred Token}
    (hs : SetOrder setOrder) (hc : ClosedHeap h) (hlt : start < h.length)
    (M : Mirror (Reach h start) f h g)
    (e : toGrammar L setOrder start h = .ok G) (e' : toGrammar L setOrder (f start) g = .ok G') :
    RenamedOn (Reach h start) f G G' := by
  obtain ⟨g1, g2, _, rs, g3, g4⟩ := toGrammar_ok hc hlt e
  have hP := (library_predict (start := start) hs g4).1
  rw [← g3] at hP
  unfold toGrammar at e e'
  split at e
  · split at e'
    · obtain ⟨rules, k1, rfl⟩ := except_map_ok e
      obtain ⟨rules', k1', rfl⟩ := except_map_ok e'
      have hrule : ∀ r, Reach h start r → rules'[f r]? = (rules[r]?).map (ChartRule.rename f) := by
        intro r hr
        have hr' := M.get r hr
        cases ho : h[r]? with
        | none =>
          have : h.length ≤ r := List.getElem?_eq_none_iff.1 ho
          rw [ho] at hr'
          have : g.length ≤ f r := List.getElem?_eq_none_iff.1 hr'
          have n1 := (mapM_get k1).1
          have n2 := (mapM_get k1').1
          rw [List.getElem?_eq_none (by omega), List.getElem?_eq_none (by omega)]
          rfl
        | some o =>
          rw [ho] at hr'
          obtain ⟨y, q1, q2⟩ := (mapM_get k1).2 r o ho
          obtain ⟨y', q1', q2'⟩ := (mapM_get k1').2 (f r) _ hr'
          rw [chartRuleOf_mirror M (M.closed r o hr ho), q2] at q2'
          cases q2'
          rw [q1, q1']; rfl
      have closed : ∀ r, Reach h start r → ∀ p ∈ (predGrammar L rules start).productions r,
          ∀ x, .rule x ∈ p.terms → Reach h start x := by
        intro r hr p hp x hx
        cases hb : isBnf h r with
        | false => rw [g2.none r hb] at hp; cases hp
        | true =>
          unfold isBnf at hb
          split at hb
          · rename_i ps n i y d ho
            rw [g2.productions r ps n i y d ho] at hp
            obtain ⟨q, hq, rfl⟩ := List.mem_map.1 hp
            exact (prod_terms g2 (.step hr ho hq) x hx).1
          · cases hb
      refine ⟨rfl, .root, rfl, rfl, ?_, ?_, closed, fun r t hr p hp => closed r hr p (hP r t p hp)⟩
      · intro r hr
        unfold Grammar.productions predGrammar
        simp only [hrule r hr]
        cases rules[r]? <;> rfl
      · intro r t hr
        unfold Grammar.predict predGrammar
        simp only [hrule r hr]
        cases rules[r]? <;> rfl
    · cases e'
  · cases e

theorem agreement_mirror {S : Nat → Prop} {f : Nat → Nat} {h g : Heap Pred} (M : Mirror S f h g)
    (relation : Nat → Relation) : RenamedAgreementOn S f ⟨relationAt h, relation⟩ ⟨relationAt g, relation⟩ := by
  refine ⟨fun r hr => ?_, rfl⟩
  simp only [relationAt]
  rw [M.get r hr]
  cases h[r]? with
  | none => rfl
  | some o => cases o <;> rfl

/-! ### A renaming of all numbers -/

open Classical in
/-- A renaming of some numbers, continued to all of them. -/
noncomputable def stretch (S : Nat → Prop) (f : Nat → Nat) (bound : Nat) (a : Nat) : Nat :=
  if S a then f a else a + bound

theorem stretch_on {S : Nat → Prop} {f : Nat → Nat} {bound a : Nat} (h : S a) : stretch S f bound a = f a := if_pos h

theorem stretch_inj {S : Nat → Prop} {f : Nat → Nat} {bound : Nat}
    (hf : ∀ a b, S a → S b → f a = f b → a = b) (hb : ∀ a, S a → f a < bound) (a b : Nat)
    (h : stretch S f bound a = stretch S f bound b) : a = b := by
  unfold stretch at h
  split at h
  · rename_i ha
    split at h
    · rename_i hb'; exact hf a b ha hb' h
    · have := hb a ha; omega
  · split at h
    · rename_i hb'; have := hb b hb'; omega
    · omega

theorem rename_congr {P : Type} {f f' : Nat → Nat} {o : Obj P} (h : ∀ c ∈ o.children, f c = f' c) :
    o.rename f = o.rename f' := by
  have all : ∀ as : List Nat, (∀ c ∈ as, f c = f' c) → as.map f = as.map f' :=
    fun as h => List.map_congr_left h
  have terms : ∀ ts : List (Term P), (∀ c ∈ termRules ts, f c = f' c) →
      ts.map (Term.rename f) = ts.map (Term.rename f') := by
    intro ts h
    refine List.map_congr_left fun t ht => ?_
    cases t with
    | pred p => rfl
    | rule r => simp only [Term.rename, h r (termRules_mem.2 ht)]
  cases o <;> simp only [Obj.children] at h <;> simp only [Obj.rename] <;> first
    | rw [all _ h]
    | rw [terms _ h]
    | rw [h _ List.mem_cons_self]
    | skip
  rename_i r
  cases r with
  | none => rfl
  | some r => simp only [Option.map_some, h r (by simp)]

theorem Mirror.stretched {P : Type} {S : Nat → Prop} {f : Nat → Nat} {h g : Heap P} (M : Mirror S f h g) (bound : Nat) :
    Mirror S (stretch S f bound) h g where
  get a ha := by
    rw [stretch_on ha, M.get a ha]
    cases ho : h[a]? with
    | none => rfl
    | some o =>
      simp only [Option.map_some, Option.some.injEq]
      exact rename_congr fun c hc => (stretch_on (M.closed a o ha ho c hc)).symm
  closed := M.closed

end Yargy
