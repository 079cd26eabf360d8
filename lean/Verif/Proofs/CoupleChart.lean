import Verif.Properties.Match
import Verif.Properties.Pipelines
/-!
Grammars with one rule of two parts, each a predicate with the same relation.
-/
set_option linter.unusedSectionVars false
namespace Yargy.Couple
open Spec

variable {P H : Type} [DecidableEq H] {G : Grammar P Token} {A : Agreement} {hash : Key → H}
  {toks : List Token} {all : Bool} {p q : P} {x y rel : Nat} {top fst snd : Production P}

/-- The grammar of a pair of words that agree. -/
structure PairGrammar (G : Grammar P Token) (A : Agreement) (p q : P) (x y rel : Nat)
    (top fst snd : Production P) : Prop where
  start : G.productions G.start = [top]
  terms : top.terms = [.rule x, .rule y]
  first : G.productions x = [fst]
  firstTerms : fst.terms = [.pred p]
  firstMain : fst.main = 0
  second : G.productions y = [snd]
  secondTerms : snd.terms = [.pred q]
  secondMain : snd.main = 0
  none : A.relationOf G.start = none
  relFirst : A.relationOf x = some rel
  relSecond : A.relationOf y = some rel

/-- Two tokens next to each other that the predicates accept. -/
structure Pair (G : Grammar P Token) (toks : List Token) (p q : P) (i : Nat) (a b : Token) : Prop where
  fst : toks[i]? = some a
  snd : toks[i + 1]? = some b
  accFst : G.accepts p a = true
  accSnd : G.accepts q b = true

/-- Their tree. -/
def pairTree (s x y : Nat) (top fst snd : Production P) (p q : P) (a b : Token) (n k n1 k1 l1 n2 k2 l2 : Nat) : TTree P :=
  .node n s top k [.node n1 x fst k1 [.leaf l1 p a], .node n2 y snd k2 [.leaf l2 q b]]

theorem derives_pair (hg : PairGrammar G A p q x y rel top fst snd) {i j : Nat} {d : DTree P Token} :
    Derives G toks (.rule G.start) i j d ↔ ∃ a b, Pair G toks p q i a b ∧ j = i + 2 ∧
      d = .node G.start top [.node x fst [.leaf p (G.constrain p a)], .node y snd [.leaf q (G.constrain q b)]] := by
  constructor
  · intro h
    cases h with
    | node h1 h2 =>
      rw [hg.start, List.mem_singleton] at h1
      subst h1
      rw [hg.terms] at h2
      cases h2 with
      | cons g1 g2 =>
        cases g2 with
        | cons g3 g4 =>
          cases g4
          cases g1 with
          | node e1 e2 =>
            rw [hg.first, List.mem_singleton] at e1
            subst e1
            rw [hg.firstTerms] at e2
            cases e2 with
            | cons c1 c2 =>
              cases c2
              cases c1 with
              | leaf u1 u2 =>
                cases g3 with
                | node e1 e2 =>
                  rw [hg.second, List.mem_singleton] at e1
                  subst e1
                  rw [hg.secondTerms] at e2
                  cases e2 with
                  | cons c1 c2 =>
                    cases c2
                    cases c1 with
                    | leaf v1 v2 => exact ⟨_, _, ⟨u1, v1, u2, v2⟩, rfl, rfl⟩
  · rintro ⟨a, b, hp, rfl, rfl⟩
    refine .node (by rw [hg.start]; exact List.mem_singleton.2 rfl) ?_
    rw [hg.terms]
    refine .cons (j := i + 1) (.node (by rw [hg.first]; exact List.mem_singleton.2 rfl) ?_)
      (.cons (.node (by rw [hg.second]; exact List.mem_singleton.2 rfl) ?_) .nil)
    · rw [hg.firstTerms]; exact .cons (.leaf hp.fst hp.accFst) .nil
    · rw [hg.secondTerms]; exact .cons (.leaf hp.snd hp.accSnd) .nil

theorem erase_node {t : PTree P Token} {r : Nat} {prod : Production P} {ds : List (DTree P Token)}
    (h : t.erase = .node r prod ds) : ∃ n k cs, t = .node n r prod k cs ∧ eraseAll cs = ds := by
  cases t with
  | leaf => simp [PTree.erase] at h
  | node n r' prod' k cs =>
    simp only [PTree.erase, DTree.node.injEq] at h
    obtain ⟨rfl, rfl, h⟩ := h
    exact ⟨n, k, cs, rfl, h⟩

theorem eraseAll_cons {cs : List (PTree P Token)} {d : DTree P Token} {ds : List (DTree P Token)}
    (h : eraseAll cs = d :: ds) : ∃ c cs', cs = c :: cs' ∧ c.erase = d ∧ eraseAll cs' = ds := by
  cases cs with
  | nil => simp [eraseAll] at h
  | cons c cs => simp only [eraseAll, List.cons.injEq] at h; exact ⟨c, cs, rfl, h⟩

theorem eraseAll_nil {cs : List (PTree P Token)} (h : eraseAll cs = []) : cs = [] := by
  cases cs with
  | nil => rfl
  | cons => simp [eraseAll] at h

theorem erase_leaf {t : PTree P Token} {p : P} {a : Token} (h : t.erase = .leaf p a) : ∃ l, t = .leaf l p a := by
  cases t with
  | node => simp [PTree.erase] at h
  | leaf l p' a' => simp only [PTree.erase, DTree.leaf.injEq] at h; obtain ⟨rfl, rfl⟩ := h; exact ⟨l, rfl⟩

/-- What is reported. -/
theorem reported_shape (hg : PairGrammar G A p q x y rel top fst snd) (hG : PredictSound G) {fuel : Nat}
    {t : Tree P Token} (ht : Reported G hash toks all fuel t) :
    ∃ i a b n k n1 k1 l1 n2 k2 l2, Pair G toks p q i a b ∧ t.range = (i, i + 2) ∧
      t.root = pairTree G.start x y top fst snd p q (G.constrain p a) (G.constrain q b) n k n1 k1 l1 n2 k2 l2 := by
  obtain ⟨a, b, h1, h2, h3⟩ := (derives_pair hg).1 (reported_derives hG ht)
  obtain ⟨n, k, cs, e, h4⟩ := erase_node h3
  obtain ⟨c1, cs, rfl, h5, h6⟩ := eraseAll_cons h4
  obtain ⟨c2, cs, rfl, h7, h8⟩ := eraseAll_cons h6
  cases eraseAll_nil h8
  obtain ⟨n1, k1, cs, rfl, h9⟩ := erase_node h5
  obtain ⟨c, cs, rfl, h10, h11⟩ := eraseAll_cons h9
  cases eraseAll_nil h11
  obtain ⟨l1, rfl⟩ := erase_leaf h10
  obtain ⟨n2, k2, cs, rfl, h12⟩ := erase_node h7
  obtain ⟨c, cs, rfl, h13, h14⟩ := eraseAll_cons h12
  cases eraseAll_nil h14
  obtain ⟨l2, rfl⟩ := erase_leaf h13
  exact ⟨_, a, b, n, k, n1, k1, l1, n2, k2, l2, h1, Prod.ext rfl h2, e⟩

section
variable {n k n1 k1 l1 n2 k2 l2 : Nat} {a b : Token}

theorem head_single {n r k l : Nat} {prod : Production P} {p : P} {a : Token} (hm : prod.main = 0) {l' : Nat} {w : Token} :
    HeadOf (.node n r prod k [.leaf l p a] : TTree P) l' w ↔ l' = l ∧ w = a := by
  constructor
  · intro h
    cases h with
    | node h1 h2 =>
      rw [hm] at h1
      simp at h1
      subst h1
      cases h2
      exact ⟨rfl, rfl⟩
  · rintro ⟨rfl, rfl⟩
    exact .node (by rw [hm]; rfl) .leaf

theorem sub_pair (hg : PairGrammar G A p q x y rel top fst snd) {n' r rank : Nat} {prod : Production P} {cs : List (TTree P)}
    (hs : Sub (.node n' r prod rank cs) (pairTree G.start x y top fst snd p q a b n k n1 k1 l1 n2 k2 l2))
    (hr : A.relationOf r ≠ none) :
    (r = x ∧ PTree.node n' r prod rank cs = .node n1 x fst k1 [.leaf l1 p a]) ∨
    (r = y ∧ PTree.node n' r prod rank cs = .node n2 y snd k2 [.leaf l2 q b]) := by
  have := mem_walk_iff.2 hs
  simp only [pairTree, PTree.walk, walkAll, List.mem_cons, List.cons_append, List.nil_append,
    PTree.node.injEq, List.not_mem_nil, or_false, reduceCtorEq, false_or] at this
  rcases this with ⟨_, rfl, _⟩ | ⟨rfl, rfl, rfl, rfl, rfl⟩ | ⟨rfl, rfl, rfl, rfl, rfl⟩
  · exact absurd hg.none hr
  · exact .inl ⟨rfl, rfl⟩
  · exact .inr ⟨rfl, rfl⟩

theorem related_pair (hg : PairGrammar G A p q x y rel top fst snd) {rel' l : Nat} {w : Token}
    (h : Related A (pairTree G.start x y top fst snd p q a b n k n1 k1 l1 n2 k2 l2) rel' l w) :
    rel' = rel ∧ ((l = l1 ∧ w = a) ∨ (l = l2 ∧ w = b)) := by
  obtain ⟨n', r, prod, rank, cs, hs, h1, h2⟩ := h
  rcases sub_pair hg hs (by rw [h1]; exact fun e => nomatch e) with ⟨rfl, e⟩ | ⟨rfl, e⟩
  · rw [e] at h2
    rw [hg.relFirst] at h1
    exact ⟨(Option.some.inj h1).symm, .inl ((head_single hg.firstMain).1 h2)⟩
  · rw [e] at h2
    rw [hg.relSecond] at h1
    exact ⟨(Option.some.inj h1).symm, .inr ((head_single hg.secondMain).1 h2)⟩

theorem related_iff (hg : PairGrammar G A p q x y rel top fst snd) :
    Related A (pairTree G.start x y top fst snd p q a b n k n1 k1 l1 n2 k2 l2) rel l1 a ∧
    Related A (pairTree G.start x y top fst snd p q a b n k n1 k1 l1 n2 k2 l2) rel l2 b :=
  ⟨⟨n1, x, fst, k1, _, .child (List.mem_cons_self ..) .refl, hg.relFirst, (head_single hg.firstMain).2 ⟨rfl, rfl⟩⟩,
    ⟨n2, y, snd, k2, _, .child (List.mem_cons_of_mem _ (List.mem_cons_self ..)) .refl, hg.relSecond,
      (head_single hg.secondMain).2 ⟨rfl, rfl⟩⟩⟩

theorem carries_pair (hg : PairGrammar G A p q x y rel top fst snd) (rel' : Nat) :
    (pairTree G.start x y top fst snd p q a b n k n1 k1 l1 n2 k2 l2).walk.filter (carries A rel') =
      if rel' = rel then [.node n1 x fst k1 [.leaf l1 p a], .node n2 y snd k2 [.leaf l2 q b]] else [] := by
  by_cases h : rel' = rel
  · subst h
    simp [pairTree, PTree.walk, walkAll, carries, hg.none, hg.relFirst, hg.relSecond]
  · have h' : ¬ rel = rel' := fun e => h e.symm
    simp [pairTree, PTree.walk, walkAll, carries, hg.none, hg.relFirst, hg.relSecond, h, h']

theorem heads_pair (hg : PairGrammar G A p q x y rel top fst snd) {fs gs : List Form} (ha : a.forms = some fs)
    (hb : b.forms = some gs) : HeadsOK A (pairTree G.start x y top fst snd p q a b n k n1 k1 l1 n2 k2 l2) := by
  intro n' r prod rank cs hs hr
  rcases sub_pair hg hs hr with ⟨rfl, e⟩ | ⟨rfl, e⟩
  · exact ⟨l1, a, fs, by rw [e]; exact (head_single hg.firstMain).2 ⟨rfl, rfl⟩, ha⟩
  · exact ⟨l2, b, gs, by rw [e]; exact (head_single hg.secondMain).2 ⟨rfl, rfl⟩, hb⟩

theorem couples_pair (hg : PairGrammar G A p q x y rel top fst snd) (hne : l1 ≠ l2) :
    Couples A (pairTree G.start x y top fst snd p q a b n k n1 k1 l1 n2 k2 l2) := by
  refine ⟨fun rel' => ?_, fun r r' l w w' h1 h2 => by rw [(related_pair hg h1).1, (related_pair hg h2).1]⟩
  rw [carries_pair hg]
  by_cases h : rel' = rel
  · rw [if_pos h]
    refine .inr ⟨_, _, rfl, fun l w l' w' h1 h2 => ?_⟩
    rw [((head_single hg.firstMain).1 h1).1, ((head_single hg.secondMain).1 h2).1]
    exact hne
  · rw [if_neg h]; exact .inl rfl

theorem reading_pair (hg : PairGrammar G A p q x y rel top fst snd) (hne : l1 ≠ l2) {fs gs : List Form}
    (ha : a.forms = some fs) (hb : b.forms = some gs) :
    (∃ c, Reading A (pairTree G.start x y top fst snd p q a b n k n1 k1 l1 n2 k2 l2) c) ↔
      ∃ f ∈ fs, ∃ g ∈ gs, (A.relation rel).call f g = true := by
  constructor
  · rintro ⟨c, h1, h2⟩
    refine ⟨c l1, h1 _ _ _ _ (related_iff hg).1 ha, c l2, h1 _ _ _ _ (related_iff hg).2 hb, ?_⟩
    have := h2 rel
    rw [carries_pair hg, if_pos rfl] at this
    exact (List.pairwise_cons.1 this).1 _ (List.mem_cons_self ..) _ _ _ _ ((head_single hg.firstMain).2 ⟨rfl, rfl⟩)
      ((head_single hg.secondMain).2 ⟨rfl, rfl⟩)
  · rintro ⟨f, hf, g, hgg, h⟩
    refine ⟨fun l => if l = l1 then f else g, ?_, ?_⟩
    · intro rel' l w fs' h1 h2
      rcases (related_pair hg h1).2 with ⟨rfl, rfl⟩ | ⟨rfl, rfl⟩
      · rw [ha] at h2; cases h2; simpa using hf
      · rw [hb] at h2; cases h2; simpa [Ne.symm hne] using hgg
    · intro rel'
      rw [carries_pair hg]
      by_cases e : rel' = rel
      · rw [if_pos e]
        refine List.pairwise_cons.2 ⟨fun z hz l w l' w' h1 h2 => ?_, List.pairwise_singleton ..⟩
        rw [List.mem_singleton] at hz
        subst hz
        rw [((head_single hg.firstMain).1 h1).1, ((head_single hg.secondMain).1 h2).1, e]
        simpa [Ne.symm hne] using h
      · rw [if_neg e]; exact .nil

theorem prune_pair (s : Nat) : (pairTree s x y top fst snd p q a b n k n1 k1 l1 n2 k2 l2).prune =
    some (pairTree s x y top fst snd p q a b n k n1 k1 l1 n2 k2 l2) := rfl

theorem laid_pair {home : Home P Token} {N i j s : Nat}
    (h : Layout home N (pairTree s x y top fst snd p q a b n k n1 k1 l1 n2 k2 l2) i j) :
    home l1 = some (i, p, a) ∧ home l2 = some (i + 1, q, b) := by
  cases h with
  | node h =>
    cases h with
    | cons h1 h2 =>
      cases h2 with
      | cons h2 h3 =>
        cases h1 with
        | node h1 =>
          cases h1 with
          | cons g1 g2 =>
            cases g2
            cases g1 with
            | leaf _ g1 =>
              cases h2 with
              | node h2 =>
                cases h2 with
                | cons c1 c2 =>
                  cases c2
                  cases c1 with
                  | leaf _ c1 => exact ⟨g1, c1⟩

end

/-- A reported tree is known by its range and what it derives. -/
theorem reported_same (hG : PredictSound G) {fuel : Nat} {t t' : Tree P Token} (ht : Reported G hash toks all fuel t)
    (ht' : Reported G hash toks all fuel t') (hr : t.range = t'.range) (he : t.root.erase = t'.root.erase) : t = t' := by
  obtain ⟨ss, h1, h2⟩ := ht
  obtain ⟨cols, h3, rfl⟩ := Option.map_eq_some_iff.1 h1
  have h4 := (reported_of h3).1 ht'
  obtain ⟨s, hs, rfl⟩ := List.mem_map.1 h2
  obtain ⟨s', hs', rfl⟩ := List.mem_map.1 h4
  have hu := List.pairwise_iff_getElem.1 (chart_matches_unique hG h3)
  obtain ⟨m, hm, rfl⟩ := List.getElem_of_mem hs
  obtain ⟨m', hm', rfl⟩ := List.getElem_of_mem hs'
  rcases Nat.lt_trichotomy m m' with h | rfl | h
  · exact absurd he (hu m m' hm hm' h hr)
  · rfl
  · exact absurd he.symm (hu m' m hm' hm h hr.symm)

/-- Every leaf below a node has the rule of the node for its own; the numbers of leaves are below `n`. -/
def Owned (own : Nat → Option Nat) (n : Nat) (t : PTree P Token) : Prop :=
  ∀ m r prod k cs, Sub (.node m r prod k cs) t → ∀ l p a, .leaf l p a ∈ cs → l < n ∧ own l = some r

def OwnedCols (own : Nat → Option Nat) (n : Nat) (cols : List (Column P Token H)) : Prop :=
  ∀ k s, InCol cols k s → Owned own n s.node

theorem owned_mono {own own' : Nat → Option Nat} {n n' : Nat} (hn : n ≤ n') (hh : ∀ l, l < n → own' l = own l)
    {t : PTree P Token} (h : Owned own n t) : Owned own' n' t := by
  intro m r prod k cs hs l p a hl
  obtain ⟨h1, h2⟩ := h m r prod k cs hs l p a hl
  exact ⟨by omega, by rw [hh l h1, h2]⟩

theorem owned_node {own : Nat → Option Nat} {n m r k : Nat} {prod : Production P} {cs : List (PTree P Token)} :
    Owned own n (.node m r prod k cs) ↔ (∀ l p a, .leaf l p a ∈ cs → l < n ∧ own l = some r) ∧ ∀ c ∈ cs, Owned own n c := by
  constructor
  · intro h
    exact ⟨h m r prod k cs .refl, fun c hc m' r' prod' k' cs' hs => h m' r' prod' k' cs' (.child hc hs)⟩
  · rintro ⟨h1, h2⟩ m' r' prod' k' cs' hs
    cases hs with
    | refl => exact h1
    | child hc hs => exact h2 _ hc m' r' prod' k' cs' hs

theorem owned_leaf {own : Nat → Option Nat} {n l : Nat} {p : P} {a : Token} : Owned own n (.leaf l p a) := by
  intro m r prod k cs hs
  cases hs

theorem OwnedCols.append {own own' : Nat → Option Nat} {n n' : Nat} {cols : List (Column P Token H)}
    (h : OwnedCols own n cols) (hn : n ≤ n') (hh : ∀ l, l < n → own' l = own l) {k : Nat}
    {s : State P Token} (hs : Owned own' n' s.node) : OwnedCols own' n' (appendAt hash cols k s) := by
  intro k' s' hs'
  rcases inCol_appendAt hs' with h1 | ⟨rfl, rfl⟩
  · exact owned_mono hn hh (h _ _ h1)
  · exact hs

theorem owned_trans (c c' : Config P Token H) (ht : Trans G hash toks all c c')
    (hS : SoundInv G toks c) (h : ∃ own, OwnedCols own c.ctr c.cols) : ∃ own, OwnedCols own c'.ctr c'.cols := by
  have hpred : ∀ (cols : List (Column P Token H)) ctr k r, (∃ own, OwnedCols own ctr cols) →
      ∃ own, OwnedCols own (Yargy.predict G hash toks k r cols ctr).2 (Yargy.predict G hash toks k r cols ctr).1 := by
    intro cols ctr k r hc
    refine predict_induct (M := fun cols ctr => ∃ own, OwnedCols own ctr cols) G hash toks k r cols ctr hc ?_
    rintro cols ctr prod rank _ ⟨own, hc⟩
    exact ⟨own, hc.append (Nat.le_succ _) (fun _ _ => rfl) (owned_node.2 ⟨(fun _ _ _ h => nomatch h), (fun _ h => nomatch h)⟩)⟩
  cases ht with
  | enterPredict => exact hpred _ _ _ _ h
  | enterSkip => exact h
  | nextColumn => exact h
  | finish => exact h
  | startComplete => exact h
  | predictRule => exact hpred _ _ _ _ h
  | @scanAccept cols ctr k i col s p t hc hs hn ht ha =>
    obtain ⟨own, h⟩ := h
    have hin := inCol_of_get hc hs
    have hh : ∀ l, l < ctr → update own ctr (some s.rule) l = own l := by
      intro l hl
      have : l ≠ ctr := by omega
      simp [update, this]
    have hl := owned_node.1 (owned_mono (n' := ctr + 2) (by omega) hh (h _ _ hin))
    refine ⟨update own ctr (some s.rule), h.append (n' := ctr + 2) (by dsimp only; omega) hh (owned_node.2 ⟨?_, ?_⟩)⟩
    · intro l p' a hm
      rcases List.mem_append.1 hm with hm | hm
      · exact hl.1 l p' a hm
      · cases List.mem_singleton.1 hm
        exact ⟨by omega, by simp [update]; rfl⟩
    · intro c hm
      rcases List.mem_append.1 hm with hm | hm
      · exact hl.2 c hm
      · cases List.mem_singleton.1 hm
        exact owned_leaf
  | scanReject => exact h
  | @completeNext cols ctr k i s j p hp =>
    obtain ⟨own, h⟩ := h
    obtain ⟨h1, _⟩ := hS.phase i s j rfl
    obtain ⟨h3, _⟩ := hS.cols.mem_parents (List.mem_of_getElem? hp)
    have hl := owned_node.1 (owned_mono (n' := ctr + 1) (Nat.le_succ ctr) (fun _ _ => rfl) (h _ _ h3))
    refine ⟨own, h.append (n' := ctr + 1) (by dsimp only; omega) (fun _ _ => rfl) (owned_node.2 ⟨?_, ?_⟩)⟩
    · intro l p' a hm
      rcases List.mem_append.1 hm with hm | hm
      · exact hl.1 l p' a hm
      · cases List.mem_singleton.1 hm
    · intro c hm
      rcases List.mem_append.1 hm with hm | hm
      · exact hl.2 c hm
      · cases List.mem_singleton.1 hm
        exact owned_mono (Nat.le_succ _) (fun _ _ => rfl) (h _ _ h1)
  | completeEnd => exact h
  | done => exact h

/-- Every leaf of the reported trees belongs to one rule. -/
theorem chart_owned (hG : PredictSound G) {fuel : Nat} {cols : List (Column P Token H)}
    (h : chart G hash toks all fuel = some cols) :
    ∃ own n, ∀ t ∈ prepareTrees (chartMatches G.start all cols), Owned own n t.root := by
  obtain ⟨_, rfl⟩ := chart_runN h
  obtain ⟨own, ho⟩ := (runN_induct (M := fun c => SoundInv G toks c ∧ ∃ own, OwnedCols own c.ctr c.cols) G hash toks all
    ⟨soundInv_init, fun _ => none, fun _ _ h => absurd h not_inCol_init⟩
    (fun c c' ht h => ⟨soundInv_trans hG _ _ ht h.1, owned_trans _ _ ht h.1 h.2⟩) fuel).2
  refine ⟨own, (runN G hash toks all fuel).ctr, fun t ht => ?_⟩
  obtain ⟨s, hs, rfl⟩ := List.mem_map.1 ht
  obtain ⟨k, h1, _⟩ := mem_chartMatches hs
  exact ho k s h1

theorem owned_pair {own : Nat → Option Nat} {N s : Nat} {a b : Token} {n k n1 k1 l1 n2 k2 l2 : Nat}
    (h : Owned own N (pairTree s x y top fst snd p q a b n k n1 k1 l1 n2 k2 l2)) : own l1 = some x ∧ own l2 = some y :=
  ⟨(h _ _ _ _ _ (.child (List.mem_cons_self ..) .refl) _ _ _ (List.mem_cons_self ..)).2,
    (h _ _ _ _ _ (.child (List.mem_cons_of_mem _ (List.mem_cons_self ..)) .refl) _ _ _ (List.mem_cons_self ..)).2⟩

/-- The words of one pair are not touched by another. -/
theorem independent_pair (hg : PairGrammar G A p q x y rel top fst snd) (hG : PredictSound G) (hpq : x ≠ y) {fuel : Nat} :
    Independent G A hash toks all fuel := by
  intro t t' ht ht' hne r0 h0 rel' l w hrel hl
  obtain ⟨ss, h1, h2⟩ := id ht
  obtain ⟨cols, h3, rfl⟩ := Option.map_eq_some_iff.1 h1
  obtain ⟨home, N, lay⟩ := chart_laid hG h3
  have y1 := lay t h2
  have y2 := lay t' ((reported_of h3).1 ht')
  obtain ⟨i, a, b, n, k, n1, k1, l1, n2, k2, l2, g1, g2, g3⟩ := reported_shape hg hG ht
  obtain ⟨i', a', b', n', k', n1', k1', l1', n2', k2', l2', g1', g2', g3'⟩ := reported_shape hg hG ht'
  unfold Laid at y1 y2
  rw [g2, g3] at y1
  rw [g2', g3'] at y2
  obtain ⟨u1, u2⟩ := laid_pair y1
  obtain ⟨v1, v2⟩ := laid_pair y2
  obtain ⟨own, M, ow⟩ := chart_owned hG h3
  have z1 := ow t h2
  have z2 := ow t' ((reported_of h3).1 ht')
  rw [g3] at z1
  rw [g3'] at z2
  obtain ⟨c1, c2⟩ := owned_pair z1
  obtain ⟨d1, d2⟩ := owned_pair z2
  have hii : i ≠ i' := by
    rintro rfl
    have ea := g1.fst.symm.trans g1'.fst
    have eb := g1.snd.symm.trans g1'.snd
    cases ea
    cases eb
    refine hne (reported_same hG ht ht' (by rw [g2, g2']) ?_)
    rw [g3, g3']
    rfl
  rw [g3, prune_pair] at h0
  cases h0
  rw [g3'] at hl
  have hl' : l = l1' ∨ l = l2' := by simpa [pairTree, leaves_node, leaves_leaf] using hl
  have hw := (related_pair hg hrel).2
  rcases hw with ⟨rfl, _⟩ | ⟨rfl, _⟩ <;> rcases hl' with rfl | rfl
  · rw [u1] at v1
    simp only [Option.some.injEq, Prod.mk.injEq] at v1
    exact hii v1.1
  · rw [c1] at d2
    exact hpq (Option.some.inj d2)
  · rw [c2] at d1
    exact hpq (Option.some.inj d1).symm
  · rw [u2] at v2
    simp only [Option.some.injEq, Prod.mk.injEq] at v2
    omega

/-- The words a predicate accepts have forms. -/
def Morphed (G : Grammar P Token) (toks : List Token) (p : P) : Prop :=
  ∀ t ∈ toks, G.accepts p t = true → (G.constrain p t).forms ≠ none

/-- A pair of words with forms that agree. -/
def Agree (G : Grammar P Token) (A : Agreement) (toks : List Token) (p q : P) (rel i : Nat) : Prop :=
  ∃ a b fs gs, Pair G toks p q i a b ∧ (G.constrain p a).forms = some fs ∧ (G.constrain q b).forms = some gs ∧
    ∃ f ∈ fs, ∃ g ∈ gs, (A.relation rel).call f g = true

theorem checkable_pair (hg : PairGrammar G A p q x y rel top fst snd) (hG : PredictSound G)
    (hp : Morphed G toks p) (hq : Morphed G toks q) {fuel : Nat} {t : Tree P Token}
    (ht : Reported G hash toks all fuel t) : Checkable A t := by
  obtain ⟨i, a, b, n, k, n1, k1, l1, n2, k2, l2, g1, g2, g3⟩ := reported_shape hg hG ht
  obtain ⟨fs, hf⟩ := Option.ne_none_iff_exists'.1 (hp a (List.mem_of_getElem? g1.fst) g1.accFst)
  obtain ⟨gs, hh⟩ := Option.ne_none_iff_exists'.1 (hq b (List.mem_of_getElem? g1.snd) g1.accSnd)
  exact ⟨_, by rw [g3, prune_pair], heads_pair hg hf hh⟩

/-- A reported tree passes exactly if its two words have forms that agree. -/
theorem passes_pair (hg : PairGrammar G A p q x y rel top fst snd) (hG : PredictSound G)
    (hp : Morphed G toks p) (hq : Morphed G toks q) (hR : ∀ rel, Respects (A.relation rel).call) {fuel : Nat}
    {t : Tree P Token} (ht : Reported G hash toks all fuel t) :
    Passes A t ↔ Agree G A toks p q rel t.range.1 := by
  obtain ⟨i, a, b, n, k, n1, k1, l1, n2, k2, l2, g1, g2, g3⟩ := reported_shape hg hG ht
  obtain ⟨fs, hf⟩ := Option.ne_none_iff_exists'.1 (hp a (List.mem_of_getElem? g1.fst) g1.accFst)
  obtain ⟨gs, hh⟩ := Option.ne_none_iff_exists'.1 (hq b (List.mem_of_getElem? g1.snd) g1.accSnd)
  obtain ⟨home, N, y1⟩ := reported_laid hG ht
  unfold Laid at y1
  rw [g2, g3] at y1
  obtain ⟨u1, u2⟩ := laid_pair y1
  have hne : l1 ≠ l2 := by
    rintro rfl
    rw [u1] at u2
    simp only [Option.some.injEq, Prod.mk.injEq] at u2
    omega
  have h0 : t.root.prune = some (pairTree G.start x y top fst snd p q (G.constrain p a) (G.constrain q b) n k n1 k1 l1 n2 k2 l2) := by
    rw [g3, prune_pair]
  rw [passes_iff_reading_partial hG ht h0 (heads_pair hg hf hh) hR (couples_pair hg hne), reading_pair hg hne hf hh, g2]
  constructor
  · exact fun h => ⟨a, b, fs, gs, g1, hf, hh, h⟩
  · rintro ⟨a', b', fs', gs', j1, j2, j3, h⟩
    have ea := g1.fst.symm.trans j1.fst
    have eb := g1.snd.symm.trans j1.snd
    cases ea
    cases eb
    rw [hf] at j2
    rw [hh] at j3
    cases j2
    cases j3
    exact h

/-- The words of the pair at `i` as a match shows them. -/
def Words (G : Grammar P Token) (A : Agreement) (toks : List Token) (p q : P) (rel i : Nat) (ts : List Token) : Prop :=
  ∃ a b fs gs, Pair G toks p q i a b ∧ (G.constrain p a).forms = some fs ∧ (G.constrain q b).forms = some gs ∧
    ts = [{ G.constrain p a with forms := some (checkEdge (A.relation rel).call fs gs).1 },
      { G.constrain q b with forms := some (checkEdge (A.relation rel).call fs gs).2 }]

theorem prepare_pair (hg : PairGrammar G A p q x y rel top fst snd) {a b : Token} {fs gs : List Form} (hf : a.forms = some fs) (hb : b.forms = some gs)
    {n k n1 k1 l1 n2 k2 l2 : Nat} (hne : l1 ≠ l2) {ρ : Nat × Nat} {m : Match P} {σ : Store}
    (h : prepareMatch A Store.init ⟨pairTree G.start x y top fst snd p q a b n k n1 k1 l1 n2 k2 l2, ρ⟩ = .ok (some m, σ)) :
    m.tokens = [{ a with forms := some (checkEdge (A.relation rel).call fs gs).1 },
      { b with forms := some (checkEdge (A.relation rel).call fs gs).2 }] := by
  have e1 : treeRelations A (pairTree G.start x y top fst snd p q a b n k n1 k1 l1 n2 k2 l2) =
      .ok ⟨[(rel, [l1, l2])], [(l1, a), (l2, b)], update (update (fun _ => []) l1 fs) l2 gs⟩ := by
    simp [treeRelations, pairTree, PTree.walk, walkAll, visitRelation, hg.none, hg.relFirst, hg.relSecond, PTree.main,
      mainAt, hg.firstMain, hg.secondMain, RelGraph.add, RelGraph.empty, hf, hb, hne, addItem, List.foldlM, bind, Except.bind, pure, Except.pure]
  have e2 : RelGraph.validate A.relation ⟨[(rel, [l1, l2])], [(l1, a), (l2, b)], update (update (fun _ => []) l1 fs) l2 gs⟩ =
      (⟨[(rel, [l1, l2])], [(l1, a), (l2, b)], update (update (update (update (fun _ => []) l1 fs) l2 gs) l1
          (checkEdge (A.relation rel).call fs gs).1) l2 (checkEdge (A.relation rel).call fs gs).2⟩,
        !(checkEdge (A.relation rel).call fs gs).1.isEmpty && !(checkEdge (A.relation rel).call fs gs).2.isEmpty) := by
    simp [RelGraph.validate, RelGraph.edges, pairs, stepEdge, update, hne]
  unfold prepareMatch at h
  dsimp only at h
  rw [load_init, prune_pair] at h
  simp only [e1, e2, bind, Except.bind] at h
  split at h
  · have e3 : ∃ σ', treeConstrain ⟨[(rel, [l1, l2])], [(l1, a), (l2, b)], update (update (update (update (fun _ => []) l1 fs) l2 gs) l1
          (checkEdge (A.relation rel).call fs gs).1) l2 (checkEdge (A.relation rel).call fs gs).2⟩
          (pairTree G.start x y top fst snd p q a b n k n1 k1 l1 n2 k2 l2) Store.init = .ok σ' ∧
        σ' l1 = some { a with forms := some (checkEdge (A.relation rel).call fs gs).1 } ∧
        σ' l2 = some { b with forms := some (checkEdge (A.relation rel).call fs gs).2 } := by
      simp [treeConstrain, pairTree, leaves_node, leaves_leaf, visitApply, RelGraph.constrain, hne, Token.constrained, hf, hb,
        Except.map, List.foldlM, bind, Except.bind, pure, Except.pure, update]
    obtain ⟨σ', e3, e4, e5⟩ := e3
    simp only [e3] at h
    have e6 : ((pairTree G.start x y top fst snd p q a b n k n1 k1 l1 n2 k2 l2).load σ').leaves.map Prod.snd =
        [{ a with forms := some (checkEdge (A.relation rel).call fs gs).1 },
          { b with forms := some (checkEdge (A.relation rel).call fs gs).2 }] := by
      simp [pairTree, PTree.load, loadAll, leaves_node, leaves_leaf, e4, e5]
    rw [e6] at h
    simp only [tokensSpan, List.head?_cons, List.getLast?_cons_cons, List.getLast?_singleton, pure, Except.pure, Except.ok.injEq,
      Prod.mk.injEq, Option.some.injEq] at h
    rw [← h.1]
  · simp [pure, Except.pure] at h

theorem made_pair (hg : PairGrammar G A p q x y rel top fst snd) (hG : PredictSound G)
    (hp : Morphed G toks p) (hq : Morphed G toks q) {fuel : Nat} {t : Tree P Token}
    (ht : Reported G hash toks all fuel t) {m : Match P} {σ : Store} (hm : prepareMatch A Store.init t = .ok (some m, σ)) :
    Words G A toks p q rel t.range.1 m.tokens := by
  obtain ⟨i, a, b, n, k, n1, k1, l1, n2, k2, l2, g1, g2, g3⟩ := reported_shape hg hG ht
  obtain ⟨fs, hf⟩ := Option.ne_none_iff_exists'.1 (hp a (List.mem_of_getElem? g1.fst) g1.accFst)
  obtain ⟨gs, hh⟩ := Option.ne_none_iff_exists'.1 (hq b (List.mem_of_getElem? g1.snd) g1.accSnd)
  obtain ⟨home, N, y1⟩ := reported_laid hG ht
  unfold Laid at y1
  rw [g2, g3] at y1
  obtain ⟨u1, u2⟩ := laid_pair y1
  have hne : l1 ≠ l2 := by
    rintro rfl
    rw [u1] at u2
    simp only [Option.some.injEq, Prod.mk.injEq] at u2
    omega
  obtain ⟨root, range⟩ := t
  dsimp only at g2 g3
  subst g2 g3
  exact ⟨a, b, fs, gs, g1, hf, hh, prepare_pair hg hf hh hne hm⟩

theorem zero_waits : Waits G (fun _ => 0) := fun _ _ _ _ => 
  ⟨fun _ => ⟨Nat.zero_le _, fun _ => rfl⟩, fun _ _ => ⟨Nat.zero_le _, fun _ _ => rfl⟩⟩

/-- Every pair is found. -/
theorem found_pair (hg : PairGrammar G A p q x y rel top fst snd) (hG : PredictSound G) (hL : PredictLossless G)
    (hD : DistinctProductions G) (hh : ∀ a b, hash a = hash b → a = b) {fuel : Nat} {cols : List (Column P Token H)}
    (hc : chart G hash toks all fuel = some cols) {i : Nat} {a b : Token} (hp : Pair G toks p q i a b)
    (hi : i = 0 ∨ all = true) (hj : all = true ∨ i + 2 = toks.length) :
    ∃ t, Reported G hash toks all fuel t ∧ t.range = (i, i + 2) := by
  have hd : DerivesRounds G (fun _ => 0) toks (.rule G.start) i (i + 2) 0 1
      (.node G.start top [.node x fst [.leaf p (G.constrain p a)], .node y snd [.leaf q (G.constrain q b)]]) := by
    refine .node (by rw [hg.start]; exact List.mem_singleton.2 rfl) ?_
    rw [hg.terms]
    refine .consNode (j := i + 1) (m := 0) (.node (by rw [hg.first]; exact List.mem_singleton.2 rfl) ?_) (.inl (by omega))
      (.consNode (j := i + 2) (m := 0) (.node (by rw [hg.second]; exact List.mem_singleton.2 rfl) ?_) (.inl (by omega)) .nil)
    · rw [hg.firstTerms]; exact .consLeaf (.leaf hp.fst hp.accFst) .nil
    · rw [hg.secondTerms]; exact .consLeaf (.leaf hp.snd hp.accSnd) .nil
  have hlt := (List.getElem?_eq_some_iff.1 hp.fst).1
  obtain ⟨s, h1, h2, _⟩ := chart_complete_partial hG hL hD hh zero_waits hc i (i + 2) _ _ hi (by omega) hj hd
  exact ⟨s.tree, (reported_of hc).2 (List.mem_map.2 ⟨s, h1, rfl⟩), h2⟩

section
variable (hg : PairGrammar G A p q x y rel top fst snd) (hG : PredictSound G) (hL : PredictLossless G)
  (hD : DistinctProductions G) (hh : ∀ a b, hash a = hash b → a = b) (hpq : x ≠ y)
  (hp : Morphed G toks p) (hq : Morphed G toks q) (hR : ∀ rel, Respects (A.relation rel).call)
include hg hG hL hD hh hpq hp hq hR

theorem extract_pair {fuel : Nat} {r : List (Match P) × Store × Option Err}
    (h : extract G A hash toks true fuel = some r) : r.2.2 = none ∧
      (∀ m ∈ r.1, Words G A toks p q rel m.tree.range.1 m.tokens) ∧
      ∀ i j, (∃ m ∈ r.1, m.tree.range = (i, j)) ↔ j = i + 2 ∧ Agree G A toks p q rel i := by
  obtain ⟨ms, σ, e⟩ := r
  have he : e = none := (extract_raises_iff hG h).2 (fun t ht => checkable_pair hg hG hp hq ht)
  subst he
  have mem := extract_independent_partial hG h (independent_pair hg hG hpq)
  obtain ⟨cols, hc, _⟩ := extract_run h
  obtain ⟨home, n, lay⟩ := chart_laid hG hc
  have hrange : ∀ {t : Tree P Token} {m : Match P} {σ' : Store}, Reported G hash toks true fuel t →
      prepareMatch A Store.init t = .ok (some m, σ') → m.tree.range = t.range := fun ht hm =>
    Made.range (lay _ ((reported_of hc).1 ht)) ⟨_, _, storeOK_init, hm⟩
  refine ⟨rfl, fun m hm => ?_, fun i j => ?_⟩
  · obtain ⟨t, t1, σ', t2⟩ := (mem m).1 hm
    rw [hrange t1 t2]
    exact made_pair hg hG hp hq t1 t2
  constructor
  · rintro ⟨m, hm, hr⟩
    obtain ⟨t, t1, σ', t2⟩ := (mem m).1 hm
    have e := hrange t1 t2
    have ha := (passes_pair hg hG hp hq hR t1).1 ⟨m, σ', t2⟩
    obtain ⟨i', a, b, _, _, _, _, _, _, _, _, _, g2, _⟩ := reported_shape hg hG t1
    rw [hr, g2] at e
    rw [g2] at ha
    simp only [Prod.mk.injEq] at e
    obtain ⟨rfl, rfl⟩ := e
    exact ⟨rfl, ha⟩
  · rintro ⟨rfl, ha⟩
    obtain ⟨a, b, _, _, hpair, _⟩ := id ha
    obtain ⟨t, t1, t2⟩ := found_pair hg hG hL hD hh hc hpair (.inr rfl) (.inl rfl)
    obtain ⟨m, σ', hm⟩ := (passes_pair hg hG hp hq hR t1).2 (by rw [t2]; exact ha)
    exact ⟨m, (mem m).2 ⟨t, t1, σ', hm⟩, (hrange t1 hm).trans t2⟩

theorem match_pair (hS : StartAlone G) {fuel : Nat} {r : Except Err (Option (Match P) × Store)}
    (h : matchText G A hash toks fuel = some r) : ∃ z σ, r = .ok (z, σ) ∧
      (∀ m, z = some m → m.tree.range = (0, toks.length)) ∧ (∀ m, z = some m → Words G A toks p q rel 0 m.tokens) ∧
      ((∃ m, z = some m) ↔ toks.length = 2 ∧ Agree G A toks p q rel 0) := by
  obtain ⟨z, σ, rfl⟩ := match_ok hG hL h (fun t ht => checkable_pair hg hG hp hq ht)
  have hcov : ∀ m, z = some m → m.tree.range = (0, toks.length) := by
    rintro m rfl
    exact (match_covers_partial hG hL h).2 hS
  refine ⟨z, σ, rfl, hcov, ?_, ?_⟩
  · rintro m rfl
    obtain ⟨t, t1, t2, t3, _⟩ := match_from hG hL h
    have := made_pair hg hG hp hq t1 t3
    rw [t2, hcov m rfl] at this
    exact this
  constructor
  · rintro ⟨m, rfl⟩
    have hr := hcov m rfl
    obtain ⟨t, t1, t2, t3, _⟩ := match_from hG hL h
    have ha := (passes_pair hg hG hp hq hR t1).1 ⟨m, σ, t3⟩
    obtain ⟨i', a, b, _, _, _, _, _, _, _, _, _, g2, _⟩ := reported_shape hg hG t1
    rw [hr, g2] at t2
    rw [g2] at ha
    simp only [Prod.mk.injEq] at t2
    obtain ⟨rfl, t2⟩ := t2
    exact ⟨by omega, ha⟩
  · rintro ⟨hlen, ha⟩
    rw [match_iff hG hL h]
    obtain ⟨cols, l, hc, _⟩ := match_run hG hL h
    obtain ⟨a, b, _, _, hpair, _⟩ := id ha
    obtain ⟨t, t1, t2⟩ := found_pair (all := false) hg hG hL hD hh hc hpair (.inl rfl) (.inr (by omega))
    exact ⟨t, t1, (passes_pair hg hG hp hq hR t1).2 (by rw [t2]; exact ha)⟩

theorem findall_pair {fuel : Nat} {r : Except Err (List (Match P) × Store)}
    (h : findall G A hash toks fuel = some r) : ∃ ms σ, r = .ok (ms, σ) ∧
      (∀ m ∈ ms, ∃ i, m.tree.range = (i, i + 2) ∧ Agree G A toks p q rel i ∧ Words G A toks p q rel i m.tokens) ∧
      (∀ sel : List Range, sel.Pairwise Apart → (∀ ρ ∈ sel, ρ.2 = ρ.1 + 2 ∧ Agree G A toks p q rel ρ.1) →
        coverage sel ≤ coverage (ms.map (fun m => m.tree.range))) ∧
      ∀ i, Agree G A toks p q rel i → ∃ m ∈ ms, ¬ Apart (i, i + 2) m.tree.range := by
  obtain ⟨ms, σ, rfl⟩ := findall_ok hG hL h (fun t ht => checkable_pair hg hG hp hq ht)
  obtain ⟨k1, k2, k3⟩ := findall_independent_partial hG hL h (independent_pair hg hG hpq)
  have hc : ∃ cols, chart G hash toks true fuel = some cols := by
    unfold findall matchStates at h
    rw [Option.map_map] at h
    obtain ⟨cols, h1, _⟩ := Option.map_eq_some_iff.1 h
    exact ⟨cols, h1⟩
  obtain ⟨cols, hc⟩ := hc
  have ex : ∀ i, Agree G A toks p q rel i → ∃ t, Reported G hash toks true fuel t ∧ t.range = (i, i + 2) ∧ Passes A t := by
    intro i ha
    obtain ⟨a, b, _, _, hpair, _⟩ := id ha
    obtain ⟨t, t1, t2⟩ := found_pair hg hG hL hD hh hc hpair (.inr rfl) (.inl rfl)
    exact ⟨t, t1, t2, (passes_pair hg hG hp hq hR t1).2 (by rw [t2]; exact ha)⟩
  refine ⟨ms, σ, rfl, ?_, ?_, ?_⟩
  · intro m hm
    obtain ⟨t, t1, t2, ⟨σ', t3⟩, _⟩ := k3 m hm
    have ha := (passes_pair hg hG hp hq hR t1).1 ⟨m, σ', t3⟩
    obtain ⟨i', a, b, _, _, _, _, _, _, _, _, _, g2, _⟩ := reported_shape hg hG t1
    have hw := made_pair hg hG hp hq t1 t3
    rw [g2] at ha hw t2
    exact ⟨i', t2.symm, ha, hw⟩
  · intro sel h1 h2
    refine k1 sel h1 (fun ρ hρ => ?_)
    obtain ⟨e, ha⟩ := h2 ρ hρ
    obtain ⟨t, t1, t2, t3⟩ := ex _ ha
    exact ⟨t, t1, t2.trans (Prod.ext rfl e.symm), t3⟩
  · intro i ha
    obtain ⟨t, t1, t2, t3⟩ := ex i ha
    obtain ⟨m, hm, hap⟩ := k2 t t1 t3
    rw [t2] at hap
    exact ⟨m, hm, hap⟩

end

end Yargy.Couple
