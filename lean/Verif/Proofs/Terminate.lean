import Verif.Proofs.EarleyUnique
import Verif.Proofs.Yield
import Verif.Spec.Cycle
/-! Termination of the chart for acyclic grammars, divergence for cyclic ones. -/
set_option linter.unusedSectionVars false
set_option linter.unusedVariables false
namespace Yargy
open Spec

variable {P T H : Type} [DecidableEq H] {G : Grammar P T} {hash : Key → H} {toks : List T} {all : Bool}

/-! ### Finitely many derivations of bounded depth -/

mutual
def ddepth : DTree P T → Nat
  | .leaf _ _ => 0
  | .node _ _ cs => 1 + ddepthAll cs
def ddepthAll : List (DTree P T) → Nat
  | [] => 0
  | c :: cs => max (ddepth c) (ddepthAll cs)
end

mutual
/-- all derivations of depth at most `D` -/
def enum (G : Grammar P T) (toks : List T) : Nat → Term P → Nat → Nat → List (DTree P T)
  | _, .pred p, i, _ =>
    match toks[i]? with
    | some t => [.leaf p (G.constrain p t)]
    | none => []
  | 0, .rule _, _, _ => []
  | D + 1, .rule r, i, j =>
    (G.productions r).flatMap (fun prod => (enumAll G toks D prod.terms i j).map (.node r prod))
termination_by D => (D, 0)
def enumAll (G : Grammar P T) (toks : List T) : Nat → List (Term P) → Nat → Nat → List (List (DTree P T))
  | _, [], _, _ => [[]]
  | D, x :: xs, i, j =>
    (List.range (j + 1)).flatMap (fun m => (enum G toks D x i m).flatMap (fun t =>
      (enumAll G toks D xs m j).map (fun ts => t :: ts)))
termination_by D xs => (D, xs.length + 1)
end

theorem mem_enumAll_of (D : Nat)
    (henum : ∀ x i j d, Derives G toks x i j d → ddepth d ≤ D → d ∈ enum G toks D x i j) :
    ∀ (xs : List (Term P)) (i j : Nat) (ds : List (DTree P T)), DerivesAll G toks xs i j ds →
      ddepthAll ds ≤ D → ds ∈ enumAll G toks D xs i j
  | [], i, j, ds, h, _ => by cases h; simp [enumAll]
  | x :: xs, i, j, ds, h, hd => by
    cases h with
    | @cons _ _ _ m _ t ts h1 h2 =>
      simp only [ddepthAll] at hd
      have hle : m ≤ j := by
        -- the rest derives from m to j
        have key : ∀ (xs : List (Term P)) (i j : Nat) (ds : List (DTree P T)),
            DerivesAll G toks xs i j ds → i ≤ j := by
          intro xs
          induction xs with
          | nil => intro i j ds h; cases h; exact Nat.le_refl _
          | cons y ys ih =>
            intro i j ds h
            cases h with
            | cons h1 h2 => exact Nat.le_trans (derives_le h1) (ih _ _ _ h2)
        exact key _ _ _ _ h2
      rw [enumAll]
      refine List.mem_flatMap.2 ⟨m, List.mem_range.2 (by omega), ?_⟩
      refine List.mem_flatMap.2 ⟨t, henum _ _ _ _ h1 (by omega), ?_⟩
      exact List.mem_map.2 ⟨ts, mem_enumAll_of D henum xs m j ts h2 (by omega), rfl⟩

theorem mem_enum : ∀ (D : Nat) (x : Term P) (i j : Nat) (d : DTree P T),
    Derives G toks x i j d → ddepth d ≤ D → d ∈ enum G toks D x i j := by
  intro D
  induction D with
  | zero =>
    intro x i j d h hd
    cases h with
    | leaf h1 h2 => simp [enum, h1]
    | node => simp only [ddepth] at hd; omega
  | succ D ih =>
    intro x i j d h hd
    cases h with
    | leaf h1 h2 => simp [enum, h1]
    | @node r _ _ prod cs hp hall =>
      simp only [ddepth] at hd
      rw [enum]
      refine List.mem_flatMap.2 ⟨prod, hp, List.mem_map.2 ⟨cs, ?_, rfl⟩⟩
      exact mem_enumAll_of D ih _ _ _ _ hall (by omega)

theorem mem_enumAll (D : Nat) (xs : List (Term P)) (i j : Nat) (ds : List (DTree P T))
    (h : DerivesAll G toks xs i j ds) (hd : ddepthAll ds ≤ D) : ds ∈ enumAll G toks D xs i j :=
  mem_enumAll_of D (mem_enum D) xs i j ds h hd

/-! ### Acyclic grammars have shallow derivations -/

theorem derivesAll_le {xs : List (Term P)} {i j : Nat} {ds : List (DTree P T)}
    (h : DerivesAll G toks xs i j ds) : i ≤ j := by
  induction xs generalizing i ds with
  | nil => cases h; exact Nat.le_refl _
  | cons y ys ih =>
    cases h with
    | cons h1 h2 => exact Nat.le_trans (derives_le h1) (ih h2)

theorem derivesAll_append {xs ys : List (Term P)} {i j k : Nat} {ds es : List (DTree P T)}
    (h : DerivesAll G toks xs i j ds) (h' : DerivesAll G toks ys j k es) :
    DerivesAll G toks (xs ++ ys) i k (ds ++ es) := by
  induction xs generalizing i ds with
  | nil => cases h; exact h'
  | cons x xs ih =>
    cases h with
    | cons h1 h2 => exact .cons h1 (ih h2)

theorem production_lt {r : Nat} {prod : Production P} (h : prod ∈ G.productions r) :
    r < G.rules.length := by
  unfold Grammar.productions at h
  split at h
  · rename_i hr; exact (List.getElem?_eq_some_iff.1 hr).1
  · simp at h

/-- a bound on the depth of derivations over a range, given that the rules `V` lie strictly above
on the same range -/
def depthBound (N i j v : Nat) : Nat := (j - i) * (N + 2) + (N - v) + 1

theorem depth_bound (hA : Acyclic G toks) : ∀ (x : Term P) (i j : Nat) (d : DTree P T),
    Derives G toks x i j d → ∀ (V : List Nat), V.Nodup → (∀ v ∈ V, v < G.rules.length) →
    (∀ r, x = .rule r → ∀ v ∈ V, Relation.TransGen (Above G toks i j) v r) →
    ddepth d ≤ depthBound G.rules.length i j V.length := by
  intro x i j d h
  -- the second motive: children of a node of rule `r` with production `pre ++ xs`
  refine Derives.rec
    (motive_1 := fun x i j d _ => ∀ (V : List Nat), V.Nodup → (∀ v ∈ V, v < G.rules.length) →
      (∀ r, x = .rule r → ∀ v ∈ V, Relation.TransGen (Above G toks i j) v r) →
      ddepth d ≤ depthBound G.rules.length i j V.length)
    (motive_2 := fun xs m j ds _ => ∀ (r i : Nat) (prod : Production P) (pre : List (Term P))
      (V : List Nat), prod ∈ G.productions r → prod.terms = pre ++ xs →
      (∃ es, DerivesAll G toks pre i m es) → V.Nodup → (∀ v ∈ V, v < G.rules.length) → r ∉ V →
      (∀ v ∈ V, Relation.TransGen (Above G toks i j) v r) →
      ddepthAll ds + 1 ≤ depthBound G.rules.length i j V.length) ?_ ?_ ?_ ?_ h
  · intro p i t _ _ V _ _ _
    simp [ddepth]
  · intro r i j prod cs hp hall ih V hV hlt habove
    have hr : r ∉ V := fun hin => hA i j r (habove r rfl r hin)
    have := ih r i prod [] V hp rfl ⟨[], .nil⟩ hV hlt hr (habove r rfl)
    simp only [ddepth]; omega
  · intro m r i prod pre V hp hterms hpre hV hlt hr habove
    simp [ddepthAll, depthBound]
  · intro x xs m k j t ts hx hxs ih1 ih2 r i prod pre V hp hterms hpre hV hlt hr habove
    obtain ⟨es, hpre⟩ := hpre
    have hrest := ih2 r i prod (pre ++ [x]) V hp (by simp [hterms])
      ⟨_, derivesAll_append hpre (.cons hx .nil)⟩ hV hlt hr habove
    have hi := derivesAll_le hpre
    have hm := derives_le hx
    have hk := derivesAll_le hxs
    have hVr : (r :: V).length ≤ G.rules.length := by
      have hsub : (r :: V) ⊆ List.range G.rules.length := by
        intro v hv
        rcases List.mem_cons.1 hv with rfl | hv
        · exact List.mem_range.2 (production_lt hp)
        · exact List.mem_range.2 (hlt v hv)
      have hnd : (r :: V).Nodup := List.nodup_cons.2 ⟨hr, hV⟩
      have := List.Nodup.length_le_of_subset hnd hsub
      simpa using this
    simp only [List.length_cons] at hVr
    have hhead : ddepth t + 1 ≤ depthBound G.rules.length i j V.length := by
      by_cases hsame : m = i ∧ k = j
      · obtain ⟨rfl, rfl⟩ := hsame
        cases x with
        | pred p =>
          cases hx
          simp only [ddepth, depthBound]; omega
        | rule r' =>
          have hab : Above G toks m k r r' :=
            ⟨prod, hp, pre, xs, hterms, ⟨_, hpre⟩, ⟨_, hx⟩, ⟨_, hxs⟩⟩
          have := ih1 (r :: V) (List.nodup_cons.2 ⟨hr, hV⟩) (by
              intro v hv
              rcases List.mem_cons.1 hv with rfl | hv
              · exact production_lt hp
              · exact hlt v hv) (by
              intro r2 he v hv
              cases he
              rcases List.mem_cons.1 hv with rfl | hv
              · exact .single hab
              · exact .tail (habove v hv) hab)
          simp only [depthBound, List.length_cons] at this ⊢
          omega
      · have hlt' : k - m + 1 ≤ j - i := by omega
        have := ih1 [] List.nodup_nil (by simp) (by simp)
        simp only [depthBound, List.length_nil] at this ⊢
        have hmul : (k - m) * (G.rules.length + 2) + (G.rules.length + 2) ≤ (j - i) * (G.rules.length + 2) := by
          have := Nat.mul_le_mul_right (G.rules.length + 2) hlt'
          rw [Nat.add_mul, Nat.one_mul] at this
          exact this
        omega
    simp only [ddepthAll]
    omega

theorem derives_depth (hA : Acyclic G toks) {x : Term P} {i j : Nat} {d : DTree P T}
    (h : Derives G toks x i j d) : ddepth d ≤ depthBound G.rules.length i j 0 :=
  depth_bound hA x i j d h [] List.nodup_nil (by simp) (by simp)

theorem derivesAll_depth (hA : Acyclic G toks) {D : Nat} : ∀ {xs : List (Term P)} {i j : Nat}
    {ds : List (DTree P T)}, DerivesAll G toks xs i j ds →
    (∀ a b, i ≤ a → b ≤ j → depthBound G.rules.length a b 0 ≤ D) → ddepthAll ds ≤ D
  | [], i, j, ds, h, hD => by cases h; simp [ddepthAll]
  | x :: xs, i, j, ds, h, hD => by
    cases h with
    | @cons _ _ _ m _ t ts h1 h2 =>
      have e1 := derives_le h1
      have e2 := derivesAll_le h2
      have := derives_depth hA h1
      have := hD i m (Nat.le_refl _) e2
      have := derivesAll_depth hA h2 (D := D) (fun a b ha hb => hD a b (by omega) hb)
      simp only [ddepthAll]; omega

/-! ### Columns are bounded -/

/-- what identifies a state of a column -/
def State.ident (s : State P T) : Nat × Production P × Nat × Nat × List (DTree P T) :=
  (s.rule, s.prod, s.dot, s.start, s.children.map PTree.erase)

/-- all identities a state of column `k` can have -/
def idents (G : Grammar P T) (toks : List T) (k : Nat) :
    List (Nat × Production P × Nat × Nat × List (DTree P T)) :=
  (List.range G.rules.length).flatMap (fun r => (G.productions r).flatMap (fun prod =>
    (List.range (prod.terms.length + 1)).flatMap (fun dot => (List.range (k + 1)).flatMap (fun i =>
      (enumAll G toks (depthBound G.rules.length 0 k 0) (prod.terms.take dot) i k).map
        (fun ds => (r, prod, dot, i, ds))))))

theorem ident_mem (hA : Acyclic G toks) {k : Nat} {s : State P T} (h : StateOK G toks k s) :
    s.ident ∈ idents G toks k := by
  unfold idents State.ident
  refine List.mem_flatMap.2 ⟨s.rule, List.mem_range.2 (production_lt h.prod), ?_⟩
  refine List.mem_flatMap.2 ⟨s.prod, h.prod, ?_⟩
  refine List.mem_flatMap.2 ⟨s.dot, List.mem_range.2 (by have := h.dot; omega), ?_⟩
  refine List.mem_flatMap.2 ⟨s.start, List.mem_range.2 (by have := h.le; omega), ?_⟩
  refine List.mem_map.2 ⟨_, mem_enumAll _ _ _ _ _ h.derives ?_, rfl⟩
  refine derivesAll_depth hA h.derives ?_
  intro a b ha hb
  unfold depthBound
  have : (b - a) * (G.rules.length + 2) ≤ (k - 0) * (G.rules.length + 2) :=
    Nat.mul_le_mul_right _ (by omega)
  omega

theorem column_bounded (hA : Acyclic G toks) {c : Config P T H} (h : UniqInv G hash toks c) {k : Nat}
    {col : Column P T H} (hc : c.cols[k]? = some col) :
    col.states.length ≤ (idents G toks k).length := by
  have hnd : (col.states.map State.ident).Nodup := by
    unfold List.Nodup
    rw [List.pairwise_map]
    refine List.Pairwise.imp_of_mem ?_ (h.hashes _ _ hc).nodup
    intro a b ha hb hne he
    have e : a.rule = b.rule ∧ a.prod = b.prod ∧ a.dot = b.dot ∧ a.start = b.start ∧
        a.children.map PTree.erase = b.children.map PTree.erase := by
      simp only [State.ident, Prod.mk.injEq] at he; exact he
    obtain ⟨e1, e2, e3, e4, e5⟩ := e
    have := (unique_state h _ _ _ a b (Nat.le_refl _) ⟨col, hc, ha⟩ ⟨col, hc, hb⟩ e1 e2 e3 e4 e5).1
    rw [this] at hne; exact hne rfl
  have hsub : col.states.map State.ident ⊆ idents G toks k := by
    intro x hx
    obtain ⟨s, hs, rfl⟩ := List.mem_map.1 hx
    exact ident_mem hA (h.sound.states _ _ ⟨col, hc, hs⟩)
  have := List.Nodup.length_le_of_subset hnd hsub
  simpa using this

/-! ### A measure -/

def natMax : List Nat → Nat
  | [] => 0
  | a :: l => max a (natMax l)

theorem le_natMax {l : List Nat} {a : Nat} (h : a ∈ l) : a ≤ natMax l := by
  induction l with
  | nil => simp at h
  | cons b l ih =>
    simp only [natMax]
    rcases List.mem_cons.1 h with rfl | h
    · omega
    · have := ih h; omega

/-- a bound for all columns -/
def colBound (G : Grammar P T) (toks : List T) : Nat :=
  natMax ((List.range (toks.length + 1)).map (fun k => (idents G toks k).length))

def inner (B : Nat) : Phase P T → Nat
  | .enter => (B + 1) * (B + 3) + 2
  | .at i => (B + 1 - i) * (B + 3) + 1
  | .complete i _ j => (B + 1 - i) * (B + 3) - j
  | .done => 0

def measure' (B : Nat) (c : Config P T H) : Nat :=
  (c.cols.length - c.k) * ((B + 1) * (B + 3) + 3) + inner B c.phase

structure TermInv (G : Grammar P T) (hash : Key → H) (toks : List T) (c : Config P T H) : Prop where
  uniq : UniqInv G hash toks c
  pos : ∀ i s j, c.phase = .complete i s j →
    (∃ col, c.cols[c.k]? = some col ∧ i < col.states.length) ∧ j ≤ (parentsOf c.cols s).length

theorem predict_length (cols : List (Column P T H)) (k r ctr : Nat) :
    (predict G hash toks k r cols ctr).1.length = cols.length :=
  predict_induct (M := fun cs _ => cs.length = cols.length) G hash toks k r cols ctr rfl
    (fun cs ctr prod rank _ hc => by rw [appendAt_length]; exact hc)

theorem termInv_trans (hG : PredictSound G) (c c' : Config P T H) (ht : Trans G hash toks all c c')
    (h : TermInv G hash toks c) : TermInv G hash toks c' := by
  refine ⟨⟨soundInv_trans hG _ _ ht h.uniq.sound, hashCols_trans _ _ ht h.uniq.hashes,
      originCols_trans _ _ ht h.uniq.sound h.uniq.origin,
      scanInv_trans _ _ ht h.uniq.sound h.uniq.hashes h.uniq.scan⟩, ?_⟩
  intro i s j hp
  cases ht with
  | enterPredict => cases hp
  | enterSkip => cases hp
  | nextColumn => cases hp
  | finish => cases hp
  | @startComplete cols ctr k i' col s' hc hs hcomp =>
    cases hp
    exact ⟨⟨col, hc, (List.getElem?_eq_some_iff.1 hs).1⟩, Nat.zero_le _⟩
  | predictRule => cases hp
  | scanAccept => cases hp
  | scanReject => cases hp
  | @completeNext cols ctr k i' s' j' p hp' =>
    cases hp
    obtain ⟨⟨col, h1, h2⟩, h3⟩ := h.pos i s j' rfl
    refine ⟨⟨col.append hash (completeState k s p ctr), ?_, ?_⟩, ?_⟩
    · dsimp only at h1 ⊢
      rw [appendAt_get?]; simp [h1]
    · have := (append_prefix hash col (completeState k s p ctr)).length_le
      omega
    · have := (parentsOf_prefix (hash := hash) cols k (completeState k s p ctr) s).length_le
      have hj := (List.getElem?_eq_some_iff.1 hp').1
      dsimp only at *
      omega
  | completeEnd => cases hp
  | done => cases hp

theorem termInv_runN (hG : PredictSound G) (n : Nat) : TermInv G hash toks (runN G hash toks all n) :=
  runN_induct (M := TermInv G hash toks) G hash toks all
    ⟨⟨soundInv_init, hashCols_init, originCols_init, scanInv_init⟩, by simp [initConfig]⟩
    (fun c c' ht h => termInv_trans hG c c' ht h) n

theorem col_le_bound (hA : Acyclic G toks) {c : Config P T H} (h : UniqInv G hash toks c) {k : Nat}
    {col : Column P T H} (hc : c.cols[k]? = some col) : col.states.length ≤ colBound G toks := by
  have h1 := column_bounded hA h hc
  have hk : k < toks.length + 1 := by
    have := (List.getElem?_eq_some_iff.1 hc).1
    rw [h.sound.len] at this; exact this
  have : (idents G toks k).length ≤ colBound G toks :=
    le_natMax (List.mem_map.2 ⟨k, List.mem_range.2 hk, rfl⟩)
  omega

theorem parents_le_bound (hA : Acyclic G toks) {c : Config P T H} (h : UniqInv G hash toks c)
    {s : State P T} : (parentsOf c.cols s).length ≤ colBound G toks := by
  unfold parentsOf
  split
  · rename_i col hc
    have h1 := col_le_bound hA h hc
    have h2 := (h.hashes _ _ hc).index
    unfold Column.parents
    rw [List.length_map]
    have h3 := List.length_filter_le (fun e : Nat × State P T => e.1 == s.rule) col.index
    have h4 : col.index.length ≤ col.states.length := by
      rw [h2]; exact List.length_filterMap_le _ _
    omega
  · simp

theorem measure_decreases (hA : Acyclic G toks) (c c' : Config P T H)
    (ht : Trans G hash toks all c c') (h : TermInv G hash toks c) (hd : c.phase ≠ .done) :
    measure' (colBound G toks) c' < measure' (colBound G toks) c := by
  generalize hB : colBound G toks = B
  have hcol : ∀ (k : Nat) (col : Column P T H), c.cols[k]? = some col → col.states.length ≤ B := by
    intro k col hc; rw [← hB]; exact col_le_bound hA h.uniq hc
  have hpar : ∀ s, (parentsOf c.cols s).length ≤ B := by
    intro s; rw [← hB]; exact parents_le_bound hA h.uniq
  have hmul : ∀ i, i ≤ B → (B + 1 - (i + 1)) * (B + 3) + (B + 3) = (B + 1 - i) * (B + 3) := by
    intro i hi
    have : B + 1 - i = (B + 1 - (i + 1)) + 1 := by omega
    rw [this, Nat.add_mul, Nat.one_mul]
  cases ht with
  | @enterPredict cols ctr k hk =>
    simp only [measure', inner, predict_length, Nat.sub_zero]; omega
  | @enterSkip cols ctr k hk =>
    simp only [measure', inner, Nat.sub_zero]; omega
  | @nextColumn cols ctr k i hn hk =>
    simp only [measure', inner]
    have : cols.length - k = (cols.length - (k + 1)) + 1 := by omega
    generalize hW : (B + 1) * (B + 3) = W
    rw [this, Nat.add_mul _ 1, Nat.one_mul]
    omega
  | @finish cols ctr k i hn hk =>
    simp only [measure', inner]; omega
  | @startComplete cols ctr k i col s hc hs hcomp =>
    have hi := (List.getElem?_eq_some_iff.1 hs).1
    have := hcol _ _ hc
    have := hmul i (by omega)
    simp only [measure', inner]; omega
  | @predictRule cols ctr k i col s r hc hs hr =>
    have hi := (List.getElem?_eq_some_iff.1 hs).1
    have := hcol _ _ hc
    have := hmul i (by omega)
    simp only [measure', inner, predict_length]; omega
  | @scanAccept cols ctr k i col s p t hc hs hn ht ha =>
    have hi := (List.getElem?_eq_some_iff.1 hs).1
    have := hcol _ _ hc
    have := hmul i (by omega)
    simp only [measure', inner, appendAt_length]; omega
  | @scanReject cols ctr k i col s p hc hs hn hrej =>
    have hi := (List.getElem?_eq_some_iff.1 hs).1
    have := hcol _ _ hc
    have := hmul i (by omega)
    simp only [measure', inner]; omega
  | @completeNext cols ctr k i s j p hp =>
    have hj := (List.getElem?_eq_some_iff.1 hp).1
    have := hpar s
    obtain ⟨⟨col, h1, h2⟩, h3⟩ := h.pos i s j rfl
    have := hcol _ _ h1
    have := hpar s
    have := hmul i (by omega)
    dsimp only at *
    simp only [measure', inner, appendAt_length]; omega
  | @completeEnd cols ctr k i s j hp =>
    obtain ⟨⟨col, h1, h2⟩, h3⟩ := h.pos i s j rfl
    have := hcol _ _ h1
    have := hpar s
    have := hmul i (by omega)
    dsimp only at *
    simp only [measure', inner]; omega
  | done => exact absurd rfl hd

theorem reaches_done (hG : PredictSound G) (hA : Acyclic G toks) :
    ∀ (m n : Nat), measure' (colBound G toks) (runN G hash toks all n) ≤ m →
      ∃ n', (runN G hash toks all n').phase = .done := by
  intro m
  induction m with
  | zero =>
    intro n hm
    by_cases hd : (runN G hash toks all n).phase = .done
    · exact ⟨n, hd⟩
    · have := measure_decreases hA _ _ (step_trans G hash toks all _) (termInv_runN (all := all) hG n) hd
      omega
  | succ m ih =>
    intro n hm
    by_cases hd : (runN G hash toks all n).phase = .done
    · exact ⟨n, hd⟩
    · have := measure_decreases hA _ _ (step_trans G hash toks all _) (termInv_runN (all := all) hG n) hd
      exact ih (n + 1) (by simp only [runN]; omega)

/-! ### Divergence -/

theorem derivesAllSafe_append {b : Before P} {xs ys : List (Term P)} {i j k : Nat}
    {ds es : List (DTree P T)} (h : DerivesAllSafe G toks b xs i j ds)
    (h' : ∀ b, DerivesAllSafe G toks b ys j k es) : DerivesAllSafe G toks b (xs ++ ys) i k (ds ++ es) := by
  induction xs generalizing i ds b with
  | nil => cases h; exact h' _
  | cons x xs ih =>
    cases h with
    | consLeaf h1 h2 => exact .consLeaf h1 (ih h2)
    | consNode h1 h2 h3 => exact .consNode h1 h2 (ih h3)

theorem below_grow {a b : Goal} (h : Below G toks a b) {t : DTree P T}
    (ht : DerivesSafe G toks (.rule b.rule) b.start b.stop t) :
    ∃ t', DerivesSafe G toks (.rule a.rule) a.start a.stop t' ∧ dsize t < dsize t' := by
  obtain ⟨prod, hp, pre, post, ds, ds', he, h1, hlt, h2⟩ := h
  refine ⟨.node a.rule prod (ds ++ t :: ds'), .node hp ?_, ?_⟩
  · rw [he]
    exact derivesAllSafe_append h1 (fun b => .consNode ht (Or.inl hlt) h2)
  · simp only [dsize, dsizeAll_append, dsizeAll]; omega

theorem below_grow_trans {a b : Goal} (h : Relation.TransGen (Below G toks) a b) {t : DTree P T}
    (ht : DerivesSafe G toks (.rule b.rule) b.start b.stop t) :
    ∃ t', DerivesSafe G toks (.rule a.rule) a.start a.stop t' ∧ dsize t < dsize t' := by
  induction h generalizing t with
  | single h => exact below_grow h ht
  | tail _ h ih =>
    obtain ⟨t1, h1, h2⟩ := below_grow h ht
    obtain ⟨t2, h3, h4⟩ := ih h1
    exact ⟨t2, h3, by omega⟩

theorem pump {g : Goal} (h : Relation.TransGen (Below G toks) g g) {t : DTree P T}
    (ht : DerivesSafe G toks (.rule g.rule) g.start g.stop t) : ∀ n : Nat,
    ∃ t', DerivesSafe G toks (.rule g.rule) g.start g.stop t' ∧ n ≤ dsize t'
  | 0 => ⟨t, ht, Nat.zero_le _⟩
  | n + 1 => by
    obtain ⟨t', h1, h2⟩ := pump h ht n
    obtain ⟨t'', h3, h4⟩ := below_grow_trans h h1
    exact ⟨t'', h3, by omega⟩

theorem needed_pred (hL : PredictLossless G) {cols : List (Column P T H)}
    (hC : Closed G toks all cols) {r i : Nat} (h : Needed G toks all r i) :
    HasPred G toks cols i r := by
  induction h with
  | start h1 h2 => exact hC.start _ h1 h2
  | @part r i prod pre r' post j ds _ hp he hd ih =>
    have hmem : prod ∈ predicted G toks i r := by
      unfold predicted
      cases ht : toks[i]? with
      | none => exact hp
      | some t =>
        refine hL _ _ _ hp ?_
        intro p hpp
        rw [he] at hpp
        cases pre with
        | nil => simp at hpp
        | cons x pre => exact head_accepts hd ht p hpp
    obtain ⟨s0, h1, h2, h3, h4, h5, h6⟩ := ih prod hmem
    obtain ⟨s', g1, g2, g3, g4, g5, g6⟩ :=
      (closed_both hL hC).2 _ _ _ _ _ hd s0 (.rule r' :: post) h1 (by rw [h3, h4, he]; rfl) ⟨h2, h3, h4⟩
    refine (hC.handled _ _ g1).pred r' ?_
    unfold State.next
    rw [g5, g2, h3, h4, he]
    simp

theorem never_done (hG : PredictSound G) (hL : PredictLossless G) (hD : DistinctProductions G)
    (hh : ∀ a b, hash a = hash b → a = b) {g : Goal} {t : DTree P T}
    (hn : Needed G toks all g.rule g.start) (hcyc : Relation.TransGen (Below G toks) g g)
    (ht : DerivesSafe G toks (.rule g.rule) g.start g.stop t) (n : Nat) :
    (runN G hash toks all n).phase ≠ .done := by
  intro hd
  have hC := closed_of_done (toks := toks) (all := all) hG hD hh hd
  generalize (runN G hash toks all n).cols = cols at hC
  have hpred := needed_pred hL hC hn
  let m := natMax (cols.flatMap (fun c => c.states.map (fun s => dsize s.dtree)))
  obtain ⟨t', h1, h2⟩ := pump hcyc ht (m + 1)
  obtain ⟨s, ⟨c, hc, hs⟩, _, _, _, h3⟩ := closed_complete hL hC _ _ _ _ h1 _ rfl hpred
  have : dsize s.dtree ≤ m :=
    le_natMax (List.mem_flatMap.2 ⟨c, List.mem_of_getElem? hc, List.mem_map.2 ⟨s, hs, rfl⟩⟩)
  rw [h3] at this
  omega

end Yargy
