import Verif.Proofs.OutlineWords
/-!
C53: the tree of a parse has the structure of the rule.
-/
namespace Yargy
open Spec Pick

variable {L : Lang} {setOrder : List Str → List Str} {c : Context} {split : Str → List Str}
  {relation : Nat → Relation} {pid : Nat → Nat} {limit root : Nat} {h h' : Heap Pred} {b : Built}
  {H : Type} [DecidableEq H] {hash : Key → H} {toks : List Token}

/-- C53: the structure of every derivation is one that the rule describes, and its predicates accept the
tokens. -/
theorem parse_outline (hrun : Run L setOrder [] h) (hr : RuleAt h root) (ho : Orderly (settle h) root)
    (hp : ∀ a b, pid a = pid b → a = b) (hs : SetOrder setOrder)
    (hb : buildParser L setOrder c split relation pid limit root h = .ok (b, h')) {i j : Nat}
    {d : DTree Pred Token} (hd : Derives b.grammar toks (.rule b.grammar.start) i j d) :
    Forms (c.activation L split) (settle h) (.rule root) (outline d) ∧
      AcceptedBy (Pred.accepts L) toks (outline d).preds i j := by
  obtain ⟨k1, k2⟩ := parse_choices hrun hr ho hp hs hb hd
  obtain ⟨s, k3, k4⟩ := segAll_one (picks_seg ho.bounds k1 (by
    intro r hr; simp only [List.mem_singleton, Piece.rule.injEq] at hr; subst hr; exact .root))
  rw [marks_code] at k4
  obtain ⟨e, _⟩ := code_inj (outline d) s [] [] (by simpa using k4)
  refine ⟨e ▸ k3, ?_⟩
  rw [suits_preds, ← wordPreds_bare, marks_code, wordPreds_code] at k2
  exact k2

/-- C53: every structure that the rule describes and whose predicates accept the tokens is that of a
derivation. -/
theorem outline_parse (hrun : Run L setOrder [] h) (hr : RuleAt h root) (ho : Orderly (settle h) root)
    (hp : ∀ a b, pid a = pid b → a = b) (hs : SetOrder setOrder)
    (hb : buildParser L setOrder c split relation pid limit root h = .ok (b, h')) {i j : Nat}
    {s : Outline Pred} (hf : Forms (c.activation L split) (settle h) (.rule root) s)
    (ha : AcceptedBy (Pred.accepts L) toks s.preds i j) :
    ∃ d, Derives b.grammar toks (.rule b.grammar.start) i j d ∧ outline d = s := by
  obtain ⟨h1, h2, h3, _⟩ := program_picks (toks := toks) hrun hr ho hp hs hb
  obtain ⟨w, k1, k2⟩ := forms_picks ho.bounds hf (by rintro r ⟨⟩; exact .root)
  have k3 : Suits (Pred.accepts L) toks w i j := by
    rw [suits_preds, ← wordPreds_bare, k2, wordPreds_code]; exact ha
  obtain ⟨d, hd, _, e⟩ := tells_derives h2 .root h3 ((h1 w).2 k1) k3
  rw [k2, marks_code] at e
  exact ⟨d, hd, (code_inj (outline d) s [] [] (by simpa using e)).1⟩

/-- C53: the tree of every reported parse has a structure that the rule describes. -/
theorem reported_outline (hrun : Run L setOrder [] h) (hr : RuleAt h root) (ho : Orderly (settle h) root)
    (hp : ∀ a b, pid a = pid b → a = b) (hs : SetOrder setOrder)
    (hb : buildParser L setOrder c split relation pid limit root h = .ok (b, h'))
    {all : Bool} {fuel : Nat} {cols : List (Column Pred Token H)}
    (hc : chart b.grammar hash toks all fuel = some cols) (s : State Pred Token)
    (hs1 : s ∈ chartMatches b.grammar.start all cols) :
    Forms (c.activation L split) (settle h) (.rule root) (outline s.tree.root.erase) ∧
      AcceptedBy (Pred.accepts L) toks (outline s.tree.root.erase).preds s.start s.stop := by
  obtain ⟨_, _, _, h4, _⟩ := program_picks (toks := toks) hrun hr ho hp hs hb
  exact parse_outline hrun hr ho hp hs hb (chart_matches_sound h4 hc s hs1)

/-! ### Main words -/

theorem eraseAll_trees {P T : Type} (cs : List (PTree P T)) : eraseAll cs = cs.map PTree.erase := by
  induction cs with
  | nil => rfl
  | cons c cs ih => simp [eraseAll, ih]

theorem outlineAll_map {P T : Type} (cs : List (DTree P T)) : outlineAll cs = cs.map outline := by
  induction cs with
  | nil => rfl
  | cons c cs ih => simp [outlineAll, ih]

theorem group_preds {P : Type} (m : Nat) (ss : List (Outline P)) : (group m ss).preds = predsAll ss := by
  match ss with
  | [] => rfl
  | [s] => simp [group, predsAll]
  | s :: t :: ss => rfl

theorem titled_preds {P : Type} (k : Option Str) (s : Outline P) : (titled k s).preds = s.preds := by
  cases k <;> rfl

theorem titled_main {P : Type} {k : Option Str} {s : Outline P} {n : Nat} (hm : MainWord s n) :
    MainWord (titled k s) n := by
  cases k with
  | none => exact hm
  | some v => exact .entry hm

theorem predsAll_flatMap {P : Type} (ss : List (Outline P)) : predsAll ss = ss.flatMap Outline.preds := by
  induction ss with
  | nil => rfl
  | cons s ss ih => simp [predsAll, ih]

theorem outline_leaves {P T : Type} (t : PTree P T) : (outline t.erase).preds.length = t.leaves.length := by
  refine ptree_induct (M := fun t => (outline t.erase).preds.length = t.leaves.length) ?_ ?_ t
  · intro l p t; rfl
  · intro n r prod k cs ih
    rw [PTree.erase, outline, titled_preds, group_preds, leaves_node, predsAll_flatMap, outlineAll_map, eraseAll_trees]
    clear n r prod k
    induction cs with
    | nil => rfl
    | cons c cs ih2 =>
      simp only [List.map_cons, List.flatMap_cons, List.length_append]
      rw [ih c List.mem_cons_self, ih2 fun x hx => ih x (List.mem_cons_of_mem _ hx)]

theorem outlines_leaves {P T : Type} (cs : List (PTree P T)) :
    (predsAll (cs.map fun c => outline c.erase)).length = (cs.flatMap PTree.leaves).length := by
  induction cs with
  | nil => rfl
  | cons c cs ih =>
    simp only [List.map_cons, predsAll, List.length_append, List.flatMap_cons]
    rw [ih, outline_leaves c]

/-- C53, C27: the head of a part of a tree, the word that agreement looks at, is the word one comes to by
following the main parts of the structure. -/
theorem outline_main {P T : Type} {t : PTree P T} {l : Nat} {w : T} (hd : HeadOf t l w) :
    ∃ k, MainWord (outline t.erase) k ∧ t.leaves[k]? = some (l, w) := by
  induction hd with
  | leaf => exact ⟨0, .leaf, rfl⟩
  | @node n r prod rank cs x l t hc _ ih =>
    obtain ⟨k, k1, k2⟩ := ih
    rw [PTree.erase, outline, outlineAll_map, eraseAll_trees, List.map_map]
    rw [leaves_node]
    have key : (cs.map (outline ∘ PTree.erase))[prod.main]? = some (outline x.erase) := by
      rw [List.getElem?_map, hc]; rfl
    have hk : k < x.leaves.length := (List.getElem?_eq_some_iff.1 k2).1
    match cs, hc, key with
    | [c], hc, key =>
      have : prod.main = 0 := by
        have := (List.getElem?_eq_some_iff.1 hc).1
        simp at this; exact this
      rw [this] at hc
      cases hc
      exact ⟨k, titled_main k1, by simpa using k2⟩
    | [], hc, _ => simp at hc
    | c1 :: c2 :: cs, hc, key =>
      refine ⟨_, titled_main (.node key k1), ?_⟩
      show (List.flatMap PTree.leaves (c1 :: c2 :: cs))[(predsAll (List.take prod.main
        ((c1 :: c2 :: cs).map fun c => outline c.erase))).length + k]? = _
      generalize c1 :: c2 :: cs = cs at hc
      rw [← List.map_take, outlines_leaves]
      obtain ⟨hlt, hx⟩ := List.getElem?_eq_some_iff.1 hc
      have e : cs.flatMap PTree.leaves = (cs.take prod.main).flatMap PTree.leaves ++
          (cs.drop prod.main).flatMap PTree.leaves := by
        rw [← List.flatMap_append, List.take_append_drop]
      rw [e, List.getElem?_append_right (by omega), Nat.add_sub_cancel_left,
        List.drop_eq_getElem_cons hlt, hx, List.flatMap_cons, List.getElem?_append_left hk, k2]

/-! ### Samples -/

instance {P : Type} [DecidableEq P] : DecidableEq (Outline P) := fun s t =>
  if e : code s = code t then .isTrue (code_inj s t [] [] (by simpa using e)).1
  else .isFalse (fun hst => e (by rw [hst]))

mutual
/-- A structure with something else at the leaves. -/
def Outline.map {P Q : Type} (f : P → Q) : Outline P → Outline Q
  | .leaf p => .leaf (f p)
  | .node m ss => .node m (mapAll f ss)
  | .entry v s => .entry v (s.map f)
def mapAll {P Q : Type} (f : P → Q) : List (Outline P) → List (Outline Q)
  | [] => []
  | s :: ss => s.map f :: mapAll f ss
end

/-- What `eq` compares with. -/
def eqValue : Pred → String
  | .eq v => String.ofList v
  | _ => "?"

/-- The structures of the reported parses. -/
def outlines (b : Built) (toks : List Token) : Option (List (Outline String)) :=
  (chart b.grammar (id : Key → Key) toks false 300).map (fun cols =>
    (chartMatches b.grammar.start false cols).map (fun s => (outline s.tree.root.erase).map eqValue))

/-- `X = rule('a'); rule(X.repeatable(), main(rule('b', main('c'))))` -/
def mainSource : Heap Pred :=
  [.prod [.pred (.eq "a".toList)] 0, .rule [0], .repeatable 1 false,
   .prod [.pred (.eq "b".toList), .pred (.eq "c".toList)] 1, .rule [3],
   .prod [.rule 2, .rule 4] 1, .rule [5]]

theorem mainSource_run : Run L setOrder [] mainSource := makeAll_run (h := []) (by decide +kernel)

theorem mainSource_orderly (root : Nat) : Orderly (settle mainSource) root := by
  refine orderly_of ?_ ?_
  · intro o ho
    simp only [mainSource, List.mem_cons, List.not_mem_nil, or_false] at ho
    rcases ho with rfl | rfl | rfl | rfl | rfl | rfl | rfl <;> exact ⟨trivial, trivial, rfl⟩
  · intro o ho c q hc hq
    simp only [mainSource, List.mem_cons, List.not_mem_nil, or_false] at ho
    rcases ho with rfl | rfl | rfl | rfl | rfl | rfl | rfl <;> cases hc <;> cases hq <;> rfl

def mainOutline : Outline Pred :=
  .node 1 [.node 0 [.leaf (.eq "a".toList), .leaf (.eq "a".toList)],
    .node 1 [.leaf (.eq "b".toList), .leaf (.eq "c".toList)]]

/-- The hypotheses of `parse_outline` and `reported_outline` are met: `a a b c` is reported with the repeated
words in one part and the others in another one; the main word is the fourth one. -/
example : Run sampleLang sampleOrder [] mainSource ∧ RuleAt mainSource 6 ∧ Orderly (settle mainSource) 6 ∧
    MainWord mainOutline 3 ∧
    ∃ b h', sampleBuild 6 mainSource = .ok (b, h') ∧
      outlines b (["a", "a", "b", "c"].map sourceWord) = some [mainOutline.map eqValue] := by
  refine ⟨mainSource_run, ⟨_, rfl, rfl⟩, mainSource_orderly 6, .node (k := 1) rfl (.node (k := 0) rfl .leaf), ?_⟩
  have key : (match sampleBuild 6 mainSource with
      | .ok (b, _) => decide (outlines b (["a", "a", "b", "c"].map sourceWord) = some [mainOutline.map eqValue])
      | .error _ => false) = true := by decide +kernel
  split at key
  · rename_i b h' e
    exact ⟨b, h', e, of_decide_eq_true key⟩
  · cases key

/-- The hypotheses of `outline_parse` are met. -/
example : Forms (sampleContext.activation sampleLang sampleSplit) (settle mainSource) (.rule 6) mainOutline ∧
    AcceptedBy (Pred.accepts sampleLang) (["a", "a", "b", "c"].map sourceWord) mainOutline.preds 0 4 := by
  constructor
  · refine .rule rfl (p := 5) (by simp) (.prod rfl (.cons (.rule 2) (.cons (.rule 4) .nil))
      (.cons (.repeated (o := .repeatable 1 false) (n := 2) rfl rfl (by decide) (by simp) (ss := [.leaf _, .leaf _])
        (.cons ?_ (.cons ?_ .nil))) (.cons ?_ .nil)))
    · exact .rule rfl (p := 0) (by simp) (.prod rfl (.cons (.pred rfl) .nil) (.cons .pred .nil))
    · exact .rule rfl (p := 0) (by simp) (.prod rfl (.cons (.pred rfl) .nil) (.cons .pred .nil))
    · exact .rule rfl (p := 3) (by simp) (.prod rfl (.cons (.pred rfl) (.cons (.pred rfl) .nil))
        (.cons .pred (.cons .pred .nil)))
  · exact .cons rfl (by decide +kernel) (.cons rfl (by decide +kernel) (.cons rfl (by decide +kernel)
      (.cons rfl (by decide +kernel) .nil)))

/-- `rule('a', pipeline(['b c', 'b']))` -/
def lineSource : Heap Pred :=
  [.pipe (.scheme .exact ["b c".toList, "b".toList]), .prod [.pred (.eq "a".toList), .rule 0] 0, .rule [1]]

theorem lineSource_run : Run L setOrder [] lineSource := makeAll_run (h := []) (by decide +kernel)

theorem lineSource_orderly (root : Nat) : Orderly (settle lineSource) root := by
  refine orderly_of ?_ ?_
  · intro o ho
    simp only [lineSource, List.mem_cons, List.not_mem_nil, or_false] at ho
    rcases ho with rfl | rfl | rfl
    · exact ⟨trivial, nofun, rfl⟩
    · exact ⟨trivial, trivial, rfl⟩
    · exact ⟨trivial, trivial, rfl⟩
  · intro o ho c q hc hq
    simp only [lineSource, List.mem_cons, List.not_mem_nil, or_false] at ho
    rcases ho with rfl | rfl | rfl <;> cases hc

/-- The hypotheses of `parse_outline` and `reported_outline` are met by a rule with a gazetteer: `a b c` is
reported with the line `b c` of the dictionary, `a b` with the line `b`. -/
example : Run sampleLang sampleOrder [] lineSource ∧ RuleAt lineSource 2 ∧ Orderly (settle lineSource) 2 ∧
    ∃ b h', sampleBuild 2 lineSource = .ok (b, h') ∧
      outlines b (["a", "b", "c"].map sourceWord) = some [
        .node 0 [.leaf "a", .entry "b c".toList (.node 0 [.leaf "b", .leaf "c"])]] ∧
      outlines b (["a", "b"].map sourceWord) = some [.node 0 [.leaf "a", .entry "b".toList (.leaf "b")]] := by
  refine ⟨lineSource_run, ⟨_, rfl, rfl⟩, lineSource_orderly 2, ?_⟩
  have key : (match sampleBuild 2 lineSource with
      | .ok (b, _) => decide (outlines b (["a", "b", "c"].map sourceWord) = some [
          .node 0 [.leaf "a", .entry "b c".toList (.node 0 [.leaf "b", .leaf "c"])]] ∧
        outlines b (["a", "b"].map sourceWord) = some [.node 0 [.leaf "a", .entry "b".toList (.leaf "b")]])
      | .error _ => false) = true := by decide +kernel
  split at key
  · rename_i b h' e
    exact ⟨b, h', e, of_decide_eq_true key⟩
  · cases key

end Yargy
