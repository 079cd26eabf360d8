import Verif.Spec.Pair
import Verif.Proofs.Couple
import Verif.Proofs.CoupleChart
import Verif.Properties.Locality
import Verif.Properties.Builds
import Verif.Properties.Phrase
/-! C75: two words that agree, from the rule to the text. -/
set_option linter.unusedSectionVars false
namespace Yargy
open Spec

section
variable {L : Lang} {c : Context} {p q p' q' : Pred}

/-- What is left of the forms of a word. -/
theorem narrow_token (ha : p.activate c = .ok p') (t : Token) {fs : List Form} (hf : t.forms = some fs) :
    ∃ gs, p'.narrow t = { t with forms := some gs } ∧ gs.Sublist fs ∧ ∀ f, f ∈ gs ↔ f ∈ fs ∧ FormAllowed p f := by
  have plain : ∀ {p' : Pred}, p'.constrain t = .ok t → (∀ f, FormAllowed p f) →
      ∃ gs, p'.narrow t = { t with forms := some gs } ∧ gs.Sublist fs ∧ ∀ f, f ∈ gs ↔ f ∈ fs ∧ FormAllowed p f := by
    intro p' e hall
    refine ⟨fs, by rw [← hf]; simp [Pred.narrow, e], List.Sublist.refl _, fun f => ⟨fun h => ⟨h, hall f⟩, fun h => h.1⟩⟩
  have bound : ∀ {α : Type} {m : Except Err α} {k : α → Except Err Pred}, (m >>= k) = .ok p' → ∃ v, k v = .ok p' := by
    intro α m k e
    cases m with
    | error => cases e
    | ok v => exact ⟨v, e⟩
  cases p with
  | isSingle =>
    cases ha
    refine ⟨fs.filter Form.isSingle, by simp [Pred.narrow, Pred.constrain, hf, Token.constrained], List.filter_sublist, fun f => ?_⟩
    simp [FormAllowed, Form.isSingle]
  | gramP g =>
    cases ha
    refine ⟨fs.filter (fun f => f.grams.contains g), by simp [Pred.narrow, Pred.constrain, hf, Token.constrained],
      List.filter_sublist, fun f => ?_⟩
    simp [FormAllowed]
  | gram g =>
    rw [Pred.activate] at ha
    obtain ⟨m, e⟩ := bound ha
    split at e
    · cases e
      refine ⟨fs.filter (fun f => f.grams.contains g), by simp [Pred.narrow, Pred.constrain, hf, Token.constrained],
        List.filter_sublist, fun f => ?_⟩
      simp [FormAllowed]
    · cases e
  | dictionary vs =>
    cases vs with
    | nil => rw [Pred.activate] at ha; cases ha; exact plain rfl (fun _ => trivial)
    | cons v vs =>
      rw [Pred.activate] at ha
      obtain ⟨m, e⟩ := bound ha
      cases e
      exact plain rfl (fun _ => trivial)
  | normalized | type | custom | and_ | or_ | not_ =>
    rw [Pred.activate] at ha
    obtain ⟨m, e⟩ := bound ha
    cases e
    exact plain rfl (fun _ => trivial)
  | tag => rw [Pred.activate] at ha; cases ha; exact plain rfl (fun _ => trivial)
  | _ => cases ha; exact plain rfl (fun _ => trivial)

theorem narrow_forms (ha : p.activate c = .ok p') (t : Token) {fs : List Form} (hf : t.forms = some fs) :
    ∃ gs, (p'.narrow t).forms = some gs ∧ ∀ f, f ∈ gs ↔ f ∈ fs ∧ FormAllowed p f := by
  obtain ⟨gs, h1, _, h2⟩ := narrow_token ha t hf
  exact ⟨gs, by rw [h1], h2⟩

end

namespace Couple

variable {H : Type} [DecidableEq H] {L : Lang} {setOrder : List Str → List Str} {c : Context} {split : Str → List Str}
  {relation : Nat → Relation} {p q p' q' : Pred} {rel main : Nat} {hash : Key → H} {toks : List Token}

theorem build (hp : p.activate c = .ok p') (hq : q.activate c = .ok q') :
    buildParser L setOrder c split relation id 60 7 (source p q rel main) =
      .ok (⟨predGrammar L (chartRules L setOrder p' q' rel main) 53, ⟨relationAt (compiled p' q' rel main), relation⟩⟩,
        compiled p' q' rel main) := by
  unfold buildParser
  rw [compile (A := c.activation L split) hp hq]
  simp only [bind, Except.bind, grammar]
  rfl

theorem fresh_source : Fresh L setOrder (source p q rel main) :=
  fresh_makes (g := []) (os := source p q rel main) (by kernel_rfl)

theorem source_consumes : Consumes (source p q rel main) 7 := by
  refine tokens_consume (fun a x _ h => ?_) (fun a o r _ h hr => ?_)
  · have hm := List.mem_of_getElem? h
    simp [source] at hm
  · have hm := List.mem_of_getElem? h
    simp only [source, List.mem_cons, List.not_mem_nil, or_false] at hm
    rcases hm with rfl | rfl | rfl | rfl | rfl | rfl | rfl | rfl <;> cases hr

theorem pairGrammar (L : Lang) (setOrder : List Str → List Str) (relation : Nat → Relation) (p q : Pred) (rel main : Nat) :
    PairGrammar (predGrammar L (chartRules L setOrder p q rel main) 53) ⟨relationAt (compiled p q rel main), relation⟩
      p q 49 51 rel ⟨52, [.rule 49, .rule 51], main, none⟩ ⟨48, [.pred p], 0, none⟩ ⟨50, [.pred q], 0, none⟩ := by
  obtain ⟨h1, h2, h3⟩ := productions L setOrder p q rel main
  obtain ⟨r1, r2, r3⟩ := relations p q rel main
  exact ⟨h1, rfl, h2, rfl, rfl, h3, rfl, rfl, r1, r2, r3⟩

theorem startAlone (L : Lang) (setOrder : List Str → List Str) (p q : Pred) (rel main : Nat) :
    StartAlone (predGrammar L (chartRules L setOrder p q rel main) 53) := by
  intro r prod hpr hm
  have hu := unused L setOrder p q rel main
  unfold Grammar.productions at hpr
  split at hpr
  · rename_i rule hrule
    have h1 := List.all_eq_true.1 hu rule (List.mem_of_getElem? hrule)
    have h2 := List.all_eq_true.1 h1 prod hpr
    have h3 := List.all_eq_true.1 h2 _ hm
    simp [predGrammar] at h3
  · cases hpr

/-- Agreement in the chart is what it should be. -/
theorem agree_iff {G : Grammar Pred Token} {A : Agreement} (hc1 : G.accepts = Pred.accepts L) (hc2 : G.constrain = Pred.narrow)
    (hp : p.activate c = .ok p') (hq : q.activate c = .ok q') (hquiet : ∀ t ∈ toks, Quiet L t)
    (hforms : ∀ t ∈ toks, Means L c t p ∨ Means L c t q → t.forms ≠ none) (i : Nat) :
    Agree G A toks p' q' rel i ↔ AgreeAt L c (A.relation rel) toks p q i := by
  constructor
  · rintro ⟨a, b, fs, gs, ⟨h1, h2, h3, h4⟩, h5, h6, f, hf, g, hg, h⟩
    rw [hc1] at h3 h4
    rw [hc2] at h5 h6
    have ma := List.mem_of_getElem? h1
    have mb := List.mem_of_getElem? h2
    have m1 := (accepts_means L c a (hquiet a ma) p p' hp).1 h3
    have m2 := (accepts_means L c b (hquiet b mb) q q' hq).1 h4
    obtain ⟨fs0, e1⟩ := Option.ne_none_iff_exists'.1 (hforms a ma (.inl m1))
    obtain ⟨gs0, e2⟩ := Option.ne_none_iff_exists'.1 (hforms b mb (.inr m2))
    obtain ⟨fs1, k1, k2⟩ := narrow_forms hp a e1
    obtain ⟨gs1, k3, k4⟩ := narrow_forms hq b e2
    rw [h5] at k1
    rw [h6] at k3
    cases k1
    cases k3
    obtain ⟨f1, f2⟩ := (k2 f).1 hf
    obtain ⟨g1, g2⟩ := (k4 g).1 hg
    exact ⟨a, b, fs0, gs0, f, g, h1, h2, m1, m2, e1, e2, f1, g1, f2, g2, h⟩
  · rintro ⟨a, b, fs0, gs0, f, g, h1, h2, m1, m2, e1, e2, f1, g1, f2, g2, h⟩
    have ma := List.mem_of_getElem? h1
    have mb := List.mem_of_getElem? h2
    obtain ⟨fs1, k1, k2⟩ := narrow_forms hp a e1
    obtain ⟨gs1, k3, k4⟩ := narrow_forms hq b e2
    refine ⟨a, b, fs1, gs1, ⟨h1, h2, ?_, ?_⟩, by rw [hc2]; exact k1, by rw [hc2]; exact k3, f, (k2 f).2 ⟨f1, f2⟩, g,
      (k4 g).2 ⟨g1, g2⟩, h⟩
    · rw [hc1]; exact (accepts_means L c a (hquiet a ma) p p' hp).2 m1
    · rw [hc1]; exact (accepts_means L c b (hquiet b mb) q q' hq).2 m2

theorem once_add {f : Form} {l : List Form}
    (h : l.Pairwise (fun f g => ¬ (f.normalized = g.normalized ∧ f.grams = g.grams))) :
    (addForm f l).Pairwise (fun f g => ¬ (f.normalized = g.normalized ∧ f.grams = g.grams)) := by
  unfold addForm
  split
  · exact h
  · rename_i hn
    refine List.pairwise_append.2 ⟨h, List.pairwise_singleton .., fun a ha b hb e => hn ?_⟩
    rw [List.mem_singleton] at hb
    subst hb
    exact Form.isIn_iff.2 ⟨a, ha, e.1.symm, e.2.symm⟩

theorem add_twice (f : Form) (l : List Form) : addForm f (addForm f l) = addForm f l := by
  have h := isIn_addForm f l
  generalize addForm f l = l' at h
  unfold addForm
  rw [if_pos h]

theorem add_cases (f : Form) (l : List Form) : addForm f l = l ∨ addForm f l = l ++ [f] := by
  unfold addForm
  split
  · exact .inl rfl
  · exact .inr rfl

/-- What one form of the first word does to the lists of checked forms. -/
theorem inner_lists (rl : Form → Form → Bool) (f : Form) : ∀ (gs : List Form) (acc : List Form × List Form),
    let r := gs.foldl (fun acc g => if rl f g then (addForm f acc.1, addForm g acc.2) else acc) acc
    (r.1 = acc.1 ∨ r.1 = addForm f acc.1) ∧
      (acc.2.Pairwise (fun f g => ¬ (f.normalized = g.normalized ∧ f.grams = g.grams)) →
        r.2.Pairwise (fun f g => ¬ (f.normalized = g.normalized ∧ f.grams = g.grams)))
  | [], acc => ⟨.inl rfl, id⟩
  | g :: gs, acc => by
    dsimp only [List.foldl_cons]
    obtain ⟨h1, h2⟩ := inner_lists rl f gs (if rl f g then (addForm f acc.1, addForm g acc.2) else acc)
    refine ⟨?_, fun h => h2 ?_⟩
    · by_cases e : rl f g = true
      · rw [if_pos e] at h1 ⊢
        exact .inr (h1.elim id (fun h => h.trans (add_twice f acc.1)))
      · rw [if_neg e] at h1 ⊢
        exact h1
    · by_cases e : rl f g = true
      · rw [if_pos e]; exact once_add h
      · rw [if_neg e]; exact h

theorem outer_lists (rl : Form → Form → Bool) (gs : List Form) : ∀ (fs : List Form) (acc : List Form × List Form),
    let r := fs.foldl (fun acc f => gs.foldl (fun acc g =>
      if rl f g then (addForm f acc.1, addForm g acc.2) else acc) acc) acc
    (∃ l, r.1 = acc.1 ++ l ∧ l.Sublist fs) ∧
      (acc.1.Pairwise (fun f g => ¬ (f.normalized = g.normalized ∧ f.grams = g.grams)) →
        r.1.Pairwise (fun f g => ¬ (f.normalized = g.normalized ∧ f.grams = g.grams))) ∧
      (acc.2.Pairwise (fun f g => ¬ (f.normalized = g.normalized ∧ f.grams = g.grams)) →
        r.2.Pairwise (fun f g => ¬ (f.normalized = g.normalized ∧ f.grams = g.grams)))
  | [], acc => ⟨⟨[], (List.append_nil _).symm, .slnil⟩, id, id⟩
  | f :: fs, acc => by
    dsimp only [List.foldl_cons]
    obtain ⟨h1, h2⟩ := inner_lists rl f gs acc
    obtain ⟨⟨l, h3, h4⟩, h5, h6⟩ := outer_lists rl gs fs
      (gs.foldl (fun acc g => if rl f g then (addForm f acc.1, addForm g acc.2) else acc) acc)
    refine ⟨?_, fun h => h5 ?_, fun h => h6 (h2 h)⟩
    · rcases h1 with h1 | h1
      · exact ⟨l, by rw [h3, h1], .cons _ h4⟩
      · rw [h1] at h3
        rcases add_cases f acc.1 with e | e
        · exact ⟨l, by rw [h3, e], .cons _ h4⟩
        · exact ⟨f :: l, by rw [h3, e, List.append_assoc]; rfl, .cons₂ _ h4⟩
    · rcases h1 with h1 | h1
      · rw [h1]; exact h
      · rw [h1]; exact once_add h

/-- The words that a match shows are what they should be. -/
theorem words_tokens {G : Grammar Pred Token} {A : Agreement} (hc1 : G.accepts = Pred.accepts L) (hc2 : G.constrain = Pred.narrow)
    (hp : p.activate c = .ok p') (hq : q.activate c = .ok q') (hquiet : ∀ t ∈ toks, Quiet L t)
    (hforms : ∀ t ∈ toks, Means L c t p ∨ Means L c t q → t.forms ≠ none) {i : Nat} {ts : List Token}
    (h : Words G A toks p' q' rel i ts) : PairTokens (A.relation rel) toks p q i ts := by
  obtain ⟨a, b, fs, gs, ⟨h1, h2, h3, h4⟩, h5, h6, rfl⟩ := h
  rw [hc1] at h3 h4
  rw [hc2] at h5 h6 ⊢
  have ma := List.mem_of_getElem? h1
  have mb := List.mem_of_getElem? h2
  have m1 := (accepts_means L c a (hquiet a ma) p p' hp).1 h3
  have m2 := (accepts_means L c b (hquiet b mb) q q' hq).1 h4
  obtain ⟨fs0, e1⟩ := Option.ne_none_iff_exists'.1 (hforms a ma (.inl m1))
  obtain ⟨gs0, e2⟩ := Option.ne_none_iff_exists'.1 (hforms b mb (.inr m2))
  obtain ⟨fs1, k1, s1, k2⟩ := narrow_token hp a e1
  obtain ⟨gs1, k3, s2, k4⟩ := narrow_token hq b e2
  rw [k1] at h5
  rw [k3] at h6
  cases h5
  cases h6
  have sp := checkEdge_spec (A.relation rel).call fs gs
  obtain ⟨⟨l, o1, o2⟩, o3, o4⟩ := outer_lists (A.relation rel).call gs fs ([], [])
  refine ⟨a, b, fs0, gs0, (checkEdge (A.relation rel).call fs gs).1, (checkEdge (A.relation rel).call fs gs).2, h1, h2, e1, e2,
    by rw [k1, k3], ⟨fun f hf => ?_, fun f hf hok => ?_, o3 .nil⟩, ?_, ⟨fun g hg => ?_, fun g hg hok => ?_, o4 .nil⟩⟩
  · obtain ⟨u1, g, u2, u3⟩ := sp.left f hf
    obtain ⟨v1, v2⟩ := (k2 f).1 u1
    obtain ⟨w1, w2⟩ := (k4 g).1 u2
    exact ⟨v1, v2, g, w1, w2, u3⟩
  · obtain ⟨v, g, w1, w2, w3⟩ := hok
    obtain ⟨z, z1, z2, z3⟩ := Form.isIn_iff.1 (sp.both f ((k2 f).2 ⟨hf, v⟩) g ((k4 g).2 ⟨w1, w2⟩) w3).1
    exact ⟨z, z1, z2.symm, z3.symm⟩
  · have o1' : (checkEdge (A.relation rel).call fs gs).1 = l := by
      unfold checkEdge; rw [o1]; rfl
    rw [o1']
    exact o2.trans s1
  · obtain ⟨u1, f, u2, u3⟩ := sp.right g hg
    obtain ⟨v1, v2⟩ := (k4 g).1 u1
    obtain ⟨w1, w2⟩ := (k2 f).1 u2
    exact ⟨v1, v2, f, w1, w2, u3⟩
  · obtain ⟨v, f, w1, w2, w3⟩ := hok
    obtain ⟨z, z1, z2, z3⟩ := Form.isIn_iff.1 (sp.both f ((k2 f).2 ⟨w1, w2⟩) g ((k4 g).2 ⟨hg, v⟩) w3).2
    exact ⟨z, z1, z2.symm, z3.symm⟩

theorem morphed {G : Grammar Pred Token} (hc1 : G.accepts = Pred.accepts L) (hc2 : G.constrain = Pred.narrow)
    (hp : p.activate c = .ok p') (hquiet : ∀ t ∈ toks, Quiet L t)
    (hforms : ∀ t ∈ toks, Means L c t p → t.forms ≠ none) : Morphed G toks p' := by
  intro t ht ha
  rw [hc1] at ha
  rw [hc2]
  obtain ⟨fs, e⟩ := Option.ne_none_iff_exists'.1 (hforms t ht ((accepts_means L c t (hquiet t ht) p p' hp).1 ha))
  obtain ⟨gs, k, _⟩ := narrow_forms hp t e
  rw [k]
  exact fun h => nomatch h

/-- Every such rule is made like `source`. -/
theorem alike_source {h : Heap Pred} {root : Nat} (hr : PairRule h root p q rel) :
    ∃ main f, Alike f (source p q rel main) 7 h root := by
  obtain ⟨a, b, c, d, e, f, g, main, had, h0, h1, h2, h3, h4, h5, h6, h7⟩ := hr
  have key : ∀ {x y : Nat} {o o' : Obj Pred}, h[x]? = some o → h[y]? = some o' → o ≠ o' → x ≠ y := by
    rintro x y o o' hx hy hoo rfl
    rw [hx] at hy
    exact hoo (Option.some.inj hy)
  have hag : a ≠ g := key h0 h6 (by simp)
  have hdg : d ≠ g := key h3 h6 (by simp)
  have hbe : b ≠ e := key h1 h4 (by simpa using had)
  have hbr : b ≠ root := key h1 h7 (by simpa using hag)
  have her : e ≠ root := key h4 h7 (by simpa using hdg)
  have hcf : c ≠ f := key h2 h5 (by simpa using hbe)
  have hnd : [a, b, c, d, e, f, g, root].Nodup := by
    have k01 := key h0 h1 (by simp); have k02 := key h0 h2 (by simp); have k04 := key h0 h4 (by simp)
    have k05 := key h0 h5 (by simp); have k07 := key h0 h7 (by simp); have k12 := key h1 h2 (by simp)
    have k13 := key h1 h3 (by simp); have k15 := key h1 h5 (by simp); have k16 := key h1 h6 (by simp)
    have k23 := key h2 h3 (by simp); have k24 := key h2 h4 (by simp); have k26 := key h2 h6 (by simp)
    have k27 := key h2 h7 (by simp); have k34 := key h3 h4 (by simp); have k35 := key h3 h5 (by simp)
    have k37 := key h3 h7 (by simp); have k45 := key h4 h5 (by simp); have k46 := key h4 h6 (by simp)
    have k56 := key h5 h6 (by simp); have k57 := key h5 h7 (by simp); have k67 := key h6 h7 (by simp)
    simp [*]
  have hlt : ∀ x, Reach (source p q rel main) 7 x → x < 8 := by
    intro x hx
    cases hx with
    | root => omega
    | step _ ho hc =>
      have hm := List.mem_of_getElem? ho
      simp only [source, List.mem_cons, List.not_mem_nil, or_false] at hm
      rcases hm with rfl | rfl | rfl | rfl | rfl | rfl | rfl | rfl <;> simp [Obj.children, termRules] at hc <;> omega
  refine ⟨main, fun k => ([a, b, c, d, e, f, g, root][k]?).getD 0, rfl, ?_, ?_⟩
  · intro x y hx hy hxy
    have lx : x < [a, b, c, d, e, f, g, root].length := hlt x hx
    have ly : y < [a, b, c, d, e, f, g, root].length := hlt y hy
    rw [List.getElem?_eq_getElem lx, List.getElem?_eq_getElem ly] at hxy
    have hpw := List.pairwise_iff_getElem.1 hnd
    rcases Nat.lt_trichotomy x y with hlt | e | hlt
    · exact absurd hxy (hpw x y lx ly hlt)
    · exact e
    · exact absurd hxy.symm (hpw y x ly lx hlt)
  · intro x o hx ho
    have lx := hlt x hx
    match x, lx with
    | 0, _ => cases ho; exact h0
    | 1, _ => cases ho; exact h1
    | 2, _ => cases ho; exact h2
    | 3, _ => cases ho; exact h3
    | 4, _ => cases ho; exact h4
    | 5, _ => cases ho; exact h5
    | 6, _ => cases ho; exact h6
    | 7, _ => cases ho; exact h7

end Couple

variable {H : Type} [DecidableEq H] {L : Lang} {setOrder : List Str → List Str} {r : Reader} {relation : Nat → Relation}
  {pid : Nat → Nat} {root : Nat} {h : Heap Pred} {hash : Key → H} {p q : Pred} {rel : Nat}

/-- C75: the parser of `rule(rule(p).match(rel), rule(q).match(rel))` is built in every program if what the
predicates refer to is known. On every text, `extract` reports exactly the pairs of neighbouring tokens that are what
`p` and `q` say and have allowed forms between which the relation holds; `match` returns a match exactly if the text is
such a pair; `findall` returns such pairs, covers as many tokens as can be covered by pairs that do not overlap, and
every pair overlaps one that it returns. The tokens of every match are the two words with those of their forms that agree
(`PairTokens`). For one rule used as both parts it is false (`pair_shared_false`). -/
theorem pair_found {rules : List TokenRule} (ht : Tokenizer.new rules = .ok r.tokenizer)
    (hrun : Run L setOrder [] h) (hr : PairRule h root p q rel)
    (hk : ∀ x, PredPart x p ∨ PredPart x q → KnownTo r x)
    (hR : ∀ k, UserParts Respects (relation k)) (hpid : ∀ a b, pid a = pid b → a = b) (hs : SetOrder setOrder)
    (hh : ∀ a b, hash a = hash b → a = b) :
    ∃ N P h', (∀ limit, N ≤ limit → newParser L setOrder r relation pid limit root h = .ok (P, h')) ∧
      ∀ text toks, r.tokens text = .ok toks → (∀ t ∈ toks, Quiet L t) →
        (∀ t ∈ toks, Means L r.context t p ∨ Means L r.context t q → t.forms ≠ none) →
        (∃ fuel ms σ, P.extract hash text true fuel = some (ms, σ, none) ∧
          (∀ m ∈ ms, PairTokens (relation rel) toks p q m.tree.range.1 m.tokens) ∧
          ∀ i j, (∃ m ∈ ms, m.tree.range = (i, j)) ↔ j = i + 2 ∧ AgreeAt L r.context (relation rel) toks p q i) ∧
        (∃ fuel x σ, P.match hash text fuel = some (.ok (x, σ)) ∧
          (∀ m, x = some m → PairTokens (relation rel) toks p q 0 m.tokens) ∧
          ((∃ m, x = some m) ↔ toks.length = 2 ∧ AgreeAt L r.context (relation rel) toks p q 0)) ∧
        ∃ fuel ms σ, P.findall hash text fuel = some (.ok (ms, σ)) ∧
          (∀ m ∈ ms, ∃ i, m.tree.range = (i, i + 2) ∧ AgreeAt L r.context (relation rel) toks p q i ∧
            PairTokens (relation rel) toks p q i m.tokens) ∧
          (∀ sel : List Range, sel.Pairwise Apart →
            (∀ ρ ∈ sel, ρ.2 = ρ.1 + 2 ∧ AgreeAt L r.context (relation rel) toks p q ρ.1) →
            coverage sel ≤ coverage (ms.map (fun m => m.tree.range))) ∧
          ∀ i, AgreeAt L r.context (relation rel) toks p q i → ∃ m ∈ ms, ¬ Apart (i, i + 2) m.tree.range := by
  obtain ⟨p', hp⟩ := (activate_iff_known_partial r.context p).2 (fun x hx => known_to ht (hk x (.inl hx)))
  obtain ⟨q', hq⟩ := (activate_iff_known_partial r.context q).2 (fun x hx => known_to ht (hk x (.inr hx)))
  have hxy : 49 ≠ 51 := by decide
  obtain ⟨main, f, hal⟩ := Couple.alike_source hr
  have hb := Couple.build (L := L) (setOrder := setOrder) (split := r.split) (relation := relation) (rel := rel)
    (main := main) hp hq
  have hfresh := Couple.fresh_source (L := L) (setOrder := setOrder) (p := p) (q := q) (rel := rel) (main := main)
  have hra : RuleAt (Couple.source p q rel main) 7 := ⟨_, rfl, rfl⟩
  have hinj : ∀ a b : Nat, id a = id b → a = b := fun _ _ e => e
  have hsame := parser_locality (relation := relation) (c := r.context) (split := r.split) (limit := 60) hs
    (fresh_run hfresh) hrun hinj hpid hra hal
  rw [hb] at hsame
  generalize hB : buildParser L setOrder r.context r.split relation pid 60 root h = B at hsame
  cases hsame with
  | @ok _ _ b' h' φ hI =>
    obtain ⟨q1, q2, _⟩ := program_uses (fresh_run hfresh) hra hinj hs hb
    have q3 := belongs_distinct (program_parts (fresh_run hfresh) hra hinj hb).2.2.2.2.1
    have term := fun toks => fresh_terminates (hash := hash) hfresh hra hinj hs Couple.source_consumes hb toks
    have pg := Couple.pairGrammar L setOrder relation p' q' rel main
    refine ⟨60, ⟨r, b'⟩, h', fun limit hl => ?_, fun text toks htok hquiet hforms => ?_⟩
    · unfold newParser
      rcases limit_only_recursion (L := L) (setOrder := setOrder) (c := r.context) (split := r.split)
        (relation := relation) (pid := pid) (root := root) (h := h) hl with e | e
      · rw [e, hB]; rfl
      · rw [hB] at e; cases e
    have m1 := Couple.morphed (L := L) (G := predGrammar L (Couple.chartRules L setOrder p' q' rel main) 53) rfl rfl hp hquiet
      (fun t h1 h2 => hforms t h1 (.inl h2))
    have m2 := Couple.morphed (L := L) (G := predGrammar L (Couple.chartRules L setOrder p' q' rel main) 53) rfl rfl hq hquiet
      (fun t h1 h2 => hforms t h1 (.inr h2))
    have ag := Couple.agree_iff (L := L) (G := predGrammar L (Couple.chartRules L setOrder p' q' rel main) 53)
      (A := ⟨relationAt (Couple.compiled p' q' rel main), relation⟩) (rel := rel) rfl rfl hp hq hquiet hforms
    have wd := fun i ts => Couple.words_tokens (L := L) (G := predGrammar L (Couple.chartRules L setOrder p' q' rel main) 53)
      (A := ⟨relationAt (Couple.compiled p' q' rel main), relation⟩) (rel := rel) (i := i) (ts := ts) rfl rfl hp hq hquiet hforms
    have hRR : ∀ k, Respects (relation k).call := fun k => relation_respects _ (hR k)
    obtain ⟨⟨f1, r1, t1⟩, ⟨f2, r2, t2⟩, t3⟩ := term toks
    obtain ⟨f3, r3, t3⟩ := t3 true
    refine ⟨?_, ?_, ?_⟩
    · obtain ⟨e1, e0, e2⟩ := Couple.extract_pair pg q1 q2 q3 hh hxy m1 m2 hRR t3
      obtain ⟨ms, σ, e⟩ := r3
      subst e1
      refine ⟨f3, ms.map (Match.rename φ), σ, ?_, fun m hm => ?_, fun i j => ?_⟩
      · unfold TextParser.extract
        rw [htok]
        exact (hI.extract hash hash hh hh toks true f3).trans (by rw [t3]; rfl)
      · obtain ⟨m0, hm0, rfl⟩ := List.mem_map.1 hm
        exact wd _ _ (e0 m0 hm0)
      · rw [← ag, ← e2]
        constructor
        · rintro ⟨m, hm, hr⟩
          obtain ⟨m0, hm0, rfl⟩ := List.mem_map.1 hm
          exact ⟨m0, hm0, hr⟩
        · rintro ⟨m, hm, hr⟩
          exact ⟨_, List.mem_map.2 ⟨m, hm, rfl⟩, hr⟩
    · obtain ⟨z, σ, rfl, _, e0, e2⟩ := Couple.match_pair pg q1 q2 q3 hh hxy m1 m2 hRR (Couple.startAlone L setOrder p' q' rel main) t2
      refine ⟨f2, z.map (Match.rename φ), σ, ?_, fun m hm => ?_, ?_⟩
      · unfold TextParser.match
        rw [htok]
        exact (hI.matchText hash hash hh hh toks f2).trans (by rw [t2]; rfl)
      · obtain ⟨m0, hm0, rfl⟩ := Option.map_eq_some_iff.1 hm
        exact wd _ _ (e0 m0 hm0)
      · rw [← ag, ← e2]
        cases z <;> simp
    · obtain ⟨ms, σ, rfl, e1, e2, e3⟩ := Couple.findall_pair pg q1 q2 q3 hh hxy m1 m2 hRR t1
      have er : (ms.map (Match.rename φ)).map (fun m => m.tree.range) = ms.map (fun m => m.tree.range) := by
        rw [List.map_map]; rfl
      refine ⟨f1, ms.map (Match.rename φ), σ, ?_, ?_, ?_, ?_⟩
      · unfold TextParser.findall
        rw [htok]
        exact (hI.findall hash hash hh hh toks f1).trans (by rw [t1]; rfl)
      · intro m hm
        obtain ⟨m0, hm0, rfl⟩ := List.mem_map.1 hm
        obtain ⟨i, g1, g2, g3⟩ := e1 m0 hm0
        exact ⟨i, g1, (ag i).1 g2, wd _ _ g3⟩
      · intro sel h1 h2
        rw [er]
        exact e2 sel h1 (fun ρ hρ => ⟨(h2 ρ hρ).1, (ag _).2 (h2 ρ hρ).2⟩)
      · intro i hi
        obtain ⟨m, hm, hap⟩ := e3 i ((ag i).2 hi)
        exact ⟨_, List.mem_map.2 ⟨m, hm, rfl⟩, hap⟩

/-! ### Example -/

/-- A tokenizer with an analyzer that knows a few words. -/
def agreeReader : Reader := { sampleReader with
  analyzer := some ⟨fun g => g == "ADJF".toList || g == "NOUN".toList, fun w =>
    if w = "рыжий".toList then [⟨"рыжий".toList, ["NOUN".toList, "femn".toList], 0⟩, ⟨"рыжий".toList, ["ADJF".toList, "masc".toList], 1⟩]
    else if w = "рыжая".toList then [⟨"рыжий".toList, ["ADJF".toList, "femn".toList], 0⟩]
    else [⟨"кот".toList, ["NOUN".toList, "masc".toList], 0⟩]⟩ }

/-- A program that made `rule('x')` before and then `rule(rule(gram('ADJF')).match(rel), rule(gram('NOUN')).match(rel))`,
its second part first. -/
def agreeSource : Heap Pred :=
  [.prod [.pred (.eq "x".toList)] 0, .rule [0], .prod [.pred (.gram "NOUN".toList)] 0, .rule [2], .relation 3 0,
   .prod [.pred (.gram "ADJF".toList)] 0, .rule [5], .relation 6 0, .prod [.rule 7, .rule 4] 0, .rule [8]]

theorem agreeSource_pair : PairRule agreeSource 9 (.gram "ADJF".toList) (.gram "NOUN".toList) 0 :=
  ⟨5, 6, 7, 2, 3, 4, 8, 0, by decide, rfl, rfl, rfl, rfl, rfl, rfl, rfl, rfl⟩

/-- The words of the sample text. -/
def agreeWord (w : String) (start : Nat) : Token :=
  readToken agreeReader.analyzer { value := w.toList, span := (start, start + w.toList.length), type := ruType }

theorem agreeText_tokens : (agreeReader.tokens "рыжая кот рыжий кот".toList).toOption =
    some [agreeWord "рыжая" 0, agreeWord "кот" 6, agreeWord "рыжий" 10, agreeWord "кот" 16] := by
  decide +kernel

theorem agreeText_spans : reportedSpans agreeReader agreeSource 9 "рыжая кот рыжий кот".toList =
    some [[(10, 19)], [(10, 19)], []] := by
  rw [reportedSpans_tokens agreeText_tokens]
  decide +kernel

/-- Of the two pairs of an adjective and a noun only the second agrees. -/
example : Tokenizer.new (defaultRules sampleClasses) = .ok agreeReader.tokenizer ∧
    Run sampleLang sampleOrder [] agreeSource ∧
    (∀ x, PredPart x (.gram "ADJF".toList) ∨ PredPart x (.gram "NOUN".toList) → KnownTo agreeReader x) ∧
    (∀ t ∈ [agreeWord "рыжая" 0, agreeWord "кот" 6, agreeWord "рыжий" 10, agreeWord "кот" 16],
      Quiet sampleLang t ∧ t.forms ≠ none) ∧
    (∀ k : Nat, UserParts Respects ((fun _ => Relation.gender) k)) ∧
    reportedSpans agreeReader agreeSource 9 "рыжая кот рыжий кот".toList = some [[(10, 19)], [(10, 19)], []] := by
  refine ⟨rfl, fresh_run (fresh_makes (g := []) (os := agreeSource) (by decide +kernel)), ?_, ?_, fun _ => trivial,
    agreeText_spans⟩
  · rintro x (h | h) <;> cases h <;> exact ⟨_, rfl, by decide +kernel⟩
  · intro t ht
    simp only [List.mem_cons, List.not_mem_nil, or_false] at ht
    rcases ht with rfl | rfl | rfl | rfl <;>
      exact ⟨⟨by decide +kernel, fun e => absurd e (by decide +kernel), fun f => ⟨_, rfl⟩⟩, by decide +kernel⟩

/-! ### One rule used twice -/

/-- `x = rule(gram('NOUN')).match(rel)`, `rule(x, x)`. -/
def oneRuleTwice : Heap Pred :=
  [.prod [.pred (.gram "NOUN".toList)] 0, .rule [0], .relation 1 0, .prod [.rule 2, .rule 2] 0, .rule [3]]

/-- The same with two rules made by `rule(gram('NOUN')).match(rel)`. -/
def separateSource : Heap Pred :=
  [.prod [.pred (.gram "NOUN".toList)] 0, .rule [0], .relation 1 0, .prod [.pred (.gram "NOUN".toList)] 0, .rule [3],
   .relation 4 0, .prod [.rule 2, .rule 5] 0, .rule [6]]

theorem separateSource_pair : PairRule separateSource 7 (.gram "NOUN".toList) (.gram "NOUN".toList) 0 :=
  ⟨0, 1, 2, 3, 4, 5, 6, 0, by decide, rfl, rfl, rfl, rfl, rfl, rfl, rfl, rfl⟩

/-- A noun that has the given genders. -/
def nounOf (genders : List String) (start : Nat) : Token where
  value := "a".toList
  span := (start, start + 1)
  type := ruType
  forms := some (genders.map (fun g => ⟨"a".toList, ["NOUN".toList, g.toList], 0⟩))

/-- Three nouns: the second agrees with the first and, in another form, with the third. -/
def threeNouns : List Token := [nounOf ["masc"] 0, nounOf ["masc", "femn"] 2, nounOf ["femn"] 4]

/-- A form of these nouns. -/
def nounForm (g : String) : Form := ⟨"a".toList, ["NOUN".toList, g.toList], 0⟩

theorem twice_agree : ∀ i < 2, AgreeAt sampleLang agreeReader.context .gender threeNouns (.gram "NOUN".toList) (.gram "NOUN".toList) i := by
  have hm (t : Token) (fs : List Form) (f : Form) (e : t.forms = some fs) (hf : f ∈ fs) (hg : "NOUN".toList ∈ f.grams) :
      Means sampleLang agreeReader.context t (.gram "NOUN".toList) := by
    unfold Means
    exact ⟨fs, e, f, hf, hg⟩
  have ha (g : String) : "NOUN".toList ∈ (nounForm g).grams := List.mem_cons_self
  intro i hi
  match i, hi with
  | 0, _ =>
    exact ⟨nounOf ["masc"] 0, nounOf ["masc", "femn"] 2, [nounForm "masc"], [nounForm "masc", nounForm "femn"],
      nounForm "masc", nounForm "masc", rfl, rfl, hm _ _ _ rfl List.mem_cons_self (ha _), hm _ _ _ rfl List.mem_cons_self (ha _),
      rfl, rfl, List.mem_cons_self, List.mem_cons_self, ha _, ha _, by decide +kernel⟩
  | 1, _ =>
    exact ⟨nounOf ["masc", "femn"] 2, nounOf ["femn"] 4, [nounForm "masc", nounForm "femn"], [nounForm "femn"],
      nounForm "femn", nounForm "femn", rfl, rfl, hm _ _ _ rfl List.mem_cons_self (ha _), hm _ _ _ rfl List.mem_cons_self (ha _),
      rfl, rfl, List.mem_cons_of_mem _ List.mem_cons_self, List.mem_cons_self, ha _, ha _, by decide +kernel⟩

theorem separate_spans : tokenSpans agreeReader separateSource 7 threeNouns = some [[(0, 3), (2, 5)], [(0, 3)], []] := by
  decide +kernel

theorem twice_spans : tokenSpans agreeReader oneRuleTwice 4 threeNouns = some [[(0, 3)], [(0, 3)], []] := by
  decide +kernel

/-- C75 does not hold of one rule object that is used as both parts: of three nouns the second agrees with the first
and, in another form, with the third; with two rules made alike `extract` reports both pairs, with one rule used twice
only the first. -/
theorem pair_shared_false :
    (∀ i < 2, AgreeAt sampleLang agreeReader.context .gender threeNouns (.gram "NOUN".toList) (.gram "NOUN".toList) i) ∧
      tokenSpans agreeReader separateSource 7 threeNouns = some [[(0, 3), (2, 5)], [(0, 3)], []] ∧
      tokenSpans agreeReader oneRuleTwice 4 threeNouns = some [[(0, 3)], [(0, 3)], []] :=
  ⟨twice_agree, separate_spans, twice_spans⟩

/-! ### Order of forms -/

/-- A noun with two words that it may be a form of, and their genders. -/
def nounTwo (v g v' g' : String) (start : Nat) : Token where
  value := "a".toList
  span := (start, start + 1)
  type := ruType
  forms := some [⟨v.toList, ["NOUN".toList, g.toList], 0⟩, ⟨v'.toList, ["NOUN".toList, g'.toList], 1⟩]

/-- The normal forms that are left in the tokens of the matches of `extract`. -/
def leftForms (toks : List Token) : Option (List (List (Option (List Str)))) :=
  match buildParser sampleLang sampleOrder agreeReader.context agreeReader.split (fun _ => .gender) id 60 7 separateSource with
  | .error _ => none
  | .ok (b, _) => (extract b.grammar b.agreement (id : Key → Key) toks true 2000).map
      (fun x => x.1.map (fun m => m.tokens.map (fun t => t.forms.map (fun fs => fs.map Form.normalized))))

/-- The order of the forms of the second word may change: here its first form agrees and comes last, so that the normal
form of the word is another one than without the relation. -/
theorem pair_second_reordered : leftForms [nounTwo "u" "masc" "v" "femn" 0, nounTwo "x" "femn" "y" "masc" 2] =
    some [[some ["u".toList, "v".toList], some ["y".toList, "x".toList]]] := by
  decide +kernel

end Yargy
