import Verif.Spec.Dot
/-!
C42: graph output.
-/
namespace Yargy
open Spec

/-- What `style.quote` does to each character. -/
def quoteChar (c : Char) : Str :=
  if c = '"' then ['\\', '"'] else if c = '\n' then ['\\', 'n'] else if c = '\r' then ['\\', 'r'] else [c]

theorem replaceChar_append (a : Char) (b s t : Str) :
    replaceChar a b (s ++ t) = replaceChar a b s ++ replaceChar a b t := by
  unfold replaceChar
  rw [List.flatMap_append]

theorem quote_eq (v : Str) : quote v = '"' :: v.flatMap quoteChar ++ ['"'] := by
  unfold quote
  congr 2
  induction v with
  | nil => rfl
  | cons c v ih =>
    have key : replaceChar '\r' ['\\', 'r'] (replaceChar '\n' ['\\', 'n']
        (replaceChar '"' ['\\', '"'] [c])) = quoteChar c := by
      unfold quoteChar
      by_cases h1 : c = '"'
      · subst h1; decide
      · by_cases h2 : c = '\n'
        · subst h2; decide
        · by_cases h3 : c = '\r'
          · subst h3; decide
          · simp [replaceChar, h1, h2, h3]
    rw [show c :: v = [c] ++ v from rfl, replaceChar_append, replaceChar_append, replaceChar_append,
      key, ih, List.flatMap_append]
    simp

theorem scan_other {c : Char} {s : Str} (h1 : c ≠ '"') (h2 : c ≠ '\\') :
    scan (c :: s) = (scan s).map (fun x => (c :: x.1, x.2)) := by
  conv => lhs; unfold scan
  rw [if_neg h1, if_neg h2]

theorem scan_escape {d : Char} {s : Str} (h1 : d ≠ '"') (h2 : d ≠ '\\') (h3 : d ≠ '\n') :
    scan ('\\' :: d :: s) = (scan s).map (fun x => ('\\' :: d :: x.1, x.2)) := by
  conv => lhs; unfold scan
  simp only [if_neg h1, if_neg h2, if_neg h3]
  simp

theorem scan_quote {s : Str} : scan ('\\' :: '"' :: s) = (scan s).map (fun x => ('"' :: x.1, x.2)) := by
  conv => lhs; unfold scan
  simp

theorem scan_pair {s : Str} :
    scan ('\\' :: '\\' :: s) = (scan s).map (fun x => ('\\' :: '\\' :: x.1, x.2)) := by
  conv => lhs; unfold scan
  simp

theorem scan_end {s : Str} : scan ('"' :: s) = some ([], s) := by
  unfold scan
  simp

/-- What Graphviz sees of a character. -/
def breakChar (c : Char) : Str :=
  if c = '\n' then ['\\', 'n'] else if c = '\r' then ['\\', 'r'] else [c]

theorem scan_char {c : Char} (h1 : c ≠ '\\') (s : Str) :
    scan (quoteChar c ++ s) = (scan s).map (fun x => (breakChar c ++ x.1, x.2)) := by
  by_cases h2 : c = '"'
  · subst h2
    exact scan_quote
  · by_cases h3 : c = '\n'
    · subst h3
      exact scan_escape (by decide) (by decide) (by decide)
    · by_cases h4 : c = '\r'
      · subst h4
        exact scan_escape (by decide) (by decide) (by decide)
      · have e1 : quoteChar c = [c] := by unfold quoteChar; rw [if_neg h2, if_neg h3, if_neg h4]
        have e2 : breakChar c = [c] := by unfold breakChar; rw [if_neg h3, if_neg h4]
        rw [e1, e2]
        exact scan_other h2 h1

/-- C42, partial: whatever the text of a label, if it has no backslash, it is printed as one
well-formed quoted string, which reads as the text itself (line breaks written `\n`, `\r`). -/
theorem quote_reads_partial (v rest : Str) (h : '\\' ∉ v) :
    readString (quote v ++ rest) = some (breaksWritten v, rest) := by
  rw [quote_eq]
  show scan (v.flatMap quoteChar ++ ['"'] ++ rest) = _
  rw [List.append_assoc]
  induction v with
  | nil => exact scan_end
  | cons c v ih =>
    have hc : c ≠ '\\' := fun e => h (e ▸ List.mem_cons_self)
    rw [List.flatMap_cons, List.append_assoc, scan_char hc, ih (fun hm => h (List.mem_cons_of_mem _ hm))]
    rfl

example : '\\' ∉ "say \"hi\"\nthere".toList ∧
    readString (quote "say \"hi\"\nthere".toList) = some ("say \"hi\"\\nthere".toList, []) := by
  decide +kernel

theorem quoteChar_other {c : Char} (h1 : c ≠ '"') (h2 : c ≠ '\n') (h3 : c ≠ '\r') :
    quoteChar c = [c] := by
  unfold quoteChar
  rw [if_neg h1, if_neg h2, if_neg h3]

theorem scan_after_backslash {c : Char} (h1 : c ≠ '\\') (h2 : c ≠ '"') (s : Str) :
    ∃ pre, scan ('\\' :: (quoteChar c ++ s)) = (scan s).map (fun x => (pre ++ x.1, x.2)) := by
  by_cases h3 : c = '\n'
  · subst h3
    refine ⟨['\\', '\\', 'n'], ?_⟩
    show scan ('\\' :: '\\' :: 'n' :: s) = _
    rw [scan_pair, scan_other (by decide) (by decide)]
    cases scan s <;> rfl
  · by_cases h4 : c = '\r'
    · subst h4
      refine ⟨['\\', '\\', 'r'], ?_⟩
      show scan ('\\' :: '\\' :: 'r' :: s) = _
      rw [scan_pair, scan_other (by decide) (by decide)]
      cases scan s <;> rfl
    · rw [quoteChar_other h2 h3 h4]
      exact ⟨['\\', c], scan_escape h2 h1 h3⟩

theorem scan_quoteChar {c : Char} (h1 : c ≠ '\\') (s : Str) :
    ∃ pre, scan (quoteChar c ++ s) = (scan s).map (fun x => (pre ++ x.1, x.2)) := ⟨_, scan_char h1 s⟩

/-- C42: exactly which labels are printed as one well-formed quoted string. -/
theorem quote_reads_iff (v : Str) :
    (∀ rest, ∃ content, readString (quote v ++ rest) = some (content, rest)) ↔ Paired v := by
  have hq : ∀ rest, readString (quote v ++ rest) = scan (v.flatMap quoteChar ++ '"' :: rest) := by
    intro rest
    rw [quote_eq]
    show scan (v.flatMap quoteChar ++ ['"'] ++ rest) = _
    rw [List.append_assoc]
    rfl
  simp only [hq]
  constructor
  · intro h
    have h0 := h []
    clear h hq
    obtain ⟨content, h⟩ := h0
    induction hn : v.length using Nat.strongRecOn generalizing v content with
    | ind n ih =>
    match v, hn with
    | [], _ => exact .nil
    | c :: v, hn =>
      have next : ∀ u content', u.length < n →
          scan (u.flatMap quoteChar ++ '"' :: []) = some (content', []) → Paired u := by
        intro u content' hu hs
        exact ih u.length hu u content' hs rfl
      rw [List.flatMap_cons, List.append_assoc] at h
      by_cases hc : c = '\\'
      · subst hc
        match v, h with
        | [], h => cases h
        | d :: v, h =>
          rw [List.flatMap_cons, List.append_assoc] at h
          by_cases hd : d = '\\'
          · subst hd
            replace h : scan ('\\' :: '\\' :: (v.flatMap quoteChar ++ '"' :: [])) = _ := h
            rw [scan_pair] at h
            cases hs : scan (v.flatMap quoteChar ++ '"' :: []) with
            | none => rw [hs] at h; cases h
            | some x =>
              rw [hs] at h
              obtain ⟨x1, x2⟩ := x
              cases h
              exact .pair (next v _ (by rw [← hn]; simp; omega) hs)
          · by_cases hd2 : d = '"'
            · subst hd2
              replace h : scan ('\\' :: '\\' :: '"' :: (v.flatMap quoteChar ++ '"' :: [])) = _ := h
              rw [scan_pair] at h
              rw [scan_end] at h
              simp at h
            · obtain ⟨pre, hp⟩ := scan_after_backslash hd hd2 (v.flatMap quoteChar ++ '"' :: [])
              replace h : scan ('\\' :: (quoteChar d ++ (v.flatMap quoteChar ++ '"' :: []))) = _ := h
              rw [hp] at h
              cases hs : scan (v.flatMap quoteChar ++ '"' :: []) with
              | none => rw [hs] at h; cases h
              | some x =>
                rw [hs] at h
                obtain ⟨x1, x2⟩ := x
                cases h
                exact .single hd hd2 (next v _ (by rw [← hn]; simp; omega) hs)
      · obtain ⟨pre, hp⟩ := scan_quoteChar hc (v.flatMap quoteChar ++ '"' :: [])
        rw [hp] at h
        cases hs : scan (v.flatMap quoteChar ++ '"' :: []) with
        | none => rw [hs] at h; cases h
        | some x =>
          rw [hs] at h
          obtain ⟨x1, x2⟩ := x
          cases h
          exact .other hc (next v _ (by rw [← hn]; simp) hs)
  · intro h rest
    clear hq
    induction h with
    | nil => exact ⟨[], scan_end⟩
    | @other c s hc _ ih =>
      obtain ⟨content, ih⟩ := ih
      obtain ⟨pre, hp⟩ := scan_quoteChar hc (s.flatMap quoteChar ++ '"' :: rest)
      rw [List.flatMap_cons, List.append_assoc, hp, ih]
      exact ⟨_, rfl⟩
    | @pair s _ ih =>
      obtain ⟨content, ih⟩ := ih
      refine ⟨'\\' :: '\\' :: content, ?_⟩
      show scan ('\\' :: '\\' :: (s.flatMap quoteChar ++ '"' :: rest)) = _
      rw [scan_pair, ih]
      rfl
    | @single c s hc hd _ ih =>
      obtain ⟨content, ih⟩ := ih
      obtain ⟨pre, hp⟩ := scan_after_backslash hc hd (s.flatMap quoteChar ++ '"' :: rest)
      refine ⟨pre ++ content, ?_⟩
      rw [List.flatMap_cons, List.flatMap_cons, List.append_assoc, List.append_assoc]
      show scan ('\\' :: (quoteChar c ++ (s.flatMap quoteChar ++ '"' :: rest))) = _
      rw [hp, ih]
      rfl

example : Paired "C:\\dir".toList := by
  refine .other (by decide) (.other (by decide) (.single (by decide) (by decide) ?_))
  exact .other (by decide) (.other (by decide) .nil)

/-- C42 is false: a label ending in a backslash runs over its closing quote. -/
theorem backslash_breaks : ¬ Paired "a\\".toList ∧ readString (quote "a\\".toList) = none := by
  constructor
  · intro h
    cases h with
    | other _ h =>
      cases h with
      | other h _ => exact h rfl
  · decide +kernel

/-- C42: a list of attributes reads back as it was. -/
theorem style_reads_partial (s : Style) (hne : s ≠ []) (hk : ∀ a ∈ s, '=' ∉ a.1)
    (hv : ∀ a ∈ s, '\\' ∉ a.2) (rest : Str) (hrest : ∀ r, rest ≠ ',' :: ' ' :: r) :
    readAttrs s.length (s.text ++ rest) = some (s.map (fun a => (a.1, breaksWritten a.2)), rest) := by
  have name : ∀ (k t : Str), '=' ∉ k → readName (k ++ '=' :: t) = some (k, t) := by
    intro k t hk
    induction k with
    | nil => rfl
    | cons c k ih =>
      show readName (c :: (k ++ '=' :: t)) = _
      rw [readName, if_neg (fun e : c = '=' => hk (e ▸ List.mem_cons_self)),
        ih (fun hm => hk (List.mem_cons_of_mem _ hm))]
      rfl
  have attr : ∀ (a : Str × Str) (t : Str), '=' ∉ a.1 → '\\' ∉ a.2 →
      readAttr (attrText a ++ t) = some ((a.1, breaksWritten a.2), t) := by
    intro a t h1 h2
    unfold readAttr attrText
    rw [List.append_assoc, List.cons_append, name _ _ h1]
    dsimp only
    rw [quote_reads_partial _ _ h2]
  induction s with
  | nil => exact absurd rfl hne
  | cons a s ih =>
    cases s with
    | nil =>
      show readAttrs 1 (attrText a ++ rest) = _
      rw [readAttrs, attr a rest (hk a List.mem_cons_self) (hv a List.mem_cons_self)]
      dsimp only
      split
      · exact absurd rfl (hrest _)
      · rfl
    | cons b s =>
      show readAttrs ((b :: s).length + 1) (attrText a ++ ", ".toList ++ Style.text (b :: s) ++ rest) = _
      rw [readAttrs, List.append_assoc, List.append_assoc,
        attr a _ (hk a List.mem_cons_self) (hv a List.mem_cons_self)]
      dsimp only
      show (readAttrs (b :: s).length (Style.text (b :: s) ++ rest)).map _ = _
      rw [ih (by simp) (fun x hx => hk x (List.mem_cons_of_mem _ hx))
        (fun x hx => hv x (List.mem_cons_of_mem _ hx))]
      rfl

example : readAttrs 2 (Style.text [("label".toList, "a \"b\"".toList), ("color".toList, "gray".toList)] ++
    "];".toList) =
    some ([("label".toList, "a \"b\"".toList), ("color".toList, "gray".toList)], "];".toList) := by
  decide +kernel

/-! ### Numbers of nodes -/

/-- The numbers given so far: different for different items. -/
def Numbered (ids : Ids) : Prop :=
  (∀ a b n, (a, n) ∈ ids → (b, n) ∈ ids → a = b) ∧
    (∀ a n m, (a, n) ∈ ids → (a, m) ∈ ids → n = m) ∧ ∀ a n, (a, n) ∈ ids → n < ids.length

theorem graphId_spec (ids : Ids) (h : Numbered ids) (item : Nat) :
    Numbered (graphId ids item).2 ∧ (item, (graphId ids item).1) ∈ (graphId ids item).2 ∧
      ∀ e ∈ ids, e ∈ (graphId ids item).2 := by
  unfold graphId
  cases hf : ids.find? (fun e => decide (e.1 = item)) with
  | some e =>
    dsimp only
    have h1 := List.find?_some hf
    have h2 := List.mem_of_find?_eq_some hf
    have : e.1 = item := by simpa using h1
    exact ⟨h, by rw [← this]; exact h2, fun _ he => he⟩
  | none =>
    dsimp only
    have hn : ∀ e ∈ ids, e.1 ≠ item := by
      intro e he hc
      have := List.find?_eq_none.1 hf e he
      simp [hc] at this
    refine ⟨⟨?_, ?_, ?_⟩, by simp, fun e he => List.mem_append_left _ he⟩
    · intro a b n ha hb
      rcases List.mem_append.1 ha with ha | ha <;> rcases List.mem_append.1 hb with hb | hb
      · exact h.1 a b n ha hb
      · have := h.2.2 a n ha
        simp at hb
        omega
      · have := h.2.2 b n hb
        simp at ha
        omega
      · simp at ha hb
        rw [ha.1, hb.1]
    · intro a n m ha hb
      rcases List.mem_append.1 ha with ha | ha <;> rcases List.mem_append.1 hb with hb | hb
      · exact h.2.1 a n m ha hb
      · simp at hb
        exact absurd hb.1 (hn _ ha)
      · simp at ha
        exact absurd ha.1 (hn _ hb)
      · simp at ha hb
        rw [ha.2, hb.2]
    · intro a n ha
      rw [List.length_append]
      rcases List.mem_append.1 ha with ha | ha
      · have := h.2.2 a n ha
        omega
      · simp at ha
        simp
        omega

theorem nodeLines_spec (nodes : List (Nat × Option Style)) : ∀ (ids : Ids), Numbered ids →
    Numbered (nodeLines ids nodes).2 ∧ (∀ e ∈ ids, e ∈ (nodeLines ids nodes).2) ∧
    (nodeLines ids nodes).1.length = nodes.length ∧
    ∀ (k item : Nat) (s : Option Style), nodes[k]? = some (item, s) → ∃ n, (item, n) ∈ (nodeLines ids nodes).2 ∧
      (nodeLines ids nodes).1[k]? = some (DotLine.node n s) := by
  induction nodes with
  | nil =>
    intro ids h
    refine ⟨h, fun _ he => he, rfl, ?_⟩
    intro k item s hk
    cases hk
  | cons x nodes ih =>
    intro ids h
    obtain ⟨item, s⟩ := x
    obtain ⟨h1, h2, h3⟩ := graphId_spec ids h item
    obtain ⟨g1, g2, g3, g4⟩ := ih (graphId ids item).2 h1
    refine ⟨g1, fun e he => g2 e (h3 e he), by
      show (nodeLines (graphId ids item).2 nodes).1.length + 1 = _; rw [g3]; rfl, ?_⟩
    intro k item' s' hk
    cases k with
    | zero => cases hk; exact ⟨_, g2 _ h2, rfl⟩
    | succ k => exact g4 k item' s' hk

theorem edgeLines_spec (edges : List (Nat × Nat × Option Style)) : ∀ (ids : Ids), Numbered ids →
    Numbered (edgeLines ids edges).2 ∧ (∀ e ∈ ids, e ∈ (edgeLines ids edges).2) ∧
    (edgeLines ids edges).1.length = edges.length ∧
    ∀ (k a b : Nat) (s : Option Style), edges[k]? = some (a, b, s) → ∃ n m, (a, n) ∈ (edgeLines ids edges).2 ∧
      (b, m) ∈ (edgeLines ids edges).2 ∧
      (edgeLines ids edges).1[k]? = some (DotLine.edge n m s) := by
  induction edges with
  | nil =>
    intro ids h
    refine ⟨h, fun _ he => he, rfl, ?_⟩
    intro k a b s hk
    cases hk
  | cons x edges ih =>
    intro ids h
    obtain ⟨a, b, s⟩ := x
    obtain ⟨h1, h2, h3⟩ := graphId_spec ids h a
    obtain ⟨k1, k2, k3⟩ := graphId_spec _ h1 b
    obtain ⟨g1, g2, g3, g4⟩ := ih _ k1
    refine ⟨g1, fun e he => g2 e (k3 e (h3 e he)), by
      show (edgeLines (graphId (graphId ids a).2 b).2 edges).1.length + 1 = _; rw [g3]; rfl, ?_⟩
    intro k a' b' s' hk
    cases k with
    | zero => cases hk; exact ⟨_, _, g2 _ (k3 _ h2), g2 _ k2, rfl⟩
    | succ k => exact g4 k a' b' s' hk

/-- C42: every item of the graph has its own number, the same wherever it appears in the output, and
the output has a line for every node and every edge. -/
theorem graph_numbers (g : Graph) (ids : Ids) (h : Numbered ids) :
    Numbered (g.lines ids).2 ∧ (g.lines ids).1.length = g.nodes.length + g.edges.length ∧
    (∀ (k item : Nat) (s : Option Style), g.nodes[k]? = some (item, s) → ∃ n, (item, n) ∈ (g.lines ids).2 ∧
      (g.lines ids).1[k]? = some (DotLine.node n s)) ∧
    (∀ (k a b : Nat) (s : Option Style), g.edges[k]? = some (a, b, s) → ∃ n m, (a, n) ∈ (g.lines ids).2 ∧
      (b, m) ∈ (g.lines ids).2 ∧ (g.lines ids).1[g.nodes.length + k]? = some (DotLine.edge n m s)) := by
  obtain ⟨h1, h2, h3, h4⟩ := nodeLines_spec g.nodes ids h
  obtain ⟨g1, g2, g3, g4⟩ := edgeLines_spec g.edges _ h1
  refine ⟨g1, ?_, ?_, ?_⟩
  · show ((nodeLines ids g.nodes).1 ++ (edgeLines (nodeLines ids g.nodes).2 g.edges).1).length = _
    rw [List.length_append, h3, g3]
  · intro k item s hk
    obtain ⟨n, hn1, hn2⟩ := h4 k item s hk
    refine ⟨n, g2 _ hn1, ?_⟩
    show ((nodeLines ids g.nodes).1 ++ (edgeLines (nodeLines ids g.nodes).2 g.edges).1)[k]? = _
    rw [List.getElem?_append_left (List.getElem?_eq_some_iff.1 hn2).1]
    exact hn2
  · intro k a b s hk
    obtain ⟨n, m, e1, e2, e3⟩ := g4 k a b s hk
    refine ⟨n, m, e1, e2, ?_⟩
    show ((nodeLines ids g.nodes).1 ++
      (edgeLines (nodeLines ids g.nodes).2 g.edges).1)[g.nodes.length + k]? = _
    rw [← h3, List.getElem?_append_right (by omega), Nat.add_sub_cancel_left]
    exact e3

example : Numbered [] ∧ (Graph.lines { nodes := [(70, none), (90, none)], edges := [(70, 90, none)] } []).2 =
    [(70, 0), (90, 1)] := by
  refine ⟨⟨?_, ?_, ?_⟩, by decide⟩
  · intro a b n h; cases h
  · intro a b n h; cases h
  · intro a n h; cases h

end Yargy
