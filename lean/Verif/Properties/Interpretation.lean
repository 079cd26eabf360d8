import Verif.Proofs.InterpGood
import Verif.Properties.Pipelines
import Verif.Properties.Tokenizers
/-!
C35–C38, C40: facts.
-/
set_option linter.unusedSectionVars false
namespace Yargy
open Spec

variable {P : Type} {F : Facts} {I : Nat → Option Interpretator}

/-! ### Samples -/

def str (s : String) : Str := s.toList

/-- Class 0: `fact('Name', ['first', attribute('last', 'Petrov'), attribute('tags').repeatable()])`;
class 1: `fact('Person', ['name', 'age'])`; other classes have no attributes. -/
def sampleFacts : Facts where
  attrs
    | 0 => [(str "first", .single .none), (str "last", .single (.str (str "Petrov"))),
      (str "tags", .repeatable)]
    | 1 => [(str "name", .single .none), (str "age", .single .none)]
    | _ => []
  sub a b := a == b
  lower s := s
  inflect _ _ := none

theorem sampleFacts_sane : SaneFacts sampleFacts where
  nodup := by
    intro c
    match c with
    | 0 => decide
    | 1 => decide
    | _ + 2 => exact .nil
  inherits := by
    intro a b h
    have : a = b := by simpa [sampleFacts] using h
    rw [this]
  refl := by
    intro a
    simp [sampleFacts]

/-- Rule 0: `Person`; 1: `Name`; 2: `Name.first`; 3: `Name.tags`; 4: `Person.name`;
5: `Person.age.custom(…)`; 6: `normalized()`; 7: no interpretation. -/
def sampleI : Nat → Option Interpretator
  | 0 => some (.fact 1)
  | 1 => some (.fact 0)
  | 2 => some (.attr 0 (str "first"))
  | 3 => some (.attr 0 (str "tags"))
  | 4 => some (.attr 1 (str "name"))
  | 5 => some (.attrNorm 1 (str "age") (.fn (fun _ => .ok (.obj 42))))
  | 6 => some (.norm (.morph .normalized))
  | _ => none

theorem sampleI_own : ∀ r i, sampleI r = some i → OwnAttribute sampleFacts i := by
  intro r i h
  match r, h with
  | 0, h => cases h; trivial
  | 1, h => cases h; trivial
  | 2, h => cases h; show str "first" ∈ _; decide
  | 3, h => cases h; show str "tags" ∈ _; decide
  | 4, h => cases h; show str "name" ∈ _; decide
  | 5, h => cases h; show str "age" ∈ _; decide
  | 6, h => cases h; trivial
  | _ + 7, h => cases h

def sampleWord (s : String) (start : Nat) : Token :=
  { value := s.toList, span := (start, start + s.length), type := "RU".toList }

def leafOf (t : Token) : TTree String := .leaf t.span.1 "*" t

def nodeOf (r : Nat) (cs : List (TTree String)) : TTree String := .node 0 r ⟨0, [], 0, none⟩ 0 cs

/-- `ann x y 42`: a person with a name with the first name `ann` and the tags `x` and `y`. -/
def personTree : TTree String :=
  nodeOf 0 [nodeOf 4 [nodeOf 1 [nodeOf 7 [nodeOf 2 [leafOf (sampleWord "ann" 0)]],
      nodeOf 3 [leafOf (sampleWord "x" 4)], nodeOf 3 [leafOf (sampleWord "y" 6)]]],
    nodeOf 5 [leafOf (sampleWord "42" 8)]]

/-! ### C37 -/

/-- C37: the fact of a match is what comes out when the tree is read from left to right, every token
and every finished interpretation going to the innermost interpretation that is still open. In
particular rules without interpretation have no influence (they have no events), and nothing is
left open at the end. -/
theorem interpret_follows (root : TTree P) (res : Result) :
    interpretTree F I root = .ok res ↔
      (∃ n r p k cs, root = .node n r p k cs ∧ I r ≠ none) ∧
        follow F (events I root) [] [] = .ok ([], [.result res]) := by
  rw [interpretTree_iff, follow_events]
  refine and_congr_right (fun _ => ?_)
  cases interpAll F I (root.keep I) with
  | error e => simp [Except.map]
  | ok xs => simp [Except.map, deliverAll_out]

/-- C37: interpretation raises exactly when the root rule has no interpretation, or when one of the
interpretations raises as the tree is read. -/
theorem interpret_raises (root : TTree P) (e : Err) :
    interpretTree F I root = .error e ↔
      (e = .valueError ∧ ∀ n r p k cs, root = .node n r p k cs → I r = none) ∨
      ((∃ n r p k cs, root = .node n r p k cs ∧ I r ≠ none) ∧
        follow F (events I root) [] [] = .error e) := by
  rw [follow_events]
  cases root with
  | leaf n p t =>
    constructor
    · intro h
      cases h
      exact .inl ⟨rfl, fun n r p k cs h => by cases h⟩
    · rintro (⟨h, _⟩ | ⟨⟨n, r, p, k, cs, h, _⟩, _⟩)
      · subst h; rfl
      · cases h
  | node n r p k cs =>
    rw [interpretTree]
    cases hr : I r with
    | none =>
      constructor
      · intro h
        cases h
        exact .inl ⟨rfl, fun n' r' p' k' cs' h => by cases h; exact hr⟩
      · rintro (⟨h, _⟩ | ⟨⟨n', r', p', k', cs', h, h'⟩, _⟩)
        · subst h; rfl
        · cases h; exact absurd hr h'
    | some it =>
      dsimp only
      rw [PTree.keep, hr]
      dsimp only
      rw [interpAll]
      have hroot : ∃ n' r' p' k' cs', PTree.node n r p k cs = PTree.node n' r' p' k' cs' ∧
          I r' ≠ none := ⟨n, r, p, k, cs, rfl, by rw [hr]; simp⟩
      have hno : ¬ ∀ n' r' p' k' cs', PTree.node n r p k cs = PTree.node n' r' p' k' cs' →
          I r' = none := by
        intro h
        have := h n r p k cs rfl
        rw [hr] at this
        cases this
      cases hx : (PTree.node n r p k (keepAll I cs)).interp F I with
      | error e' =>
        constructor
        · intro h
          cases h
          exact .inr ⟨hroot, rfl⟩
        · rintro (⟨_, h⟩ | ⟨_, h⟩)
          · exact absurd h hno
          · cases h
            rfl
      | ok x =>
        have hres : ∃ res, x = .result res := by
          rw [PTree.interp, hr] at hx
          obtain ⟨xs, _, h2⟩ := except_bind_ok hx
          obtain ⟨res, _, h3⟩ := except_map_ok h2
          exact ⟨res, h3.symm⟩
        obtain ⟨res, e1⟩ := hres
        subst e1
        constructor
        · intro h; cases h
        · rintro (⟨_, h⟩ | ⟨_, h⟩)
          · exact absurd h hno
          · cases h

mutual
theorem events_tokens' : ∀ t : TTree P,
    (events I t).filterMap Event.token? = t.leaves.map Prod.snd
  | .leaf n p t => rfl
  | .node n r p k cs => by
    rw [events, leaves_node]
    have h := eventsAll_tokens cs
    cases I r with
    | none => exact h
    | some i =>
      show (List.filterMap Event.token? (eventsAll I cs ++ [.closes])) = _
      rw [List.filterMap_append, h]
      simp [Event.token?]
theorem eventsAll_tokens : ∀ cs : List (TTree P),
    (eventsAll I cs).filterMap Event.token? = (cs.flatMap PTree.leaves).map Prod.snd
  | [] => rfl
  | c :: cs => by
    rw [eventsAll, List.filterMap_append, events_tokens' c, eventsAll_tokens cs]
    simp
end

/-- C37: the tokens read are the tokens of the tree, each once and in order. -/
theorem events_tokens (t : TTree P) : (events I t).filterMap Event.token? = t.leaves.map Prod.snd :=
  events_tokens' t

example : follow sampleFacts (events sampleI personTree) [] [] =
    (interpretTree sampleFacts sampleI personTree).map (fun res => ([], [.result res])) ∧
    (events sampleI personTree).length = 18 ∧
    ((events sampleI personTree).filterMap Event.token?).map Token.value =
      [str "ann", str "x", str "y", str "42"] := by
  refine ⟨rfl, by decide +kernel, by decide +kernel⟩

theorem trims_yield {d d' : DTree P Token} (h : Trims d d') : d.yield.length = d'.yield.length ∧
    ∀ (k : Nat) (t : Token), d.yield[k]? = some t →
      ∃ t', d'.yield[k]? = some t' ∧ Narrowed t t' := by
  have happ : ∀ {a b a' b' : List Token}, (a.length = a'.length ∧ ∀ (k : Nat) (t : Token),
      a[k]? = some t → ∃ t', a'[k]? = some t' ∧ Narrowed t t') →
      (b.length = b'.length ∧ ∀ (k : Nat) (t : Token), b[k]? = some t →
        ∃ t', b'[k]? = some t' ∧ Narrowed t t') →
      ((a ++ b).length = (a' ++ b').length ∧ ∀ (k : Nat) (t : Token), (a ++ b)[k]? = some t →
        ∃ t', (a' ++ b')[k]? = some t' ∧ Narrowed t t') := by
    intro a b a' b' h1 h2
    refine ⟨by rw [List.length_append, List.length_append, h1.1, h2.1], ?_⟩
    intro k t hk
    rcases Nat.lt_or_ge k a.length with hl | hl
    · rw [List.getElem?_append_left hl] at hk
      rw [List.getElem?_append_left (h1.1 ▸ hl)]
      exact h1.2 k t hk
    · rw [List.getElem?_append_right hl] at hk
      rw [List.getElem?_append_right (h1.1 ▸ hl), ← h1.1]
      exact h2.2 _ t hk
  refine Trims.rec
    (motive_1 := fun d d' _ => d.yield.length = d'.yield.length ∧
      ∀ (k : Nat) (t : Token), d.yield[k]? = some t → ∃ t', d'.yield[k]? = some t' ∧ Narrowed t t')
    (motive_2 := fun ds ds' _ => (yieldAll ds).length = (yieldAll ds').length ∧
      ∀ (k : Nat) (t : Token), (yieldAll ds)[k]? = some t →
        ∃ t', (yieldAll ds')[k]? = some t' ∧ Narrowed t t')
    ?_ ?_ ?_ ?_ ?_ h
  · intro p t t' hn
    refine ⟨rfl, ?_⟩
    intro k u hk
    cases k with
    | zero => cases hk; exact ⟨t', rfl, hn⟩
    | succ k => cases hk
  · intro r prod cs cs' _ _ ih
    exact ih
  · exact ⟨rfl, fun k t hk => by cases hk⟩
  · intro c c' cs cs' _ _ ih1 ih2
    exact happ ih1 ih2
  · intro c cs cs' h0 _ ih
    rw [yieldAll, h0]
    exact ih

/-- C37: for a match, the tokens read are exactly the tokens of its range, with some forms removed. -/
theorem match_tokens_read {G : Grammar P Token} {toks : List Token} {σ : Store} {m : Match P}
    (hC : ConstrainNarrows G) (h : MatchOK G toks σ m) :
    ((events I (m.tree.root.load σ)).filterMap Event.token?).length =
      m.tree.range.2 - m.tree.range.1 ∧
    ∀ k, k < m.tree.range.2 - m.tree.range.1 → ∃ t t', toks[m.tree.range.1 + k]? = some t ∧
      ((events I (m.tree.root.load σ)).filterMap Event.token?)[k]? = some t' ∧ Narrowed t t' := by
  obtain ⟨d, h1, h2⟩ := h.derives
  have hr := derives_reads h1
  obtain ⟨t1, t2⟩ := trims_yield h2
  rw [events_tokens, ← yield_erase]
  refine ⟨by rw [← t1, hr.len], ?_⟩
  intro k hk
  obtain ⟨p, tok, g1, g2, g3⟩ := hr.get k hk
  obtain ⟨t', g4, g5⟩ := t2 k _ g3
  exact ⟨tok, t', g1, g4, (hC p tok g2).trans g5⟩

/-! ### C35 -/

abbrev AnyGood (F : Facts) : Result → Prop := Good F (fun _ => True) (fun _ _ => True)

theorem normOk_any (i : Interpretator) : NormOk F (fun _ _ => True) i := by
  cases i with
  | fact c => trivial
  | attr c n => trivial
  | norm n => exact ⟨fun _ _ => trivial, fun _ _ _ _ => trivial⟩
  | attrNorm c k n => exact ⟨fun _ _ => trivial, fun _ _ _ _ => trivial⟩

theorem parts_good (hF : SaneFacts F) (ho : ∀ r i, I r = some i → OwnAttribute F i)
    {cs : List (TTree P)} {items} (h : follow F (eventsAll I cs) [] [] = .ok ([], items)) :
    interpAll F I (keepAll I cs) = .ok items ∧
      ∀ x ∈ items, GoodItem F (fun _ => True) (fun _ _ => True) x := by
  rw [follow_eventsAll] at h
  obtain ⟨xs, h1, h2⟩ := except_map_ok h
  rw [deliverAll_out] at h2
  cases h2
  refine ⟨h1, ?_⟩
  exact (interpAll_good (B := False) (T := fun _ => True) hF (fun _ _ _ => trivial) ho
    (fun r i _ => normOk_any i) cs (fun _ _ _ _ => trivial) (fun b => b.elim) _ h1).1

/-- C35: what the parts of a node assign to an attribute is well defined. -/
theorem parts_assign (hF : SaneFacts F) (ho : ∀ r i, I r = some i → OwnAttribute F i)
    {cs : List (TTree P)} {items} (h : follow F (eventsAll I cs) [] [] = .ok ([], items))
    (cls : Nat) (key : Str) : ∃ rs, AssignsAll F cls key items rs :=
  assignsAll_exists hF cls key (parts_good hF ho h).2

theorem fact_state (hF : SaneFacts F) (ho : ∀ r i, I r = some i → OwnAttribute F i)
    {cs : List (TTree P)} {items} (h : follow F (eventsAll I cs) [] [] = .ok ([], items))
    {n r : Nat} {p : Production P} {k cls : Nat} (hI : I r = some (.fact cls)) :
    ∃ attrs modified, interpretTree F I (.node n r p k cs) = .ok (.fact cls attrs modified) ∧
      AnyGood F (.fact cls attrs modified) ∧
      ∀ key, key ∈ names F cls → ∀ rs, AssignsAll F cls key items rs → ∀ slot,
        (key, slot) ∈ attrs →
        (∀ d, (key, AttrKind.single d) ∈ F.attrs cls → rs = [] ∧ slot = .default d ∨
          ∃ r, rs.getLast? = some r ∧ slot = .one r) ∧
        ((key, AttrKind.repeatable) ∈ F.attrs cls →
          (∀ pre x post, items = pre ++ x :: post → MergesKey F cls key x →
            AssignsAll F cls key pre []) → slot = .many rs) := by
  obtain ⟨h1, h2⟩ := parts_good hF ho h
  obtain ⟨st', h3, h4, h5⟩ := factItems_good hF (cls := cls)
    (st := ((F.attrs cls).map (fun a => (a.1, a.2.initial)), [])) (init_good hF cls) h2
  refine ⟨st'.1, st'.2, ?_, h4, ?_⟩
  · rw [interpretTree_iff]
    refine ⟨⟨n, r, p, k, cs, rfl, by rw [hI]; simp⟩, ?_⟩
    rw [PTree.keep, hI]
    dsimp only
    rw [interpAll, PTree.interp, h1, hI]
    have : factCall F cls items = .ok (.fact cls st'.1 st'.2) := by
      unfold factCall
      rw [h3]
      rfl
    simp only [bind, Except.bind, Interpretator.call, this]
    rfl
  · intro key hkey rs hrs slot hslot
    constructor
    · intro d hd
      have hr : F.repeatable cls key = false := by
        cases hc : F.repeatable cls key with
        | false => rfl
        | true => have := (repeatable_iff hF hd).1 hc; cases this
      have hin : (key, Slot.default d) ∈ (F.attrs cls).map (fun a => (a.1, a.2.initial)) :=
        List.mem_map.2 ⟨_, hd, rfl⟩
      rcases (h5 key hkey rs hrs _ slot hin hslot).1 hr with ⟨e1, e2⟩ | h
      · exact .inl ⟨e1, e2⟩
      · exact .inr h
    · intro hd hm
      have hin : (key, Slot.many []) ∈ (F.attrs cls).map (fun a => (a.1, a.2.initial)) :=
        List.mem_map.2 ⟨_, hd, rfl⟩
      refine (h5 key hkey rs hrs _ slot hin hslot).2 ((repeatable_iff hF hd).2 rfl) [] rfl ?_
      intro pre x post e hx ss hss
      have h0 := hm pre x post e hx
      rw [List.nil_append]
      exact assignsAll_unique hF (fun y hy => h2 y (by rw [e]; exact List.mem_append_left _ hy)) hss h0

/-- C35: interpreting a node as a fact never raises once its parts have been interpreted, and the
fact has the attributes of its class in their order. -/
theorem fact_attributes (hF : SaneFacts F) (ho : ∀ r i, I r = some i → OwnAttribute F i)
    {cs : List (TTree P)} {items} (h : follow F (eventsAll I cs) [] [] = .ok ([], items))
    {n r : Nat} {p : Production P} {k cls : Nat} (hI : I r = some (.fact cls)) :
    ∃ vals, matchFact F I (.node n r p k cs) = .ok (.fact cls vals) ∧
      vals.map Prod.fst = names F cls := by
  obtain ⟨attrs, modified, h1, h2, _⟩ := fact_state hF ho h (n := n) (p := p) (k := k) hI
  obtain ⟨vals, h3, h4, _⟩ := fact_value hF h2
  refine ⟨vals, ?_, h4⟩
  unfold matchFact
  rw [h1]
  exact h3

/-- C35: an ordinary attribute has the value assigned to it last, its default if there is none. -/
theorem fact_ordinary (hF : SaneFacts F) (ho : ∀ r i, I r = some i → OwnAttribute F i)
    {cs : List (TTree P)} {items} (h : follow F (eventsAll I cs) [] [] = .ok ([], items))
    {n r : Nat} {p : Production P} {k cls : Nat} (hI : I r = some (.fact cls)) {vals}
    (hv : matchFact F I (.node n r p k cs) = .ok (.fact cls vals)) {key : Str} {d : Val}
    (hd : (key, AttrKind.single d) ∈ F.attrs cls) {v : Val} (hkv : (key, v) ∈ vals)
    {rs : List Result} (hrs : AssignsAll F cls key items rs) :
    (rs = [] ∧ v = d) ∨ ∃ r, rs.getLast? = some r ∧ r.normalized F = .ok v := by
  obtain ⟨attrs, modified, h1, h2, h3⟩ := fact_state hF ho h (n := n) (p := p) (k := k) hI
  obtain ⟨vals', h4, h5, h6⟩ := fact_value hF h2
  unfold matchFact at hv
  rw [h1] at hv
  rw [show (Except.ok (Result.fact cls attrs modified) : Except Err Result).bind _ =
    (Result.fact cls attrs modified).normalized F from rfl, h4] at hv
  cases hv
  obtain ⟨slot, g1, g2⟩ := h6 key v hkv
  have hkey : key ∈ names F cls := List.mem_map.2 ⟨_, hd, rfl⟩
  rcases (h3 key hkey rs hrs slot g1).1 d hd with ⟨e1, e2⟩ | ⟨r', e1, e2⟩
  · subst e2
    exact .inl ⟨e1, g2⟩
  · subst e2
    exact .inr ⟨r', e1, g2⟩

/-- C35, partial: a repeatable attribute has all the values assigned to it, in text order, provided
no part that is itself such a fact with values for this attribute comes after other values for it.
(Without the proviso: `repeatable_overwritten`, and `fact_repeatable_last` for what happens.) -/
theorem fact_repeatable_partial (hF : SaneFacts F) (ho : ∀ r i, I r = some i → OwnAttribute F i)
    {cs : List (TTree P)} {items} (h : follow F (eventsAll I cs) [] [] = .ok ([], items))
    {n r : Nat} {p : Production P} {k cls : Nat} (hI : I r = some (.fact cls)) {vals}
    (hv : matchFact F I (.node n r p k cs) = .ok (.fact cls vals)) {key : Str}
    (hd : (key, AttrKind.repeatable) ∈ F.attrs cls) {v : Val} (hkv : (key, v) ∈ vals)
    {rs : List Result} (hrs : AssignsAll F cls key items rs)
    (hm : ∀ pre x post, items = pre ++ x :: post → MergesKey F cls key x →
      AssignsAll F cls key pre []) :
    ∃ vs, v = .list vs ∧ rs.map (Result.normalized F) = vs.map .ok := by
  obtain ⟨attrs, modified, h1, h2, h3⟩ := fact_state hF ho h (n := n) (p := p) (k := k) hI
  obtain ⟨vals', h4, h5, h6⟩ := fact_value hF h2
  unfold matchFact at hv
  rw [h1] at hv
  rw [show (Except.ok (Result.fact cls attrs modified) : Except Err Result).bind _ =
    (Result.fact cls attrs modified).normalized F from rfl, h4] at hv
  cases hv
  obtain ⟨slot, g1, g2⟩ := h6 key v hkv
  have hkey : key ∈ names F cls := List.mem_map.2 ⟨_, hd, rfl⟩
  have e := (h3 key hkey rs hrs slot g1).2 hd hm
  subst e
  exact g2

/-- C35: in general, of the values assigned to a repeatable attribute those from the last part that
is itself such a fact on are kept, and those before are lost. -/
theorem fact_repeatable_last (hF : SaneFacts F) (ho : ∀ r i, I r = some i → OwnAttribute F i)
    {cs : List (TTree P)} {pre post : List Item} {x : Item}
    (h : follow F (eventsAll I cs) [] [] = .ok ([], pre ++ x :: post))
    {n r : Nat} {p : Production P} {k cls : Nat} (hI : I r = some (.fact cls)) {vals}
    (hv : matchFact F I (.node n r p k cs) = .ok (.fact cls vals)) {key : Str}
    (hd : (key, AttrKind.repeatable) ∈ F.attrs cls) {v : Val} (hkv : (key, v) ∈ vals)
    (hx : MergesKey F cls key x) (hpost : ∀ y ∈ post, ¬ MergesKey F cls key y)
    {rs : List Result} (hrs : AssignsAll F cls key (x :: post) rs) :
    ∃ vs, v = .list vs ∧ rs.map (Result.normalized F) = vs.map .ok := by
  obtain ⟨h1, h2⟩ := parts_good hF ho h
  obtain ⟨st1, a1, a2, _⟩ := factItems_good hF (cls := cls)
    (st := ((F.attrs cls).map (fun a => (a.1, a.2.initial)), [])) (init_good hF cls)
    (fun y hy => h2 y (List.mem_append_left _ hy))
  obtain ⟨st2, b1, b2, b3⟩ := factItem_good hF a2 (h2 x (List.mem_append_right _ List.mem_cons_self))
  obtain ⟨st3, c1, c2, c3⟩ := factItems_good hF b2
    (fun y hy => h2 y (List.mem_append_right _ (List.mem_cons_of_mem _ hy)))
  have hfold : (pre ++ x :: post).foldlM (factItem F cls)
      ((F.attrs cls).map (fun a => (a.1, a.2.initial)), []) = .ok st3 := by
    rw [List.foldlM_append, a1]
    show (x :: post).foldlM (factItem F cls) st1 = _
    rw [List.foldlM_cons, b1]
    exact c1
  have hfact : interpretTree F I (.node n r p k cs) = .ok (.fact cls st3.1 st3.2) := by
    rw [interpretTree_iff]
    refine ⟨⟨n, r, p, k, cs, rfl, by rw [hI]; simp⟩, ?_⟩
    rw [PTree.keep, hI]
    dsimp only
    rw [interpAll, PTree.interp, h1, hI]
    have : factCall F cls (pre ++ x :: post) = .ok (.fact cls st3.1 st3.2) := by
      unfold factCall
      rw [hfold]
      rfl
    simp only [bind, Except.bind, Interpretator.call, this]
    rfl
  obtain ⟨vals', h4, h5, h6⟩ := fact_value hF c2
  unfold matchFact at hv
  rw [hfact] at hv
  rw [show (Except.ok (Result.fact cls st3.1 st3.2) : Except Err Result).bind _ =
    (Result.fact cls st3.1 st3.2).normalized F from rfl, h4] at hv
  cases hv
  obtain ⟨slot, g1, g2⟩ := h6 key v hkv
  have hkey : key ∈ names F cls := List.mem_map.2 ⟨_, hd, rfl⟩
  have hrep := (repeatable_iff hF hd).2 rfl
  have hs1 : ∃ acc, (key, Slot.many acc) ∈ st1.1 := by
    cases a2 with
    | fact _ hk _ hr _ _ =>
      obtain ⟨s, hs⟩ := slot_exists hk hkey
      obtain ⟨acc, e⟩ := hr key s hd hs
      subst e
      exact ⟨acc, hs⟩
  have hs2 : ∃ s, (key, s) ∈ st2.1 := by
    cases b2 with
    | fact _ hk _ _ _ _ => exact slot_exists hk hkey
  obtain ⟨acc, hs1⟩ := hs1
  obtain ⟨s2, hs2⟩ := hs2
  cases hrs with
  | cons hrx hrp =>
    have e2 := ((b3 key hkey _ hrx _ _ hs1 hs2).2 hrep acc rfl).1 hx
    subst e2
    have e3 := (c3 key hkey _ hrp _ _ hs2 g1).2 hrep _ rfl
      (fun pre' y post' e hy => absurd hy (hpost y (by rw [e]; simp)))
    subst e3
    exact g2

/-- The person of the sample: the first name, the default last name, both tags, and the age made by
a user function. -/
theorem sample_fact : matchFact sampleFacts sampleI personTree = .ok (.fact 1
    [(str "name", .fact 0 [(str "first", .str (str "ann")), (str "last", .str (str "Petrov")),
      (str "tags", .list [.str (str "x"), .str (str "y")])]), (str "age", .obj 42)]) := rfl

/-- The hypotheses are met by the name in the sample: `tags` receives two values, `last` none. -/
example : ∃ items rs, follow sampleFacts (eventsAll sampleI
      [nodeOf 7 [nodeOf 2 [leafOf (sampleWord "ann" 0)]],
        nodeOf 3 [leafOf (sampleWord "x" 4)], nodeOf 3 [leafOf (sampleWord "y" 6)]]) [] [] =
        .ok ([], items) ∧
      AssignsAll sampleFacts 0 (str "tags") items rs ∧ rs.length = 2 ∧
      AssignsAll sampleFacts 0 (str "last") items [] ∧
      ∀ pre x post, items = pre ++ x :: post → MergesKey sampleFacts 0 (str "tags") x →
        AssignsAll sampleFacts 0 (str "tags") pre [] := by
  refine ⟨[.result (.attr (.chain [sampleWord "ann" 0] none) 0 (str "first")),
    .result (.attr (.chain [sampleWord "x" 4] none) 0 (str "tags")),
    .result (.attr (.chain [sampleWord "y" 6] none) 0 (str "tags"))], _, rfl,
    .cons (.otherAttr (.inr (by decide))) (.cons (.attr rfl) (.cons (.attr rfl) .nil)), rfl, .cons (.otherAttr (.inr (by decide))) (.cons (.otherAttr (.inr (by decide)))
      (.cons (.otherAttr (.inr (by decide))) .nil)), ?_⟩
  intro pre x post e hx
  have hm : x ∈ pre ++ x :: post := by simp
  rw [← e] at hm
  simp only [List.mem_cons, List.not_mem_nil, or_false] at hm
  rcases hm with rfl | rfl | rfl <;> exact hx.elim

/-- A name with the tag `x`, a part of it being itself interpreted as a name with the tag `y`. -/
def mergedTree : TTree String :=
  nodeOf 1 [nodeOf 3 [leafOf (sampleWord "x" 0)], nodeOf 1 [nodeOf 3 [leafOf (sampleWord "y" 2)]]]

/-- C35 is false for repeatable attributes when a part is a fact of the same class: merging it
replaces the values collected before. Here the parts assign `x` and `y`, the fact has only `y`. -/
theorem repeatable_overwritten : ∃ cs items rs, mergedTree = nodeOf 1 cs ∧
    follow sampleFacts (eventsAll sampleI cs) [] [] = .ok ([], items) ∧
    AssignsAll sampleFacts 0 (str "tags") items rs ∧
    rs.map (Result.normalized sampleFacts) = [.ok (.str (str "x")), .ok (.str (str "y"))] ∧
    matchFact sampleFacts sampleI mergedTree = .ok (.fact 0
      [(str "first", .none), (str "last", .str (str "Petrov")),
        (str "tags", .list [.str (str "y")])]) := by
  refine ⟨_, _, _, rfl, rfl, .cons (.attr rfl) (.cons (.fact rfl (by decide)
    ⟨_, List.mem_cons_of_mem _ (List.mem_cons_of_mem _ List.mem_cons_self), .inr (.inr rfl)⟩) .nil),
    rfl, rfl⟩

/-- The hypotheses of `fact_repeatable_last` are met by it. -/
example : ∃ items x, follow sampleFacts (eventsAll sampleI
    [nodeOf 3 [leafOf (sampleWord "x" 0)], nodeOf 1 [nodeOf 3 [leafOf (sampleWord "y" 2)]]]) [] [] =
      .ok ([], items ++ x :: []) ∧ items.length = 1 ∧ MergesKey sampleFacts 0 (str "tags") x :=
  ⟨[_], _, rfl, rfl, rfl, by decide⟩

/-! ### C36 -/

theorem normOk_plain {i : Interpretator} (h : PlainInterpretator i) :
    NormOk F (fun v _ => Plain v) i := by
  have key : ∀ n : Normalizer, PlainNormalizer n → (∀ v, n = .const v → Plain v) ∧
      ((∀ v, n ≠ .const v) → ∀ input v, n.call F input = .ok v → Plain v) := by
    intro n hn
    have hmorph : ∀ (m : Morphing) (input : Result) v, m.call F input = .ok v → Plain v := by
      intro m input v hv
      unfold Morphing.call at hv
      cases input with
      | chain ts k =>
        cases m with
        | normalized =>
          dsimp only at hv
          split at hv
          · cases hv
            rw [Plain]
            trivial
          · obtain ⟨s, _, h2⟩ := except_map_ok hv
            subst h2
            rw [Plain]
            trivial
        | inflected g =>
          obtain ⟨s, _, h2⟩ := except_map_ok hv
          subst h2
          rw [Plain]
          trivial
      | fact _ _ _ => cases hv
      | attr _ _ _ => cases hv
      | norm _ _ => cases hv
    constructor
    · intro v e
      subst e
      exact hn
    · intro hc input v hv
      cases n with
      | const w => exact absurd rfl (hc w)
      | morph m => exact hmorph m input v hv
      | fn f =>
        obtain ⟨w, _, h2⟩ := except_bind_ok hv
        exact hn w v h2
      | fnfn f g =>
        obtain ⟨w, _, h2⟩ := except_bind_ok hv
        exact hn w v h2
      | morphFn m f =>
        obtain ⟨w, _, h2⟩ := except_bind_ok hv
        exact hn w v h2
  cases i with
  | fact c => trivial
  | attr c n => trivial
  | norm n => exact key n h
  | attrNorm c k n => exact key n h

/-- C36, partial: `as_json` never raises and is the JSON form of the fact object, provided that
constants, defaults and the results of user functions contain no fact objects. (Without the proviso:
`json_keeps_facts`.) -/
theorem json_agrees_partial (hF : SaneFacts F) (ho : ∀ r i, I r = some i → OwnAttribute F i)
    (hp : ∀ r i, I r = some i → PlainInterpretator i) (hd : PlainDefaults F) {root : TTree P}
    {res : Result} (h : interpretTree F I root = .ok res) :
    ∃ v j, matchFact F I root = .ok v ∧ res.asJson F = .ok j ∧ cleanJson j = toJson v := by
  have hg : Good F (fun _ => True) (fun v _ => Plain v) res :=
    interpretTree_good (B := False) (T := fun _ => True) hF (fun _ _ _ => trivial) ho
      (fun r i hr => normOk_plain (hp r i hr)) (fun _ _ => trivial) (fun b => b.elim) h
  obtain ⟨v, j, h1, h2, h3⟩ := good_json hF hd hg
  refine ⟨v, j, ?_, h2, h3⟩
  unfold matchFact
  rw [h]
  exact h1

/-- C36: the JSON form of a fact lists exactly the attributes that are not `None`, in order. -/
theorem json_fields (cls : Nat) (attrs : List (Str × Val)) : ∃ fields,
    toJson (.fact cls attrs) = .obj fields ∧
      fields = (attrs.filter (fun a => match a.2 with | .none => false | _ => true)).map
        (fun a => (a.1, toJson a.2)) := by
  refine ⟨toFields attrs, rfl, ?_⟩
  induction attrs with
  | nil => rfl
  | cons a attrs ih =>
    obtain ⟨k, v⟩ := a
    rw [toFields]
    cases v with
    | none => exact ih
    | str s => exact congrArg _ ih
    | obj n => exact congrArg _ ih
    | list vs => exact congrArg _ ih
    | fact c as => exact congrArg _ ih

/-- The hypotheses are met by the sample. -/
example : (∀ r i, sampleI r = some i → PlainInterpretator i) ∧ PlainDefaults sampleFacts ∧
    ∃ res, interpretTree sampleFacts sampleI personTree = .ok res ∧
      res.asJson sampleFacts = .ok (.obj [(str "name", .obj [(str "first", .val (.str (str "ann"))),
        (str "last", .val (.str (str "Petrov"))),
        (str "tags", .list [.val (.str (str "x")), .val (.str (str "y"))])]),
        (str "age", .val (.obj 42))]) := by
  refine ⟨?_, ?_, _, rfl, rfl⟩
  · intro r i h
    match r, h with
    | 0, h => cases h; trivial
    | 1, h => cases h; trivial
    | 2, h => cases h; trivial
    | 3, h => cases h; trivial
    | 4, h => cases h; trivial
    | 5, h =>
      cases h
      intro v w e
      cases e
      rw [Plain]
      trivial
    | 6, h => cases h; trivial
    | _ + 7, h => cases h
  · intro cls key d h
    match cls, h with
    | 0, h =>
      simp only [sampleFacts, List.mem_cons, Prod.mk.injEq, List.not_mem_nil, or_false] at h
      rcases h with ⟨_, h⟩ | ⟨_, h⟩ | ⟨_, h⟩ <;> cases h <;> rw [Plain] <;> trivial
    | 1, h =>
      simp only [sampleFacts, List.mem_cons, Prod.mk.injEq, List.not_mem_nil, or_false] at h
      rcases h with ⟨_, h⟩ | ⟨_, h⟩ <;> cases h <;> rw [Plain] <;> trivial
    | _ + 2, h => cases h

/-- Rule 0: `Person`; rule 1: `Person.name.custom(lambda s: Name(first=s))`. -/
def customI : Nat → Option Interpretator
  | 0 => some (.fact 1)
  | 1 => some (.attrNorm 1 (str "name") (.fn (fun v => makeFact sampleFacts 0 [(str "first", v)])))
  | _ => none

def customTree : TTree String := nodeOf 0 [nodeOf 1 [leafOf (sampleWord "ann" 0)]]

/-- C36 is false when a user function returns a fact object: `as_json` contains the object itself,
not its JSON form. -/
theorem json_keeps_facts : ∃ res v j fields, interpretTree sampleFacts customI customTree = .ok res ∧
    matchFact sampleFacts customI customTree = .ok v ∧ res.asJson sampleFacts = .ok (.obj [(str "name", j)]) ∧
    toJson v = .obj [(str "name", .obj fields)] ∧
    j = .val (.fact 0 [(str "first", .str (str "ann")), (str "last", .str (str "Petrov")),
      (str "tags", .list [])]) ∧ cleanJson (.obj [(str "name", j)]) ≠ toJson v := by
  refine ⟨_, _, _, _, rfl, rfl, rfl, rfl, rfl, ?_⟩
  intro h
  have h' : Json.obj [(str "name", .val (.fact 0 [(str "first", .str (str "ann")),
      (str "last", .str (str "Petrov")), (str "tags", .list [])]))] =
    Json.obj [(str "name", .obj [(str "first", .val (.str (str "ann"))),
      (str "last", .val (.str (str "Petrov"))), (str "tags", .list [])])] := h
  injection h' with h'
  injection h' with h' _
  injection h' with _ h'
  cases h'

/-! ### C38 -/

theorem normOk_spans {i : Interpretator} (h : NoConst i) : NormOk F (fun _ b => b = true) i := by
  cases i with
  | fact c => trivial
  | attr c n => trivial
  | norm n =>
    refine ⟨?_, fun _ _ _ _ => rfl⟩
    intro v e
    subst e
    exact h.elim
  | attrNorm c k n =>
    refine ⟨?_, fun _ _ _ _ => rfl⟩
    intro v e
    subst e
    exact h.elim

theorem trims_bushy {d : DTree P Token} {t : TTree P} (h : Trims d t.erase) : Bushy t := by
  revert d h
  refine ptree_induct (M := fun t : TTree P => ∀ {d}, Trims d t.erase → Bushy t) ?_ ?_ t
  · intro l p t d _
    trivial
  · intro n r p k cs ih d h
    rw [PTree.erase] at h
    cases h with
    | node h1 h2 =>
      refine ⟨?_, (bushyAll_iff _).2 ?_⟩
      · intro e
        subst e
        exact h2 rfl
      · intro c hc
        rw [eraseAll_map] at h1
        have key : ∀ (ds : List (DTree P Token)) (cs : List (TTree P)),
            TrimsAll ds (cs.map PTree.erase) → c ∈ cs → ∃ d, Trims d c.erase := by
          intro ds
          induction ds with
          | nil =>
            intro cs h hc
            cases cs with
            | nil => cases hc
            | cons _ _ => cases h
          | cons e ds ihd =>
            intro cs h hc
            generalize hm : cs.map PTree.erase = es at h
            cases h with
            | keep g1 g2 =>
              cases cs with
              | nil => cases hm
              | cons c' cs' =>
                rw [List.map_cons] at hm
                injection hm with e1 e2
                rcases List.mem_cons.1 hc with hc | hc
                · subst hc
                  rw [← e1] at g1
                  exact ⟨_, g1⟩
                · exact ihd cs' (e2 ▸ g2) hc
            | drop _ g2 => exact ihd cs (hm ▸ g2) hc
        obtain ⟨d', hd'⟩ := key _ _ h1 hc
        exact ih c hc hd'

/-- Tokens in text order. -/
def InOrder (toks : List Token) : Prop :=
  (∀ t ∈ toks, t.span.1 ≤ t.span.2) ∧
    toks.Pairwise (fun a b => a.span.1 ≤ b.span.1 ∧ a.span.2 ≤ b.span.2)

/-- C38, partial: the spans of a fact are found without an exception, sorted by their start, each
starts at the start and ends at the end of a token of the match, and all lie inside the span of the
match; provided that no constant is used as interpretation. (Without the proviso: `const_no_spans`.) -/
theorem fact_spans_partial (hF : SaneFacts F) (ho : ∀ r i, I r = some i → OwnAttribute F i)
    (hc : ∀ r i, I r = some i → NoConst i) {G : Grammar P Token} (hC : ConstrainNarrows G)
    {toks : List Token} (hord : InOrder toks) {σ : Store} {m : Match P} (hm : MatchOK G toks σ m)
    {res : Result} (h : interpretTree F I (m.tree.root.load σ) = .ok res) :
    ∃ l, res.factSpans F = .ok l ∧ l.Pairwise (fun a b => a.1 ≤ b.1) ∧ ∀ s ∈ l,
      m.span.1 ≤ s.1 ∧ s.2 ≤ m.span.2 ∧
      ∃ i j a b, m.tree.range.1 ≤ i ∧ i < m.tree.range.2 ∧ m.tree.range.1 ≤ j ∧ j < m.tree.range.2 ∧
        toks[i]? = some a ∧ toks[j]? = some b ∧ s = (a.span.1, b.span.2) := by
  obtain ⟨d, hd, ht⟩ := hm.derives
  have hbushy := trims_bushy ht
  obtain ⟨l1, l2⟩ := match_tokens_read (I := I) hC hm
  rw [events_tokens] at l1 l2
  have hg := interpretTree_good (B := True) (T := fun t => t ∈ (m.tree.root.load σ).leaves.map Prod.snd)
    (C := fun ts => ts ≠ [] ∧ ∀ t ∈ ts, t ∈ (m.tree.root.load σ).leaves.map Prod.snd)
    (N := fun _ b => b = true) hF (fun ts h1 h2 => ⟨h1 trivial, h2⟩) ho
    (fun r i hr => normOk_spans (hc r i hr))
    (fun l hl => List.mem_map.2 ⟨l, hl, rfl⟩) (fun _ => hbushy) h
  obtain ⟨l, h1, h2⟩ := good_spans hF hg
  refine ⟨sortSpans l, ?_, sortSpans_sorted l, ?_⟩
  · unfold Result.factSpans
    rw [h1]
    rfl
  · intro s hs
    obtain ⟨a, ha, b, hb, e⟩ := h2 s (mem_sortSpans.1 hs)
    have find : ∀ t' ∈ (m.tree.root.load σ).leaves.map Prod.snd, ∃ k t, m.tree.range.1 ≤ k ∧
        k < m.tree.range.2 ∧ toks[k]? = some t ∧ t'.span = t.span := by
      intro t' ht'
      obtain ⟨k, hk⟩ := List.mem_iff_getElem?.1 ht'
      have hlt := (List.getElem?_eq_some_iff.1 hk).1
      rw [l1] at hlt
      obtain ⟨t, t2, g1, g2, g3⟩ := l2 k hlt
      rw [hk] at g2
      cases g2
      exact ⟨m.tree.range.1 + k, t, by omega, by omega, g1, g3.span⟩
    obtain ⟨i, ta, i1, i2, i3, i4⟩ := find a ha
    obtain ⟨j, tb, j1, j2, j3, j4⟩ := find b hb
    obtain ⟨fa, fb, f1, f2, f3⟩ := hm.span
    have order : ∀ (x y : Nat) (u v : Token), x ≤ y → toks[x]? = some u → toks[y]? = some v →
        u.span.1 ≤ v.span.1 ∧ u.span.2 ≤ v.span.2 := by
      intro x y u v hxy hu hv
      rcases Nat.lt_or_ge x y with hlt | hge
      · obtain ⟨hx, ex⟩ := List.getElem?_eq_some_iff.1 hu
        obtain ⟨hy, ey⟩ := List.getElem?_eq_some_iff.1 hv
        have := List.pairwise_iff_getElem.1 hord.2 x y hx hy hlt
        rw [ex, ey] at this
        exact this
      · have : x = y := by omega
        subst this
        rw [hu] at hv
        cases hv
        exact ⟨Nat.le_refl _, Nat.le_refl _⟩
    subst e
    rw [f3, i4, j4]
    refine ⟨(order _ _ _ _ i1 f1 i3).1, (order _ _ _ _ (by omega) j3 f2).2,
      i, j, ta, tb, i1, i2, j1, j2, i3, j3, rfl⟩

/-- The hypotheses are met by a match of the sample text; its fact has four spans. -/
def personGrammar : Grammar String Token := wordGrammar
  [[⟨0, [.rule 4, .rule 5], 0, none⟩], [⟨1, [.rule 2, .rule 3, .rule 3], 0, none⟩],
    [⟨2, [.pred "*"], 0, none⟩], [⟨3, [.pred "*"], 0, none⟩], [⟨4, [.rule 1], 0, none⟩],
    [⟨5, [.pred "42"], 0, none⟩]]

def personText : List Token :=
  [sampleWord "ann" 0, sampleWord "x" 4, sampleWord "y" 6, sampleWord "42" 8]

/-- The spans of the facts of all matches. -/
def spansOf (r : Option (List (Match String) × Store × Option Err)) :
    Option (List (Option (List (Nat × Nat)))) :=
  r.map (fun x => x.1.map (fun m =>
    ((interpretTree sampleFacts sampleI (m.tree.root.load x.2.1)).bind
      (Result.factSpans sampleFacts)).toOption))

example : InOrder personText ∧ ConstrainNarrows personGrammar ∧
    (∀ r i, sampleI r = some i → NoConst i) ∧
    spansOf (extract personGrammar noAgreement (id : Key → Key) personText true 200) =
      some [some [(0, 3), (4, 5), (6, 7), (8, 10)]] := by
  refine ⟨⟨by decide, by decide⟩, ?_, ?_, by decide +kernel⟩
  · intro p t _
    exact Narrowed.refl t
  · intro r i h
    match r, h with
    | 0, h => cases h; trivial
    | 1, h => cases h; trivial
    | 2, h => cases h; trivial
    | 3, h => cases h; trivial
    | 4, h => cases h; trivial
    | 5, h => cases h; trivial
    | 6, h => cases h; trivial
    | _ + 7, h => cases h

/-- Rule 0: `Person`; rule 1: `Person.age.const(1)`. -/
def constI : Nat → Option Interpretator
  | 0 => some (.fact 1)
  | 1 => some (.attrNorm 1 (str "age") (.const (.obj 1)))
  | _ => none

/-- C38 is false with constants: the fact is there, asking for its spans raises. -/
theorem const_no_spans : ∃ res v, interpretTree sampleFacts constI customTree = .ok res ∧
    matchFact sampleFacts constI customTree = .ok v ∧
    res.factSpans sampleFacts = .error .attributeError := ⟨_, _, rfl, rfl, rfl⟩

/-! ### C40 -/

theorem mapM_reworded {R : Token → Str → Prop} {f : Token → Except Err Token}
    (hf : ∀ t u, f t = .ok u → R t u.value ∧ u.span = t.span) :
    ∀ {ts us : List Token}, ts.mapM f = .ok us → Reworded R ts us := by
  intro ts
  induction ts with
  | nil =>
    intro us h
    cases h
    exact .nil
  | cons t ts ih =>
    intro us h
    rw [List.mapM_cons] at h
    obtain ⟨u, h1, h2⟩ := except_bind_ok h
    obtain ⟨vs, h3, h4⟩ := except_bind_ok h2
    cases h4
    exact .cons (hf t u h1).1 (hf t u h1).2 (ih h3)

theorem mapM_total {f : Token → Except Err Token} {ts : List Token}
    (h : ∀ t ∈ ts, ∃ u, f t = .ok u) : ∃ us, ts.mapM f = .ok us := by
  induction ts with
  | nil => exact ⟨[], rfl⟩
  | cons t ts ih =>
    obtain ⟨u, h1⟩ := h t List.mem_cons_self
    obtain ⟨us, h2⟩ := ih (fun t' ht' => h t' (List.mem_cons_of_mem _ ht'))
    exact ⟨u :: us, by rw [List.mapM_cons, h1, h2]; rfl⟩

/-- C40: `normalized()` of tokens is their normal forms, joined as in the text. -/
theorem normalized_words {ts : List Token} {s : Str} (h : joinNormalized F.lower ts = .ok s) :
    ∃ us, Reworded (BaseForm F.lower) ts us ∧ Joined us s := by
  obtain ⟨us, h1, h2⟩ := except_map_ok h
  refine ⟨us, mapM_reworded ?_ h1, (join_exact us s).1 h2⟩
  intro t u hu
  obtain ⟨v, h3, h4⟩ := except_map_ok hu
  subst h4
  refine ⟨?_, rfl⟩
  unfold Token.normalized at h3
  cases hf : t.forms with
  | none => rw [hf] at h3; cases h3; exact .plain hf
  | some fs =>
    rw [hf] at h3
    cases fs with
    | nil => cases h3
    | cons f fs => cases h3; exact .morph hf

/-- `inflected(grams)` of tokens is their inflected forms, joined as in the text. -/
theorem inflected_words {ts : List Token} {grams : List Str} {s : Str}
    (h : joinInflected F.lower F.inflect grams ts = .ok s) :
    ∃ us, Reworded (BentForm F.lower F.inflect grams) ts us ∧ Joined us s := by
  obtain ⟨us, h1, h2⟩ := except_map_ok h
  refine ⟨us, mapM_reworded ?_ h1, (join_exact us s).1 h2⟩
  intro t u hu
  unfold inflectToken at hu
  cases hf : t.forms with
  | none => rw [hf] at hu; cases hu; exact ⟨.plain hf, rfl⟩
  | some fs =>
    rw [hf] at hu
    cases fs with
    | nil => cases hu
    | cons f fs =>
      cases hu
      refine ⟨?_, rfl⟩
      dsimp only
      unfold Form.inflected
      cases hi : F.inflect f grams with
      | none => exact .not hf hi
      | some s => exact .done hf hi

/-- They exist if no token has lost all its forms. -/
theorem normalized_exists {ts : List Token} (h : ∀ t ∈ ts, t.forms ≠ some []) (grams : List Str) :
    (∃ s, joinNormalized F.lower ts = .ok s) ∧
      ∃ s, joinInflected F.lower F.inflect grams ts = .ok s := by
  constructor
  · obtain ⟨us, h1⟩ := mapM_total (f := normalizeToken F.lower) (ts := ts) (by
      intro t ht
      unfold normalizeToken Token.normalized
      cases hf : t.forms with
      | none => exact ⟨_, rfl⟩
      | some fs =>
        cases fs with
        | nil => exact absurd hf (h t ht)
        | cons f fs => exact ⟨_, rfl⟩)
    exact ⟨_, by unfold joinNormalized; rw [h1]; rfl⟩
  · obtain ⟨us, h1⟩ := mapM_total (f := inflectToken F.lower F.inflect grams) (ts := ts) (by
      intro t ht
      unfold inflectToken
      cases hf : t.forms with
      | none => exact ⟨_, rfl⟩
      | some fs =>
        cases fs with
        | nil => exact absurd hf (h t ht)
        | cons f fs => exact ⟨_, rfl⟩)
    exact ⟨_, by unfold joinInflected; rw [h1]; rfl⟩

/-- The interpretations `normalized()` and `Cls.name.normalized()`. -/
def ByNormal : Interpretator → Prop
  | .norm (.morph .normalized) => True
  | .attrNorm _ _ (.morph .normalized) => True
  | _ => False

theorem follow_tokens : ∀ (es : List Event) (fs : List Frame) (out : List Item),
    (∀ e ∈ es, ∃ t, e = .token t) →
    follow F es fs out = .ok (deliverAll ((es.filterMap Event.token?).map .token) fs out) := by
  intro es
  induction es with
  | nil => intro fs out _; rfl
  | cons e es ih =>
    intro fs out h
    obtain ⟨t, ht⟩ := h e List.mem_cons_self
    subst ht
    rw [follow, ih _ _ (fun e' he' => h e' (List.mem_cons_of_mem _ he'))]
    rfl

/-- C40: a node with the interpretation `normalized()` (or `Cls.name.normalized()`) and no
interpretation below hands on the dictionary line its production stands for, if there is one, and the
normal forms of its tokens otherwise. -/
theorem normalized_value {n r : Nat} {p : Production P} {k : Nat} {cs : List (TTree P)}
    {i : Interpretator} (hI : I r = some i) (hi : ByNormal i)
    (hin : ∀ e ∈ eventsAll I cs, ∃ t, e = .token t) (fs : List Frame) (out : List Item)
    {s : Str} (hs : (∃ c l, p.key = some (c :: l) ∧ s = c :: l) ∨
      ((∀ c l, p.key ≠ some (c :: l)) ∧
        joinNormalized F.lower ((cs.flatMap PTree.leaves).map Prod.snd) = .ok s)) :
    ∃ res, follow F (events I (.node n r p k cs)) fs out = .ok (deliver (.result res) fs out) ∧
      res.normalized F = .ok (.str s) := by
  rw [events, hI]
  dsimp only
  rw [follow, follow_append, follow_tokens _ _ _ hin, eventsAll_tokens, deliverAll_frame]
  simp only [Except.bind, List.nil_append]
  rw [follow]
  have hcall : Morphing.call F .normalized (.chain ((cs.flatMap PTree.leaves).map Prod.snd) p.key) =
      .ok (.str s) := by
    unfold Morphing.call
    dsimp only
    rcases hs with ⟨c, l, h1, h2⟩ | ⟨h1, h2⟩
    · rw [h1, h2]
    · split
      · rename_i h3
        exact absurd h3 (h1 _ _)
      · rw [h2]
        rfl
  have hnorm : normCall F (.morph .normalized) p.key
      (((cs.flatMap PTree.leaves).map Prod.snd).map .token) = .ok (.norm (.str s)
        (some (.chain ((cs.flatMap PTree.leaves).map Prod.snd) p.key))) := by
    unfold normCall
    dsimp only
    rw [allTokens_of_map]
    dsimp only
    unfold Normalizer.call
    dsimp only
    rw [hcall]
    rfl
  unfold ByNormal at hi
  split at hi
  · refine ⟨.norm (.str s) (some (.chain ((cs.flatMap PTree.leaves).map Prod.snd) p.key)), ?_, rfl⟩
    unfold Interpretator.call
    dsimp only
    rw [hnorm]
    rfl
  · rename_i c nm
    refine ⟨.attr (.norm (.str s) (some (.chain ((cs.flatMap PTree.leaves).map Prod.snd) p.key))) c nm,
      ?_, rfl⟩
    unfold Interpretator.call
    dsimp only
    rw [hnorm]
    rfl
  · exact hi.elim

variable {L : Lang} {setOrder : List Str → List Str} {nf split : Str → List Str}

/-- C40: wherever a gazetteer rule with the interpretation `normalized()` matches, the value handed
on is the dictionary line whose words were matched. -/
theorem gazetteer_value {kind : PipeKind} {base : Nat} {lines : List Str}
    {rules : List (ChartRule Pred Token)} {start g : Nat} {r : ChartRule Pred Token}
    (h : pipeline L setOrder nf split kind base lines = .ok r) (hr : rules[g]? = some r)
    (hsplit : split [] = []) {toks : List Token} {i j : Nat} {d : DTree Pred Token}
    (hd : Derives (predGrammar L rules start) toks (.rule g) i j d) {t : TTree Pred}
    (ht : Trims d t.erase) {it : Interpretator} (hI : I g = some it) (hi : ByNormal it) :
    ∃ line ∈ lines, j = i + (split line).length ∧ WordsMatch L nf kind toks i (split line) ∧
      ∀ fs out, ∃ res, follow F (events I t) fs out = .ok (deliver (.result res) fs out) ∧
        res.normalized F = .ok (.str line) := by
  have hne := (pipeline_ok_iff kind base lines).1 ⟨r, h⟩
  have hp : (predGrammar L rules start).productions g = pipeProductions L nf split kind base lines := by
    unfold pipeline pipeRule at h
    obtain ⟨index, h1, h2⟩ := except_map_ok h
    unfold Grammar.productions predGrammar
    dsimp only
    rw [hr, ← h2]
  cases hd with
  | @node _ prod _ _ ds hm hc =>
  rw [hp] at hm
  obtain ⟨k, line, h1, h2⟩ := (pipeProductions_mem L nf split kind lines base _).1 hm
  have hline := List.mem_of_getElem? h1
  refine ⟨line, hline, ?_⟩
  have hw := (derivesAll_words (rules := rules) (start := start) (split line) i j).1
    ⟨ds, by rw [h2] at hc; exact hc⟩
  refine ⟨hw.1, hw.2, ?_⟩
  intro fs out
  cases t with
  | leaf l q tok => rw [PTree.erase] at ht; cases ht
  | node n r' p rank cs =>
    rw [PTree.erase] at ht
    cases ht with
    | node ht1 _ =>
    rw [eraseAll_map] at ht1
    -- the children are leaves
    have hleaf : ∀ c ∈ cs, ∃ l q tok, c = .leaf l q tok := by
      have hds : ∀ d' ∈ ds, ∃ q tok, d' = .leaf q tok := by
        rw [h2] at hc
        have key : ∀ (ws : List Str) (i j : Nat) (ds : List (DTree Pred Token)),
            DerivesAll (predGrammar L rules start) toks
              (ws.map (fun w => .pred (pipeTerm L nf kind w))) i j ds →
            ∀ d' ∈ ds, ∃ q tok, d' = .leaf q tok := by
          intro ws
          induction ws with
          | nil =>
            intro i j ds h d' hd'
            cases h
            cases hd'
          | cons w ws ih =>
            intro i j ds h d' hd'
            cases h with
            | cons h1 h2 =>
              rcases List.mem_cons.1 hd' with e | hd'
              · subst e
                cases h1
                exact ⟨_, _, rfl⟩
              · exact ih _ _ _ h2 d' hd'
        exact key _ _ _ _ hc
      have key : ∀ (ds : List (DTree Pred Token)) (cs : List (TTree Pred)),
          (∀ d' ∈ ds, ∃ q tok, d' = .leaf q tok) → TrimsAll ds (cs.map PTree.erase) →
          ∀ c ∈ cs, ∃ l q tok, c = .leaf l q tok := by
        intro ds
        induction ds with
        | nil =>
          intro cs _ h c hc
          cases cs with
          | nil => cases hc
          | cons _ _ => cases h
        | cons e ds ihd =>
          intro cs hds h c hc
          generalize hm : cs.map PTree.erase = es at h
          cases h with
          | keep g1 g2 =>
            cases cs with
            | nil => cases hm
            | cons c' cs' =>
              rw [List.map_cons] at hm
              injection hm with e1 e2
              rcases List.mem_cons.1 hc with hc | hc
              · subst hc
                obtain ⟨q, tok, e3⟩ := hds e List.mem_cons_self
                subst e3
                cases c with
                | leaf l q' tok' => exact ⟨l, q', tok', rfl⟩
                | node _ _ _ _ _ =>
                  rw [PTree.erase] at e1
                  rw [← e1] at g1
                  cases g1
              · exact ihd cs' (fun d' hd' => hds d' (List.mem_cons_of_mem _ hd')) (e2 ▸ g2) c hc
          | drop _ g2 =>
            exact ihd cs (fun d' hd' => hds d' (List.mem_cons_of_mem _ hd')) (hm ▸ g2) c hc
      exact key ds cs hds ht1
    have hev : ∀ e ∈ eventsAll I cs, ∃ t, e = .token t := by
      clear ht1
      rename_i hlast
      clear hlast
      induction cs with
      | nil => intro e he; cases he
      | cons c cs ih =>
        intro e he
        rw [eventsAll] at he
        rcases List.mem_append.1 he with he | he
        · obtain ⟨l, q, tok, e1⟩ := hleaf c List.mem_cons_self
          subst e1
          rw [events] at he
          exact ⟨tok, List.mem_singleton.1 he⟩
        · exact ih (fun c' hc' => hleaf c' (List.mem_cons_of_mem _ hc')) e he
    refine normalized_value hI hi hev fs out (.inl ?_)
    cases line with
    | nil => exact absurd hsplit (hne [] hline)
    | cons c l =>
      refine ⟨c, l, ?_, rfl⟩
      rw [h2]

/-- C40, end to end: the fact of every match of `gazetteer.interpretation(normalized())` is the
dictionary line whose words were matched, whatever the forms in the text. -/
theorem gazetteer_fact {kind : PipeKind} {base : Nat} {lines : List Str}
    {rules : List (ChartRule Pred Token)} {g : Nat} {r : ChartRule Pred Token}
    (h : pipeline L setOrder nf split kind base lines = .ok r) (hr : rules[g]? = some r)
    (hsplit : split [] = []) {toks : List Token} {σ : Store} {m : Match Pred}
    (hm : MatchOK (predGrammar L rules g) toks σ m) {it : Interpretator} (hI : I g = some it)
    (hi : ByNormal it) :
    ∃ line ∈ lines, m.tree.range.2 = m.tree.range.1 + (split line).length ∧
      WordsMatch L nf kind toks m.tree.range.1 (split line) ∧
      matchFact F I (m.tree.root.load σ) = .ok (.str line) := by
  obtain ⟨d, hd, ht⟩ := hm.derives
  obtain ⟨line, h1, h2, h3, h4⟩ := gazetteer_value h hr hsplit hd ht hI hi (F := F)
  refine ⟨line, h1, h2, h3, ?_⟩
  obtain ⟨res, h5, h6⟩ := h4 [] []
  have hroot : ∃ n r' p k cs, m.tree.root.load σ = .node n r' p k cs ∧ I r' ≠ none := by
    cases hd with
    | node _ _ =>
      cases hl : m.tree.root.load σ with
      | leaf l q tok => rw [hl, PTree.erase] at ht; cases ht
      | node n r' p k cs =>
        rw [hl, PTree.erase] at ht
        cases ht
        refine ⟨_, _, _, _, _, rfl, ?_⟩
        show I g ≠ none
        rw [hI]
        simp
  unfold matchFact
  rw [(interpret_follows _ res).2 ⟨hroot, h5⟩]
  exact h6

/-- The facts of the matches of `morph_pipeline(['x', 'y']).interpretation(normalized())`. -/
def lineFacts (r : Option (List (Match Pred) × Store × Option Err)) : Option (List (Option Str)) :=
  r.map (fun x => x.1.map (fun m =>
    match matchFact sampleFacts (fun _ => some (.norm (.morph .normalized))) (m.tree.root.load x.2.1) with
    | .ok (.str s) => some s
    | _ => none))

example : sampleSplit [] = [] ∧
    lineFacts (extract (twoLines sampleOrder) noAgreement (id : Key → Key) [ambiguousToken] true 100) =
      some [some (str "x"), some (str "y")] := ⟨rfl, by decide +kernel⟩

/-- Words of a text and their normal forms. -/
example : ∃ us, Reworded (BaseForm sampleFacts.lower) [ambiguousToken, sampleWord "W" 3] us ∧
    Joined us (str "x W") :=
  normalized_words (F := sampleFacts) (ts := [ambiguousToken, sampleWord "W" 3]) rfl

end Yargy
