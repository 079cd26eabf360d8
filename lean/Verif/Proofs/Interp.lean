import Verif.Spec.Interp
import Verif.Proofs.Predicate
import Verif.Proofs.TreeBasics
/-! Lemmas about interpretation. -/
namespace Yargy
open Spec

variable {P : Type} {F : Facts} {I : Nat → Option Interpretator}

/-! ### Following the events of a tree -/

def deliverAll : List Item → List Frame → List Item → List Frame × List Item
  | [], fs, out => (fs, out)
  | x :: xs, fs, out => deliverAll xs (deliver x fs out).1 (deliver x fs out).2

theorem deliverAll_append (xs ys : List Item) (fs : List Frame) (out : List Item) :
    deliverAll (xs ++ ys) fs out =
      deliverAll ys (deliverAll xs fs out).1 (deliverAll xs fs out).2 := by
  induction xs generalizing fs out with
  | nil => rfl
  | cons x xs ih => exact ih _ _

theorem deliverAll_frame (xs : List Item) (f : Frame) (fs : List Frame) (out : List Item) :
    deliverAll xs (f :: fs) out = ({ f with items := f.items ++ xs } :: fs, out) := by
  induction xs generalizing f with
  | nil => simp [deliverAll]
  | cons x xs ih =>
    rw [deliverAll, deliver, ih]
    simp

theorem deliverAll_out (xs : List Item) (out : List Item) :
    deliverAll xs [] out = ([], out ++ xs) := by
  induction xs generalizing out with
  | nil => simp [deliverAll]
  | cons x xs ih =>
    rw [deliverAll, deliver, ih]
    simp

theorem follow_append (es es' : List Event) : ∀ (fs : List Frame) (out : List Item),
    follow F (es ++ es') fs out = (follow F es fs out).bind (fun s => follow F es' s.1 s.2) := by
  induction es with
  | nil => intro fs out; rfl
  | cons e es ih =>
    intro fs out
    cases e with
    | token t => exact ih _ _
    | opens i key => exact ih _ _
    | closes =>
      cases fs with
      | nil => rfl
      | cons f fs =>
        rw [List.cons_append, follow, follow]
        cases f.interpretator.call F f.key f.items with
        | ok r => exact ih _ _
        | error e => rfl

theorem interpAll_append (cs ds : List (TTree P)) :
    interpAll F I (cs ++ ds) =
      (interpAll F I cs).bind (fun xs => (interpAll F I ds).map (fun ys => xs ++ ys)) := by
  induction cs with
  | nil =>
    show interpAll F I ds = (interpAll F I ds).map (fun ys => [] ++ ys)
    cases interpAll F I ds <;> rfl
  | cons c cs ih =>
    rw [List.cons_append, interpAll, interpAll, ih]
    cases c.interp F I with
    | error e => rfl
    | ok x =>
      show ((interpAll F I cs).bind _).bind _ = ((interpAll F I cs).bind _).bind _
      cases interpAll F I cs with
      | error e => rfl
      | ok xs =>
        show ((interpAll F I ds).map _).bind _ = (interpAll F I ds).map _
        cases interpAll F I ds <;> rfl

mutual
theorem follow_events : ∀ (t : TTree P) (fs : List Frame) (out : List Item),
    follow F (events I t) fs out =
      (interpAll F I (t.keep I)).map (fun xs => deliverAll xs fs out)
  | .leaf i p t, fs, out => rfl
  | .node i r p k cs, fs, out => by
    rw [events, PTree.keep]
    cases hr : I r with
    | none => exact follow_eventsAll cs fs out
    | some it =>
      show follow F (.opens it p.key :: (eventsAll I cs ++ [.closes])) fs out = _
      rw [follow, follow_append, follow_eventsAll cs]
      rw [interpAll, PTree.interp]
      cases hx : interpAll F I (keepAll I cs) with
      | error e => rfl
      | ok xs =>
        show follow F [.closes] (deliverAll xs (⟨it, p.key, []⟩ :: fs) out).1
          (deliverAll xs (⟨it, p.key, []⟩ :: fs) out).2 = _
        rw [deliverAll_frame, follow]
        simp only [List.nil_append]
        simp only [bind, Except.bind, hr]
        cases it.call F p.key xs <;> rfl
theorem follow_eventsAll : ∀ (cs : List (TTree P)) (fs : List Frame) (out : List Item),
    follow F (eventsAll I cs) fs out =
      (interpAll F I (keepAll I cs)).map (fun xs => deliverAll xs fs out)
  | [], fs, out => rfl
  | c :: cs, fs, out => by
    rw [eventsAll, keepAll, follow_append, follow_events c, interpAll_append]
    cases interpAll F I (c.keep I) with
    | error e => rfl
    | ok xs =>
      show follow F (eventsAll I cs) (deliverAll xs fs out).1 (deliverAll xs fs out).2 = _
      rw [follow_eventsAll cs]
      show _ = ((interpAll F I (keepAll I cs)).map (fun ys => xs ++ ys)).map _
      cases interpAll F I (keepAll I cs) with
      | error e => rfl
      | ok ys =>
        show Except.ok (deliverAll ys _ _) = Except.ok (deliverAll (xs ++ ys) _ _)
        rw [deliverAll_append]
end

/-! ### Dictionaries -/

theorem getSlot_iff {attrs : List (Str × Slot)} (hn : (attrs.map Prod.fst).Nodup) {key slot} :
    getSlot key attrs = some slot ↔ (key, slot) ∈ attrs := by
  induction attrs with
  | nil => simp [getSlot]
  | cons a rest ih =>
    obtain ⟨k, s⟩ := a
    rw [List.map_cons, List.nodup_cons] at hn
    rw [getSlot]
    by_cases hk : k = key
    · subst hk
      rw [if_pos rfl]
      constructor
      · intro h
        cases h
        exact List.mem_cons_self
      · intro h
        rcases List.mem_cons.1 h with h | h
        · cases h
          rfl
        · exact absurd (List.mem_map.2 ⟨_, h, rfl⟩) hn.1
    · rw [if_neg hk, ih hn.2]
      constructor
      · exact List.mem_cons_of_mem _
      · intro h
        rcases List.mem_cons.1 h with h | h
        · cases h
          exact absurd rfl hk
        · exact h

theorem putSlot_keys {attrs : List (Str × Slot)} {key slot} (h : key ∈ attrs.map Prod.fst) :
    (putSlot key slot attrs).map Prod.fst = attrs.map Prod.fst := by
  induction attrs with
  | nil => cases h
  | cons a rest ih =>
    obtain ⟨k, s⟩ := a
    rw [putSlot]
    by_cases hk : k = key
    · rw [if_pos hk]
      rfl
    · rw [if_neg hk, List.map_cons, List.map_cons]
      rw [List.map_cons] at h
      rcases List.mem_cons.1 h with h | h
      · exact absurd h.symm hk
      · rw [ih h]

theorem mem_putSlot {attrs : List (Str × Slot)} (hn : (attrs.map Prod.fst).Nodup) {key slot}
    (h : key ∈ attrs.map Prod.fst) {k s} :
    (k, s) ∈ putSlot key slot attrs ↔ (k = key ∧ s = slot) ∨ (k ≠ key ∧ (k, s) ∈ attrs) := by
  induction attrs with
  | nil => cases h
  | cons a rest ih =>
    obtain ⟨k', s'⟩ := a
    rw [List.map_cons, List.nodup_cons] at hn
    rw [putSlot]
    by_cases hk : k' = key
    · subst hk
      rw [if_pos rfl, List.mem_cons, List.mem_cons, Prod.mk.injEq, Prod.mk.injEq]
      constructor
      · rintro (h3 | h3)
        · exact .inl h3
        · refine .inr ⟨?_, .inr h3⟩
          intro e
          subst e
          exact hn.1 (List.mem_map.2 ⟨_, h3, rfl⟩)
      · rintro (h | ⟨h, (h' | h')⟩)
        · exact .inl h
        · exact absurd h'.1 h
        · exact .inr h'
    · rw [if_neg hk, List.mem_cons, List.mem_cons, Prod.mk.injEq]
      rw [List.map_cons] at h
      have h' : key ∈ rest.map Prod.fst := by
        rcases List.mem_cons.1 h with h | h
        · exact absurd h.symm hk
        · exact h
      rw [ih hn.2 h']
      constructor
      · rintro (h | h | h)
        · exact .inr ⟨h.1 ▸ hk, .inl h⟩
        · exact .inl h
        · exact .inr ⟨h.1, .inr h.2⟩
      · rintro (h | ⟨h, (h' | h')⟩)
        · exact .inr (.inl h)
        · exact .inl h'
        · exact .inr (.inr ⟨h, h'⟩)

theorem mergeAttrs_ok {other : List (Str × Slot)} (ho : (other.map Prod.fst).Nodup) :
    ∀ (keys : List Str) (attrs : List (Str × Slot)), (attrs.map Prod.fst).Nodup →
      (∀ k ∈ keys, k ∈ other.map Prod.fst) → (∀ k ∈ keys, k ∈ attrs.map Prod.fst) →
      ∃ out, mergeAttrs other keys attrs = .ok out ∧ out.map Prod.fst = attrs.map Prod.fst ∧
        ∀ k s, (k, s) ∈ out ↔ (k ∈ keys ∧ (k, s) ∈ other) ∨ (k ∉ keys ∧ (k, s) ∈ attrs) := by
  intro keys
  induction keys with
  | nil =>
    intro attrs _ _ _
    exact ⟨attrs, rfl, rfl, fun k s => by simp⟩
  | cons key keys ih =>
    intro attrs hn h1 h2
    obtain ⟨⟨_, slot⟩, hs, e⟩ := List.mem_map.1 (h1 key List.mem_cons_self)
    have e' : _ = key := e
    subst e'
    rw [mergeAttrs, (getSlot_iff ho).2 hs]
    have hk := h2 _ List.mem_cons_self
    have hkeys := putSlot_keys (slot := slot) hk
    obtain ⟨out, h3, h4, h5⟩ := ih (putSlot _ slot attrs) (hkeys ▸ hn)
      (fun k hk => h1 k (List.mem_cons_of_mem _ hk))
      (fun k hk => hkeys ▸ h2 k (List.mem_cons_of_mem _ hk))
    refine ⟨out, h3, h4.trans hkeys, ?_⟩
    intro k s
    rw [h5, mem_putSlot hn hk, List.mem_cons]
    constructor
    · rintro (⟨h, h'⟩ | ⟨h, (⟨h', h''⟩ | ⟨h', h''⟩)⟩)
      · exact .inl ⟨.inr h, h'⟩
      · refine .inl ⟨.inl h', ?_⟩
        rw [h', h'']
        exact hs
      · refine .inr ⟨?_, h''⟩
        rintro (e | e)
        · exact h' e
        · exact h e
    · rintro (⟨(h | h), h'⟩ | ⟨h, h'⟩)
      · by_cases hkk : k ∈ keys
        · exact .inl ⟨hkk, h'⟩
        · refine .inr ⟨hkk, .inl ⟨h, ?_⟩⟩
          have g1 := (getSlot_iff ho).2 h'
          have g2 := (getSlot_iff ho).2 hs
          have e2 : k = _ := h
          rw [e2, g2] at g1
          exact (Option.some.inj g1).symm
      · exact .inl ⟨h, h'⟩
      · exact .inr ⟨fun e => h (.inr e), .inr ⟨fun e => h (.inl e), h'⟩⟩

theorem repeatable_iff (hF : SaneFacts F) {cls key kind} (h : (key, kind) ∈ F.attrs cls) :
    F.repeatable cls key = true ↔ kind = .repeatable := by
  unfold Facts.repeatable
  rw [List.any_eq_true]
  constructor
  · rintro ⟨⟨k, kd⟩, hm, hk⟩
    rw [Bool.and_eq_true, beq_iff_eq] at hk
    obtain ⟨e, hk⟩ := hk
    have e' : k = key := e
    subst e'
    have : kd = kind := by
      have hn := hF.nodup cls
      clear hk
      revert hm h hn
      generalize F.attrs cls = l
      intro h hm hn
      induction l with
      | nil => cases h
      | cons a l ih =>
        rw [List.map_cons, List.nodup_cons] at hn
        rcases List.mem_cons.1 h with h | h <;> rcases List.mem_cons.1 hm with hm | hm
        · rw [← h] at hm
          exact (Prod.mk.inj hm).2.symm
        · exact absurd (List.mem_map.2 ⟨_, hm, by rw [← h]⟩) hn.1
        · exact absurd (List.mem_map.2 ⟨_, h, by rw [← hm]⟩) hn.1
        · exact ih h hm hn.2
    subst this
    cases kd with
    | repeatable => rfl
    | single d => cases hk
  · intro e
    subst e
    exact ⟨_, h, by simp⟩

/-! ### Well-formed results -/

/-- Results as interpretation makes them. `C` holds of the tokens of chains, `N` of the values of
normalizers and of whether they know their input. -/
inductive Good (F : Facts) (C : List Token → Prop) (N : Val → Bool → Prop) : Result → Prop where
  | chain {ts k} : C ts → Good F C N (.chain ts k)
  | attr {v c n} : Good F C N v → n ∈ names F c → Good F C N (.attr v c n)
  | const {v} : N v false → Good F C N (.norm v none)
  | norm {v r} : N v true → Good F C N r → Good F C N (.norm v (some r))
  | fact {cls attrs modified} : (∀ k ∈ modified, k ∈ names F cls) →
      attrs.map Prod.fst = names F cls →
      (∀ key d slot, (key, AttrKind.single d) ∈ F.attrs cls → (key, slot) ∈ attrs →
        (key ∉ modified ∧ slot = .default d) ∨ (key ∈ modified ∧ ∃ r, slot = .one r)) →
      (∀ key slot, (key, AttrKind.repeatable) ∈ F.attrs cls → (key, slot) ∈ attrs →
        ∃ rs, slot = .many rs) →
      (∀ key r, (key, Slot.one r) ∈ attrs → Good F C N r) →
      (∀ key rs r, (key, Slot.many rs) ∈ attrs → r ∈ rs → Good F C N r) →
      Good F C N (.fact cls attrs modified)

variable {C : List Token → Prop} {N : Val → Bool → Prop}

def GoodItem (F : Facts) (C : List Token → Prop) (N : Val → Bool → Prop) : Item → Prop
  | .token _ => True
  | .result r => Good F C N r

theorem kind_of_name {cls key} (h : key ∈ names F cls) : ∃ kind, (key, kind) ∈ F.attrs cls := by
  obtain ⟨⟨k, kd⟩, h1, h2⟩ := List.mem_map.1 h
  have e : k = key := h2
  subst e
  exact ⟨kd, h1⟩

theorem slot_exists {attrs : List (Str × Slot)} {l key} (he : attrs.map Prod.fst = l) (h : key ∈ l) :
    ∃ slot, (key, slot) ∈ attrs := by
  subst he
  obtain ⟨⟨k, s⟩, h1, h2⟩ := List.mem_map.1 h
  have e : k = key := h2
  subst e
  exact ⟨s, h1⟩

/-- How one part changes a fact that is being filled. -/
theorem factItem_good (hF : SaneFacts F) {cls st x} (h : Good F C N (.fact cls st.1 st.2))
    (hx : GoodItem F C N x) : ∃ st', factItem F cls st x = .ok st' ∧
      Good F C N (.fact cls st'.1 st'.2) ∧
      ∀ key, key ∈ names F cls → ∀ rs, Assigns F cls key x rs → ∀ slot slot',
        (key, slot) ∈ st.1 → (key, slot') ∈ st'.1 →
        (F.repeatable cls key = false → rs = [] ∧ slot' = slot ∨ ∃ r, rs = [r] ∧ slot' = .one r) ∧
        (F.repeatable cls key = true → ∀ acc, slot = .many acc →
          (MergesKey F cls key x → slot' = .many rs) ∧
          (¬ MergesKey F cls key x → slot' = .many (acc ++ rs))) := by
  obtain ⟨attrs, modified⟩ := st
  dsimp only at h
  have hid : ∀ key rs, Assigns F cls key x rs → rs = [] → ¬ MergesKey F cls key x →
      ∀ slot slot', (key, slot) ∈ attrs → (key, slot') ∈ attrs → key ∈ names F cls →
        (F.repeatable cls key = false → rs = [] ∧ slot' = slot ∨ ∃ r, rs = [r] ∧ slot' = .one r) ∧
        (F.repeatable cls key = true → ∀ acc, slot = .many acc →
          (MergesKey F cls key x → slot' = .many rs) ∧
          (¬ MergesKey F cls key x → slot' = .many (acc ++ rs))) := by
    intro key rs _ hrs hm slot slot' h1 h2 _
    have e : slot' = slot := by
      cases h with
      | fact _ hk _ _ _ _ =>
        have hn : (attrs.map Prod.fst).Nodup := hk ▸ hF.nodup cls
        have g1 := (getSlot_iff hn).2 h1
        have g2 := (getSlot_iff hn).2 h2
        rw [g1] at g2
        exact (Option.some.inj g2).symm
    subst hrs e
    refine ⟨fun _ => .inl ⟨rfl, rfl⟩, fun _ acc hacc => ⟨fun hm' => absurd hm' hm, fun _ => ?_⟩⟩
    rw [List.append_nil]
    exact hacc
  cases x with
  | token t =>
    refine ⟨_, rfl, h, ?_⟩
    intro key hkey rs ha slot slot' h1 h2
    refine hid key rs ha ?_ (fun hm => hm) slot slot' h1 h2 hkey
    cases ha
    rfl
  | result r =>
    cases r with
    | chain ts k =>
      refine ⟨_, rfl, h, ?_⟩
      intro key hkey rs ha slot slot' h1 h2
      refine hid key rs ha ?_ (fun hm => hm) slot slot' h1 h2 hkey
      cases ha
      rfl
    | norm v inp =>
      refine ⟨_, rfl, h, ?_⟩
      intro key hkey rs ha slot slot' h1 h2
      refine hid key rs ha ?_ (fun hm => hm) slot slot' h1 h2 hkey
      cases ha
      rfl
    | attr value acls name =>
      unfold factItem
      cases hs : F.sub cls acls with
      | false =>
        refine ⟨(attrs, modified), by simp [hs], h, ?_⟩
        intro key hkey rs ha slot slot' h1 h2
        refine hid key rs ha ?_ (fun hm => hm) slot slot' h1 h2 hkey
        cases ha with
        | attr hs' => rw [hs] at hs'; cases hs'
        | otherAttr _ => rfl
      | true =>
        simp only [hs, if_true]
        have hx' : Good F C N (.attr value acls name) := hx
        cases hx' with
        | attr hv hname =>
        have hname' : name ∈ names F cls := by
          unfold names at hname ⊢
          rw [hF.inherits cls acls hs]
          exact hname
        cases h with
        | fact hmod hk hsing hrep hone hmany =>
        have hn : (attrs.map Prod.fst).Nodup := hk ▸ hF.nodup cls
        have hmem : name ∈ attrs.map Prod.fst := hk ▸ hname'
        obtain ⟨kind, hkind⟩ := kind_of_name hname'
        obtain ⟨slot0, hslot0⟩ := slot_exists hk hname'
        have hri := repeatable_iff hF hkind
        unfold setAttr
        cases hr : F.repeatable cls name with
        | true =>
          have hkd := hri.1 hr
          subst hkd
          obtain ⟨rs0, hrs0⟩ := hrep name slot0 hkind hslot0
          subst hrs0
          rw [if_pos rfl, (getSlot_iff hn).2 hslot0]
          refine ⟨_, rfl, ?_, ?_⟩
          · refine .fact ?_ ((putSlot_keys hmem).trans hk) ?_ ?_ ?_ ?_
            · intro k hk'
              rcases List.mem_append.1 hk' with hk' | hk'
              · exact hmod k hk'
              · rwa [List.mem_singleton.1 hk']
            · intro key d slot hkd hm
              have hne : key ≠ name := by
                intro e
                subst e
                have := repeatable_iff hF hkd
                rw [hr] at this
                exact absurd (this.1 rfl) (by simp)
              rcases (mem_putSlot hn hmem).1 hm with ⟨e, _⟩ | ⟨_, hm'⟩
              · exact absurd e hne
              · rcases hsing key d slot hkd hm' with ⟨g1, g2⟩ | ⟨g1, g2⟩
                · refine .inl ⟨?_, g2⟩
                  intro hk'
                  rcases List.mem_append.1 hk' with hk' | hk'
                  · exact g1 hk'
                  · exact hne (List.mem_singleton.1 hk')
                · exact .inr ⟨List.mem_append_left _ g1, g2⟩
            · intro key slot hkd hm
              rcases (mem_putSlot hn hmem).1 hm with ⟨_, e⟩ | ⟨_, hm'⟩
              · exact ⟨_, e⟩
              · exact hrep key slot hkd hm'
            · intro key r hm
              rcases (mem_putSlot hn hmem).1 hm with ⟨_, e⟩ | ⟨_, hm'⟩
              · cases e
              · exact hone key r hm'
            · intro key rs r hm hr'
              rcases (mem_putSlot hn hmem).1 hm with ⟨_, e⟩ | ⟨_, hm'⟩
              · cases e
                rcases List.mem_append.1 hr' with hr' | hr'
                · exact hmany _ _ r hslot0 hr'
                · rwa [List.mem_singleton.1 hr']
              · exact hmany _ _ r hm' hr'
          · intro key hkey rs ha slot slot' h1 h2
            by_cases hkn : key = name
            · subst hkn
              rw [hr]
              refine ⟨fun h => by (cases h), fun _ acc hacc => ⟨fun hm => hm.elim, fun _ => ?_⟩⟩
              subst hacc
              have e1 : acc = rs0 := by
                have g1 := (getSlot_iff hn).2 h1
                rw [(getSlot_iff hn).2 hslot0] at g1
                cases g1
                rfl
              subst e1
              have e2 : rs = [value] := by
                cases ha with
                | attr _ => rfl
                | otherAttr ho => rcases ho with ho | ho
                                  · rw [hs] at ho; cases ho
                                  · exact absurd rfl ho
              subst e2
              rcases (mem_putSlot hn hmem).1 h2 with ⟨_, e⟩ | ⟨hne, _⟩
              · exact e
              · exact absurd rfl hne
            · refine hid key rs ha ?_ (fun hm => hm) slot slot' h1 ?_ hkey
              · cases ha with
                | attr _ => exact absurd rfl hkn
                | otherAttr _ => rfl
              · rcases (mem_putSlot hn hmem).1 h2 with ⟨e, _⟩ | ⟨_, hm⟩
                · exact absurd e hkn
                · exact hm
        | false =>
          rw [if_neg (by simp)]
          refine ⟨_, rfl, ?_, ?_⟩
          · refine .fact ?_ ((putSlot_keys hmem).trans hk) ?_ ?_ ?_ ?_
            · intro k hk'
              rcases List.mem_append.1 hk' with hk' | hk'
              · exact hmod k hk'
              · rwa [List.mem_singleton.1 hk']
            · intro key d slot hkd hm
              rcases (mem_putSlot hn hmem).1 hm with ⟨e, e'⟩ | ⟨hne, hm'⟩
              · subst e
                exact .inr ⟨List.mem_append_right _ (List.mem_singleton.2 rfl), _, e'⟩
              · rcases hsing key d slot hkd hm' with ⟨g1, g2⟩ | ⟨g1, g2⟩
                · refine .inl ⟨?_, g2⟩
                  intro hk'
                  rcases List.mem_append.1 hk' with hk' | hk'
                  · exact g1 hk'
                  · exact hne (List.mem_singleton.1 hk')
                · exact .inr ⟨List.mem_append_left _ g1, g2⟩
            · intro key slot hkd hm
              rcases (mem_putSlot hn hmem).1 hm with ⟨e, _⟩ | ⟨_, hm'⟩
              · subst e
                have := (repeatable_iff hF hkd).2 rfl
                rw [hr] at this
                cases this
              · exact hrep key slot hkd hm'
            · intro key r hm
              rcases (mem_putSlot hn hmem).1 hm with ⟨_, e⟩ | ⟨_, hm'⟩
              · cases e
                exact hv
              · exact hone key r hm'
            · intro key rs r hm hr'
              rcases (mem_putSlot hn hmem).1 hm with ⟨_, e⟩ | ⟨_, hm'⟩
              · cases e
              · exact hmany _ _ r hm' hr'
          · intro key hkey rs ha slot slot' h1 h2
            by_cases hkn : key = name
            · subst hkn
              rw [hr]
              refine ⟨fun _ => .inr ⟨value, ?_, ?_⟩, fun h => by (cases h)⟩
              · cases ha with
                | attr _ => rfl
                | otherAttr ho => rcases ho with ho | ho
                                  · rw [hs] at ho; cases ho
                                  · exact absurd rfl ho
              · rcases (mem_putSlot hn hmem).1 h2 with ⟨_, e⟩ | ⟨hne, _⟩
                · exact e
                · exact absurd rfl hne
            · refine hid key rs ha ?_ (fun hm => hm) slot slot' h1 ?_ hkey
              · cases ha with
                | attr _ => exact absurd rfl hkn
                | otherAttr _ => rfl
              · rcases (mem_putSlot hn hmem).1 h2 with ⟨e, _⟩ | ⟨_, hm⟩
                · exact absurd e hkn
                · exact hm
    | fact fcls other fmod =>
      unfold factItem
      cases hs : F.sub fcls cls with
      | false =>
        refine ⟨(attrs, modified), by simp [hs], h, ?_⟩
        intro key hkey rs ha slot slot' h1 h2
        refine hid key rs ha ?_ (fun hm => ?_) slot slot' h1 h2 hkey
        · cases ha with
          | fact hs' => rw [hs] at hs'; cases hs'
          | otherFact _ => rfl
        · have := hm.1
          rw [hs] at this
          cases this
      | true =>
        simp only [hs, if_true]
        have hx' : Good F C N (.fact fcls other fmod) := hx
        cases hx' with
        | fact ohmod ohk ohsing ohrep ohone ohmany =>
        have hA : F.attrs fcls = F.attrs cls := hF.inherits fcls cls hs
        have hnm : names F fcls = names F cls := by unfold names; rw [hA]
        rw [hnm] at ohmod ohk
        rw [hA] at ohsing ohrep
        cases h with
        | fact hmod hk hsing hrep hone hmany =>
        have hn : (attrs.map Prod.fst).Nodup := hk ▸ hF.nodup cls
        have hon : (other.map Prod.fst).Nodup := ohk ▸ hF.nodup cls
        obtain ⟨out, h1, h2, h3⟩ := mergeAttrs_ok hon fmod attrs hn
          (fun k hk' => ohk ▸ ohmod k hk') (fun k hk' => hk ▸ ohmod k hk')
        rw [h1]
        refine ⟨_, rfl, ?_, ?_⟩
        · refine .fact ?_ (h2.trans hk) ?_ ?_ ?_ ?_
          · intro k hk'
            rcases List.mem_append.1 hk' with hk' | hk'
            · exact hmod k hk'
            · exact ohmod k hk'
          · intro key d slot hkd hm
            rcases (h3 key slot).1 hm with ⟨g1, g2⟩ | ⟨g1, g2⟩
            · rcases ohsing key d slot hkd g2 with ⟨g3, _⟩ | ⟨g3, g4⟩
              · exact absurd g1 g3
              · exact .inr ⟨List.mem_append_right _ g1, g4⟩
            · rcases hsing key d slot hkd g2 with ⟨g3, g4⟩ | ⟨g3, g4⟩
              · refine .inl ⟨?_, g4⟩
                intro hk'
                rcases List.mem_append.1 hk' with hk' | hk'
                · exact g3 hk'
                · exact g1 hk'
              · exact .inr ⟨List.mem_append_left _ g3, g4⟩
          · intro key slot hkd hm
            rcases (h3 key slot).1 hm with ⟨_, g2⟩ | ⟨_, g2⟩
            · exact ohrep key slot hkd g2
            · exact hrep key slot hkd g2
          · intro key r hm
            rcases (h3 key _).1 hm with ⟨_, g2⟩ | ⟨_, g2⟩
            · exact ohone key r g2
            · exact hone key r g2
          · intro key rs r hm hr'
            rcases (h3 key _).1 hm with ⟨_, g2⟩ | ⟨_, g2⟩
            · exact ohmany key rs r g2 hr'
            · exact hmany key rs r g2 hr'
        · intro key hkey rs ha slot slot' g1 g2
          by_cases hkm : key ∈ fmod
          · have hso : (key, slot') ∈ other := by
              rcases (h3 key slot').1 g2 with ⟨_, g3⟩ | ⟨g3, _⟩
              · exact g3
              · exact absurd hkm g3
            have hheld : Held other key rs := by
              cases ha with
              | fact _ _ hh => exact hh
              | otherFact ho =>
                rcases ho with ho | ho
                · rw [hs] at ho; cases ho
                · exact absurd hkm ho
            obtain ⟨slot'', g4, g5⟩ := hheld
            have e : slot'' = slot' := by
              have e1 := (getSlot_iff hon).2 g4
              rw [(getSlot_iff hon).2 hso] at e1
              exact (Option.some.inj e1).symm
            subst e
            obtain ⟨kind, hkind⟩ := kind_of_name hkey
            have hri := repeatable_iff hF hkind
            constructor
            · intro hr
              cases kind with
              | repeatable => rw [hri.2 rfl] at hr; cases hr
              | single d =>
                rcases ohsing key d slot'' hkind hso with ⟨g6, _⟩ | ⟨_, r, g6⟩
                · exact absurd hkm g6
                · rcases g5 with ⟨v, g7, _⟩ | ⟨r', g7, g8⟩ | g7
                  · rw [g6] at g7; cases g7
                  · rw [g6] at g7
                    cases g7
                    exact .inr ⟨r, g8, g6⟩
                  · rw [g6] at g7; cases g7
            · intro hr acc _
              have hkd := hri.1 hr
              subst hkd
              obtain ⟨rs', g6⟩ := ohrep key slot'' hkind hso
              refine ⟨fun _ => ?_, fun hnm => absurd ⟨hs, hkm⟩ hnm⟩
              rcases g5 with ⟨v, g7, _⟩ | ⟨r', g7, g8⟩ | g7
              · rw [g6] at g7; cases g7
              · rw [g6] at g7; cases g7
              · exact g7
          · refine hid key rs ha ?_ (fun hm => hkm hm.2) slot slot' g1 ?_ hkey
            · cases ha with
              | fact _ hm _ => exact absurd hm hkm
              | otherFact _ => rfl
            · rcases (h3 key slot').1 g2 with ⟨g3, _⟩ | ⟨_, g3⟩
              · exact absurd g3 hkm
              · exact g3

theorem assigns_exists (x : Item) (cls key) (hF : SaneFacts F) (hx : GoodItem F C N x) :
    ∃ rs, Assigns F cls key x rs := by
  cases x with
  | token t => exact ⟨_, .token⟩
  | result r =>
    cases r with
    | chain ts k => exact ⟨_, .chain⟩
    | norm v i => exact ⟨_, .norm⟩
    | attr v acls name =>
      cases hs : F.sub cls acls with
      | false => exact ⟨_, .otherAttr (.inl hs)⟩
      | true =>
        by_cases hk : name = key
        · subst hk
          exact ⟨_, .attr hs⟩
        · exact ⟨_, .otherAttr (.inr hk)⟩
    | fact fcls attrs modified =>
      cases hs : F.sub fcls cls with
      | false => exact ⟨_, .otherFact (.inl hs)⟩
      | true =>
        by_cases hk : key ∈ modified
        · have hx' : Good F C N (.fact fcls attrs modified) := hx
          cases hx' with
          | fact h1 h2 _ _ _ _ =>
          obtain ⟨slot, hs'⟩ := slot_exists h2 (h1 key hk)
          cases slot with
          | default v => exact ⟨_, .fact hs hk ⟨_, hs', .inl ⟨v, rfl, rfl⟩⟩⟩
          | one r => exact ⟨_, .fact hs hk ⟨_, hs', .inr (.inl ⟨r, rfl, rfl⟩)⟩⟩
          | many rs => exact ⟨_, .fact hs hk ⟨_, hs', .inr (.inr rfl)⟩⟩
        · exact ⟨_, .otherFact (.inr hk)⟩

theorem assignsAll_exists (hF : SaneFacts F) (cls key) {xs : List Item}
    (hx : ∀ x ∈ xs, GoodItem F C N x) : ∃ rs, AssignsAll F cls key xs rs := by
  induction xs with
  | nil => exact ⟨_, .nil⟩
  | cons x xs ih =>
    obtain ⟨rs, h1⟩ := assigns_exists (F := F) x cls key hF (hx x List.mem_cons_self)
    obtain ⟨ss, h2⟩ := ih (fun y hy => hx y (List.mem_cons_of_mem _ hy))
    exact ⟨_, .cons h1 h2⟩

theorem held_unique {attrs : List (Str × Slot)} (hn : (attrs.map Prod.fst).Nodup) {key rs rs'}
    (h : Held attrs key rs) (h' : Held attrs key rs') : rs = rs' := by
  obtain ⟨s, h1, h2⟩ := h
  obtain ⟨s', h1', h2'⟩ := h'
  have g1 := (getSlot_iff hn).2 h1
  rw [(getSlot_iff hn).2 h1'] at g1
  have e := Option.some.inj g1
  subst e
  rcases h2 with ⟨v, e, e1⟩ | ⟨r, e, e1⟩ | e <;> rcases h2' with ⟨v', e', e1'⟩ | ⟨r', e', e1'⟩ | e' <;>
    rw [e] at e' <;> cases e'
  · rw [e1, e1']
  · rw [e1, e1']
  · rfl

theorem assigns_unique (hF : SaneFacts F) {cls key x rs rs'} (hx : GoodItem F C N x)
    (h : Assigns F cls key x rs) (h' : Assigns F cls key x rs') : rs = rs' := by
  cases h with
  | attr hs =>
    cases h' with
    | attr _ => rfl
    | otherAttr ho =>
      rcases ho with ho | ho
      · rw [hs] at ho; cases ho
      · exact absurd rfl ho
  | @fact fcls attrs modified _ hs hk hh =>
    cases h' with
    | fact _ _ hh' =>
      have hx' : Good F C N (.fact fcls attrs modified) := hx
      cases hx' with
      | fact _ h2 _ _ _ _ => exact held_unique (h2 ▸ hF.nodup _) hh hh'
    | otherFact ho =>
      rcases ho with ho | ho
      · rw [hs] at ho; cases ho
      · exact absurd hk ho
  | token => cases h'; rfl
  | otherAttr ho =>
    cases h' with
    | attr hs =>
      rcases ho with ho | ho
      · rw [hs] at ho; cases ho
      · exact absurd rfl ho
    | otherAttr _ => rfl
  | otherFact ho =>
    cases h' with
    | fact hs hk _ =>
      rcases ho with ho | ho
      · rw [hs] at ho; cases ho
      · exact absurd hk ho
    | otherFact _ => rfl
  | norm => cases h'; rfl
  | chain => cases h'; rfl

theorem assignsAll_unique (hF : SaneFacts F) {cls key xs} (hx : ∀ x ∈ xs, GoodItem F C N x) :
    ∀ {rs rs'}, AssignsAll F cls key xs rs → AssignsAll F cls key xs rs' → rs = rs' := by
  induction xs with
  | nil =>
    intro rs rs' h h'
    cases h
    cases h'
    rfl
  | cons x xs ih =>
    intro rs rs' h h'
    cases h with
    | cons h1 h2 =>
      cases h' with
      | cons h1' h2' =>
        rw [assigns_unique hF (hx x List.mem_cons_self) h1 h1',
          ih (fun y hy => hx y (List.mem_cons_of_mem _ hy)) h2 h2']

theorem assignsAll_append {cls key xs ys rs} (h : AssignsAll F cls key (xs ++ ys) rs) :
    ∃ as bs, rs = as ++ bs ∧ AssignsAll F cls key xs as ∧ AssignsAll F cls key ys bs := by
  induction xs generalizing rs with
  | nil => exact ⟨[], rs, rfl, .nil, h⟩
  | cons x xs ih =>
    cases h with
    | cons h1 h2 =>
      obtain ⟨as, bs, e, h3, h4⟩ := ih h2
      subst e
      exact ⟨_, bs, (List.append_assoc _ _ _).symm, .cons h1 h3, h4⟩

/-- How a sequence of parts changes a fact that is being filled. -/
theorem factItems_good (hF : SaneFacts F) {cls} : ∀ {xs : List Item} {st},
    Good F C N (.fact cls st.1 st.2) → (∀ x ∈ xs, GoodItem F C N x) →
    ∃ st', xs.foldlM (factItem F cls) st = .ok st' ∧ Good F C N (.fact cls st'.1 st'.2) ∧
      ∀ key, key ∈ names F cls → ∀ rs, AssignsAll F cls key xs rs → ∀ slot slot',
        (key, slot) ∈ st.1 → (key, slot') ∈ st'.1 →
        (F.repeatable cls key = false → rs = [] ∧ slot' = slot ∨
          ∃ r, rs.getLast? = some r ∧ slot' = .one r) ∧
        (F.repeatable cls key = true → ∀ acc, slot = .many acc →
          (∀ pre x post, xs = pre ++ x :: post → MergesKey F cls key x →
            ∀ ss, AssignsAll F cls key pre ss → acc ++ ss = []) → slot' = .many (acc ++ rs)) := by
  intro xs
  induction xs with
  | nil =>
    intro st h _
    refine ⟨st, rfl, h, ?_⟩
    intro key _ rs ha slot slot' h1 h2
    cases ha
    have e : slot' = slot := by
      cases h with
      | fact _ hk _ _ _ _ =>
        have hn : (st.1.map Prod.fst).Nodup := hk ▸ hF.nodup cls
        have g1 := (getSlot_iff hn).2 h1
        rw [(getSlot_iff hn).2 h2] at g1
        exact Option.some.inj g1
    subst e
    refine ⟨fun _ => .inl ⟨rfl, rfl⟩, fun _ acc hacc _ => ?_⟩
    rw [hacc, List.append_nil]
  | cons x xs ih =>
    intro st h hx
    obtain ⟨st1, h1, h2, h3⟩ := factItem_good hF h (hx x List.mem_cons_self)
    obtain ⟨st2, h4, h5, h6⟩ := ih h2 (fun y hy => hx y (List.mem_cons_of_mem _ hy))
    refine ⟨st2, ?_, h5, ?_⟩
    · rw [List.foldlM_cons, h1]
      exact h4
    · intro key hkey rs ha slot slot2 g1 g2
      cases ha with
      | @cons _ _ rs1 ss ha1 ha2 =>
      have hk1 : ∃ slot1, (key, slot1) ∈ st1.1 := by
        cases h2 with
        | fact _ hk _ _ _ _ => exact slot_exists hk hkey
      obtain ⟨slot1, hs1⟩ := hk1
      obtain ⟨a1, a2⟩ := h3 key hkey rs1 ha1 slot slot1 g1 hs1
      obtain ⟨b1, b2⟩ := h6 key hkey ss ha2 slot1 slot2 hs1 g2
      constructor
      · intro hr
        rcases b1 hr with ⟨e1, e2⟩ | ⟨r, e1, e2⟩
        · subst e1 e2
          rw [List.append_nil]
          rcases a1 hr with ⟨e3, e4⟩ | ⟨r, e3, e4⟩
          · exact .inl ⟨e3, e4⟩
          · subst e3
            exact .inr ⟨r, rfl, e4⟩
        · refine .inr ⟨r, ?_, e2⟩
          rw [List.getLast?_append, e1]
          rfl
      · intro hr acc hacc hm
        obtain ⟨c1, c2⟩ := a2 hr acc hacc
        have hs1' : slot1 = .many (acc ++ rs1) := by
          by_cases hmx : MergesKey F cls key x
          · have h0 := hm [] x xs rfl hmx [] .nil
            rw [List.append_nil] at h0
            rw [h0]
            exact c1 hmx
          · exact c2 hmx
        rw [← List.append_assoc]
        refine b2 hr _ hs1' ?_
        intro pre y post e hy ss' hss'
        have := hm (x :: pre) y post (by rw [e]; rfl) hy _ (.cons ha1 hss')
        rwa [← List.append_assoc] at this

/-- The fact before any part. -/
theorem init_good (hF : SaneFacts F) (cls) : Good F C N
    (.fact cls ((F.attrs cls).map (fun a => (a.1, a.2.initial))) []) := by
  have key : ∀ k s kind, (k, kind) ∈ F.attrs cls →
      (k, s) ∈ (F.attrs cls).map (fun a => (a.1, a.2.initial)) → s = kind.initial := by
    intro k s kind h1 h2
    have hn : (((F.attrs cls).map (fun a => (a.1, a.2.initial))).map Prod.fst).Nodup := by
      rw [List.map_map]
      exact hF.nodup cls
    have h3 : (k, kind.initial) ∈ (F.attrs cls).map (fun a => (a.1, a.2.initial)) :=
      List.mem_map.2 ⟨_, h1, rfl⟩
    have g1 := (getSlot_iff hn).2 h2
    rw [(getSlot_iff hn).2 h3] at g1
    exact (Option.some.inj g1).symm
  refine .fact (fun k hk => (by cases hk)) ?_ ?_ ?_ ?_ ?_
  · rw [List.map_map]
    rfl
  · intro k d slot h1 h2
    exact .inl ⟨fun h => (by cases h), key k slot _ h1 h2⟩
  · intro k slot h1 h2
    exact ⟨[], key k slot _ h1 h2⟩
  · intro k r h
    obtain ⟨⟨k', kind⟩, _, h2⟩ := List.mem_map.1 h
    cases kind <;> cases h2
  · intro k rs r h hr
    obtain ⟨⟨k', kind⟩, _, h2⟩ := List.mem_map.1 h
    cases kind
    · cases h2
    · cases h2
      cases hr

theorem factCall_good (hF : SaneFacts F) {cls xs} (hx : ∀ x ∈ xs, GoodItem F C N x) :
    ∃ attrs modified, factCall F cls xs = .ok (.fact cls attrs modified) ∧
      Good F C N (.fact cls attrs modified) := by
  obtain ⟨st', h1, h2, _⟩ := factItems_good hF (xs := xs)
    (st := ((F.attrs cls).map (fun a => (a.1, a.2.initial)), [])) (init_good hF cls) hx
  refine ⟨st'.1, st'.2, ?_, h2⟩
  unfold factCall
  rw [h1]
  rfl

end Yargy
