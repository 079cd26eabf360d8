import Verif.Proofs.BnfTrack
/-!
`BNFTransformator` keeps the words with their names, interpretators and relations, but for what may be
put around the whole start rule.
-/
namespace Yargy

variable {P : Type} {k : Kind}

theorem wrap_or {l l' : Option Attr} (u : List (Sym P)) (h : l = none ∨ l' = none) :
    wrap (l.or l') u = wrap l (wrap l' u) := by
  rcases h with rfl | rfl
  · rfl
  · rw [Option.or_none]; rfl

theorem says_cons {h : Heap P} {a : Nat} {ts : List (Term P)} {w v : List (Sym P)} (h1 : Words k h a w)
    (h2 : Says k h ts v) : Says k h (.rule a :: ts) (w ++ v) :=
  (says_append (ts := [.rule a])).2 ⟨w, v, h1, h2, rfl⟩

theorem Puts.spells {o : Obj P} {r x us} (h : Puts o r x) (hs : Spells o us) : us = [.rule r] := by
  cases h <;> cases hs <;> rfl

theorem Puts.spell {o : Obj P} {r x} (h : Puts o r x) : Spells o [.rule r] := by
  cases h <;> constructor

/-- The words without what the rule itself puts around them. -/
def Body (k : Kind) (h : Heap P) (b : Nat) (u : List (Sym P)) : Prop :=
  ∃ o us, h[b]? = some o ∧ Spells o us ∧ Says k h us u

theorem words_body {h : Heap P} {b : Nat} {o : Obj P} (hb : h[b]? = some o) (w : List (Sym P)) :
    Words k h b w ↔ ∃ u, w = wrap (o.label k) u ∧ Body k h b u := by
  rw [words_iff hb]
  constructor
  · rintro ⟨us, v, h1, h2, rfl⟩
    exact ⟨v, rfl, o, us, hb, h1, h2⟩
  · rintro ⟨u, rfl, o', us, h1, h2, h3⟩
    rw [hb] at h1; cases h1
    exact ⟨us, u, h2, h3, rfl⟩

theorem says_leaves {g h : Heap P} {ps : List P} {w : List (Sym P)} (hs : Says k g (ps.map .pred) w) :
    Says k h (ps.map .pred) w := by
  induction ps generalizing w with
  | nil => cases hs; exact .nil
  | cons p ps ih => cases hs with | pred hs => exact .pred (ih hs)

namespace Job
variable {J : Job P} {s : St P}

theorem Chain.look {a b : Nat} {l} (h : J.Chain s k a b l) : J.Look s a b := by
  cases h <;> assumption

/-- What has an image of its own does not share the one of the wrapper. -/
theorem goes_ne (ht : J.Track s) {r y b : Nat} (hg : J.Goes s r y) (hne : y ≠ b)
    (hb : J.heap.length ≤ b) : ¬ J.Look s r b := by
  intro hl
  rcases hg with hg | ⟨rfl, c, hc⟩
  · exact hne (look_unique hg hl)
  · obtain ⟨_, _, _, o, ho, hst⟩ := ht.memo _ _ hl
    rw [hc] at ho; cases ho
    cases hst with
    | forward => exact hne rfl
    | lifted h => exact absurd h.tag (by simp [Obj.tag])
    | same h => exact absurd h.tag (by simp [Obj.tag])

theorem Chain.unique (ht : J.Track s) {a b : Nat} (hb : J.heap.length ≤ b) {l l'}
    (h : J.Chain s k a b l) (h' : J.Chain s k a b l') : l = l' := by
  induction h generalizing l' with
  | base h1 h2 h3 =>
    cases h' with
    | base => rfl
    | lifted _ q1 q2 => rw [h2] at q1; cases q1; exact absurd q2.tag h3
    | same _ q1 q2 => rw [h2] at q1; cases q1; exact absurd q2.tag h3
  | lifted h1 h2 h3 h4 h5 =>
    cases h' with
    | base _ q1 q2 => rw [h2] at q1; cases q1; exact absurd h3.tag q2
    | lifted _ q1 => rw [h2] at q1; cases q1; rfl
    | same _ q1 q2 q3 =>
      rw [h2] at q1; cases q1
      have := h3.children
      rw [q2.children] at this; cases this
      exact absurd q3.look (goes_ne ht h4 h5 hb)
  | same h1 h2 h3 h4 h5 ih =>
    cases h' with
    | base _ q1 q2 => rw [h2] at q1; cases q1; exact absurd h3.tag q2
    | lifted _ q1 q2 q3 q4 =>
      rw [h2] at q1; cases q1
      have := h3.children
      rw [q2.children] at this; cases this
      exact absurd h4.look (goes_ne ht q3 q4 hb)
    | same _ q1 q2 q3 =>
      rw [h2] at q1; cases q1
      have := h3.children
      rw [q2.children] at this; cases this
      rw [ih hb q3]

/-- What shares the image of a wrapper has one parent. -/
theorem same_pc (ht : J.Track s) {w r b : Nat} {o : Obj P} (ho : J.heap[w]? = some o)
    (hw : o.tag = .wrap) (hr : r ∈ o.children) (h1 : J.Look s w b) (h2 : J.Look s r b) :
    J.pc r = 1 ∧ J.heap.length ≤ b := by
  obtain ⟨_, _, _, o', ho', hst⟩ := ht.memo _ _ h1
  rw [ho] at ho'; cases ho'
  cases hst with
  | lifted q1 q2 q3 q4 q5 q6 =>
    rw [q1.children, List.mem_singleton] at hr
    subst hr
    exact absurd h2 (goes_ne ht q4 q5 q6)
  | same q1 q2 q3 q4 =>
    rw [q1.children, List.mem_singleton] at hr
    subst hr
    exact ⟨q3, q4⟩
  | _ => cases hw

theorem top_of_parent (hJ : J.Ok) (ht : J.Track s) {a c : Nat} {o : Obj P}
    (ha : Reach J.heap J.root a) (ho : J.heap[a]? = some o) (hc : c ∈ o.children) (hw : o.tag ≠ .wrap) :
    J.Top s c := by
  intro w o' b h1 h2 h3 h4 h5
  have hpc := (same_pc ht h1 h2 h3 h4 h5).1
  have hne : a ≠ w := fun e => by subst e; rw [ho] at h1; cases h1; exact hw h2
  have := hJ.parents a w o o' c ha (ht.memo w b h4).1 ho h1 hc h3 hne
  omega

theorem top_of_lifted (hJ : J.Ok) (ht : J.Track s) {a b r y : Nat} {o : Obj P} {x : Attr}
    (hl : J.Look s a b) (ho : J.heap[a]? = some o) (hp : Puts o r x) (hg : J.Goes s r y) (hne : y ≠ b)
    (hb : J.heap.length ≤ b) : J.Top s r := by
  intro w o' b' h1 h2 h3 h4 h5
  by_cases e : a = w
  · subst e
    have := look_unique hl h4
    subst this
    exact goes_ne ht hg hne hb h5
  · have hpc := (same_pc ht h1 h2 h3 h4 h5).1
    have := hJ.parents a w o o' r (ht.memo a b hl).1 (ht.memo w b' h4).1 ho h1
      (by rw [hp.children]; simp) h3 e
    omega

variable (J s) in
/-- Rules that have the same words before and after. -/
inductive Img : Nat → Nat → Prop
  | old {a} : a < J.heap.length → Img a a
  | look {a y} : J.Look s a y → J.Top s a → Img a y

variable (J s) in
inductive Img' : Nat → Nat → Prop
  | img {a y} : J.Img s a y → Img' a y
  | lift {a y p} : s.heap[p]? = some (.prod [.rule y] 0) → J.Img s a y → Img' a p

inductive TermImg (R : Nat → Nat → Prop) : Term P → Term P → Prop
  | pred (p) : TermImg R (.pred p) (.pred p)
  | rule {a y} : R a y → TermImg R (.rule a) (.rule y)

theorem terms_old {us : List (Term P)} (h : ∀ a, Term.rule a ∈ us → a < J.heap.length) :
    Pointwise (TermImg (J.Img s)) us us := by
  induction us with
  | nil => exact .nil
  | cons u us ih =>
    refine .cons ?_ (ih (fun a ha => h a (List.mem_cons_of_mem _ ha)))
    cases u with
    | pred p => exact .pred p
    | rule r => exact .rule (.old (h r List.mem_cons_self))

theorem terms_img' {ts us : List (Term P)} (h : Pointwise (TermImg (J.Img s)) ts us) :
    Pointwise (TermImg (J.Img' s)) ts us :=
  pointwise_mono (fun _ _ h => by
    cases h with
    | pred p => exact .pred p
    | rule h => exact .rule (.img h)) h

theorem img_goes (hJ : J.Ok) (ht : J.Track s) {a b r y : Nat} {o : Obj P} {x : Attr}
    (hl : J.Look s a b) (ho : J.heap[a]? = some o) (hp : Puts o r x) (hg : J.Goes s r y) (hne : y ≠ b)
    (hb : J.heap.length ≤ b) : J.Img s r y := by
  have ht' := top_of_lifted hJ ht hl ho hp hg hne hb
  rcases hg with hg | ⟨rfl, c, hc⟩
  · exact .look hg ht'
  · exact .old (List.getElem?_eq_some_iff.1 hc).1

theorem terms_look (hJ : J.Ok) (ht : J.Track s) {a m : Nat} {ts us : List (Term P)}
    (ha : Reach J.heap J.root a) (ho : J.heap[a]? = some (.prod ts m))
    (h : Pointwise (J.TermLook s) ts us) : Pointwise (TermImg (J.Img s)) ts us := by
  have htop : ∀ r, Term.rule r ∈ ts → J.Top s r := fun r hr =>
    top_of_parent hJ ht ha ho (termRules_mem.2 hr) (by simp [Obj.tag])
  clear ho
  induction h with
  | nil => exact .nil
  | cons h _ ih =>
    refine .cons ?_ (ih (fun r hr => htop r (List.mem_cons_of_mem _ hr)))
    cases h with
    | pred p => exact .pred p
    | rule h => exact .rule (.look h (htop _ List.mem_cons_self))

theorem label_none {o : Obj P} (h1 : o.tag ≠ .wrap) (h2 : o.tag ≠ .bnf) : o.label k = none := by
  cases o <;> cases k <;> first | rfl | exact absurd rfl h1 | exact absurd rfl h2

/-- Forward rules that were redefined hold images. -/
theorem img_forward (hJ : J.Ok) (ht : J.Track s) {a r y : Nat}
    (ho : J.heap[a]? = some (.forward (some r))) (hl : J.Look s r y) (ha : Reach J.heap J.root a) :
    J.Img s r y :=
  .look hl (top_of_parent hJ ht ha ho (by simp [Obj.children]) (by simp [Obj.tag]))

theorem old_forth (hJ : J.Ok) (hc : ClosedHeap J.heap) (ht : J.Track s) {a : Nat} {o : Obj P}
    {us : List (Term P)} {w : List (Sym P)} (ho : J.heap[a]? = some o) (hs : Spells o us)
    (ih : ∀ us', Pointwise (TermImg (J.Img s)) us us' → Says k s.heap us' w) :
    Words k s.heap a (wrap (o.label k) w) := by
  rcases ht.frame a o ho with h | ⟨r, y, rfl, h1, h2, h3⟩
  · exact (words_iff h _).2 ⟨us, w, hs, ih us (terms_old (fun c hc' =>
      hc o (List.mem_of_getElem? ho) c (spells_children hs c hc'))), rfl⟩
  · cases hs
    refine (words_iff h1 _).2 ⟨[.rule y], w, .forward, ih _ (.cons (.rule (img_forward hJ ht ho h2 h3)) .nil), ?_⟩
    rw [label_forward, label_forward]

theorem old_back (hJ : J.Ok) (hc : ClosedHeap J.heap) (ht : J.Track s) {a : Nat} {o : Obj P}
    {us : List (Term P)} {w : List (Sym P)} (hlt : a < J.heap.length) (ho : s.heap[a]? = some o)
    (hs : Spells o us)
    (ih : ∀ ts, Pointwise (TermImg (J.Img' s)) ts us → Says k J.heap ts w) :
    Words k J.heap a (wrap (o.label k) w) := by
  have hg : J.heap[a]? = some J.heap[a] := List.getElem?_eq_getElem hlt
  rcases ht.frame a _ hg with h | ⟨r, y, he, h1, h2, h3⟩
  · rw [ho] at h; cases h
    exact (words_iff hg _).2 ⟨us, w, hs, ih us (terms_img' (terms_old (fun c hc' =>
      hc _ (List.mem_of_getElem? hg) c (spells_children hs c hc')))), rfl⟩
  · rw [ho] at h1; cases h1
    cases hs
    rw [he] at hg
    refine (words_iff hg _).2 ⟨[.rule r], w, .forward,
      ih _ (.cons (.rule (.img (img_forward hJ ht hg h2 h3))) .nil), ?_⟩
    rw [label_forward, label_forward]

theorem forth (hJ : J.Ok) (hc : ClosedHeap J.heap) (ht : J.Track s) {ts : List (Term P)}
    {w : List (Sym P)} (h : Says k J.heap ts w) :
    (∀ us, Pointwise (TermImg (J.Img s)) ts us → Says k s.heap us w) ∧
    ∀ a b o, ts = [.rule a] → J.Look s a b → J.heap[a]? = some o → o.tag.isProd = false →
      o.tag ≠ .forward → ∃ l u, J.Chain s k a b l ∧ w = wrap l u ∧ Body k s.heap b u := by
  induction h with
  | nil =>
    refine ⟨fun us h => ?_, fun a b o e => by cases e⟩
    cases h; exact .nil
  | pred h ih =>
    refine ⟨fun us h => ?_, fun a b o e => by cases e⟩
    cases h with
    | cons h1 h2 =>
      cases h1
      exact .pred (ih.1 _ h2)
  | @rule a o us ts w v ho hs hu hts ih1 ih2 =>
    have Q : ∀ b, J.Look s a b → o.tag.isProd = false → o.tag ≠ .forward →
        ∃ l u, J.Chain s k a b l ∧ wrap (o.label k) w = wrap l u ∧ Body k s.heap b u := by
      intro b hl hp hf
      obtain ⟨ha, hblt, hacc, o', ho', hst⟩ := ht.memo a b hl
      rw [ho] at ho'; cases ho'
      cases hst with
      | prod => cases hp
      | emptyProd => cases hp
      | pipeProd => cases hp
      | forward => exact absurd rfl hf
      | rule hb hqs hge =>
        cases hs with
        | rule hp' =>
          obtain ⟨q, hq, hlq⟩ := Pass.pointwise_mem_left hqs hp'
          have := ih1.1 [.rule q] (.cons (.rule (.look hlq (top_of_parent hJ ht ha ho hp'
            (by simp [Obj.tag])))) .nil)
          exact ⟨none, w, .base hl ho (by simp [Obj.tag]), by rw [label_rule], _, _, hb, .bnf hq, this⟩
      | lifted hput hb hp' hgo hne hge =>
        have := hput.spells hs
        subst this
        have := ih1.1 _ (.cons (.rule (img_goes hJ ht hl ho hput hgo hne hge)) .nil)
        refine ⟨o.label k, w, .lifted hl ho hput hgo hne, rfl, _, _, hb, .bnf List.mem_cons_self, ?_⟩
        exact (words_iff hp' _).2 ⟨_, w, .prod, this, by rw [label_prod]; rfl⟩
      | @same _ r _ _ _ hput hlr hpc hge hch =>
        have := hput.spells hs
        subst this
        obtain ⟨_, _, _, or_, hor, hstr⟩ := ht.memo r b hlr
        have hsort : isProdAt J.heap r = false := by
          obtain ⟨o', h1, _, _, h4⟩ := hJ.typed a ha
          rw [ho] at h1; cases h1
          rw [h4 r (by rw [hput.children]; simp), hput.tag]; rfl
        have hprod : or_.tag.isProd = false := by
          unfold isProdAt at hsort
          rw [hor] at hsort
          exact hsort
        have hnf : or_.tag ≠ .forward := by
          intro hf'
          cases hstr with
          | forward =>
            have := (List.getElem?_eq_some_iff.1 hor).1
            omega
          | lifted h => rw [h.tag] at hf'; cases hf'
          | same h => rw [h.tag] at hf'; cases hf'
          | _ => cases hf'
        obtain ⟨l, u, h1, rfl, h3⟩ := ih1.2 r b or_ rfl hlr hor hprod hnf
        obtain ⟨l', q1, q2⟩ := hch k
        have := q1.unique ht hge h1
        subst this
        exact ⟨_, u, .same hl ho hput q1 q2, (wrap_or u q2).symm, h3⟩
      | @pipe _ _ l _ _ _ _ _ hb hks hge =>
        cases hs with
        | pipe hk =>
          obtain ⟨i, hi, rfl⟩ := List.mem_iff_getElem.1 hk
          refine ⟨none, w, .base hl ho (by simp [Obj.tag]), by rw [label_none (by simp [Obj.tag]) (by simp [Obj.tag])],
            _, _, hb, .bnf (p := l + i) (by simp [List.mem_range'_1, hi]), ?_⟩
          have := ih1.1 _ (terms_old (fun a ha => by simp at ha))
          exact (words_iff (hks i hi) _).2 ⟨_, w, .pipeProd, this, by
            rw [label_none (by simp [Obj.tag]) (by simp [Obj.tag])]; rfl⟩
    refine ⟨fun us' hpw => ?_, ?_⟩
    · cases hpw with
      | cons h1 h2 =>
        cases h1 with
        | @rule _ y hi =>
          refine says_cons ?_ (ih2.1 _ h2)
          cases hi with
          | old hlt => exact old_forth hJ hc ht ho hs ih1.1
          | look hl htop =>
            obtain ⟨ha, _, _, o', ho', hst⟩ := ht.memo a y hl
            rw [ho] at ho'; cases ho'
            by_cases hp : o.tag.isProd = true
            · cases hst with
              | prod hb hts hge =>
                cases hs
                exact (words_iff hb _).2 ⟨_, w, .prod, ih1.1 _ (terms_look hJ ht ha ho hts), by
                  rw [label_prod, label_prod]⟩
              | emptyProd => exact old_forth hJ hc ht ho hs ih1.1
              | pipeProd => exact old_forth hJ hc ht ho hs ih1.1
              | lifted h => rw [h.tag] at hp; cases hp
              | same h => rw [h.tag] at hp; cases hp
              | _ => cases hp
            · by_cases hf : o.tag = .forward
              · cases hst with
                | forward => exact old_forth hJ hc ht ho hs ih1.1
                | lifted h => rw [h.tag] at hf; cases hf
                | same h => rw [h.tag] at hf; cases hf
                | _ => cases hf
              · have hp' : o.tag.isProd = false := by simpa using hp
                obtain ⟨l, u, q1, q2, q3⟩ := Q y hl hp' hf
                obtain ⟨o', k1, k2⟩ := ht.lab a y o hl ho hp' hf htop k
                have hge : J.heap.length ≤ y := by
                  cases hst with
                  | prod => cases hp'
                  | emptyProd => cases hp'
                  | pipeProd => cases hp'
                  | forward => exact absurd rfl hf
                  | rule _ _ h => exact h
                  | lifted _ _ _ _ _ h => exact h
                  | same _ _ _ h _ => exact h
                  | pipe _ _ h => exact h
                have := k2.unique ht hge q1
                subst this
                rw [q2]
                exact (words_body k1 _).2 ⟨u, rfl, q3⟩
    · rintro a' b o' e hl ho' hp hf
      cases e
      rw [ho] at ho'; cases ho'
      cases hts
      rw [List.append_nil]
      exact Q b hl hp hf

/-- From the productions of a compiled rule back to the words of a wrapper of its chain. -/
theorem chain_back (hJ : J.Ok) (hc : ClosedHeap J.heap) (ht : J.Track s) {a b : Nat} {l}
    (h : J.Chain s k a b l) {o : Obj P} {us : List (Term P)} {w : List (Sym P)}
    (ho : s.heap[b]? = some o) (hs : Spells o us) (hu : Says k s.heap us w)
    (ih : ∀ ts, Pointwise (TermImg (J.Img' s)) ts us → Says k J.heap ts w) :
    Words k J.heap a (wrap l w) := by
  induction h with
  | @base a b oa hl ha hw =>
    obtain ⟨hra, _, _, o', ho', hst⟩ := ht.memo a b hl
    rw [ha] at ho'; cases ho'
    have self : a = b → o.tag ≠ .bnf → Words k J.heap a (wrap none w) := by
      rintro rfl hn
      have hlt := (List.getElem?_eq_some_iff.1 ha).1
      have := old_back hJ hc ht hlt ho hs ih
      have htag : o.tag = oa.tag := by
        rcases ht.frame a oa ha with h | ⟨_, _, rfl, h, _⟩
        · rw [ho] at h; cases h; rfl
        · rw [ho] at h; cases h; rfl
      rwa [label_none (by rw [htag]; exact hw) hn] at this
    cases hst with
    | prod hb hts hge =>
      rw [ho] at hb; cases hb
      cases hs
      exact (words_iff ha _).2 ⟨_, w, .prod, ih _ (terms_img' (terms_look hJ ht hra ha hts)), by
        rw [label_prod]⟩
    | emptyProd =>
      refine self rfl ?_
      rcases ht.frame a _ ha with h | ⟨_, _, h, _⟩
      · rw [ho] at h; cases h; simp [Obj.tag]
      · cases h
    | pipeProd =>
      refine self rfl ?_
      rcases ht.frame a _ ha with h | ⟨_, _, h, _⟩
      · rw [ho] at h; cases h; simp [Obj.tag]
      · cases h
    | forward =>
      refine self rfl ?_
      rcases ht.frame a _ ha with h | ⟨_, _, _, h, _⟩
      · rw [ho] at h; cases h; simp [Obj.tag]
      · rw [ho] at h; cases h; simp [Obj.tag]
    | rule hb hqs hge =>
      rw [ho] at hb; cases hb
      cases hs with
      | bnf hq =>
        obtain ⟨p, hp, hlp⟩ := Pass.pointwise_mem_right hqs hq
        have := ih [.rule p] (.cons (.rule (.img (.look hlp (top_of_parent hJ ht hra ha hp
          (by simp [Obj.tag]))))) .nil)
        exact (words_iff ha _).2 ⟨_, w, .rule hp, this, by rw [label_rule]⟩
    | lifted h => exact absurd h.tag hw
    | same h => exact absurd h.tag hw
    | pipe hb hks hge =>
      rw [ho] at hb; cases hb
      cases hs with
      | bnf hq =>
        rw [List.mem_range'_1] at hq
        obtain ⟨q1, q2⟩ := hq
        obtain ⟨i, rfl⟩ : ∃ i, _ = _ + i := ⟨_, (Nat.add_sub_of_le q1).symm⟩
        have hi : i < _ := Nat.lt_of_add_lt_add_left q2
        obtain ⟨us, v, h1, h2, rfl⟩ := (words_iff (hks i hi) _).1 hu
        cases h1
        rw [label_none (by simp [Obj.tag]) (by simp [Obj.tag])]
        refine (words_iff ha _).2 ⟨_, v, .pipe (List.getElem_mem hi), ?_, by
          rw [label_none (by simp [Obj.tag]) (by simp [Obj.tag])]; rfl⟩
        exact says_leaves h2
  | @lifted a b oa r x y hl ha hput hgo hne =>
    obtain ⟨hra, _, _, o', ho', hst⟩ := ht.memo a b hl
    rw [ha] at ho'; cases ho'
    cases hst with
    | lifted hput' hb hp hgo' hne' hge =>
      rw [ho] at hb; cases hb
      cases hs with
      | bnf hq =>
        rw [List.mem_singleton] at hq
        subst hq
        have := hput.children
        rw [hput'.children] at this; cases this
        have := ih [.rule r] (.cons (.rule (.lift hp (img_goes hJ ht hl ha hput' hgo' hne' hge))) .nil)
        exact (words_iff ha _).2 ⟨_, w, hput'.spell, this, rfl⟩
    | same hput' hlr _ hge =>
      have := hput.children
      rw [hput'.children] at this; cases this
      exact absurd hlr (goes_ne ht hgo hne hge)
    | _ => exact absurd hput.tag (by simp [Obj.tag])
  | same hl ha hput hch hside ih' =>
    rw [wrap_or w hside]
    exact (words_iff ha _).2 ⟨_, _, hput.spell, ih' ho, rfl⟩

theorem back (hJ : J.Ok) (hc : ClosedHeap J.heap) (ht : J.Track s) {us : List (Term P)}
    {w : List (Sym P)} (h : Says k s.heap us w) :
    ∀ ts, Pointwise (TermImg (J.Img' s)) ts us → Says k J.heap ts w := by
  induction h with
  | nil => intro ts h; cases h; exact .nil
  | pred h ih =>
    intro ts h
    cases h with
    | cons h1 h2 =>
      cases h1
      exact .pred (ih _ h2)
  | @rule y o us us' w v ho hs hu hts ih1 ih2 =>
    intro ts hpw
    cases hpw with
    | cons h1 h2 =>
      cases h1 with
      | @rule a _ hi =>
        refine says_cons ?_ (ih2 _ h2)
        cases hi with
        | lift hp himg =>
          rw [ho] at hp; cases hp
          cases hs
          rw [label_prod]
          exact ih1 _ (.cons (.rule (.img himg)) .nil)
        | img hi =>
          cases hi with
          | old hlt => exact old_back hJ hc ht hlt ho hs ih1
          | look hl htop =>
            obtain ⟨hra, _, _, oa, ha, hst⟩ := ht.memo a y hl
            by_cases hp : oa.tag.isProd = true ∨ oa.tag = .forward
            · have hw : oa.tag ≠ .wrap := by
                intro e; rw [e] at hp; rcases hp with h | h <;> cases h
              have hn : o.label k = none := by
                cases hst with
                | prod hb => rw [ho] at hb; cases hb; exact label_prod _ _
                | lifted h => exact absurd h.tag hw
                | same h => exact absurd h.tag hw
                | rule => rcases hp with h | h <;> cases h
                | pipe => rcases hp with h | h <;> cases h
                | _ =>
                  rcases ht.frame _ _ ha with h | ⟨_, _, _, h, _⟩ <;>
                    (rw [ho] at h; cases h; exact label_none (by simp [Obj.tag]) (by simp [Obj.tag]))
              rw [hn]
              exact chain_back hJ hc ht (.base hl ha hw) ho hs hu ih1
            · have hp' : oa.tag.isProd = false := by
                cases h : oa.tag.isProd with
                | false => rfl
                | true => exact absurd (.inl h) hp
              obtain ⟨o', k1, k2⟩ := ht.lab a y oa hl ha hp' (fun h => hp (.inr h)) htop k
              rw [ho] at k1; cases k1
              exact chain_back hJ hc ht k2 ho hs hu ih1

theorem img_words (hJ : J.Ok) (hc : ClosedHeap J.heap) (ht : J.Track s) {a y : Nat} (h : J.Img s a y)
    (w : List (Sym P)) : Words k s.heap y w ↔ Words k J.heap a w :=
  ⟨fun h' => back hJ hc ht h' _ (.cons (.rule (.img h)) .nil),
    fun h' => (forth hJ hc ht h').1 _ (.cons (.rule h) .nil)⟩

/-- The last wrapper of a chain, and what it adds. -/
theorem climb (ht : J.Track s) {b : Nat} (hge : J.heap.length ≤ b) :
    ∀ (n : Nat) (L : List Nat) (a : Nat) (l : Option Attr) (o : Obj P), L.Nodup →
      (∀ x ∈ L, x < J.heap.length ∧ J.Under x a) → J.heap.length < n + L.length →
      J.heap[a]? = some o → o.tag.isProd = false → o.tag ≠ .forward → J.Chain s k a b l →
      ∃ t l' o', J.heap[t]? = some o' ∧ o'.tag.isProd = false ∧ o'.tag ≠ .forward ∧ J.Top s t ∧
        J.Chain s k t b l' ∧ (l = none ∨ l' = l) := by
  intro n
  induction n with
  | zero =>
    intro L a l o h1 h2 h3
    have := nodup_lt_length h1 (fun x hx => (h2 x hx).1)
    omega
  | succ n ih =>
    intro L a l o h1 h2 h3 ho hp hf hch
    by_cases htop : J.Top s a
    · exact ⟨a, l, o, ho, hp, hf, htop, hch, .inr rfl⟩
    · have : ∃ (w : Nat) (o' : Obj P) (b' : Nat), J.heap[w]? = some o' ∧ o'.tag = .wrap ∧ a ∈ o'.children ∧
          J.Look s w b' ∧ J.Look s a b' := by
        refine Classical.byContradiction (fun hno => htop ?_)
        intro w o' b' q1 q2 q3 q4 q5
        exact hno ⟨w, o', b', q1, q2, q3, q4, q5⟩
      obtain ⟨w, o', b', q1, q2, q3, q4, q5⟩ := this
      have := look_unique hch.look q5
      subst this
      obtain ⟨_, _, _, o2, q6, hst⟩ := ht.memo w b q4
      rw [q1] at q6; cases q6
      have hst' : ∃ l2, J.Chain s k w b l2 ∧ (l = none ∨ l2 = l) := by
        cases hst with
        | lifted k1 k2 k3 k4 k5 k6 =>
          rw [k1.children, List.mem_singleton] at q3
          subst q3
          exact absurd q5 (goes_ne ht k4 k5 k6)
        | same k1 k2 k3 k4 k5 =>
          rw [k1.children, List.mem_singleton] at q3
          subst q3
          obtain ⟨l2, k6, k7⟩ := k5 k
          have := k6.unique ht hge hch
          subst this
          refine ⟨_, .same q4 q1 k1 k6 k7, ?_⟩
          rcases k7 with h | h
          · right; rw [h, Option.none_or]
          · exact .inl h
        | _ => cases q2
      obtain ⟨l2, hch2, hl2⟩ := hst'
      have hkid : J.Kid a w := ⟨o', q1, by rw [q2]; decide, q3⟩
      have hna : a ∉ L := fun hm => not_under (ht.memo a b hch.look).2.2.1 (h2 a hm).2
      obtain ⟨t, l', o'', r1, r2, r3, r4, r5, r6⟩ := ih (a :: L) w l2 o' (List.nodup_cons.2 ⟨hna, h1⟩)
        (by
          intro x hx
          rcases List.mem_cons.1 hx with rfl | hx
          · exact ⟨(List.getElem?_eq_some_iff.1 ho).1, .kid hkid⟩
          · exact ⟨(h2 x hx).1, (h2 x hx).2.trans (.kid hkid)⟩)
        (by simp; omega) q1 (by rw [q2]; rfl) (by rw [q2]; decide) hch2
      refine ⟨t, l', o'', r1, r2, r3, r4, r5, ?_⟩
      rcases hl2 with h | rfl
      · exact .inl h
      · exact r6

/-- The words of a wrapper by its compiled rule. -/
theorem chain_words (hJ : J.Ok) (hc : ClosedHeap J.heap) (ht : J.Track s) {a b : Nat} {l} {o : Obj P}
    (hge : J.heap.length ≤ b) (ho : J.heap[a]? = some o) (hp : o.tag.isProd = false)
    (hf : o.tag ≠ .forward) (h : J.Chain s k a b l) (w : List (Sym P)) :
    Words k J.heap a w ↔ ∃ u, w = wrap l u ∧ Body k s.heap b u := by
  constructor
  · intro hw
    obtain ⟨l', u, h1, h2, h3⟩ := (forth hJ hc ht hw).2 a b o rfl h.look ho hp hf
    have := h.unique ht hge h1
    subst this
    exact ⟨u, h2, h3⟩
  · rintro ⟨u, rfl, o', us, h1, h2, h3⟩
    exact chain_back hJ hc ht h h1 h2 h3 (back hJ hc ht h3)

theorem Chain.own {a b : Nat} {l} (h : J.Chain s k a b l) (hn : l = none) {o : Obj P}
    (ho : J.heap[a]? = some o) (hb : o.tag ≠ .bnf) : o.label k = none := by
  cases h with
  | base _ h1 h2 => rw [ho] at h1; cases h1; exact label_none h2 hb
  | lifted _ h1 => rw [ho] at h1; cases h1; exact hn
  | same _ h1 =>
    rw [ho] at h1; cases h1
    cases h : o.label k with
    | none => rfl
    | some y => rw [h] at hn; cases hn

/-- The words of the start rule. -/
theorem root_words (hJ : J.Ok) (hc : ClosedHeap J.heap) (ht : J.Track s) {b : Nat}
    (hl : J.Look s J.root b) (hr : isProdAt J.heap J.root = false) :
    (∀ w, Words k s.heap b w ↔ Words k J.heap J.root w) ∨
    ((∀ o, J.heap[J.root]? = some o → o.label k = none) ∧
      ∃ x, ∀ w, Words k s.heap b w ↔ ∃ u, w = wrap (some x) u ∧ Words k J.heap J.root u) := by
  by_cases htop : J.Top s J.root
  · exact .inl (fun w => img_words hJ hc ht (.look hl htop) w)
  · have : ∃ (w : Nat) (o' : Obj P) (b' : Nat), J.heap[w]? = some o' ∧ o'.tag = .wrap ∧
        J.root ∈ o'.children ∧ J.Look s w b' ∧ J.Look s J.root b' := by
      refine Classical.byContradiction (fun hno => htop ?_)
      intro w o' b' q1 q2 q3 q4 q5
      exact hno ⟨w, o', b', q1, q2, q3, q4, q5⟩
    obtain ⟨w, o', b', q1, q2, q3, q4, q5⟩ := this
    have := look_unique hl q5
    subst this
    have hge := (same_pc ht q1 q2 q3 q4 q5).2
    obtain ⟨_, _, _, or_, hor, hstr⟩ := ht.memo _ _ hl
    have hp : or_.tag.isProd = false := by
      unfold isProdAt at hr
      rw [hor] at hr
      exact hr
    have hf : or_.tag ≠ .forward := by
      intro hf'
      cases hstr with
      | forward =>
        have := (List.getElem?_eq_some_iff.1 hor).1
        omega
      | lifted h => rw [h.tag] at hf'; cases hf'
      | same h => rw [h.tag] at hf'; cases hf'
      | _ => cases hf'
    have hch : ∃ l, J.Chain s k J.root b l := by
      obtain ⟨_, _, _, o2, q6, hst⟩ := ht.memo w b q4
      rw [q1] at q6; cases q6
      cases hst with
      | lifted k1 k2 k3 k4 k5 k6 =>
        rw [k1.children, List.mem_singleton] at q3
        rw [q3] at q5
        exact absurd q5 (goes_ne ht k4 k5 k6)
      | same k1 k2 k3 k4 k5 =>
        rw [k1.children, List.mem_singleton] at q3
        obtain ⟨l2, k6, k7⟩ := k5 k
        rw [← q3] at k6
        exact ⟨l2, k6⟩
      | _ => cases q2
    obtain ⟨l, hch⟩ := hch
    have key := chain_words hJ hc ht hge hor hp hf hch
    obtain ⟨t, l', ot, r1, r2, r3, r4, r5, r6⟩ := climb ht hge (J.heap.length + 1) [] J.root l or_
      List.nodup_nil (by simp) (by simp) hor hp hf hch
    obtain ⟨ob, k1, k2⟩ := ht.lab t b ot r5.look r1 r2 r3 r4 k
    have := k2.unique ht hge r5
    have key2 := fun w => words_body (k := k) k1 w
    rw [this] at key2
    rcases r6 with rfl | rfl
    · cases l' with
      | none => exact .inl (fun w => (key2 w).trans (key w).symm)
      | some x =>
        refine .inr ⟨fun o ho => ?_, x, fun w => (key2 w).trans ?_⟩
        · rw [hor] at ho; cases ho
          obtain ⟨o3, h3, h4, _⟩ := hJ.typed _ .root
          rw [hor] at h3; cases h3
          exact hch.own rfl hor (by intro e; rw [e] at h4; cases h4)
        · constructor
          · rintro ⟨u, rfl, h⟩
            exact ⟨u, rfl, (key u).2 ⟨u, rfl, h⟩⟩
          · rintro ⟨u, rfl, h⟩
            obtain ⟨u', h1, h2⟩ := (key u).1 h
            cases h1
            exact ⟨_, rfl, h2⟩
    · exact .inl (fun w => (key2 w).trans (key w).symm)

theorem Chain.keeps {a b : Nat} {l} (h : J.Chain s k a b l) {o : Obj P} {x : Attr} (ho : J.heap[a]? = some o)
    (hb : o.tag ≠ .bnf) (hx : o.label k = some x) : l = some x := by
  cases h with
  | base _ h1 h2 => rw [ho] at h1; cases h1; rw [label_none h2 hb] at hx; cases hx
  | lifted _ h1 => rw [ho] at h1; cases h1; exact hx
  | same _ h1 => rw [ho] at h1; cases h1; rw [hx]; rfl

/-- The compiled start rule carries what the start rule carries. -/
theorem root_label (hJ : J.Ok) (ht : J.Track s) {b : Nat} (hl : J.Look s J.root b) {o : Obj P} {x : Attr}
    (ho : J.heap[J.root]? = some o) (hw : o.tag = .wrap) (hx : o.label k = some x) :
    ∃ o', s.heap[b]? = some o' ∧ o'.label k = some x := by
  have hb : o.tag ≠ .bnf := by rw [hw]; intro e; cases e
  have hp : o.tag.isProd = false := by rw [hw]; rfl
  have hf : o.tag ≠ .forward := by rw [hw]; intro e; cases e
  by_cases htop : J.Top s J.root
  · obtain ⟨o', h1, h2⟩ := ht.lab _ _ _ hl ho hp hf htop k
    exact ⟨o', h1, h2.keeps ho hb hx⟩
  · have : ∃ (w : Nat) (o' : Obj P) (b' : Nat), J.heap[w]? = some o' ∧ o'.tag = .wrap ∧
        J.root ∈ o'.children ∧ J.Look s w b' ∧ J.Look s J.root b' := by
      refine Classical.byContradiction (fun hno => htop ?_)
      intro w o' b' q1 q2 q3 q4 q5
      exact hno ⟨w, o', b', q1, q2, q3, q4, q5⟩
    obtain ⟨w, o', b', q1, q2, q3, q4, q5⟩ := this
    have := look_unique hl q5
    subst this
    have hge := (same_pc ht q1 q2 q3 q4 q5).2
    have hch : ∃ l, J.Chain s k J.root b l := by
      obtain ⟨_, _, _, o2, q6, hst⟩ := ht.memo w b q4
      rw [q1] at q6; cases q6
      cases hst with
      | lifted k1 k2 k3 k4 k5 k6 =>
        rw [k1.children, List.mem_singleton] at q3
        rw [q3] at q5
        exact absurd q5 (goes_ne ht k4 k5 k6)
      | same k1 k2 k3 k4 k5 =>
        rw [k1.children, List.mem_singleton] at q3
        obtain ⟨l2, k6, k7⟩ := k5 k
        rw [← q3] at k6
        exact ⟨l2, k6⟩
      | _ => cases q2
    obtain ⟨l, hch⟩ := hch
    obtain ⟨t, l', ot, r1, r2, r3, r4, r5, r6⟩ := climb ht hge (J.heap.length + 1) [] J.root l o
      List.nodup_nil (by simp) (by simp) ho hp hf hch
    obtain ⟨ob, k1, k2⟩ := ht.lab t b ot r5.look r1 r2 r3 r4 k
    have e := hch.keeps ho hb hx
    refine ⟨ob, k1, ?_⟩
    rw [k2.unique ht hge r5]
    rcases r6 with h | h
    · rw [h] at e; cases e
    · rw [h, e]

end Job

/-! ### The counts of parents -/

theorem count_flatMap {f : Nat → List Nat} {q : Nat → Bool} {a a' : Nat} (hne : a ≠ a') :
    ∀ l : List Nat, l.Nodup → a ∈ l → a' ∈ l → (∃ c ∈ f a, q c = true) → (∃ c ∈ f a', q c = true) →
      2 ≤ ((l.flatMap f).filter q).length := by
  have one : ∀ (b : Nat) (l : List Nat), b ∈ l → (∃ c ∈ f b, q c = true) →
      1 ≤ ((l.flatMap f).filter q).length := by
    intro b l hb ⟨c, hc, hq⟩
    exact List.length_pos_of_mem (List.mem_filter.2 ⟨List.mem_flatMap.2 ⟨b, hb, hc⟩, hq⟩)
  intro l
  induction l with
  | nil => intro _ h; cases h
  | cons x l ih =>
    intro hn ha ha' hc hc'
    rw [List.flatMap_cons, List.filter_append, List.length_append]
    rw [List.nodup_cons] at hn
    have self : ∀ b, b = x → (∃ c ∈ f b, q c = true) → 1 ≤ ((f x).filter q).length := by
      rintro b rfl ⟨c, hc, hq⟩
      exact List.length_pos_of_mem (List.mem_filter.2 ⟨hc, hq⟩)
    rcases List.mem_cons.1 ha with e | ha1
    · rcases List.mem_cons.1 ha' with e' | ha'1
      · exact absurd (e.trans e'.symm) hne
      · have := self a e hc
        have := one a' l ha'1 hc'
        omega
    · rcases List.mem_cons.1 ha' with e' | ha'1
      · have := self a' e' hc'
        have := one a l ha1 hc
        omega
      · have := ih hn.2 ha1 ha'1 hc hc'
        omega

theorem parentCount_two {pid : Nat → Nat} (hp : ∀ a b, pid a = pid b → a = b) {h : Heap P} {root : Nat}
    (hc : ClosedHeap h) (hr : root < h.length) (a a' : Nat) (o o' : Obj P) (c : Nat)
    (h1 : Reach h root a) (h2 : Reach h root a') (h3 : h[a]? = some o) (h4 : h[a']? = some o')
    (h5 : c ∈ o.children) (h6 : c ∈ o'.children) (hne : a ≠ a') : 2 ≤ parentCount pid h root c := by
  have hw := walk_spec hp hc hr
  refine count_flatMap hne _ hw.1 ((reach_iff hp hc hr _).2 h1) ((reach_iff hp hc hr _).2 h2)
    ⟨c, ?_, by simp⟩ ⟨c, ?_, by simp⟩
  · simp [childrenAt, h3, h5]
  · simp [childrenAt, h4, h6]

/-- Compiling rules in normal form keeps their words with their labels, but for a label that may be put
around the whole start rule. -/
theorem toBnf_labels {pid : Nat → Nat} (hp : ∀ a b, pid a = pid b → a = b) {limit root b : Nat}
    {h h' : Heap P} (hs : Sorted h) (ht : Typed flatTags (fun _ => True) h root)
    (hr : isProdAt h root = false) (e : toBnf pid limit root h = .ok (b, h')) :
    (∀ x, x < h.length → ∀ w, Words k h' x w ↔ Words k h x w) ∧
    ((∀ w, Words k h' b w ↔ Words k h root w) ∨
      ((∀ o, h[root]? = some o → o.label k = none) ∧
        ∃ x, ∀ w, Words k h' b w ↔ ∃ u, w = wrap (some x) u ∧ Words k h root u)) := by
  have hJ : (⟨h, root, pid, parentCount pid h root⟩ : Job P).Ok :=
    ⟨hp, ht, parentCount_two hp hs.closed ht.lt⟩
  obtain ⟨s, rfl, t, l⟩ := Job.transform_track hJ e
  exact ⟨fun x hx w => Job.img_words hJ hs.closed t (.old hx) w,
    Job.root_words hJ hs.closed t l hr⟩

theorem toBnf_root {pid : Nat → Nat} (hp : ∀ a b, pid a = pid b → a = b) {limit root b : Nat}
    {h h' : Heap P} (hs : Sorted h) (ht : Typed flatTags (fun _ => True) h root)
    (e : toBnf pid limit root h = .ok (b, h')) {o : Obj P} {x : Attr} (ho : h[root]? = some o)
    (hw : o.tag = .wrap) (hx : o.label k = some x) : ∃ o', h'[b]? = some o' ∧ o'.label k = some x := by
  have hJ : (⟨h, root, pid, parentCount pid h root⟩ : Job P).Ok :=
    ⟨hp, ht, parentCount_two hp hs.closed ht.lt⟩
  obtain ⟨s, rfl, t, l⟩ := Job.transform_track hJ e
  exact Job.root_label hJ t l ho hw hx

end Yargy
