import Verif.Proofs.TintGrammar
import Verif.Spec.Optional
import Verif.Proofs.ThinChart
/-!
The rules of `OptionalsAfterTokens` can be painted.
-/
namespace Yargy.Tint
open Spec
open Classical

variable {P : Type}

noncomputable def sourceColor (h : Heap P) (a : Nat) : Color :=
  match h[a]? with
  | some (.optional _ _) => .null
  | some (.prod ts _) => if LastPred ts then .tail else .full
  | some (.pipeProd _ _) => .tail
  | some (.pipe _) => .tail
  | some (.rule _) => if EndsInToken h a then .tail else .full
  | some (.repeatable _ _) => .rep
  | some (.minBounded _ _ _) | some (.maxBounded _ _ _) | some (.minMaxBounded _ _ _ _) =>
    if Unending h a then .rep else .full
  | _ => .full

theorem lastPred_append {ts : List (Term P)} {q : P} : LastPred (ts ++ [.pred q]) := by
  induction ts with
  | nil => exact ⟨q, rfl⟩
  | cons t ts ih =>
    cases ts with
    | nil => exact ih
    | cons u us => exact ih

theorem source_kinds (h : Heap P) (a : Nat) :
    (IsOptional h a ∧ sourceColor h a = .null) ∨ Full (sourceColor h a) ∨
      (Unending h a ∧ sourceColor h a = .rep) := by
  have ite : ∀ {p : Prop} {c : Color}, Full (if p then Color.tail else Color.full) := by
    intro p _
    by_cases hp : p
    · rw [if_pos hp]; exact .inr rfl
    · rw [if_neg hp]; exact .inl rfl
  unfold sourceColor
  split
  · rename_i x v e; exact .inl ⟨⟨_, _, e⟩, rfl⟩
  · exact .inr (.inl (ite (c := .full)))
  · exact .inr (.inl (.inr rfl))
  · exact .inr (.inl (.inr rfl))
  · exact .inr (.inl (ite (c := .full)))
  · rename_i e; exact .inr (.inr ⟨.repeatable e, rfl⟩)
  all_goals first
    | exact .inr (.inl (.inl rfl))
    | (by_cases hu : Unending h a
       · rw [if_pos hu]; exact .inr (.inr ⟨hu, rfl⟩)
       · rw [if_neg hu]; exact .inr (.inl (.inl rfl)))

theorem source_sd {h : Heap P} {a : Nat} (ho : ¬ IsOptional h a) : Sd true (sourceColor h a) := by
  rcases source_kinds h a with ⟨k, _⟩ | k | ⟨_, k⟩
  · exact absurd k ho
  · exact .inl k
  · exact .inr ⟨rfl, k⟩

theorem source_full {h : Heap P} {a : Nat} (ho : ¬ IsOptional h a) (hu : ¬ Unending h a) :
    Full (sourceColor h a) := by
  rcases source_kinds h a with ⟨k, _⟩ | k | ⟨k, _⟩
  · exact absurd k ho
  · exact k
  · exact absurd k hu

theorem source_tail {h : Heap P} {a : Nat} (ht : EndsInToken h a) : sourceColor h a = .tail := by
  have ht' := ht
  rcases ht with ⟨p, e⟩ | ⟨ps, e, _⟩
  · unfold sourceColor; rw [e]
  · unfold sourceColor; rw [e]; exact if_pos ht'

theorem source_placed {h : Heap P} : ∀ {ts : List (Term P)} {b : Prop},
    (∀ (i r : Nat), ts[i]? = some (.rule r) → IsOptional h r → (i = 0 ∧ b) ∨
      ∃ (j : Nat) (t : Term P), i = j + 1 ∧ ts[j]? = some t ∧ ((∃ q, t = .pred q) ∨ ∃ s, t = .rule s ∧ EndsInToken h s)) →
    Placed true (sourceColor h) b ts := by
  intro ts
  induction ts with
  | nil => intros; trivial
  | cons t ts ih =>
    intro b hx
    have step : ∀ {b' : Prop}, (((∃ q, t = .pred q) ∨ ∃ s, t = .rule s ∧ EndsInToken h s) → b') →
        Placed true (sourceColor h) b' ts := by
      intro b' hb'
      refine ih (fun i r hi ho => ?_)
      rcases hx (i + 1) r (by simpa using hi) ho with ⟨e, _⟩ | ⟨j, u, e, hj, hu⟩
      · omega
      · have e' : i = j := by omega
        subst e'
        cases i with
        | zero => 
          rw [List.getElem?_cons_zero] at hj
          cases hj
          exact .inl ⟨rfl, hb' hu⟩
        | succ i => exact .inr ⟨i, u, rfl, by simpa using hj, hu⟩
    cases t with
    | pred p => exact step (fun _ => trivial)
    | rule r =>
      refine ⟨?_, step (fun ht => ?_)⟩
      · by_cases ho : IsOptional h r
        · right
          rcases hx 0 r rfl ho with ⟨_, hb⟩ | ⟨j, _, e, _⟩
          · obtain ⟨x, v, e⟩ := ho
            exact ⟨by unfold sourceColor; rw [e], hb⟩
          · omega
        · exact .inl (source_sd ho)
      · rcases ht with ⟨q, e⟩ | ⟨s, e, ht⟩
        · cases e
        · cases e; exact source_tail ht

theorem source_neat {h : Heap P} {root : Nat} (hso : Sorted h) (hx : OptionalsAfterTokens h root) :
    Neat (start h root) (sourceColor h) h := by
  refine ⟨Nat.le_refl _, ?_, fun _ _ h => h.elim, ?_⟩
  · intro a o ha ho
    have hlt := (List.getElem?_eq_some_iff.1 ho).1
    have ha : Reach h root a := ha.resolve_left (by show ¬ h.length ≤ a; omega)
    have hkid : ∀ c ∈ o.children, Reach h root c := fun c hc => .step ha ho hc
    have hch := hso a o ho
    refine ⟨?_, rfl, fun c hc => ⟨.inr (hkid c hc), (hch c hc).1⟩⟩
    have honly := hx.only a o ha ho
    obtain ⟨k1, k2, k3, k4⟩ := hx.kinds a o ha ho
    have prods : ∀ p, ¬ IsOptional h p → isProdAt h p = true → Full (sourceColor h p) := by
      intro p hnp hcp
      refine source_full hnp (fun hu => ?_)
      have : isProdAt h p = false := by
        unfold isProdAt
        cases hu with
        | repeatable e => rw [e]; rfl
        | min e => rw [e]; rfl
        | max e => rw [e]; rfl
        | minMax e => rw [e]; rfl
      rw [this] at hcp
      cases hcp
    show Ok true (sourceColor h) a o
    cases o with
    | prod ts m =>
      obtain ⟨q1, q2⟩ := hx.sequences a ts m ha ho
      refine .inl ⟨q1, source_placed (fun i r hi hr => .inr (q2 i r hi hr)), ?_⟩
      unfold sourceColor
      rw [ho]
      by_cases hl : LastPred ts
      · exact .inr ⟨if_pos hl, hl⟩
      · exact .inl (if_neg hl)
    | emptyProd => exact absurd rfl k2
    | pipeProd v ts => exact ⟨fun e => k4 v (by rw [e]), by unfold sourceColor; rw [ho]⟩
    | rule ps =>
      by_cases ht : EndsInToken h a
      · refine .inr (.inl ⟨source_tail ht, fun c hc => ?_⟩)
        obtain ⟨p, hp, rfl⟩ := List.mem_map.1 hc
        rcases ht with ⟨q, e⟩ | ⟨ps', e, hl⟩
        · rw [ho] at e; cases e
        · rw [ho] at e
          cases e
          obtain ⟨ts, q, m, e⟩ := hl p hp
          unfold sourceColor
          rw [e]
          exact if_pos lastPred_append
      · refine .inl ⟨by unfold sourceColor; rw [ho]; exact if_neg ht, fun c hc => ?_⟩
        obtain ⟨p, hp, rfl⟩ := List.mem_map.1 hc
        exact prods p (honly (by intros; exact fun e => nomatch e) p hp) (hch p hp).2
    | or rs =>
      exact .inl ⟨by unfold sourceColor; rw [ho], fun r hr => source_sd (honly (by intros; exact fun e => nomatch e) r hr)⟩
    | optional r v =>
      exact ⟨by unfold sourceColor; rw [ho], source_full
        (honly (by intros; exact fun e => nomatch e) r List.mem_cons_self) (hx.content a r v ha ho)⟩
    | repeatable r v =>
      exact ⟨source_sd (honly (by intros; exact fun e => nomatch e) r List.mem_cons_self), by unfold sourceColor; rw [ho]; rfl⟩
    | repOptional r u v => exact absurd rfl (k3 r u v)
    | minBounded r n v =>
      have hr := honly (by intros; exact fun e => nomatch e) r List.mem_cons_self
      by_cases hu : Unending h a
      · exact .inr ⟨rfl, by unfold sourceColor; rw [ho]; exact if_pos hu, source_sd hr⟩
      · exact .inl ⟨by unfold sourceColor; rw [ho]; exact if_neg hu, source_full hr (fun h => hu (.min ho h))⟩
    | maxBounded r n v =>
      have hr := honly (by intros; exact fun e => nomatch e) r List.mem_cons_self
      by_cases hu : Unending h a
      · exact .inr ⟨rfl, by unfold sourceColor; rw [ho]; exact if_pos hu, source_sd hr⟩
      · exact .inl ⟨by unfold sourceColor; rw [ho]; exact if_neg hu, source_full hr (fun h => hu (.max ho h))⟩
    | minMaxBounded r n m v =>
      have hr := honly (by intros; exact fun e => nomatch e) r List.mem_cons_self
      by_cases hu : Unending h a
      · exact .inr ⟨rfl, by unfold sourceColor; rw [ho]; exact if_pos hu, source_sd hr⟩
      · exact .inl ⟨by unfold sourceColor; rw [ho]; exact if_neg hu, source_full hr (fun h => hu (.minMax ho h))⟩
    | named r n =>
      exact ⟨by unfold sourceColor; rw [ho], source_sd (honly (by intros; exact fun e => nomatch e) r List.mem_cons_self)⟩
    | interp r n =>
      exact ⟨by unfold sourceColor; rw [ho], source_sd (honly (by intros; exact fun e => nomatch e) r List.mem_cons_self)⟩
    | relation r n =>
      exact ⟨by unfold sourceColor; rw [ho], source_sd (honly (by intros; exact fun e => nomatch e) r List.mem_cons_self)⟩
    | forward c =>
      refine ⟨by unfold sourceColor; rw [ho], ?_⟩
      rintro r rfl
      exact source_sd (honly (by intros; exact fun e => nomatch e) r (by simp [Obj.children]))
    | empty => exact absurd rfl k1
    | pipe p => exact (by unfold sourceColor; rw [ho] : sourceColor h a = .tail)
    | bnf ps n i r k =>
      refine .inl ⟨by unfold sourceColor; rw [ho], fun c hc => ?_⟩
      obtain ⟨p, hp, rfl⟩ := List.mem_map.1 hc
      exact prods p (honly (by intros; exact fun e => nomatch e) p hp) (hch p hp).2
  · intro a ha
    unfold sourceColor
    rw [List.getElem?_eq_none ha]

theorem sd_null {sq : Bool} : ¬ Sd sq .null := by
  rintro ((h | h) | ⟨_, h⟩) <;> cases h

theorem sd_blank {sq : Bool} : ¬ Sd sq .blank := by
  rintro ((h | h) | ⟨_, h⟩) <;> cases h

theorem sd_hollow {sq : Bool} : ¬ Sd sq .hollow := by
  rintro ((h | h) | ⟨_, h⟩) <;> cases h

theorem sd_void {sq : Bool} : ¬ Sd sq .void := by
  rintro ((h | h) | ⟨_, h⟩) <;> cases h

theorem okProds_sd {sq : Bool} {k : Color} {cs : List Color} (h : OkProds k cs) (hk : Sd sq k) :
    ∀ c ∈ cs, Sd sq c := by
  rcases h with ⟨_, h⟩ | ⟨_, h⟩ | ⟨rfl, _⟩ | ⟨rfl, _⟩
  · exact fun c hc => .inl (h c hc)
  · exact fun c hc => .inl (.inr (h c hc))
  · exact absurd hk sd_null
  · exact absurd hk sd_blank

/-- What is not painted as optional is something. -/
theorem painted_open {h : Heap P} {root : Nat} {col : Nat → Color} (hs : Neat (start h root) col h)
    {ts : List (Term P)} {w : List Nat} (ho : Thin.Open (fun _ => False) h ts w) :
    w = [] → ∀ t ∈ ts, ∃ r, t = .rule r ∧ (Reach h root r → ¬ Sd true (col r)) := by
  induction ho with
  | nil => intro _ t ht; cases ht
  | letter => intro e; cases e
  | skip _ hn => exact hn.elim
  | @rule a o us ts w v ha hf hg _ _ ih1 ih2 =>
    intro e t ht
    obtain ⟨e1, e2⟩ := List.append_eq_nil_iff.1 e
    cases ht with
    | tail _ ht => exact ih2 e2 t ht
    | head =>
      refine ⟨a, rfl, fun hra hsd => ?_⟩
      have hok := (hs.good a o (.inr hra) ha).ok
      have hch := Thin.gives_children hg
      have key : ∀ r, .rule r ∈ us → ¬ Sd true (col r) := by
        intro r hr
        obtain ⟨r', e, k⟩ := ih1 e1 _ hr
        cases e
        exact k (.step hra ha (hch r hr))
      have rep : ∀ {n r : Nat}, 1 ≤ n → Term.rule (P := P) r ∈ List.replicate n (.rule r) :=
        fun {n r} hn => List.mem_replicate.2 ⟨by omega, rfl⟩
      have one : ∀ {r : Nat}, Term.rule (P := P) r ∈ [.rule r] := List.mem_singleton.2 rfl
      have bound : ∀ {r : Nat}, (col a = .full ∧ Full (col r)) ∨ (true = true ∧ col a = .rep ∧ Sd true (col r)) →
          Sd true (col r) := by
        rintro r (⟨_, h⟩ | ⟨_, _, h⟩)
        · exact .inl h
        · exact h
      cases hg with
      | @prod ts m =>
        rcases hok with ⟨k1, k2, _⟩ | ⟨k, _⟩
        · cases us with
          | nil => exact k1 rfl
          | cons x xs =>
            obtain ⟨r, rfl, _⟩ := ih1 e1 x List.mem_cons_self
            rcases k2.1 with k | ⟨_, k⟩
            · exact key r List.mem_cons_self k
            · exact k
        · rw [k] at hsd; exact sd_hollow hsd
      | emptyProd =>
        have k : col a = .void := hok
        rw [k] at hsd; exact sd_void hsd
      | @rule ps p hp => exact key p one (okProds_sd hok hsd _ (List.mem_map.2 ⟨p, hp, rfl⟩))
      | @bnf ps n i r kind p hp => exact key p one (okProds_sd hok hsd _ (List.mem_map.2 ⟨p, hp, rfl⟩))
      | @or rs r hr =>
        rcases hok with ⟨_, k⟩ | ⟨k, _⟩
        · exact key r one (k r hr)
        · rw [k] at hsd; exact sd_null hsd
      | none => rw [hok.1] at hsd; exact sd_null hsd
      | one => rw [hok.1] at hsd; exact sd_null hsd
      | repeatable hn => exact key _ (rep hn) hok.1
      | repOptional => exact hok
      | minBounded hn => exact key _ (rep hn) (bound hok)
      | maxBounded hn => exact key _ (rep hn) (bound hok)
      | minMaxBounded hn => exact key _ (rep hn) (bound hok)
      | named => exact key _ one hok.2
      | interp => exact key _ one hok.2
      | relation => exact key _ one hok.2
      | empty =>
        have k : col a = .blank := hok
        rw [k] at hsd; exact sd_blank hsd

theorem painted_consumes {h : Heap P} {root : Nat} {col : Nat → Color} (hs : Neat (start h root) col h)
    (hf : ∀ (a x : Nat), Reach h root a → h[a]? = some (.forward (some x)) →
      ∀ d, ¬ Thin.Open (fun _ => False) h [.rule x] [d]) : Consumes h root := by
  have key : ∀ r, Reach h root r → Sd true (col r) → ¬ Thin.Open (fun _ => False) h [.rule r] [] := by
    intro r hr hsd ho
    obtain ⟨r', e, k⟩ := painted_open hs ho rfl _ List.mem_cons_self
    cases e
    exact k hr hsd
  refine ⟨fun _ => False, fun _ => 0, ⟨fun a x ha ho d hd => (hf a x ha ho d hd).elim, fun a x ha ho hd => ?_,
    fun a o r ha ho hr hd => ?_⟩⟩
  · exact key x (.step ha ho (by simp [Obj.children])) ((hs.good a _ (.inr ha) ho).ok.2 x rfl) hd
  · refine key r (.step ha ho (Thin.repeated_child hr)) ?_ hd
    have hok := (hs.good a _ (.inr ha) ho).ok
    cases o <;> cases hr
    · exact hok.1
    · exact hok.elim
    · rcases hok with ⟨_, h⟩ | ⟨_, _, h⟩
      · exact .inl h
      · exact h

end Yargy.Tint
