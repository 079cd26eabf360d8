import Verif.Proofs.TintEnd
import Verif.Properties.Labels
/-!
In the grammar of a painted rule all parts that may be empty are at places where the parser finds that.
-/
namespace Yargy.Tint
open Spec

def bounds (live : Nat → Prop) (col : Nat → Color) : Bounds :=
  ⟨live, fun r => ¬ Full (col r), fun _ => 0, fun _ => none, fun r => if col r = .tail then some 0 else none⟩

theorem placed_places {P : Type} {live : Nat → Prop} {col : Nat → Color} {start : Nat} (hs : Full (col start)) :
    ∀ {ts : List (Term P)} {b : Prop} {c : Option Nat}, Placed false col b ts → (b → ∃ n, c = some n ∧ n ≤ 1) →
      (∀ r, .rule r ∈ ts → live r) → (bounds live col).Places start c ts := by
  intro ts
  induction ts with
  | nil => intros; trivial
  | cons t ts ih =>
    intro b c hp hb hl
    cases t with
    | pred p =>
      exact ih (b := True) hp (fun _ => ⟨0, rfl, Nat.zero_le _⟩) (fun r hr => hl r (List.mem_cons_of_mem _ hr))
    | rule r =>
      obtain ⟨h1, h2⟩ := hp
      refine ⟨hl r List.mem_cons_self, (fun m e => by cases e), fun hn => ?_,
        ih h2 (fun ht => ?_) (fun r hr => hl r (List.mem_cons_of_mem _ hr))⟩
      · rcases h1 with (h1 | ⟨h1, _⟩) | ⟨h1, hb'⟩
        · exact absurd h1 hn
        · cases h1
        · obtain ⟨n, e, hle⟩ := hb hb'
          refine ⟨n, e, .inr ⟨?_, hle⟩⟩
          rintro rfl
          exact hn hs
      · refine ⟨1, ?_, Nat.le_refl _⟩
        simp [bounds, ht]

theorem last_pass {P : Type} {live : Nat → Prop} {col : Nat → Color} :
    ∀ {ts : List (Term P)} {c : Option Nat}, LastPred ts → (bounds live col).pass c ts = some 0 := by
  intro ts
  induction ts with
  | nil => intro c h; exact h.elim
  | cons t ts ih =>
    intro c h
    cases ts with
    | nil =>
      obtain ⟨q, rfl⟩ := h
      rfl
    | cons u us =>
      cases t with
      | pred p => exact ih h
      | rule r => exact ih h

theorem preds_last {P : Type} : ∀ {ps : List P}, ps ≠ [] → LastPred (ps.map Term.pred) := by
  intro ps
  induction ps with
  | nil => intro h; exact absurd rfl h
  | cons p ps ih =>
    intro _
    cases ps with
    | nil => exact ⟨p, rfl⟩
    | cons q qs => exact ih (by simp)

theorem preds_placed {P : Type} {sq : Bool} {col : Nat → Color} : ∀ {ps : List P} {b : Prop},
    Placed sq col b (ps.map Term.pred) := by
  intro ps
  induction ps with
  | nil => intros; trivial
  | cons p ps ih => intro b; exact ih (b := True)

/-- What the painted productions look like. -/
theorem prod_colours {L : Lang} {h : Heap Pred} {start : Nat} {G : Grammar Pred Token} {col : Nat → Color}
    (hs : Neat (final h start) col h) (hB : Belongs L h G (Reach h start)) {r : Nat} {prod : Production Pred}
    (hz : Reach h start r) (hpr : prod ∈ G.productions r) :
    (prod.terms = [] ∧ ¬ Full (col r)) ∨
      (prod.terms ≠ [] ∧ Placed false col False prod.terms ∧ (col r = .tail → LastPred prod.terms)) := by
  cases hr : isBnf h r with
  | false => rw [hB.none r hr] at hpr; cases hpr
  | true =>
    unfold isBnf at hr
    split at hr
    · rename_i ps n x y d ho
      rw [hB.productions r ps n x y d ho] at hpr
      obtain ⟨p, hpm, rfl⟩ := List.mem_map.1 hpr
      obtain ⟨hzp, hip⟩ := hB.bnf r ps n x y d hz ho p hpm
      have hr' := (hs.good r _ (.inr hz) ho).ok
      have hfl := hs.flat p (.inr hzp) trivial
      have hrp : (Full (col r) → Full (col p)) ∧ (col r = .tail → col p = .tail) := by
        have hm : col p ∈ ps.map col := List.mem_map.2 ⟨p, hpm, rfl⟩
        rcases hr' with ⟨e, k⟩ | ⟨e, k⟩ | ⟨e, _, k⟩ | ⟨e, k⟩
        · exact ⟨fun _ => k _ hm, fun h => by rw [e] at h; cases h⟩
        · exact ⟨fun _ => .inr (k _ hm), fun _ => k _ hm⟩
        · exact ⟨fun h => (by rw [e] at h; rcases h with h | h <;> cases h), fun h => by rw [e] at h; cases h⟩
        · exact ⟨fun h => (by rw [e] at h; rcases h with h | h <;> cases h), fun h => by rw [e] at h; cases h⟩
      unfold isProduction at hip
      unfold productionAt
      split at hip
      · rename_i ts m hm
        rw [hm]
        right
        rcases (hs.good p _ (.inr hzp) hm).ok with ⟨k1, k2, k3⟩ | ⟨k, _⟩
        · refine ⟨k1, k2, fun ht => ?_⟩
          have := hrp.2 ht
          rcases k3 with k3 | ⟨_, k3⟩
          · rw [k3] at this; cases this
          · exact k3
        · exact absurd k hfl
      · rename_i hm
        rw [hm]
        left
        refine ⟨rfl, fun hf => ?_⟩
        have k : col p = .void := (hs.good p _ (.inr hzp) hm).ok
        have := hrp.1 hf
        rw [k] at this
        rcases this with h | h <;> cases h
      · rename_i v ts hm
        rw [hm]
        right
        have k : ts ≠ [] := (hs.good p _ (.inr hzp) hm).ok.1
        exact ⟨by simpa using k, preds_placed, fun _ => preds_last k⟩
      · cases hip
    · cases hr

theorem painted_found {L : Lang} {h : Heap Pred} {G : Grammar Pred Token} {col : Nat → Color}
    (hs : Neat (final h G.start) col h) (hB : Belongs L h G (Reach h G.start)) (hf : Full (col G.start)) :
    EmptiesFound G (bounds (Reach h G.start) col) := by
  refine ⟨waits_zero G, ⟨.root, fun m e => by cases e⟩, ?_, ?_⟩
  · intro r prod hl hp hx hn
    rcases prod_colours hs hB hl hp with ⟨_, k⟩ | ⟨k1, k2, _⟩
    · exact k hn
    · cases ht : prod.terms with
      | nil => exact k1 ht
      | cons x xs =>
        obtain ⟨r', rfl, h2⟩ := hx x (by rw [ht]; exact List.mem_cons_self)
        rw [ht] at k2
        rcases k2.1 with (k2 | ⟨k2, _⟩) | ⟨_, k2⟩
        · exact h2 k2
        · cases k2
        · exact k2
  · intro r prod hl hp
    have hcl := program_closed hB r prod hl hp
    rcases prod_colours hs hB hl hp with ⟨k1, k2⟩ | ⟨k1, k2, k3⟩
    · rw [k1]
      refine ⟨trivial, fun m e => ?_⟩
      have ht : col r ≠ .tail := fun h => k2 (.inr h)
      simp [bounds, ht] at e
    · refine ⟨placed_places hf k2 False.elim hcl, fun m e => ?_⟩
      by_cases ht : col r = .tail
      · rw [last_pass (k3 ht)]
        exact ⟨0, rfl, Nat.zero_le _⟩
      · simp [bounds, ht] at e

end Yargy.Tint
