import Verif.Spec.Outline
import Verif.Properties.Choices
/-!
Structures as words: the number of parts before the parts. A word of this sort has one structure only, so
what was shown for words with choices holds for structures.
-/
namespace Yargy
open Spec Pick

variable {P : Type} {A : Activation P} {h : Heap P}

mutual
def code : Outline P → List (Mark P)
  | .leaf p => [.pred p]
  | .node m ss => .note (.head ss.length m) :: codeAll ss
  | .entry v s => .note (.line v) :: code s
def codeAll : List (Outline P) → List (Mark P)
  | [] => []
  | s :: ss => code s ++ codeAll ss
end

mutual
theorem code_inj : ∀ (s s' : Outline P) (v v' : List (Mark P)), code s ++ v = code s' ++ v' →
    s = s' ∧ v = v'
  | .leaf p, .leaf q, v, v', e => by
    simp only [code, List.singleton_append, List.cons.injEq, Mark.pred.injEq] at e
    exact ⟨by rw [e.1], e.2⟩
  | .leaf p, .node m ss, v, v', e => by simp [code] at e
  | .node m ss, .leaf p, v, v', e => by simp [code] at e
  | .node m ss, .node m' ss', v, v', e => by
    simp only [code, List.cons_append, List.cons.injEq, Mark.note.injEq, Note.head.injEq] at e
    obtain ⟨⟨e1, rfl⟩, e2⟩ := e
    obtain ⟨rfl, rfl⟩ := codeAll_inj ss ss' v v' e1 e2
    exact ⟨rfl, rfl⟩
  | .leaf p, .entry l s, v, v', e => by simp [code] at e
  | .entry l s, .leaf p, v, v', e => by simp [code] at e
  | .node m ss, .entry l s, v, v', e => by simp [code] at e
  | .entry l s, .node m ss, v, v', e => by simp [code] at e
  | .entry l s, .entry l' s', v, v', e => by
    simp only [code, List.cons_append, List.cons.injEq, Mark.note.injEq, Note.line.injEq] at e
    obtain ⟨rfl, e2⟩ := e
    obtain ⟨rfl, rfl⟩ := code_inj s s' v v' e2
    exact ⟨rfl, rfl⟩
theorem codeAll_inj : ∀ (ss ss' : List (Outline P)) (v v' : List (Mark P)), ss.length = ss'.length →
    codeAll ss ++ v = codeAll ss' ++ v' → ss = ss' ∧ v = v'
  | [], [], v, v', _, e => ⟨rfl, e⟩
  | [], _ :: _, _, _, l, _ => by simp at l
  | _ :: _, [], _, _, l, _ => by simp at l
  | s :: ss, s' :: ss', v, v', l, e => by
    simp only [codeAll, List.append_assoc] at e
    obtain ⟨rfl, e'⟩ := code_inj s s' _ _ e
    obtain ⟨rfl, rfl⟩ := codeAll_inj ss ss' v v' (by simpa using l) e'
    exact ⟨rfl, rfl⟩
end

theorem codeAll_append (ss ts : List (Outline P)) : codeAll (ss ++ ts) = codeAll ss ++ codeAll ts := by
  induction ss with
  | nil => rfl
  | cons s ss ih => simp [codeAll, ih]

theorem codeAll_map (ss : List (Outline P)) : codeAll ss = (ss.map code).flatten := by
  induction ss with
  | nil => rfl
  | cons s ss ih => simp [codeAll, ih]

theorem code_group (m : Nat) (ss : List (Outline P)) :
    code (group m ss) = (groupOf ss.length m).map .note ++ codeAll ss := by
  match ss with
  | [] => rfl
  | [s] => simp [group, groupOf, codeAll]
  | s :: t :: ss => simp [group, groupOf, code]

theorem code_titled (k : Option Str) (m : Nat) (ss : List (Outline P)) :
    code (titled k (group m ss)) = (entryOf k ss.length m).map .note ++ codeAll ss := by
  cases k with
  | none => exact code_group m ss
  | some v => simp [titled, code, code_group, entryOf]

theorem codeAll_leaves (ps : List P) : codeAll (ps.map Outline.leaf) = ps.map .pred := by
  induction ps with
  | nil => rfl
  | cons p ps ih => simp [codeAll, code, ih]

mutual
theorem marks_code {T : Type} (G : Grammar P T) : ∀ d : DTree P T, bare (marks G d) = code (outline d)
  | .leaf p t => rfl
  | .node r prod cs => by
    rw [marks, bare_choice, bare_entry, outline, code_titled, marksAll_code G cs, outlineAll_length]
theorem marksAll_code {T : Type} (G : Grammar P T) : ∀ ds : List (DTree P T),
    bare (marksAll G ds) = codeAll (outlineAll ds)
  | [] => rfl
  | d :: ds => by rw [marksAll, bare_append, outlineAll, codeAll, marks_code G d, marksAll_code G ds]
theorem outlineAll_length {T : Type} : ∀ ds : List (DTree P T), (outlineAll ds).length = ds.length
  | [] => rfl
  | d :: ds => by simp [outlineAll, outlineAll_length ds]
end

/-! ### From words to structures -/

/-- The word of a part, without the numbers of alternatives. -/
def Seg (A : Activation P) (h : Heap P) : Piece P → List (Mark P) → Prop
  | .pred p, w => w = [.pred p]
  | .note x, w => w = bare [.note x]
  | .rule a, w => ∃ s, Forms A h (.rule a) s ∧ w = code s

inductive SegAll (A : Activation P) (h : Heap P) : List (Piece P) → List (Mark P) → Prop
  | nil : SegAll A h [] []
  | cons {t ts w v} : Seg A h t w → SegAll A h ts v → SegAll A h (t :: ts) (w ++ v)

theorem segAll_append {ts us : List (Piece P)} {w : List (Mark P)} (s : SegAll A h (ts ++ us) w) :
    ∃ v v', SegAll A h ts v ∧ SegAll A h us v' ∧ w = v ++ v' := by
  induction ts generalizing w with
  | nil => exact ⟨[], w, .nil, s, rfl⟩
  | cons t ts ih =>
    cases s with
    | cons h1 h2 =>
      obtain ⟨v, v', k1, k2, rfl⟩ := ih h2
      exact ⟨_, v', .cons h1 k1, k2, by simp⟩

theorem segAll_notes {n m : Nat} {ts : List (Piece P)} {w : List (Mark P)}
    (s : SegAll A h ((groupOf n m).map .note ++ ts) w) :
    ∃ v, SegAll A h ts v ∧ w = (groupOf n m).map .note ++ v := by
  unfold groupOf at s ⊢
  split at s
  · rename_i e; rw [if_pos e]; exact ⟨w, s, rfl⟩
  · rename_i e
    rw [if_neg e]
    cases s with
    | cons h1 h2 => cases h1; exact ⟨_, h2, rfl⟩

theorem segAll_entry {k : Option Str} {n m : Nat} {ts : List (Piece P)} {w : List (Mark P)}
    (s : SegAll A h ((entryOf k n m).map .note ++ ts) w) :
    ∃ v, SegAll A h ts v ∧ w = (entryOf k n m).map .note ++ v := by
  cases k with
  | none => exact segAll_notes s
  | some l =>
    cases s with
    | cons h1 h2 =>
      cases h1
      obtain ⟨v, k1, rfl⟩ := segAll_notes h2
      exact ⟨v, k1, rfl⟩

theorem segAll_terms {us : List (Term P)} {w : List (Mark P)} (s : SegAll A h (us.map Term.part) w) :
    ∃ ss, FormsAll A h us ss ∧ w = codeAll ss ∧ ss.length = us.length := by
  induction us generalizing w with
  | nil => cases s; exact ⟨[], .nil, rfl, rfl⟩
  | cons t us ih =>
    cases s with
    | cons h1 h2 =>
      obtain ⟨ss, k1, rfl, k3⟩ := ih h2
      cases t with
      | pred p =>
        cases h1
        exact ⟨.leaf p :: ss, .cons .pred k1, rfl, by simp [k3]⟩
      | rule a =>
        obtain ⟨s, k, rfl⟩ := h1
        exact ⟨s :: ss, .cons k k1, rfl, by simp [k3]⟩

theorem segAll_preds {ps : List P} {w : List (Mark P)} (s : SegAll A h (ps.map .pred) w) :
    w = codeAll (ps.map Outline.leaf) := by
  induction ps generalizing w with
  | nil => cases s; rfl
  | cons p ps ih =>
    cases s with
    | cons h1 h2 => cases h1; rw [ih h2]; rfl

theorem code_lineOf (l : Str) (ps : List P) :
    code (lineOf l ps) = (entryOf (some l) ps.length 0).map .note ++ codeAll (ps.map .leaf) := by
  have := code_titled (some l) 0 (ps.map (Outline.leaf (P := P)))
  rw [List.length_map] at this
  exact this

theorem segAll_line {l : Str} {ps : List P} {w : List (Mark P)}
    (s : SegAll A h ((entryOf (some l) ps.length 0).map .note ++ ps.map .pred) w) :
    w = code (lineOf l ps) := by
  obtain ⟨v, k, rfl⟩ := segAll_entry s
  rw [code_lineOf, segAll_preds k]

theorem segAll_choice {n i : Nat} {ts : List (Piece P)} {w : List (Mark P)}
    (s : SegAll A h (choiceOf n i ++ ts) w) : SegAll A h ts w := by
  unfold choiceOf at s
  split at s
  · exact s
  · cases s with
    | cons h1 h2 => cases h1; exact h2

theorem segAll_one {a : Nat} {w : List (Mark P)} (s : SegAll A h [.rule a] w) :
    ∃ s, Forms A h (.rule a) s ∧ w = code s := by
  cases s with
  | cons h1 h2 =>
    cases h2
    obtain ⟨s, k, rfl⟩ := h1
    exact ⟨s, k, by simp⟩

/-- Items of a repetition. -/
def Items (A : Activation P) (h : Heap P) (r : Nat) (ss : List (Outline P)) : Prop :=
  ∀ s ∈ ss, Forms A h (.rule r) s

theorem items_cons {r : Nat} {s : Outline P} {ss : List (Outline P)} (h1 : Forms A h (.rule r) s)
    (h2 : Items A h r ss) : Items A h r (s :: ss) := by
  intro x hx
  rcases List.mem_cons.1 hx with rfl | hx
  · exact h1
  · exact h2 x hx

theorem items_all {r : Nat} {ss : List (Outline P)} (h1 : Items A h r ss) :
    FormsAll A h (List.replicate ss.length (.rule r)) ss := by
  induction ss with
  | nil => exact .nil
  | cons s ss ih =>
    exact .cons (h1 s List.mem_cons_self) (ih (fun x hx => h1 x (List.mem_cons_of_mem _ hx)))

theorem chain_cons (s : Outline P) {ss : List (Outline P)} (hn : ss ≠ []) :
    chain (s :: ss) = .node 0 [s, chain ss] := by
  cases ss with
  | nil => exact absurd rfl hn
  | cons t ss => rfl

theorem code_pair (s t : Outline P) : code (.node 0 [s, t]) = .note (.head 2 0) :: (code s ++ code t) := by
  simp [code, codeAll]

/-- What a place where one goes on is. -/
theorem segAll_more {r i : Nat} {pat : List (Option Note)} {w : List (Mark P)}
    (s : SegAll A h (fill r (some (.alt i) :: some (.head 2 0) :: none :: pat)) w) :
    ∃ s v, Forms A h (.rule r) s ∧ SegAll A h (fill r pat) v ∧ w = .note (.head 2 0) :: (code s ++ v) := by
  cases s with
  | cons h1 h2 =>
    cases h1
    cases h2 with
    | cons h1 h2 =>
      cases h1
      cases h2 with
      | cons h1 h2 =>
        obtain ⟨s, k, rfl⟩ := h1
        exact ⟨s, _, k, h2, rfl⟩

theorem segAll_last {r i : Nat} {w : List (Mark P)} (s : SegAll A h (fill r [some (.alt i), none]) w) :
    ∃ s, Forms A h (.rule r) s ∧ w = code s := by
  cases s with
  | cons h1 h2 => cases h1; exact segAll_one h2

theorem segAll_nothing {r i : Nat} {w : List (Mark P)}
    (s : SegAll A h (fill r [some (.alt i), some (.head 0 0)]) w) : w = code (.node 0 []) := by
  cases s with
  | cons h1 h2 =>
    cases h1
    cases h2 with
    | cons h1 h2 => cases h1; cases h2; rfl

theorem laps_seg {r : Nat} {v : Bool} {pat : List (Option Note)} (hp : Laps v pat) :
    ∀ {w : List (Mark P)}, SegAll A h (fill r pat) w →
      ∃ ss, ss ≠ [] ∧ Items A h r ss ∧ w = code (chain ss) := by
  induction hp with
  | last =>
    intro w g
    obtain ⟨s, k, rfl⟩ := segAll_last g
    exact ⟨[s], by simp, items_cons k (by simp [Items]), rfl⟩
  | more _ ih =>
    intro w g
    obtain ⟨s, x, k1, k2, rfl⟩ := segAll_more g
    obtain ⟨ss, n0, k3, rfl⟩ := ih k2
    exact ⟨s :: ss, by simp, items_cons k1 k3, by rw [chain_cons s n0, code_pair]⟩

theorem lapsUpTo_seg {r : Nat} {v : Bool} {m : Nat} {pat : List (Option Note)} (hp : LapsUpTo v m pat) :
    ∀ {w : List (Mark P)}, SegAll A h (fill r pat) w →
      ∃ ss, ss ≠ [] ∧ ss.length ≤ m ∧ Items A h r ss ∧ w = code (chain ss) := by
  induction hp with
  | one =>
    intro w g
    obtain ⟨s, k, rfl⟩ := segAll_one g
    exact ⟨[s], by simp, by simp, items_cons k (by simp [Items]), rfl⟩
  | last =>
    intro w g
    obtain ⟨s, k, rfl⟩ := segAll_last g
    exact ⟨[s], by simp, by simp, items_cons k (by simp [Items]), rfl⟩
  | more _ ih =>
    intro w g
    obtain ⟨s, x, k1, k2, rfl⟩ := segAll_more g
    obtain ⟨ss, n0, k4, k3, rfl⟩ := ih k2
    exact ⟨s :: ss, by simp, by simp; omega, items_cons k1 k3, by rw [chain_cons s n0, code_pair]⟩

theorem star_seg {r : Nat} {v u : Bool} {pat : List (Option Note)} (hp : Star v u pat) :
    ∀ {w : List (Mark P)}, SegAll A h (fill r pat) w →
      ∃ ss, Items A h r ss ∧
        (ss ≠ [] ∧ w = code (chain ss) ∨ w = code (chain (ss ++ [.node 0 []]))) := by
  induction hp with
  | stop =>
    intro w g
    exact ⟨[], by simp [Items], .inr (segAll_nothing g)⟩
  | last =>
    intro w g
    obtain ⟨s, k, rfl⟩ := segAll_last g
    exact ⟨[s], items_cons k (by simp [Items]), .inl ⟨by simp, rfl⟩⟩
  | more _ ih =>
    intro w g
    obtain ⟨s, x, k1, k2, rfl⟩ := segAll_more g
    obtain ⟨ss, k3, ⟨n0, rfl⟩ | rfl⟩ := ih k2
    · exact ⟨s :: ss, items_cons k1 k3, .inl ⟨by simp, by rw [chain_cons s n0, code_pair]⟩⟩
    · exact ⟨s :: ss, items_cons k1 k3, .inr (by
        rw [List.cons_append, chain_cons s (by simp), code_pair])⟩

theorem replicate_seg {r n : Nat} {w : List (Mark P)}
    (s : SegAll A h (fill r (List.replicate n none)) w) :
    ∃ ss, ss.length = n ∧ Items A h r ss ∧ w = codeAll ss := by
  induction n generalizing w with
  | zero => cases s; exact ⟨[], rfl, by simp [Items], rfl⟩
  | succ n ih =>
    cases s with
    | cons h1 h2 =>
      obtain ⟨ss, k1, k2, rfl⟩ := ih h2
      obtain ⟨s, k, rfl⟩ := h1
      exact ⟨s :: ss, by simp [k1], items_cons k k2, rfl⟩

theorem behind_seg {r n : Nat} {T : List (Option Note) → Prop} {pat : List (Option Note)}
    (hp : Behind n T pat) {w : List (Mark P)} (s : SegAll A h (fill r pat) w) :
    ∃ p x ss, T p ∧ SegAll A h (fill r p) x ∧ ss.length = n ∧ Items A h r ss ∧
      w = (groupOf (n + 1) 0).map .note ++ (codeAll ss ++ x) := by
  obtain ⟨p, hp, rfl⟩ := hp
  rw [fill_after'] at s
  obtain ⟨v, g, rfl⟩ := segAll_notes s
  obtain ⟨y, x, s1, s2, rfl⟩ := segAll_append g
  obtain ⟨ss, k1, k2, rfl⟩ := replicate_seg s1
  exact ⟨p, x, ss, hp, s2, k1, k2, rfl⟩

theorem chainFrom_split {n least : Nat} (hl : n = least - 1) {ss ts : List (Outline P)} (h1 : ss.length = n) :
    code (chainFrom least (ss ++ ts)) =
      (groupOf (n + 1) 0).map .note ++ (codeAll ss ++ code (chain ts)) := by
  subst hl
  unfold chainFrom
  rw [List.take_append_of_le_length (by omega), List.take_of_length_le (by omega),
    List.drop_append_of_le_length (by omega), List.drop_of_length_le (by omega), List.nil_append, code_group,
    codeAll_append]
  simp [codeAll, h1]

theorem items_append {r : Nat} {ss ts : List (Outline P)} (h1 : Items A h r ss) (h2 : Items A h r ts) :
    Items A h r (ss ++ ts) := by
  intro x hx
  rcases List.mem_append.1 hx with hx | hx
  · exact h1 x hx
  · exact h2 x hx

/-- A word of a rule, without the numbers of alternatives, is a structure of it. -/
theorem picks_seg {root : Nat} (hB : ∀ (x : Nat) o, Reach h root x → h[x]? = some o → o.bounds)
    {ts : List (Piece P)} {w : List (Mark P)} (s : Picks A h ts w) :
    (∀ r, .rule r ∈ ts → Reach h root r) → SegAll A h ts (bare w) := by
  induction s with
  | nil => intro _; exact .nil
  | @pred p ts w _ ih =>
    intro hz
    exact SegAll.cons (w := [.pred p]) rfl (ih fun r hr => hz r (List.mem_cons_of_mem _ hr))
  | @note x ts w _ ih =>
    intro hz
    have := SegAll.cons (A := A) (h := h) (t := .note x) (w := bare [.note x]) rfl
      (ih fun r hr => hz r (List.mem_cons_of_mem _ hr))
    rwa [← bare_append] at this
  | @rule a o us ts w v ho hs _ _ ih1 ih2 =>
    intro hz
    rw [bare_append]
    refine .cons ?_ (ih2 fun r hr => hz r (List.mem_cons_of_mem _ hr))
    have hra := hz a List.mem_cons_self
    have hbo := hB a o hra ho
    have seg := ih1 fun r hr => .step hra ho (offers_children hs r hr)
    generalize bare w = x at seg
    cases hs with
    | prod ha =>
      obtain ⟨v, k, rfl⟩ := segAll_notes seg
      obtain ⟨ss, k1, rfl, k2⟩ := segAll_terms k
      exact ⟨_, .prod ho ha k1, by rw [code_group, k2]⟩
    | line hl hk =>
      exact ⟨_, .line ho (List.mem_of_getElem? hl) hk, segAll_line (segAll_choice seg)⟩
    | other hn hd =>
      cases hd with
      | prod => exact absurd rfl (hn _ _)
      | emptyProd =>
        cases seg with
        | cons h1 h2 => cases h1; cases h2; exact ⟨_, .emptyProd ho, rfl⟩
      | empty =>
        cases seg with
        | cons h1 h2 => cases h1; cases h2; exact ⟨_, .empty ho, rfl⟩
      | pipeProd => exact ⟨_, .pipeProd ho, segAll_line seg⟩
      | rule hi =>
        obtain ⟨s, k, rfl⟩ := segAll_one (segAll_choice seg)
        exact ⟨s, .rule ho (List.mem_of_getElem? hi) k, rfl⟩
      | bnf hi =>
        obtain ⟨s, k, rfl⟩ := segAll_one (segAll_choice seg)
        exact ⟨s, .bnf ho (List.mem_of_getElem? hi) k, rfl⟩
      | or hi =>
        obtain ⟨s, k, rfl⟩ := segAll_one (segAll_choice seg)
        exact ⟨s, .or ho (List.mem_of_getElem? hi) k, rfl⟩
      | pipe hi => exact ⟨_, .key ho (List.mem_of_getElem? hi), segAll_line (segAll_choice seg)⟩
      | named => obtain ⟨s, k, rfl⟩ := segAll_one seg; exact ⟨s, .named ho k, rfl⟩
      | interp => obtain ⟨s, k, rfl⟩ := segAll_one seg; exact ⟨s, .interp ho k, rfl⟩
      | relation => obtain ⟨s, k, rfl⟩ := segAll_one seg; exact ⟨s, .relation ho k, rfl⟩
      | forward => obtain ⟨s, k, rfl⟩ := segAll_one seg; exact ⟨s, .forward ho k, rfl⟩
      | optional hp =>
        cases hp with
        | skip => exact ⟨_, .absent ho, segAll_nothing seg⟩
        | take => obtain ⟨s, k, rfl⟩ := segAll_last seg; exact ⟨s, .present ho k, rfl⟩
      | repeatable hp =>
        obtain ⟨ss, n0, k, rfl⟩ := laps_seg hp seg
        have l : 1 ≤ ss.length := by cases ss with | nil => exact absurd rfl n0 | cons => simp
        refine ⟨chainFrom 1 ss, .repeated ho rfl l (by simp) (items_all k), ?_⟩
        have := chainFrom_split (n := 0) (least := 1) rfl (ss := []) (ts := ss) rfl
        rw [List.nil_append] at this
        rw [this]; rfl
      | repOptional hp =>
        obtain ⟨ss, k, ⟨_, rfl⟩ | rfl⟩ := star_seg hp seg
        · exact ⟨_, .some ho (items_all k), rfl⟩
        · exact ⟨_, .someEnded ho (items_all k), rfl⟩
      | @minBounded r min v pat hp =>
        have h1 : 1 ≤ min := hbo
        obtain ⟨p, x, ss, hp, s2, k1, k2, rfl⟩ := behind_seg hp seg
        obtain ⟨ts, n0, k3, rfl⟩ := laps_seg hp s2
        have l : 1 ≤ ts.length := by cases ts with | nil => exact absurd rfl n0 | cons => simp
        exact ⟨chainFrom min (ss ++ ts), .repeated ho rfl (by simp; omega) (by simp)
          (items_all (items_append k2 k3)), (chainFrom_split rfl k1).symm⟩
      | @maxBounded r max v pat hp =>
        obtain ⟨ss, n0, k4, k, rfl⟩ := lapsUpTo_seg hp seg
        have l : 1 ≤ ss.length := by cases ss with | nil => exact absurd rfl n0 | cons => simp
        refine ⟨chainFrom 1 ss, .repeated ho rfl l (by rintro _ ⟨⟩; exact k4) (items_all k), ?_⟩
        have := chainFrom_split (n := 0) (least := 1) rfl (ss := []) (ts := ss) rfl
        rw [List.nil_append] at this
        rw [this]; rfl
      | @minMaxBounded r min max v pat hp =>
        obtain ⟨h1, h2⟩ : 1 ≤ min ∧ min ≤ max := hbo
        obtain ⟨p, x, ss, hp, s2, k1, k2, rfl⟩ := behind_seg hp seg
        obtain ⟨ts, n0, k4, k3, rfl⟩ := lapsUpTo_seg hp s2
        have l : 1 ≤ ts.length := by cases ts with | nil => exact absurd rfl n0 | cons => simp
        exact ⟨chainFrom min (ss ++ ts), .repeated ho rfl (by simp; omega)
          (by rintro _ ⟨⟩; simp; omega) (items_all (items_append k2 k3)), (chainFrom_split rfl k1).symm⟩

/-! ### From structures to words -/

theorem picks_pointwise {ts : List (Term P)} {ws : List (List (Mark P))}
    (hp : Pointwise (fun t w => Picks A h [t.part] w) ts ws) : Picks A h (ts.map Term.part) ws.flatten := by
  induction hp with
  | nil => exact .nil
  | cons h1 _ ih => exact picks_append (ts := [_]).2 ⟨_, _, h1, ih, rfl⟩

theorem picks_replicated {t : Term P} {n : Nat} {ws : List (List (Mark P))}
    (hp : Pointwise (fun t w => Picks A h [t.part] w) (List.replicate n t) ws) :
    ws.length = n ∧ ∀ w ∈ ws, Picks A h [t.part] w := by
  induction n generalizing ws with
  | zero => cases hp; simp
  | succ n ih =>
    cases hp with
    | cons h1 h2 =>
      obtain ⟨k1, k2⟩ := ih h2
      refine ⟨by simp [k1], fun x hx => ?_⟩
      rcases List.mem_cons.1 hx with rfl | hx
      · exact h1
      · exact k2 x hx

theorem bare_flatten {ws : List (List (Mark P))} {ss : List (Outline P)} (e : ws.map bare = ss.map code) :
    bare ws.flatten = codeAll ss := by
  rw [codeAll_map, ← e]
  induction ws generalizing ss with
  | nil => rfl
  | cons w ws ih =>
    cases ss with
    | nil => simp at e
    | cons s ss =>
      simp only [List.map_cons, List.cons.injEq] at e
      rw [List.flatten_cons, bare_append, ih e.2, List.map_cons, List.flatten_cons]

theorem bare_laps (v : Bool) : ∀ {ws : List (List (Mark P))} {ss : List (Outline P)}, ws ≠ [] →
    ws.map bare = ss.map code → bare (lapMarks v ws) = code (chain ss)
  | [], _, n0, _ => absurd rfl n0
  | [w], [], _, e => by simp at e
  | [w], [s], _, e => by simpa [lapMarks, bare, chain] using e
  | [w], _ :: _ :: _, _, e => by simp at e
  | w :: z :: ws, [], _, e => by simp at e
  | w :: z :: ws, [s], _, e => by simp at e
  | w :: z :: ws, s :: t :: ss, _, e => by
    replace e : bare w = code s ∧ (z :: ws).map bare = (t :: ss).map code := List.cons.inj e
    rw [chain_cons s (by simp), code_pair, ← bare_laps v (by simp) e.2, lapMarks, ← e.1]
    simp only [bare, bare_append]

theorem bare_lapsUpTo (v : Bool) : ∀ {m : Nat} {ws : List (List (Mark P))} {ss : List (Outline P)}, ws ≠ [] →
    ws.length ≤ m + 1 → ws.map bare = ss.map code → bare (lapMarksUpTo v m ws) = code (chain ss)
  | _, [], _, n0, _, _ => absurd rfl n0
  | _, [w], [], _, _, e => by simp at e
  | 0, [w], [s], _, _, e => by simpa [lapMarksUpTo, bare, chain] using e
  | m + 1, [w], [s], _, _, e => by simpa [lapMarksUpTo, bare, chain] using e
  | _, [w], _ :: _ :: _, _, _, e => by simp at e
  | _, w :: z :: ws, [], _, _, e => by simp at e
  | _, w :: z :: ws, [s], _, _, e => by simp at e
  | 0, w :: z :: ws, s :: t :: ss, _, l, e => by simp at l
  | m + 1, w :: z :: ws, s :: t :: ss, _, l, e => by
    replace e : bare w = code s ∧ (z :: ws).map bare = (t :: ss).map code := List.cons.inj e
    rw [chain_cons s (by simp), code_pair, ← bare_lapsUpTo v (m := m) (by simp) (by simpa using l) e.2,
      lapMarksUpTo, ← e.1]
    simp only [bare, bare_append]

theorem bare_group (n m : Nat) (v : List (Mark P)) :
    bare ((groupOf n m).map .note ++ v) = (groupOf n m).map .note ++ bare v := bare_entry none n m v

theorem bare_rounds (v : Bool) {least : Nat} {most : Option Nat} {ws : List (List (Mark P))}
    {ss : List (Outline P)} (h1 : 1 ≤ least) (h2 : least ≤ ws.length)
    (h3 : ∀ m, most = some m → ws.length ≤ m) (e : ws.map bare = ss.map code) :
    bare (rounds v least most ws) = code (chainFrom least ss) := by
  have el : ws.length = ss.length := by simpa using congrArg List.length e
  have e1 : (ws.take (least - 1)).map bare = (ss.take (least - 1)).map code := by
    rw [List.map_take, e, List.map_take]
  have e2 : (ws.drop (least - 1)).map bare = (ss.drop (least - 1)).map code := by
    rw [List.map_drop, e, List.map_drop]
  have n0 : ws.drop (least - 1) ≠ [] := by
    intro e
    have := congrArg List.length e
    simp at this; omega
  have := chainFrom_split (least := least) (n := least - 1) rfl (ss := ss.take (least - 1))
    (ts := ss.drop (least - 1)) (by simp; omega)
  rw [List.take_append_drop, Nat.sub_add_cancel h1] at this
  unfold rounds
  rw [this, List.append_assoc, bare_group, bare_append, bare_flatten e1]
  congr 2
  cases most with
  | none => exact bare_laps v n0 e2
  | some m => exact bare_lapsUpTo v n0 (by have := h3 m rfl; simp; omega) e2

theorem star_picks {r : Nat} (v u : Bool) : ∀ {ws : List (List (Mark P))} {ss : List (Outline P)}, ws ≠ [] →
    (∀ w ∈ ws, Picks A h [.rule r] w) → ws.map bare = ss.map code →
    ∃ pat w, Star v u pat ∧ Picks A h (fill r pat) w ∧ bare w = code (chain ss)
  | [], _, n0, _, _ => absurd rfl n0
  | [w], [], _, _, e => by simp at e
  | [w], [s], _, hw, e => ⟨_, _, .last, picks_fill_last.2 ⟨w, hw w (by simp), rfl⟩, by
      simpa [bare, chain] using e⟩
  | [w], _ :: _ :: _, _, _, e => by simp at e
  | w :: z :: ws, [], _, _, e => by simp at e
  | w :: z :: ws, [s], _, _, e => by simp at e
  | w :: z :: ws, s :: t :: ss, _, hw, e => by
    replace e : bare w = code s ∧ (z :: ws).map bare = (t :: ss).map code := List.cons.inj e
    obtain ⟨pat, x, p1, p2, p3⟩ := star_picks v u (ws := z :: ws) (by simp)
      (fun y hy => hw y (List.mem_cons_of_mem _ hy)) e.2
    refine ⟨_, _, .more p1, picks_fill_more.2 ⟨w, x, hw w (by simp), p2, rfl⟩, ?_⟩
    rw [chain_cons s (by simp), code_pair, ← p3, ← e.1]
    simp only [bare, bare_append]

theorem star_stops {r : Nat} (v u : Bool) : ∀ {ws : List (List (Mark P))} {ss : List (Outline P)},
    (∀ w ∈ ws, Picks A h [.rule r] w) → ws.map bare = ss.map code →
    ∃ pat w, Star v u pat ∧ Picks A h (fill r pat) w ∧ bare w = code (chain (ss ++ [.node 0 []]))
  | [], [], _, _ => ⟨_, _, .stop, picks_fill_nothing.2 rfl, rfl⟩
  | [], _ :: _, _, e => by simp at e
  | _ :: _, [], _, e => by simp at e
  | w :: ws, s :: ss, hw, e => by
    replace e : bare w = code s ∧ ws.map bare = ss.map code := List.cons.inj e
    obtain ⟨pat, x, p1, p2, p3⟩ := star_stops v u (ws := ws)
      (fun y hy => hw y (List.mem_cons_of_mem _ hy)) e.2
    refine ⟨_, _, .more p1, picks_fill_more.2 ⟨w, x, hw w (by simp), p2, rfl⟩, ?_⟩
    rw [List.cons_append, chain_cons s (by simp), code_pair, ← p3, ← e.1]
    simp only [bare, bare_append]

theorem activatedAll_rules {ts us : List (Term P)} (ha : ActivatedAll A ts us) {r : Nat}
    (hr : .rule r ∈ us) : r ∈ termRules ts := by
  induction ha with
  | nil => simp at hr
  | cons ht _ ih =>
    cases ht with
    | pred _ =>
      rcases List.mem_cons.1 hr with hr | hr
      · cases hr
      · exact ih hr
    | rule q =>
      rcases List.mem_cons.1 hr with hr | hr
      · cases hr; exact List.mem_cons_self
      · exact List.mem_cons_of_mem _ (ih hr)

theorem picks_line {ps : List P} : Picks A h (ps.map .pred) (ps.map .pred) := by
  induction ps with
  | nil => exact .nil
  | cons p ps ih => exact .pred ih

theorem bare_preds (ps : List P) : bare (ps.map Mark.pred) = ps.map .pred := by
  induction ps with
  | nil => rfl
  | cons p ps ih => simp [bare, ih]

theorem picks_entry {k : Option Str} {n m : Nat} {ts : List (Piece P)} {w : List (Mark P)} (s : Picks A h ts w) :
    Picks A h ((entryOf k n m).map .note ++ ts) ((entryOf k n m).map .note ++ w) := picks_notes.2 ⟨w, s, rfl⟩

theorem picks_choice {n i : Nat} {ts : List (Piece P)} {w : List (Mark P)} (s : Picks A h ts w) :
    ∃ w', Picks A h (choiceOf n i ++ ts) w' ∧ bare w' = bare w := by
  unfold choiceOf
  split
  · exact ⟨w, s, rfl⟩
  · exact ⟨_, .note s, rfl⟩

theorem picks_at {a : Nat} {o : Obj P} {us : List (Piece P)} {w : List (Mark P)} (ho : h[a]? = some o)
    (hs : Offers A o us) (s : Picks A h us w) : Picks A h [.rule a] w := (picks_rule ho).2 ⟨us, hs, s⟩

/-- A structure of a rule is a word of it, apart from the numbers of alternatives. -/
theorem forms_picks {root : Nat} (hB : ∀ (x : Nat) o, Reach h root x → h[x]? = some o → o.bounds)
    {t : Term P} {s : Outline P} (hf : Forms A h t s) :
    (∀ r, t = .rule r → Reach h root r) → ∃ w, Picks A h [t.part] w ∧ bare w = code s := by
  have through : ∀ {a r : Nat} {o : Obj P} {s : Outline P}, h[a]? = some o → r ∈ o.children →
      Deals o [.rule r] → (∀ ts m, o ≠ .prod ts m) →
      ((∀ q, Term.rule (P := P) r = .rule q → Reach h root q) →
        ∃ w, Picks A h [(Term.rule r).part] w ∧ bare w = code s) →
      (∀ q, Term.rule (P := P) a = .rule q → Reach h root q) →
      ∃ w, Picks A h [(Term.rule a).part] w ∧ bare w = code s := by
    intro a r o s ho hr hd hn ih hz
    obtain ⟨w, k1, k2⟩ := ih (by rintro _ ⟨⟩; exact .step (hz a rfl) ho hr)
    exact ⟨w, picks_at ho (.other hn hd) k1, k2⟩
  have choose : ∀ {a r : Nat} {o : Obj P} {rs : List Nat} {s : Outline P}, h[a]? = some o → o.children = rs →
      r ∈ rs → (∀ i : Nat, rs[i]? = some r → Deals o (choiceOf rs.length i ++ [.rule r])) →
      (∀ ts m, o ≠ .prod ts m) →
      ((∀ q, Term.rule (P := P) r = .rule q → Reach h root q) →
        ∃ w, Picks A h [(Term.rule r).part] w ∧ bare w = code s) →
      (∀ q, Term.rule (P := P) a = .rule q → Reach h root q) →
      ∃ w, Picks A h [(Term.rule a).part] w ∧ bare w = code s := by
    intro a r o rs s ho hc hr hd hn ih hz
    obtain ⟨w, k1, k2⟩ := ih (by rintro _ ⟨⟩; exact .step (hz a rfl) ho (by rw [hc]; exact hr))
    obtain ⟨i, hi⟩ := List.mem_iff_getElem?.1 hr
    obtain ⟨w', k3, k4⟩ := picks_choice (n := rs.length) (i := i) k1
    exact ⟨w', picks_at ho (.other hn (hd i hi)) k3, by rw [k4, k2]⟩
  refine Forms.rec (motive_1 := fun t s _ => (∀ r, t = .rule r → Reach h root r) →
      ∃ w, Picks A h [t.part] w ∧ bare w = code s)
    (motive_2 := fun ts ss _ => (∀ r, .rule r ∈ ts → Reach h root r) →
      ∃ ws : List (List (Mark P)), ws.map bare = ss.map code ∧
        Pointwise (fun t w => Picks A h [t.part] w) ts ws)
    ?pred ?prod ?emptyProd ?pipeProd ?rule ?bnf ?or ?named ?interp ?relation ?forward ?empty ?line ?key
    ?absent ?present ?repeated ?some ?someEnded ?nil ?cons hf
  case pred => intro p _; exact ⟨[.pred p], .pred .nil, rfl⟩
  case prod =>
    intro a ts us m ss ho ha hfa ih hz
    obtain ⟨ws, k1, k2⟩ := ih (fun r hr => .step (hz a rfl) ho (activatedAll_rules ha hr))
    have l : us.length = ss.length := by
      have e1 := congrArg List.length k1
      have e2 : us.length = ws.length := by
        clear k1 e1 ih ha hfa
        induction k2 with
        | nil => rfl
        | cons _ _ ih => simp [ih]
      simp at e1; omega
    refine ⟨_, picks_at ho (.prod ha) (picks_entry (k := none) (picks_pointwise k2)), ?_⟩
    rw [bare_entry, bare_flatten k1, code_group, l]; rfl
  case emptyProd =>
    intro a ho _
    exact ⟨_, picks_at ho (.other (by simp) .emptyProd) (.note .nil), rfl⟩
  case pipeProd =>
    intro a v ps ho _
    refine ⟨_, picks_at ho (.other (by simp) .pipeProd) (picks_entry picks_line), ?_⟩
    rw [bare_entry, bare_preds, code_lineOf, codeAll_leaves]
  case rule =>
    intro a ps p s ho hp _ ih hz
    exact choose ho rfl hp (fun i hi => .rule hi) (by simp) ih hz
  case bnf =>
    intro a ps n i r k p s ho hp _ ih hz
    exact choose ho rfl hp (fun i hi => .bnf hi) (by simp) ih hz
  case or =>
    intro a ps p s ho hp _ ih hz
    exact choose ho rfl hp (fun i hi => .or hi) (by simp) ih hz
  case named => intro a r n s ho _ ih hz; exact through ho (by simp [Obj.children]) .named (by simp) ih hz
  case interp => intro a r n s ho _ ih hz; exact through ho (by simp [Obj.children]) .interp (by simp) ih hz
  case relation =>
    intro a r n s ho _ ih hz; exact through ho (by simp [Obj.children]) .relation (by simp) ih hz
  case forward =>
    intro a r s ho _ ih hz; exact through ho (by simp [Obj.children]) .forward (by simp) ih hz
  case empty =>
    intro a ho _
    exact ⟨_, picks_at ho (.other (by simp) .empty) (.note .nil), rfl⟩
  case line =>
    intro a kind lines l ps ho hl hk _
    obtain ⟨i, hi⟩ := List.mem_iff_getElem?.1 hl
    obtain ⟨w', k3, k4⟩ := picks_choice (n := lines.length) (i := i)
      (picks_entry (A := A) (h := h) (k := some l) (n := ps.length) (m := 0) (picks_line (ps := ps)))
    refine ⟨w', picks_at ho (.line hi hk) k3, ?_⟩
    rw [k4, bare_entry, bare_preds, code_lineOf, codeAll_leaves]
  case key =>
    intro a kind keys k ho hk _
    obtain ⟨i, hi⟩ := List.mem_iff_getElem?.1 hk
    obtain ⟨w', k3, k4⟩ := picks_choice (n := keys.length) (i := i)
      (picks_entry (A := A) (h := h) (k := some k.1) (n := k.2.length) (m := 0) (picks_line (ps := k.2)))
    refine ⟨w', picks_at ho (.other (by simp) (.pipe hi)) k3, ?_⟩
    rw [k4, bare_entry, bare_preds, code_lineOf, codeAll_leaves]
  case absent =>
    intro a r v ho _
    exact ⟨_, (picks_optional ho).2 (.inl rfl), rfl⟩
  case present =>
    intro a r v s ho _ ih hz
    obtain ⟨w, k1, k2⟩ := ih (by rintro _ ⟨⟩; exact .step (hz a rfl) ho (by simp [Obj.children]))
    exact ⟨_, (picks_optional ho).2 (.inr ⟨w, k1, rfl⟩), k2⟩
  case repeated =>
    intro a o r v least most n ss ho hr h1 h2 _ ih hz
    have hbo := hB a o (hz a rfl) ho
    have hc : r ∈ o.children := by cases o <;> cases hr <;> simp [Obj.children]
    have hl : 1 ≤ least := by
      cases o <;> cases hr <;> first | exact Nat.le_refl 1 | exact hbo | exact hbo.1
    obtain ⟨ws, k1, k2⟩ := ih (by
      intro q hq
      obtain ⟨_, hq⟩ := List.mem_replicate.1 hq
      cases hq
      exact .step (hz a rfl) ho hc)
    obtain ⟨k3, k4⟩ := picks_replicated k2
    exact ⟨_, (picks_repetition ho hbo hr).2 ⟨ws, by omega, by rw [k3]; exact h2, k4, rfl⟩,
      bare_rounds v hl (by omega) (by rw [k3]; exact h2) k1⟩
  case some =>
    intro a r v u n ss ho _ ih hz
    obtain ⟨ws, k1, k2⟩ := ih (by
      intro q hq
      obtain ⟨_, hq⟩ := List.mem_replicate.1 hq
      cases hq
      exact .step (hz a rfl) ho (by simp [Obj.children]))
    obtain ⟨k3, k4⟩ := picks_replicated k2
    cases ws with
    | nil =>
      cases ss with
      | nil =>
        exact ⟨_, picks_at ho (.other (by simp) (.repOptional .stop)) (picks_fill_nothing.2 rfl), rfl⟩
      | cons => simp at k1
    | cons x ws =>
      obtain ⟨pat, w, p1, p2, p3⟩ := star_picks v u (by simp) k4 k1
      exact ⟨w, picks_at ho (.other (by simp) (.repOptional p1)) p2, p3⟩
  case someEnded =>
    intro a r v u n ss ho _ ih hz
    obtain ⟨ws, k1, k2⟩ := ih (by
      intro q hq
      obtain ⟨_, hq⟩ := List.mem_replicate.1 hq
      cases hq
      exact .step (hz a rfl) ho (by simp [Obj.children]))
    obtain ⟨k3, k4⟩ := picks_replicated k2
    obtain ⟨pat, w, p1, p2, p3⟩ := star_stops v u k4 k1
    exact ⟨w, picks_at ho (.other (by simp) (.repOptional p1)) p2, p3⟩
  case nil => intro _; exact ⟨[], rfl, .nil⟩
  case cons =>
    intro t ts s ss _ _ ih1 ih2 hz
    obtain ⟨w, k1, k2⟩ := ih1 (by rintro r rfl; exact hz r List.mem_cons_self)
    obtain ⟨ws, k3, k4⟩ := ih2 (fun r hr => hz r (List.mem_cons_of_mem _ hr))
    exact ⟨w :: ws, by simp [k2, k3], .cons k1 k4⟩

/-! ### Predicates of a word -/

/-- The predicates in a word. -/
def wordPreds : List (Mark P) → List P
  | [] => []
  | .pred p :: w => p :: wordPreds w
  | .note _ :: w => wordPreds w

theorem wordPreds_append (w v : List (Mark P)) : wordPreds (w ++ v) = wordPreds w ++ wordPreds v := by
  induction w with
  | nil => rfl
  | cons x w ih => cases x <;> simp [wordPreds, ih]

theorem wordPreds_bare (w : List (Mark P)) : wordPreds (bare w) = wordPreds w := by
  induction w with
  | nil => rfl
  | cons x w ih =>
    cases x with
    | pred p => simp [bare, wordPreds, ih]
    | note x => cases x <;> simp [bare, wordPreds, ih]

mutual
theorem wordPreds_code : ∀ s : Outline P, wordPreds (code s) = s.preds
  | .leaf p => rfl
  | .node m ss => by rw [code, wordPreds, Outline.preds, wordPreds_codeAll ss]
  | .entry v s => by rw [code, wordPreds, Outline.preds, wordPreds_code s]
theorem wordPreds_codeAll : ∀ ss : List (Outline P), wordPreds (codeAll ss) = predsAll ss
  | [] => rfl
  | s :: ss => by rw [codeAll, wordPreds_append, predsAll, wordPreds_code s, wordPreds_codeAll ss]
end

theorem suits_preds {accepts : P → Token → Bool} {toks : List Token} {w : List (Mark P)} {i j : Nat} :
    Suits accepts toks w i j ↔ AcceptedBy accepts toks (wordPreds w) i j := by
  constructor
  · intro s
    induction s with
    | nil => exact .nil
    | pred h1 h2 _ ih => exact .cons h1 h2 ih
    | note _ ih => exact ih
  · intro s
    induction w generalizing i with
    | nil => cases s; exact .nil
    | cons x w ih =>
      cases x with
      | pred p => cases s with | cons h1 h2 h3 => exact .pred h1 h2 (ih h3)
      | note x => exact .note (ih s)

end Yargy
