import Verif.Proofs.FramePasses
import Verif.Proofs.Activation
/-!
What compiling a rule changes and what it leaves alone.
-/
namespace Yargy

variable {P : Type}

/-! ### Removing forward rules -/

/-- A term with the forward rule skipped, if it is one. -/
inductive Skipped (H : Heap P) : Term P → Term P → Prop
  | pred (p) : Skipped H (.pred p) (.pred p)
  | rule {r} : (∀ c, H[r]? ≠ some (.forward c)) → Skipped H (.rule r) (.rule r)
  | skip {r x} : H[r]? = some (.forward (some x)) → Skipped H (.rule r) (.rule x)

/-- What is known during the walk. -/
structure Skipping (H : Heap P) (root : Nat) (done queue seen : List Nat) (h : Heap P) : Prop where
  walk : WalkInv h done queue seen
  len : h.length = H.length
  closed : ClosedHeap h
  reach : ∀ x ∈ done ++ queue, Reach H root x
  at_ : ∀ (a : Nat) o, H[a]? = some o →
    (∃ ts m ts', a ∈ done ∧ o = .prod ts m ∧ h[a]? = some (.prod ts' m) ∧ Pointwise (Skipped H) ts ts') ∨
    (h[a]? = some o ∧ (a ∈ done → ∀ ts m, o ≠ .prod ts m))
  defined : ∀ d ∈ done, H[d]? ≠ some (.forward none)

theorem Skipping.forward {H : Heap P} {root : Nat} {done queue seen : List Nat} {h : Heap P}
    (hs : Skipping H root done queue seen h) (a : Nat) (c : Option Nat) :
    h[a]? = some (.forward c) ↔ H[a]? = some (.forward c) := by
  constructor
  · intro ha
    have hlt : a < H.length := hs.len ▸ (List.getElem?_eq_some_iff.1 ha).1
    rcases hs.at_ a _ (List.getElem?_eq_getElem hlt) with ⟨ts, m, ts', _, _, h3, _⟩ | ⟨h1, _⟩
    · rw [ha] at h3; cases h3
    · rw [List.getElem?_eq_getElem hlt, ← h1]; exact ha
  · intro ha
    rcases hs.at_ a _ ha with ⟨ts, m, ts', _, h2, _⟩ | ⟨h1, _⟩
    · cases h2
    · exact h1

theorem removeTerm_skipped {H h : Heap P} (hf : ∀ (a : Nat) c, h[a]? = some (.forward c) ↔ H[a]? = some (.forward c))
    {t t' : Term P} (ht : removeTerm h t = .ok t') : Skipped H t t' := by
  cases t with
  | pred p => cases ht; exact .pred p
  | rule r =>
    simp only [removeTerm] at ht
    split at ht
    · cases ht
    · rename_i x hx
      cases ht
      exact .skip ((hf _ _).1 hx)
    · rename_i h1 h2
      cases ht
      refine .rule (fun c hc => ?_)
      cases c with
      | none => exact h1 ((hf _ _).2 hc)
      | some x => exact h2 x ((hf _ _).2 hc)

theorem skipped_rules {H : Heap P} {ts ts' : List (Term P)} (hp : Pointwise (Skipped H) ts ts') {x : Nat}
    (hx : .rule x ∈ ts') : (.rule x ∈ ts ∧ ∀ c, H[x]? ≠ some (.forward c)) ∨
      ∃ r, .rule r ∈ ts ∧ H[r]? = some (.forward (some x)) := by
  obtain ⟨t, ht, hs⟩ := Pass.pointwise_mem_right hp hx
  cases hs with
  | rule h => exact .inl ⟨ht, h⟩
  | skip h => exact .inr ⟨_, ht, h⟩

theorem skipped_preds {H : Heap P} {ts ts' : List (Term P)} (hp : Pointwise (Skipped H) ts ts') {p : P}
    (hx : .pred p ∈ ts') : .pred p ∈ ts := by
  obtain ⟨t, ht, hs⟩ := Pass.pointwise_mem_right hp hx
  cases hs
  exact ht

section
variable {pid : Nat → Nat} (hp : ∀ a b, pid a = pid b → a = b) {H : Heap P} {root : Nat}
  {done queue seen : List Nat} {h : Heap P} {a : Nat}

theorem Skipping.head (hs : Skipping H root done (a :: queue) seen h) :
    Reach H root a ∧ a ∉ done ∧ a < h.length ∧ h[a]? = H[a]? := by
  have hnd : a ∉ done := by
    intro hd
    exact (List.nodup_append.1 hs.walk.nodup).2.2 a hd a List.mem_cons_self rfl
  have hlt : a < h.length := hs.walk.lt a (by simp)
  refine ⟨hs.reach a (by simp), hnd, hlt, ?_⟩
  rcases hs.at_ a _ (List.getElem?_eq_getElem (hs.len ▸ hlt)) with ⟨_, _, _, h1, _⟩ | ⟨h1, _⟩
  · exact absurd h1 hnd
  · rw [h1, ← List.getElem?_eq_getElem]

include hp

/-- A production is changed. -/
theorem Skipping.prodStep (hH : ClosedHeap H) (hs : Skipping H root done (a :: queue) seen h)
    {ts ts' : List (Term P)} {m : Nat} (hat : h[a]? = some (.prod ts m))
    (hts : ts.mapM (removeTerm h) = .ok ts') :
    ∃ new, enqueue pid (childrenAt (h.set a (.prod ts' m)) a) queue (seen.map pid) =
        (queue ++ new, (new.reverse ++ seen).map pid) ∧
      Skipping H root (done ++ [a]) (queue ++ new) (new.reverse ++ seen) (h.set a (.prod ts' m)) := by
  obtain ⟨ha, hnd, hlt, hHa⟩ := hs.head
  have hsk : Pointwise (Skipped H) ts ts' :=
    mapM_pointwise (fun _ _ => removeTerm_skipped hs.forward) hts
  have hHat := hHa ▸ hat
  have hkids : ∀ c ∈ (Obj.prod ts' m).children, Reach H root c ∧ c < H.length := by
    intro c hc
    rcases skipped_rules hsk (termRules_mem.1 hc) with ⟨k1, _⟩ | ⟨r, k1, k2⟩
    · have hk : c ∈ (Obj.prod ts m).children := termRules_mem.2 k1
      exact ⟨.step ha hHat hk, hH _ (List.mem_of_getElem? hHat) _ hk⟩
    · have hk : r ∈ (Obj.prod ts m).children := termRules_mem.2 k1
      exact ⟨.step (.step ha hHat hk) k2 (by simp [Obj.children]),
        hH _ (List.mem_of_getElem? k2) _ (by simp [Obj.children])⟩
  have hclosed : ClosedHeap (h.set a (.prod ts' m)) := by
    intro o ho c hc
    rw [List.length_set]
    rcases List.mem_or_eq_of_mem_set ho with ho | rfl
    · exact hs.closed o ho c hc
    · rw [hs.len]; exact (hkids c hc).2
  have hset : (h.set a (.prod ts' m))[a]? = some (.prod ts' m) := List.getElem?_set_self hlt
  have w0 : WalkInv (h.set a (.prod ts' m)) done (a :: queue) seen := by
    refine ⟨hs.walk.nodup, hs.walk.seen_iff, ?_, ?_⟩
    · intro d hd c hc
      have hda : d ≠ a := fun e => hnd (e ▸ hd)
      refine hs.walk.closed d hd c ?_
      unfold childrenAt at hc ⊢
      rwa [List.getElem?_set_ne (Ne.symm hda)] at hc
    · intro x hx
      rw [List.length_set]
      exact hs.walk.lt x hx
  obtain ⟨new, q1, q2, q3⟩ := w0.step hp hclosed
  refine ⟨new, q1, q2, by rw [List.length_set]; exact hs.len, hclosed, ?_, ?_, ?_⟩
  · intro x hx
    simp only [List.mem_append, List.mem_cons, List.not_mem_nil, or_false] at hx
    rcases hx with (hx | rfl) | hx | hx
    · exact hs.reach x (by simp [hx])
    · exact ha
    · exact hs.reach x (by simp [hx])
    · have := q3 x hx
      unfold childrenAt at this
      rw [hset] at this
      exact (hkids x this).1
  · intro b o hb
    by_cases e : b = a
    · subst e
      rw [hHat] at hb; cases hb
      exact .inl ⟨ts, m, ts', by simp, rfl, hset, hsk⟩
    · rcases hs.at_ b o hb with ⟨ts, m, ts', k1, k2, k3, k4⟩ | ⟨k1, k2⟩
      · exact .inl ⟨ts, m, ts', by simp [k1], k2, by rw [List.getElem?_set_ne (Ne.symm e)]; exact k3, k4⟩
      · refine .inr ⟨by rw [List.getElem?_set_ne (Ne.symm e)]; exact k1, fun hd => k2 ?_⟩
        rw [List.mem_append, List.mem_singleton] at hd
        exact hd.resolve_right e
  · intro d hd
    rw [List.mem_append, List.mem_singleton] at hd
    rcases hd with hd | rfl
    · exact hs.defined d hd
    · rw [hHat]; simp

/-- Anything else is only looked at. -/
theorem Skipping.otherStep (hs : Skipping H root done (a :: queue) seen h)
    (hn1 : h[a]? ≠ some (.forward none)) (hn2 : ∀ ts m, h[a]? ≠ some (.prod ts m)) :
    ∃ new, enqueue pid (childrenAt h a) queue (seen.map pid) =
        (queue ++ new, (new.reverse ++ seen).map pid) ∧
      Skipping H root (done ++ [a]) (queue ++ new) (new.reverse ++ seen) h := by
  obtain ⟨ha, hnd, hlt, hHa⟩ := hs.head
  obtain ⟨new, q1, q2, q3⟩ := hs.walk.step hp hs.closed
  refine ⟨new, q1, q2, hs.len, hs.closed, ?_, ?_, ?_⟩
  · intro x hx
    simp only [List.mem_append, List.mem_cons, List.not_mem_nil, or_false] at hx
    rcases hx with (hx | rfl) | hx | hx
    · exact hs.reach x (by simp [hx])
    · exact ha
    · exact hs.reach x (by simp [hx])
    · have := q3 x hx
      unfold childrenAt at this
      rw [hHa] at this
      cases ho : H[a]? with
      | none => rw [ho] at this; cases this
      | some o => rw [ho] at this; exact .step ha ho this
  · intro b o hb
    rcases hs.at_ b o hb with ⟨ts, m, ts', k1, k2, k3, k4⟩ | ⟨k1, k2⟩
    · exact .inl ⟨ts, m, ts', by simp [k1], k2, k3, k4⟩
    · refine .inr ⟨k1, fun hd => ?_⟩
      rw [List.mem_append, List.mem_singleton] at hd
      rcases hd with hd | rfl
      · exact k2 hd
      · rintro ts m rfl
        exact hn2 ts m k1
  · intro d hd
    rw [List.mem_append, List.mem_singleton] at hd
    rcases hd with hd | rfl
    · exact hs.defined d hd
    · rw [← hHa]; exact hn1

end

theorem removeForwards_skipping {pid : Nat → Nat} (hp : ∀ a b, pid a = pid b → a = b) {H : Heap P}
    {root : Nat} (hH : ClosedHeap H) : ∀ (n : Nat) (done queue seen : List Nat) (h h' : Heap P),
      Skipping H root done queue seen h → H.length + 1 ≤ done.length + n →
      removeForwards pid n queue (seen.map pid) h = .ok h' →
      ∃ done' seen', Skipping H root done' [] seen' h' ∧ ∀ x ∈ done ++ queue, x ∈ done' := by
  intro n
  induction n with
  | zero =>
    intro done queue seen h h' hs hn _
    have := nodup_lt_length (List.nodup_append.1 hs.walk.nodup).1
      (fun x hx => hs.walk.lt x (List.mem_append_left _ hx))
    rw [hs.len] at this
    omega
  | succ n ih =>
    intro done queue seen h h' hs hn e
    cases queue with
    | nil => cases e; exact ⟨done, seen, hs, fun x hx => by simpa using hx⟩
    | cons a queue =>
      have mem : ∀ {new : List Nat} {done' : List Nat}, (∀ x ∈ done ++ [a] ++ (queue ++ new), x ∈ done') →
          ∀ x ∈ done ++ a :: queue, x ∈ done' := by
        intro new done' h x hx
        refine h x ?_
        simp only [List.mem_append, List.mem_cons, List.not_mem_nil, or_false] at hx ⊢
        rcases hx with hx | hx | hx
        · exact .inl (.inl hx)
        · exact .inl (.inr hx)
        · exact .inr (.inl hx)
      simp only [removeForwards] at e
      split at e
      · cases e
      · rename_i ts m hat
        split at e
        · cases e
        · rename_i ts' hts
          obtain ⟨new, q1, q2⟩ := hs.prodStep hp hH hat hts
          rw [q1] at e
          obtain ⟨done', seen', r1, r2⟩ := ih _ _ _ _ _ q2 (by simp; omega) e
          exact ⟨done', seen', r1, mem r2⟩
      · rename_i hn1 hn2
        obtain ⟨new, q1, q2⟩ := hs.otherStep hp hn1 hn2
        rw [q1] at e
        obtain ⟨done', seen', r1, r2⟩ := ih _ _ _ _ _ q2 (by simp; omega) e
        exact ⟨done', seen', r1, mem r2⟩

/-! ### The classes of objects in each pass -/

def notBnf : Tag → Bool
  | .bnf => false
  | _ => true

def notQuant : Tag → Bool
  | .bnf | .quant => false
  | _ => true

def notOr : Tag → Bool
  | .bnf | .quant | .or => false
  | _ => true

def flatTags : Tag → Bool
  | .bnf | .quant | .or | .empty => false
  | _ => true

def bnfIn : Tag → Bool
  | .quant | .or | .empty => false
  | _ => true

def bnfOut : Tag → Bool
  | .prod | .emptyProd | .pipeProd | .forward | .bnf => true
  | _ => false

/-- What a compiled grammar is made of. -/
def chartTags : Tag → Bool
  | .prod | .emptyProd | .pipeProd | .bnf => true
  | _ => false

theorem Typed.mono {T T' : Tag → Bool} {X : P → Prop} {h : Heap P} {root : Nat} (ht : Typed T X h root)
    (hsub : ∀ t, T t = true → T' t = true) : Typed T' X h root := by
  intro x hx
  obtain ⟨o, h1, h2, h3⟩ := ht x hx
  exact ⟨o, h1, hsub _ h2, h3⟩

/-- What happens to the objects that are there before. -/
structure Framed (h : Heap P) (root : Nat) (h' : Heap P) (b : Nat) : Prop where
  len : h.length ≤ h'.length
  frame : ∀ (a : Nat) o, h[a]? = some o → h'[a]? = some o ∨
    ((∃ c, o = .forward c) ∧ Reach h root a ∧ ∃ r, h'[a]? = some (.forward (some r)))
  fresh : ∀ x, Reach h' b x → h.length ≤ x ∨ (∃ o, h'[x]? = some o ∧ o.tag.leaf = true) ∨
    ((∃ c, h[x]? = some (.forward c)) ∧ Reach h root x)

theorem Pass.Made.framed {F : Pass P} {h' : Heap P} {b : Nat} (hm : F.Made h' b) :
    Framed F.heap F.root h' b where
  len := hm.len
  frame := by
    intro a o ha
    rcases hm.frame a o ha with h | ⟨⟨c, h1⟩, h2, h3⟩
    · exact .inl h
    · rw [ha] at h1
      simp only [Option.some.injEq] at h1
      exact .inr ⟨⟨c, h1⟩, h2, h3⟩
  fresh := hm.fresh

theorem Framed.trans {h h' h'' : Heap P} {a b c : Nat} (h1 : Framed h a h' b) (h2 : Framed h' b h'' c) :
    Framed h a h'' c where
  len := Nat.le_trans h1.len h2.len
  frame := by
    intro x o hx
    have hlt := (List.getElem?_eq_some_iff.1 hx).1
    rcases h1.frame x o hx with k | ⟨k1, k2, r, k3⟩
    · rcases h2.frame x o k with q | ⟨⟨d, rfl⟩, q2, q3⟩
      · exact .inl q
      · rcases h1.fresh x q2 with w | ⟨o', w1, w2⟩ | ⟨_, w⟩
        · omega
        · rw [k] at w1; cases w1; cases w2
        · exact .inr ⟨⟨d, rfl⟩, w, q3⟩
    · rcases h2.frame x _ k3 with q | ⟨_, _, q⟩
      · exact .inr ⟨k1, k2, r, q⟩
      · exact .inr ⟨k1, k2, q⟩
  fresh := by
    intro x hx
    rcases h2.fresh x hx with k | k | ⟨⟨d, k1⟩, k2⟩
    · exact .inl (Nat.le_trans h1.len k)
    · exact .inr (.inl k)
    · rcases h1.fresh x k2 with w | ⟨o', w1, w2⟩ | w
      · exact .inl w
      · rw [k1] at w1; cases w1; cases w2
      · exact .inr (.inr w)

/-- All together: what a sequence of passes leaves behind. -/
structure Left (T : Tag → Bool) (X : P → Prop) (h : Heap P) (root : Nat) (h' : Heap P) (b : Nat) : Prop
    extends Framed h root h' b where
  typed : Typed T X h' b
  sorted : Sorted h'
  prod : isProdAt h' b = false
  new : ∀ (x : Nat) o, h.length ≤ x → h'[x]? = some o → ∀ p ∈ o.preds, X p
  fwd : ∀ (x : Nat) y, Reach h' b x → h'[x]? = some (.forward (some y)) → ∀ d, h'[y]? ≠ some (.forward d)

theorem Typed.lt {T : Tag → Bool} {X : P → Prop} {h : Heap P} {root : Nat} (ht : Typed T X h root) :
    root < h.length := by
  obtain ⟨o, ho, _⟩ := ht root .root
  exact (List.getElem?_eq_some_iff.1 ho).1

theorem Pass.Made.left {F : Pass P} {h' : Heap P} {b : Nat} (hm : F.Made h' b) (hs : Sorted F.heap)
    (hr : isProdAt F.heap F.root = false) : Left F.outT F.X F.heap F.root h' b :=
  { hm.framed with typed := hm.typed, sorted := hm.whole hs, prod := hm.sort.trans hr, new := hm.new, fwd := hm.fwd }

theorem Left.trans {T T' : Tag → Bool} {X : P → Prop} {h h' h'' : Heap P} {a b c : Nat}
    (h1 : Left T X h a h' b) (h2 : Left T' X h' b h'' c) : Left T' X h a h'' c :=
  { h1.toFramed.trans h2.toFramed with
    typed := h2.typed, sorted := h2.sorted, prod := h2.prod, fwd := h2.fwd
    new := by
      intro x o hx ho
      rcases Nat.lt_or_ge x h'.length with hl | hl
      · rcases h2.frame x _ (List.getElem?_eq_getElem hl) with k | ⟨_, _, r, k⟩
        · rw [ho] at k; cases k
          exact h1.new x _ hx (List.getElem?_eq_getElem hl)
        · rw [ho] at k; cases k
          intro p hp; cases hp
      · exact h2.new x o hl ho }

section passes
variable {X : P → Prop} {pid : Nat → Nat} (hp : ∀ a b, pid a = pid b → a = b) {limit root b : Nat}
  {h h' : Heap P}
include hp

theorem squash_left (ht : Typed (fun _ => true) X h root) (hs : Sorted h) (hr : isProdAt h root = false)
    (e : transform squashMethod pid limit root h = .ok (b, h')) : Left notBnf X h root h' b :=
  (Pass.transform_fits (F := ⟨h, root, false, fun _ => true, notBnf, X⟩) hp rfl
    (Pass.squash_fits rfl (fun _ => rfl) (by intro t ht; cases t <;> first | rfl | exact absurd rfl ht))
    ht e).left hs hr

theorem extended_left (ht : Typed notBnf X h root) (hs : Sorted h) (hr : isProdAt h root = false)
    (e : transform extendedMethod pid limit root h = .ok (b, h')) : Left notQuant X h root h' b :=
  (Pass.transform_fits (F := ⟨h, root, true, notBnf, notQuant, X⟩) hp rfl
    (Pass.extended_fits ⟨rfl, (by intro t ht; cases t <;> first | rfl | cases ht), rfl, rfl, rfl, rfl, rfl, rfl⟩
      (by intro t ht hn; cases t <;> first | rfl | exact absurd rfl hn | cases ht) rfl)
    ht e).left hs hr

theorem or_left (ht : Typed notQuant X h root) (hs : Sorted h) (hr : isProdAt h root = false)
    (e : transform orMethod pid limit root h = .ok (b, h')) : Left notOr X h root h' b :=
  (Pass.transform_fits (F := ⟨h, root, false, notQuant, notOr, X⟩) hp rfl
    (Pass.or_fits rfl (by intro t ht; cases t <;> first | rfl | cases ht)
      (by intro t ht hn; cases t <;> first | rfl | exact absurd rfl hn | cases ht) rfl rfl rfl)
    ht e).left hs hr

theorem empty_left (ht : Typed notOr X h root) (hs : Sorted h) (hr : isProdAt h root = false)
    (e : transform emptyMethod pid limit root h = .ok (b, h')) : Left flatTags X h root h' b :=
  (Pass.transform_fits (F := ⟨h, root, false, notOr, flatTags, X⟩) hp rfl
    (Pass.empty_fits rfl (by intro t ht; cases t <;> first | rfl | cases ht)
      (by intro t ht hn; cases t <;> first | rfl | exact absurd rfl hn | cases ht) rfl rfl rfl)
    ht e).left hs hr

theorem flatten_left (ht : Typed flatTags X h root) (hs : Sorted h) (hr : isProdAt h root = false)
    (e : transform flattenMethod pid limit root h = .ok (b, h')) : Left flatTags X h root h' b :=
  (Pass.transform_fits (F := ⟨h, root, false, flatTags, flatTags, X⟩) hp rfl
    (Pass.flatten_fits rfl (fun _ => rfl) rfl) ht e).left hs hr

theorem toBnf_left (ht : Typed bnfIn X h root) (hs : Sorted h) (hr : isProdAt h root = false)
    (e : toBnf pid limit root h = .ok (b, h')) : Left bnfOut X h root h' b :=
  (Pass.transform_fits (F := ⟨h, root, false, bnfIn, bnfOut, X⟩) hp rfl
    (Pass.bnf_fits ⟨rfl, (by intro t ht; cases t <;> first | rfl | cases ht), rfl, rfl, rfl, rfl, rfl, rfl⟩ _)
    ht e).left hs hr

theorem normalized_left (ht : Typed (fun _ => true) X h root) (hs : Sorted h)
    (hr : isProdAt h root = false) (e : normalized pid limit root h = .ok (b, h')) :
    Left flatTags X h root h' b := by
  unfold normalized replaced at e
  simp only [bind, Except.bind] at e
  split at e
  · cases e
  · rename_i x1 e1
    have l1 := squash_left hp ht hs hr e1
    split at e
    · cases e
    · rename_i x2 e2
      have l2 := extended_left hp l1.typed l1.sorted l1.prod e2
      split at e
      · cases e
      · rename_i x3 e3
        have l3 := or_left hp l2.typed l2.sorted l2.prod e3
        split at e
        · cases e
        · rename_i x4 e4
          have l4 := empty_left hp l3.typed l3.sorted l3.prod e4
          exact (((l1.trans l2).trans l3).trans l4).trans (flatten_left hp l4.typed l4.sorted l4.prod e)

/-- Removing the forward rules. -/
theorem removeForward_left (hl : Left bnfOut X h root h' b) {b' : Nat} {g : Heap P}
    (e : removeForward pid b h' = .ok (b', g)) : Left chartTags X h root g b' := by
  unfold removeForward at e
  split at e
  · cases e
  · rename_i g' hg
    have hblt := hl.typed.lt
    obtain ⟨done, seen, hs, hmem⟩ := removeForwards_skipping hp hl.sorted.closed (h'.length + 1) [] [b] [b]
      h' g' ⟨⟨by simp, by simp, (by intro d hd; cases hd), by simpa using hblt⟩, rfl, hl.sorted.closed,
        (by intro x hx; simp only [List.nil_append, List.mem_singleton] at hx; rw [hx]; exact .root),
        fun a o ha => .inr ⟨ha, (by intro h; cases h)⟩, (by intro d hd; cases hd)⟩ (by simp) hg
    have hbd : b ∈ done := hmem b (by simp)
    have closed : ∀ d ∈ done, ∀ o, g'[d]? = some o → ∀ c ∈ o.children, c ∈ done := by
      intro d hd o ho c hc
      have := hs.walk.closed d hd c (by unfold childrenAt; rw [ho]; exact hc)
      simpa using this
    have reach : ∀ d ∈ done, Reach h' b d := fun d hd => hs.reach d (by simp [hd])
    have nf : ∀ x : Nat, (∀ c, h'[x]? ≠ some (Obj.forward c)) → ∀ c, g'[x]? ≠ some (Obj.forward c) :=
      fun x hx c hc => hx c ((hs.forward x c).1 hc)
    have key : ∀ b' : Nat, b' ∈ done → (∀ c, h'[b']? ≠ some (Obj.forward c)) → isProdAt h' b' = false →
        Left chartTags X h root g' b' := by
      intro b' hb' hbf hbp
      have all : ∀ x, Reach g' b' x → x ∈ done ∧ ∀ c, h'[x]? ≠ some (Obj.forward c) := by
        intro x hx
        induction hx with
        | root => exact ⟨hb', hbf⟩
        | @step u o c _ hu hc ih =>
          refine ⟨closed u ih.1 o hu c hc, ?_⟩
          obtain ⟨o7, k1, k2, k3, k4⟩ := hl.typed u (reach u ih.1)
          rcases hs.at_ u o7 k1 with ⟨ts, m, ts', _, rfl, q3, q4⟩ | ⟨q1, q2⟩
          · rw [q3] at hu; cases hu
            rcases skipped_rules q4 (termRules_mem.1 hc) with ⟨_, w⟩ | ⟨r, w1, w2⟩
            · exact w
            · exact hl.fwd r c (.step (reach u ih.1) k1 (termRules_mem.2 w1)) w2
          · rw [q1] at hu; cases hu
            have hsort := k4 c hc
            intro d hd
            rw [Pass.isProdAt_some hd] at hsort
            cases o <;> first
              | exact q2 ih.1 _ _ rfl | exact ih.2 _ k1 | (cases k2; done) | (cases hsort; done) | (cases hc; done)
      have isProd : ∀ c, isProdAt g' c = isProdAt h' c := by
        intro c
        by_cases hc : c < h'.length
        · rcases hs.at_ c _ (List.getElem?_eq_getElem hc) with ⟨ts, m, ts', _, e1, e2, _⟩ | ⟨e1, _⟩
          · rw [Pass.isProdAt_some e2, Pass.isProdAt_some (List.getElem?_eq_getElem hc), e1]; rfl
          · rw [Pass.isProdAt_some e1, Pass.isProdAt_some (List.getElem?_eq_getElem hc)]
        · unfold isProdAt
          rw [List.getElem?_eq_none (Nat.le_of_not_lt hc), List.getElem?_eq_none (by rw [hs.len]; omega)]
      have sorted : Sorted g' := by
        intro a o ha c hc
        have hlt : a < h'.length := hs.len ▸ (List.getElem?_eq_some_iff.1 ha).1
        rw [hs.len, isProd]
        rcases hs.at_ a _ (List.getElem?_eq_getElem hlt) with ⟨ts, m, ts', _, e1, e2, e3⟩ | ⟨e1, _⟩
        · rw [e2] at ha; cases ha
          have hat : h'[a]? = some (.prod ts m) := by rw [List.getElem?_eq_getElem hlt, e1]
          rcases skipped_rules e3 (termRules_mem.1 hc) with ⟨w, _⟩ | ⟨r, _, w⟩
          · exact hl.sorted a _ hat c (termRules_mem.2 w)
          · exact hl.sorted r _ w c (by simp [Obj.children])
        · rw [ha] at e1; cases e1
          exact hl.sorted a _ (List.getElem?_eq_getElem hlt) c hc
      refine { len := by rw [hs.len]; exact hl.len, frame := ?_, fresh := ?_, typed := ?_, sorted := sorted,
               prod := ?_, new := ?_, fwd := ?_ }
      · intro a o ha
        have hlt := (List.getElem?_eq_some_iff.1 ha).1
        rcases hl.frame a o ha with k | ⟨k1, k2, r, k3⟩
        · rcases hs.at_ a o k with ⟨ts, m, ts', q1, rfl, _⟩ | ⟨q, _⟩
          · rcases hl.fresh a (reach a q1) with w | ⟨o', w1, w2⟩ | ⟨⟨c, w⟩, _⟩
            · omega
            · rw [k] at w1; cases w1; cases w2
            · rw [ha] at w; cases w
          · exact .inl q
        · exact .inr ⟨k1, k2, r, (hs.forward a _).2 k3⟩
      · intro x hx
        obtain ⟨hd, hf⟩ := all x hx
        rcases hl.fresh x (reach x hd) with w | ⟨o', w1, w2⟩ | ⟨⟨c, w⟩, w'⟩
        · exact .inl w
        · rcases hs.at_ x o' w1 with ⟨ts, m, ts', _, rfl, _⟩ | ⟨q, _⟩
          · cases w2
          · exact .inr (.inl ⟨o', q, w2⟩)
        · rcases hl.frame x _ w with k | ⟨_, _, r, k⟩
          · exact absurd k (hf _)
          · exact absurd k (hf _)
      · intro x hx
        obtain ⟨hd, hf⟩ := all x hx
        obtain ⟨o, k1, k2, k3, k4⟩ := hl.typed x (reach x hd)
        rcases hs.at_ x o k1 with ⟨ts, m, ts', _, rfl, q3, q4⟩ | ⟨q, _⟩
        · refine ⟨_, q3, rfl, fun p hp => k3 p ?_, fun c hc => (sorted x _ q3 c hc).2⟩
          exact Pass.preds_prod.2 (skipped_preds q4 (Pass.preds_prod.1 hp))
        · refine ⟨o, q, ?_, k3, fun c hc => (sorted x _ q c hc).2⟩
          cases o <;> first | exact absurd k1 (hf _) | rfl | cases k2
      · rw [isProd]; exact hbp
      · intro x o hx ho
        have hlt : x < h'.length := hs.len ▸ (List.getElem?_eq_some_iff.1 ho).1
        have hn := hl.new x _ hx (List.getElem?_eq_getElem hlt)
        rcases hs.at_ x _ (List.getElem?_eq_getElem hlt) with ⟨ts, m, ts', _, e1, e2, e3⟩ | ⟨e1, _⟩
        · rw [e2] at ho; cases ho
          rw [e1] at hn
          exact fun p hp => hn p (Pass.preds_prod.2 (skipped_preds e3 (Pass.preds_prod.1 hp)))
        · rw [ho] at e1; cases e1; exact hn
      · intro x y hx hy
        exact absurd hy (nf x (all x hx).2 _)
    split at e
    · cases e
    · rename_i x hx
      cases e
      have hx' := (hs.forward b _).1 hx
      exact key _ (closed b hbd _ hx _ (by simp [Obj.children])) (hl.fwd b _ .root hx')
        (hl.sorted b _ hx' _ (by simp [Obj.children])).2
    · rename_i h1 h2
      cases e
      refine key _ hbd (fun c hc => ?_) hl.prod
      cases c with
      | none => exact h1 ((hs.forward _ _).2 hc)
      | some x => exact h2 x ((hs.forward _ _).2 hc)

omit hp in
/-- Naming changes nothing but the names of the walked compiled rules. -/
theorem generateNames_at : ∀ (as : List Nat) (count : Nat) (h : Heap P),
    (generateNames as count h).length = h.length ∧
    ∀ (a : Nat) o, h[a]? = some o → (generateNames as count h)[a]? = some o ∨
      (a ∈ as ∧ ∃ ps n i r k n', o = .bnf ps n i r k ∧
        (generateNames as count h)[a]? = some (.bnf ps n' i r k)) := by
  intro as
  induction as with
  | nil => intro count h; exact ⟨rfl, fun a o ha => .inl ha⟩
  | cons x as ih =>
    intro count h
    have weak : ∀ h' : Heap P, (∀ (a : Nat) o, h[a]? = some o → h'[a]? = some o) → h'.length = h.length →
        ∀ c, (generateNames as c h').length = h.length ∧
          ∀ (a : Nat) o, h[a]? = some o → (generateNames as c h')[a]? = some o ∨
            (a ∈ x :: as ∧ ∃ ps n i r k n', o = .bnf ps n i r k ∧
              (generateNames as c h')[a]? = some (.bnf ps n' i r k)) := by
      intro h' hh hl c
      refine ⟨(ih c h').1.trans hl, fun a o ha => ?_⟩
      rcases (ih c h').2 a o (hh a o ha) with k | ⟨k1, k2⟩
      · exact .inl k
      · exact .inr ⟨List.mem_cons_of_mem _ k1, k2⟩
    simp only [generateNames]
    split
    · rename_i ps name i r kind hx
      split
      · exact weak h (fun _ _ h => h) rfl _
      · refine ⟨by rw [(ih _ _).1, List.length_set], fun a o ha => ?_⟩
        by_cases hax : a = x
        · subst hax
          rw [hx] at ha; cases ha
          right
          refine ⟨List.mem_cons_self, ps, name, i, r, kind, ?_⟩
          have hlt := (List.getElem?_eq_some_iff.1 hx).1
          rcases (ih (count + 1) (h.set a (.bnf ps (some (genName count)) i r kind))).2 a _
            (List.getElem?_set_self hlt) with k | ⟨_, ps', n, i', r', k', n', e1, e2⟩
          · exact ⟨_, rfl, k⟩
          · cases e1; exact ⟨n', rfl, e2⟩
        · rcases (ih (count + 1) (h.set x (.bnf ps (some (genName count)) i r kind))).2 a o
            (by rw [List.getElem?_set_ne (fun e => hax e.symm)]; exact ha) with k | ⟨k1, k2⟩
          · exact .inl k
          · exact .inr ⟨List.mem_cons_of_mem _ k1, k2⟩
    · exact weak h (fun _ _ h => h) rfl _

theorem asBnf_left (ht : Typed bnfIn X h root) (hs : Sorted h) (hr : isProdAt h root = false)
    (e : asBnf pid limit root h = .ok (b, h')) : Left chartTags X h root h' b := by
  unfold asBnf at e
  simp only [bind, Except.bind, pure, Except.pure] at e
  split at e
  · cases e
  · rename_i x1 e1
    split at e
    · cases e
    · rename_i x2 e2
      cases e
      have l := removeForward_left hp (toBnf_left hp ht hs hr e1) e2
      obtain ⟨b', g⟩ := x2
      simp only at l ⊢
      have hlt := l.typed.lt
      have hw := reach_iff hp l.sorted.closed hlt
      have hg := generateNames_at (walk pid g b') 0 g
      generalize generateNames (walk pid g b') 0 g = g' at hg
      have back : ∀ (a : Nat) o, g'[a]? = some o → g[a]? = some o ∨ ∃ ps n i r k n',
          g[a]? = some (.bnf ps n i r k) ∧ o = .bnf ps n' i r k := by
        intro a o ha
        have hlt : a < g.length := hg.1 ▸ (List.getElem?_eq_some_iff.1 ha).1
        rcases hg.2 a _ (List.getElem?_eq_getElem hlt) with k | ⟨_, ps, n, i, r, k, n', k1, k2⟩
        · rw [ha] at k; cases k; exact .inl (List.getElem?_eq_getElem hlt)
        · rw [ha] at k2; cases k2
          exact .inr ⟨ps, n, i, r, k, n', by rw [List.getElem?_eq_getElem hlt, k1], rfl⟩
      have like : ∀ (a : Nat) o, g'[a]? = some o → ∃ o', g[a]? = some o' ∧ o'.tag = o.tag ∧
          o'.children = o.children ∧ o'.preds = o.preds ∧ (∀ c, o = .forward c → o' = .forward c) := by
        intro a o ha
        rcases back a o ha with k | ⟨ps, n, i, r, k, n', k1, rfl⟩
        · exact ⟨o, k, rfl, rfl, rfl, fun _ h => h⟩
        · exact ⟨_, k1, rfl, rfl, rfl, fun _ h => nomatch h⟩
      have isProd : ∀ c, isProdAt g' c = isProdAt g c := by
        intro c
        by_cases hc : c < g'.length
        · obtain ⟨o', k1, k2, _⟩ := like c _ (List.getElem?_eq_getElem hc)
          rw [Pass.isProdAt_some (List.getElem?_eq_getElem hc), Pass.isProdAt_some k1, k2]
        · unfold isProdAt
          rw [List.getElem?_eq_none (Nat.le_of_not_lt hc), List.getElem?_eq_none (by rw [← hg.1]; omega)]
      have reach : ∀ x, Reach g' b' x → Reach g b' x := by
        intro x hx
        induction hx with
        | root => exact .root
        | step _ hu hc ih =>
          obtain ⟨o', k1, _, k2, _⟩ := like _ _ hu
          exact .step ih k1 (k2 ▸ hc)
      refine { len := by rw [hg.1]; exact l.len, frame := ?_, fresh := ?_, typed := ?_, sorted := ?_,
               prod := by rw [isProd]; exact l.prod, new := ?_, fwd := ?_ }
      · intro a o ha
        rcases l.frame a o ha with k | ⟨k1, k2, r, k3⟩
        · rcases hg.2 a o k with w | ⟨w1, ps, n, i, r, kk, n', rfl, _⟩
          · exact .inl w
          · rcases l.fresh a ((hw a).1 w1) with q | ⟨o', q1, q2⟩ | ⟨⟨c, q⟩, _⟩
            · have := (List.getElem?_eq_some_iff.1 ha).1; omega
            · rw [k] at q1; cases q1; cases q2
            · rw [ha] at q; cases q
        · rcases hg.2 a _ k3 with w | ⟨_, _, _, _, _, _, _, w, _⟩
          · exact .inr ⟨k1, k2, r, w⟩
          · cases w
      · intro x hx
        rcases l.fresh x (reach x hx) with q | ⟨o', q1, q2⟩ | q
        · exact .inl q
        · rcases hg.2 x o' q1 with w | ⟨_, _, _, _, _, _, _, rfl, _⟩
          · exact .inr (.inl ⟨o', w, q2⟩)
          · cases q2
        · exact .inr (.inr q)
      · intro x hx
        obtain ⟨o, k1, k2, k3, k4⟩ := l.typed x (reach x hx)
        have hlt : x < g'.length := by rw [hg.1]; exact (List.getElem?_eq_some_iff.1 k1).1
        obtain ⟨o', w1, w2, w3, w4, _⟩ := like x _ (List.getElem?_eq_getElem hlt)
        rw [k1] at w1; cases w1
        refine ⟨_, List.getElem?_eq_getElem hlt, w2 ▸ k2, fun p hp => k3 p (w4 ▸ hp), fun c hc => ?_⟩
        rw [isProd, ← w2]
        exact k4 c (w3 ▸ hc)
      · intro a o ha c hc
        obtain ⟨o', w1, w2, w3, _⟩ := like a o ha
        rw [isProd, hg.1, ← w2]
        exact l.sorted a o' w1 c (w3 ▸ hc)
      · intro x o hx ho p hp
        obtain ⟨o', w1, _, _, w4, _⟩ := like x o ho
        exact l.new x o' hx w1 p (w4 ▸ hp)
      · intro x y hx hy d hd
        obtain ⟨o', w1, _, _, _, w⟩ := like x _ hy
        obtain ⟨o'', v1, _, _, _, v⟩ := like y _ hd
        rw [w _ rfl] at w1; rw [v _ rfl] at v1
        exact l.fwd x y (reach x hx) w1 d v1

/-- What `compileRule` leaves behind, objects of the user included. -/
structure Compiled (A : Activation P) (X : P → Prop) (h : Heap P) (root : Nat) (h' : Heap P) (b : Nat) :
    Prop where
  len : h.length ≤ h'.length
  rest : ∀ (a : Nat) o, h[a]? = some o → ¬ Reach h root a → h'[a]? = some o
  done : ∀ (a : Nat) o, h[a]? = some o → Reach h root a → ∃ o', activateObj A o = .ok o' ∧
    (h'[a]? = some o' ∨ (∃ c, o = .forward c) ∧ ∃ r, h'[a]? = some (.forward (some r)))
  fresh : ∀ x, Reach h' b x → h.length ≤ x ∨ ∃ o, h'[x]? = some o ∧ o.tag.leaf = true
  typed : Typed chartTags X h' b
  sorted : Sorted h'
  new : ∀ (x : Nat) o, h.length ≤ x → h'[x]? = some o → ∀ p ∈ o.preds, X p
  bnf : ∃ ps n i r k, h'[b]? = some (.bnf ps n i r k)

omit hp in
theorem activateObj_shape {A : Activation P} {o o' : Obj P} (e : activateObj A o = .ok o') :
    o'.tag = o.tag ∧ o'.children = o.children ∧ (∀ c, o = .forward c → o' = .forward c) ∧
      (∀ c, o' = .forward c → o = .forward c) := by
  have k := activateObj_ok (k := .plain) e
  rcases k.2.2.2.2 with rfl | ⟨ts, ts', m, rfl, rfl⟩ | ⟨p, p', rfl, rfl⟩
  · exact ⟨rfl, rfl, fun _ h => h, fun _ h => h⟩
  · exact ⟨rfl, k.1, (by intro c h; cases h), (by intro c h; cases h)⟩
  · exact ⟨rfl, k.1, (by intro c h; cases h), (by intro c h; cases h)⟩

theorem compileRule_compiled {A : Activation P} (hs : Sorted h) (hlt : root < h.length)
    (hr : isProdAt h root = false)
    (hX : ∀ (x : Nat) o o', Reach h root x → h[x]? = some o → activateObj A o = .ok o' → ∀ p ∈ o'.preds, X p)
    (e : compileRule A pid limit root h = .ok (b, h')) : Compiled A X h root h' b := by
  unfold compileRule at e
  simp only [bind, Except.bind] at e
  split at e
  · cases e
  · rename_i h1 e1
    have w := activateRule_awake hp hs.closed hlt (by
      intro ts m hm
      rw [Pass.isProdAt_some hm] at hr; cases hr) e1
    have back : ∀ (a : Nat) o, h1[a]? = some o → ∃ o', h[a]? = some o' ∧ o.tag = o'.tag ∧
        o.children = o'.children ∧ (Reach h root a → activateObj A o' = .ok o) := by
      intro a o ha
      have hal : a < h.length := w.length ▸ (List.getElem?_eq_some_iff.1 ha).1
      by_cases hra : Reach h root a
      · obtain ⟨o', k1, k2⟩ := w.done a _ hra (List.getElem?_eq_getElem hal)
        rw [ha] at k1; cases k1
        have := activateObj_shape k2
        exact ⟨_, List.getElem?_eq_getElem hal, this.1, this.2.1, fun _ => k2⟩
      · have := w.rest a hra
        rw [ha] at this
        exact ⟨o, this.symm, rfl, rfl, fun h => absurd h hra⟩
    have isProd : ∀ c, isProdAt h1 c = isProdAt h c := by
      intro c
      by_cases hc : c < h1.length
      · obtain ⟨o', k1, k2, _⟩ := back c _ (List.getElem?_eq_getElem hc)
        rw [Pass.isProdAt_some (List.getElem?_eq_getElem hc), Pass.isProdAt_some k1, k2]
      · unfold isProdAt
        rw [List.getElem?_eq_none (Nat.le_of_not_lt hc), List.getElem?_eq_none (by rw [← w.length]; omega)]
    have reach : ∀ x, Reach h1 root x → Reach h root x := by
      intro x hx
      induction hx with
      | root => exact .root
      | step _ hu hc ih =>
        obtain ⟨o', k1, _, k2, _⟩ := back _ _ hu
        exact .step ih k1 (k2 ▸ hc)
    have hs1 : Sorted h1 := by
      intro a o ha c hc
      obtain ⟨o', k1, k2, k3, _⟩ := back a o ha
      rw [isProd, w.length, k2]
      exact hs a o' k1 c (k3 ▸ hc)
    have ht1 : Typed (fun _ => true) X h1 root := by
      intro x hx
      have hxl : x < h1.length := by
        rcases Nat.lt_or_ge x h1.length with h | h
        · exact h
        · cases hx with
          | root => rw [w.length] at h; omega
          | step _ hu hc => have := (hs1 _ _ hu _ hc).1; omega
      obtain ⟨o', k1, _, _, k4⟩ := back x _ (List.getElem?_eq_getElem hxl)
      refine ⟨_, List.getElem?_eq_getElem hxl, rfl, fun p hp => hX x o' _ (reach x hx) k1 (k4 (reach x hx)) p hp,
        fun c hc => (hs1 x _ (List.getElem?_eq_getElem hxl) c hc).2⟩
    split at e
    · cases e
    · rename_i x2 e2
      have l1 := normalized_left hp ht1 hs1 ((isProd root).trans hr) e2
      have l2 := asBnf_left hp (l1.typed.mono (T' := bnfIn) (by
        intro t ht; cases t <;> first | rfl | cases ht)) l1.sorted l1.prod e
      have l := l1.trans l2
      refine ⟨w.length ▸ l.len, ?_, ?_, ?_, l.typed, l.sorted, w.length ▸ l.new, ?_⟩
      · intro a o ha hn
        rcases l.frame a o (by rw [w.rest a hn]; exact ha) with k | ⟨_, k, _⟩
        · exact k
        · exact absurd (reach a k) hn
      · intro a o ha hy
        obtain ⟨o', k1, k2⟩ := w.done a o hy ha
        refine ⟨o', k2, ?_⟩
        rcases l.frame a o' k1 with k | ⟨⟨c, k⟩, _, q⟩
        · exact .inl k
        · exact .inr ⟨⟨c, (activateObj_shape k2).2.2.2 c k⟩, q⟩
      · intro x hx
        rcases l.fresh x hx with k | k | ⟨⟨c, k⟩, _⟩
        · exact .inl (w.length ▸ k)
        · exact .inr k
        · obtain ⟨o, q1, q2, _⟩ := l.typed x hx
          rcases l.frame x _ k with q | ⟨_, _, r, q⟩
          · rw [q] at q1; cases q1; cases q2
          · rw [q] at q1; cases q1; cases q2
      · obtain ⟨o, k1, k2, _⟩ := l.typed b .root
        have k3 := l.prod
        rw [Pass.isProdAt_some k1] at k3
        cases o <;> first | exact ⟨_, _, _, _, _, k1⟩ | (cases k3; done) | (cases k2; done)

end passes
end Yargy
