import Verif.Proofs.Keeps
import Verif.Proofs.Items
import Verif.Proofs.FrameCompile
/-!
Colours for the objects of a rule: which of them may derive nothing, and where these may stand. Every
pass of compiling gives colours to the objects it makes, such that the conditions hold for them again.
-/
namespace Yargy.Tint

variable {P : Type}

/-- `full`: never empty. `tail`: never empty, and ends in a token. `rep`: never empty, a repetition that
squashing looks into. `null`: an optional rule. `blank`: an empty rule. `void`: an empty production.
`hollow`: a production of an empty rule alone. -/
inductive Color where
  | full | tail | rep | null | blank | void | hollow
  deriving DecidableEq

def Full (c : Color) : Prop := c = .full ∨ c = .tail

def Sd (sq : Bool) (c : Color) : Prop := Full c ∨ (sq = true ∧ c = .rep)

def Placed (sq : Bool) (col : Nat → Color) : Prop → List (Term P) → Prop
  | _, [] => True
  | _, .pred _ :: ts => Placed sq col True ts
  | b, .rule r :: ts => (Sd sq (col r) ∨ (col r = .null ∧ b)) ∧ Placed sq col (col r = .tail) ts

def LastPred : List (Term P) → Prop
  | [] => False
  | [t] => ∃ q, t = .pred q
  | _ :: t :: ts => LastPred (t :: ts)

def OkProds (k : Color) (cs : List Color) : Prop :=
  (k = .full ∧ ∀ c ∈ cs, Full c) ∨ (k = .tail ∧ ∀ c ∈ cs, c = .tail) ∨
  (k = .null ∧ 2 ≤ cs.length ∧ ∀ c ∈ cs, Full c ∨ c = .void ∨ c = .hollow) ∨
  (k = .blank ∧ cs = [.void])

/-- What the colours of an object and its children have to do with each other. -/
def Ok (sq : Bool) (col : Nat → Color) (a : Nat) : Obj P → Prop
  | .prod ts _ => (ts ≠ [] ∧ Placed sq col False ts ∧ (col a = .full ∨ (col a = .tail ∧ LastPred ts))) ∨
      (col a = .hollow ∧ ∃ e, ts = [.rule e] ∧ col e = .blank)
  | .emptyProd => col a = .void
  | .pipeProd _ ts => ts ≠ [] ∧ col a = .tail
  | .rule ps => OkProds (col a) (ps.map col)
  | .or rs => (col a = .full ∧ ∀ r ∈ rs, Sd sq (col r)) ∨
      (col a = .null ∧ 2 ≤ rs.length ∧ ∀ r ∈ rs, Sd sq (col r) ∨ col r = .blank)
  | .optional r _ => col a = .null ∧ Full (col r)
  | .repeatable r _ => Sd sq (col r) ∧ col a = (if sq then .rep else .full)
  | .repOptional _ _ _ => False
  | .minBounded r _ _ | .maxBounded r _ _ | .minMaxBounded r _ _ _ =>
      (col a = .full ∧ Full (col r)) ∨ (sq = true ∧ col a = .rep ∧ Sd sq (col r))
  | .named r _ | .interp r _ | .relation r _ => col a = .full ∧ Sd sq (col r)
  | .forward c => col a = .full ∧ ∀ r, c = some r → Sd sq (col r)
  | .empty => col a = .blank
  | .pipe _ => col a = .tail
  | .bnf ps _ _ _ _ => OkProds (col a) (ps.map col)

/-- The colour of a result. -/
def Img (x y : Color) : Prop := y = x ∨ (x = .hollow ∧ y = .void) ∨ (x = .full ∧ y = .tail)

theorem Img.rfl' (x : Color) : Img x x := .inl rfl

theorem Img.full {x y : Color} (h : Img x y) (hx : Full x) : Full y := by
  rcases h with rfl | ⟨rfl, _⟩ | ⟨_, rfl⟩
  · exact hx
  · rcases hx with h | h <;> cases h
  · exact .inr rfl

theorem Img.sd {sq : Bool} {x y : Color} (h : Img x y) (hx : Sd sq x) : Sd sq y := by
  rcases hx with hx | ⟨hq, rfl⟩
  · exact .inl (h.full hx)
  · rcases h with rfl | ⟨h, _⟩ | ⟨h, _⟩
    · exact .inr ⟨hq, rfl⟩
    · cases h
    · cases h

theorem Img.tail {y : Color} (h : Img .tail y) : y = .tail := by
  rcases h with rfl | ⟨h, _⟩ | ⟨h, _⟩
  · rfl
  · cases h
  · cases h

theorem Img.null {y : Color} (h : Img .null y) : y = .null := by
  rcases h with rfl | ⟨h, _⟩ | ⟨h, _⟩
  · rfl
  · cases h
  · cases h

theorem Img.blank {y : Color} (h : Img .blank y) : y = .blank := by
  rcases h with rfl | ⟨h, _⟩ | ⟨h, _⟩
  · rfl
  · cases h
  · cases h

theorem Img.rep {y : Color} (h : Img .rep y) : y = .rep := by
  rcases h with rfl | ⟨h, _⟩ | ⟨h, _⟩
  · rfl
  · cases h
  · cases h

theorem Img.void {y : Color} (h : Img .void y) : y = .void := by
  rcases h with rfl | ⟨h, _⟩ | ⟨h, _⟩
  · rfl
  · cases h
  · cases h

theorem Img.trans {x y z : Color} (h : Img x y) (h' : Img y z) : Img x z := by
  rcases h with rfl | ⟨rfl, rfl⟩ | ⟨rfl, rfl⟩
  · exact h'
  · exact .inr (.inl ⟨rfl, h'.void⟩)
  · exact .inr (.inr ⟨rfl, h'.tail⟩)

/-- The setting of one pass: the length of the heap before it, the objects that matter (all new ones are
among them), those that must not be hollow, the kinds of objects, and whether it is the first pass. -/
structure Pal where
  n : Nat
  D : Nat → Prop
  S : Nat → Prop
  T : Tag → Bool
  sq : Bool
  new : ∀ a, n ≤ a → D a

variable {F : Pal} {col : Nat → Color}

/-- An object that matters is painted right. -/
structure Good (F : Pal) (col : Nat → Color) (len : Nat) (a : Nat) (o : Obj P) : Prop where
  ok : Ok F.sq col a o
  tag : F.T o.tag = true
  kids : ∀ c ∈ o.children, F.D c ∧ c < len

structure Neat (F : Pal) (col : Nat → Color) (h : Heap P) : Prop where
  len : F.n ≤ h.length
  good : ∀ (a : Nat) o, F.D a → h[a]? = some o → Good F col h.length a o
  flat : ∀ a, F.D a → F.S a → col a ≠ .hollow
  rest : ∀ a, h.length ≤ a → col a = .full

/-- `b` is a result for `a`. -/
def Got (F : Pal) (col : Nat → Color) (h : Heap P) (a b : Nat) : Prop :=
  (F.D b ∧ b < h.length) ∧ Img (col a) (col b)

def Item (F : Pal) (h : Heap P) (a : Nat) : Prop := F.D a ∧ a < h.length

structure NeatS (F : Pal) (col : Nat → Color) (s : St P) : Prop extends Neat F col s.heap where
  memo : ∀ e ∈ s.memo, e.1 < s.heap.length ∧ Got F col s.heap e.1 e.2

/-- More objects, and the old ones keep their colours. -/
def Next (col col' : Nat → Color) (h h' : Heap P) : Prop :=
  h.length ≤ h'.length ∧ ∀ a, a < h.length → col' a = col a

theorem Next.refl (col : Nat → Color) (h : Heap P) : Next col col h h := ⟨Nat.le_refl _, fun _ _ => rfl⟩

theorem Next.trans {c c' c'' : Nat → Color} {h h' h'' : Heap P} (h1 : Next c c' h h')
    (h2 : Next c' c'' h' h'') : Next c c'' h h'' :=
  ⟨Nat.le_trans h1.1 h2.1, fun a ha => (h2.2 a (Nat.lt_of_lt_of_le ha h1.1)).trans (h1.2 a ha)⟩

theorem Item.next {c c' : Nat → Color} {h h' : Heap P} {a : Nat} (hi : Item F h a) (hn : Next c c' h h') :
    Item F h' a := ⟨hi.1, Nat.lt_of_lt_of_le hi.2 hn.1⟩

theorem Got.next {c c' : Nat → Color} {h h' : Heap P} {a b : Nat} (hg : Got F c h a b) (ha : a < h.length)
    (hn : Next c c' h h') : Got F c' h' a b := by
  refine ⟨⟨hg.1.1, Nat.lt_of_lt_of_le hg.1.2 hn.1⟩, ?_⟩
  rw [hn.2 a ha, hn.2 b hg.1.2]
  exact hg.2

theorem placed_congr {sq : Bool} {c c' : Nat → Color} : ∀ {ts : List (Term P)} {b : Prop},
    (∀ r ∈ termRules ts, c' r = c r) → Placed sq c b ts → Placed sq c' b ts := by
  intro ts
  induction ts with
  | nil => intro _ _ _; trivial
  | cons t ts ih =>
    intro b h hp
    cases t with
    | pred q => exact ih h hp
    | rule r =>
      simp only [Placed] at hp ⊢
      rw [h r List.mem_cons_self]
      exact ⟨hp.1, ih (fun x hx => h x (List.mem_cons_of_mem _ hx)) hp.2⟩

theorem ok_congr {sq : Bool} {c c' : Nat → Color} {a : Nat} {o : Obj P} (ha : c' a = c a)
    (hc : ∀ x ∈ o.children, c' x = c x) (ho : Ok sq c a o) : Ok sq c' a o := by
  cases o with
  | prod ts m =>
    simp only [Ok] at ho ⊢
    rw [ha]
    rcases ho with ⟨h1, h2, h3⟩ | ⟨h1, e, rfl, h2⟩
    · exact .inl ⟨h1, placed_congr hc h2, h3⟩
    · exact .inr ⟨h1, e, rfl, by rw [hc e (by simp [Obj.children, termRules])]; exact h2⟩
  | rule ps =>
    simp only [Ok] at ho ⊢
    rw [ha, List.map_congr_left (l := ps) (g := c) hc]
    exact ho
  | bnf ps =>
    simp only [Ok] at ho ⊢
    rw [ha, List.map_congr_left (l := ps) (g := c) hc]
    exact ho
  | or rs =>
    simp only [Ok] at ho ⊢
    rw [ha]
    rcases ho with ⟨h1, h2⟩ | ⟨h1, h2, h3⟩
    · exact .inl ⟨h1, fun r hr => by rw [hc r hr]; exact h2 r hr⟩
    · exact .inr ⟨h1, h2, fun r hr => by rw [hc r hr]; exact h3 r hr⟩
  | forward d =>
    simp only [Ok] at ho ⊢
    rw [ha]
    exact ⟨ho.1, fun r hr => by rw [hc r (by rw [hr]; simp [Obj.children])]; exact ho.2 r hr⟩
  | emptyProd => simpa [Ok, ha] using ho
  | pipeProd v ts => simpa [Ok, ha] using ho
  | empty => simpa [Ok, ha] using ho
  | pipe p => simpa [Ok, ha] using ho
  | repOptional => exact ho.elim
  | _ =>
    simp only [Ok] at ho ⊢
    rw [ha, hc _ (by simp [Obj.children])]
    exact ho

/-- Adding objects. -/
theorem NeatS.append {s : St P} (hs : NeatS F col s) (os : List (Obj P)) {col' : Nat → Color}
    (hold : ∀ a, a < s.heap.length → col' a = col a)
    (hrest : ∀ a, s.heap.length + os.length ≤ a → col' a = .full)
    (hnew : ∀ (i : Nat) o, os[i]? = some o →
      Good F col' (s.heap.length + os.length) (s.heap.length + i) o ∧
        (F.S (s.heap.length + i) → col' (s.heap.length + i) ≠ .hollow)) :
    NeatS F col' { s with heap := s.heap ++ os } ∧ Next col col' s.heap (s.heap ++ os) := by
  have hn : Next col col' s.heap (s.heap ++ os) := ⟨by simp, hold⟩
  refine ⟨⟨⟨?_, ?_, ?_, ?_⟩, ?_⟩, hn⟩
  · have := hs.len; simp only [List.length_append]; omega
  · intro a o hd ho
    simp only [List.length_append]
    rcases Nat.lt_or_ge a s.heap.length with hl | hl
    · rw [List.getElem?_append_left hl] at ho
      have := hs.good a o hd ho
      refine ⟨ok_congr (hold a hl) (fun x hx => hold x (this.kids x hx).2) this.ok, this.tag, fun c hc => ?_⟩
      exact ⟨(this.kids c hc).1, by have := (this.kids c hc).2; omega⟩
    · rw [List.getElem?_append_right hl] at ho
      have := (hnew _ o ho).1
      rw [show s.heap.length + (a - s.heap.length) = a by omega] at this
      exact this
  · intro a hd hS
    rcases Nat.lt_or_ge a s.heap.length with hl | hl
    · rw [hold a hl]; exact hs.flat a hd hS
    · rcases Nat.lt_or_ge a (s.heap.length + os.length) with hl' | hl'
      · have hi : a - s.heap.length < os.length := by omega
        have := (hnew _ _ (List.getElem?_eq_getElem hi)).2
        rw [show s.heap.length + (a - s.heap.length) = a by omega] at this
        exact this hS
      · rw [hrest a hl']; intro e; cases e
  · intro a ha
    simp only [List.length_append] at ha
    exact hrest a ha
  · intro e he
    have := hs.memo e he
    refine ⟨?_, this.2.next this.1 hn⟩
    simp only [List.length_append]; omega

/-- The colours after painting one object. -/
def paint (col : Nat → Color) (a : Nat) (k : Color) : Nat → Color := fun x => if x = a then k else col x

/-- Adding one object. -/
theorem NeatS.alloc {s : St P} (hs : NeatS F col s) {o : Obj P} (k : Color)
    (hok : Ok F.sq (paint col s.heap.length k) s.heap.length o) (htag : F.T o.tag = true)
    (hkids : ∀ c ∈ o.children, F.D c ∧ c < s.heap.length) (hS : F.S s.heap.length → k ≠ .hollow) :
    ∃ col', Next col col' s.heap (s.alloc o).2.heap ∧ NeatS F col' (s.alloc o).2 ∧
      col' s.heap.length = k ∧ F.D s.heap.length ∧ s.heap.length < (s.alloc o).2.heap.length := by
  obtain ⟨h1, h2⟩ := hs.append [o] (col' := paint col s.heap.length k) (fun a ha => by
      simp only [paint]; rw [if_neg (by omega)]) (fun a ha => by
      simp only [List.length_singleton] at ha
      simp only [paint]; rw [if_neg (by omega)]; exact hs.rest a (by omega)) (by
      intro i o' ho'
      cases i with
      | zero =>
        cases ho'
        simp only [Nat.add_zero, List.length_singleton]
        refine ⟨⟨hok, htag, fun c hc => ⟨(hkids c hc).1, by have := (hkids c hc).2; omega⟩⟩, fun h => ?_⟩
        simp only [paint]
        exact hS h
      | succ i => cases ho')
  exact ⟨_, h2, h1, by simp [paint], F.new _ hs.len, by simp [St.alloc]⟩

/-- Changing one object in place. -/
theorem Neat.set {h : Heap P} (hs : Neat F col h) {a : Nat} {o : Obj P} (ho : F.D a → Good F col h.length a o) :
    Neat F col (h.set a o) := by
  refine ⟨by rw [List.length_set]; exact hs.len, ?_, hs.flat, by rw [List.length_set]; exact hs.rest⟩
  intro x o' hd hx
  rw [List.length_set]
  rw [List.getElem?_set] at hx
  split at hx
  · rename_i e
    split at hx
    · cases hx; subst e; exact ho hd
    · cases hx
  · exact hs.good x o' hd hx

theorem NeatS.set {s : St P} (hs : NeatS F col s) {a : Nat} {o : Obj P}
    (ho : F.D a → Good F col s.heap.length a o) : NeatS F col { s with heap := s.heap.set a o } := by
  refine ⟨hs.toNeat.set ho, fun e he => ?_⟩
  have := hs.memo e he
  exact ⟨by simpa using this.1, ⟨this.2.1.1, by simpa using this.2.1.2⟩, this.2.2⟩

/-! ### Visits -/

/-- A step keeps the heap painted; `Pre` holds before and `R` afterwards. -/
def Steps {α β : Type} (F : Pal) (Pre : (Nat → Color) → Heap P → α → Prop)
    (R : (Nat → Color) → Heap P → α → β → Prop) (f : α → St P → Except Err (β × St P)) : Prop :=
  ∀ col x s y s', NeatS F col s → Pre col s.heap x → f x s = .ok (y, s') →
    ∃ col', Next col col' s.heap s'.heap ∧ NeatS F col' s' ∧ R col' s'.heap x y

abbrev VisitSteps (F : Pal) (rec : Visit P) : Prop :=
  Steps F (fun _ h a => Item F h a) (fun col h a b => Got F col h a b) rec

def MethodSteps (F : Pal) (m : Method P) : Prop :=
  ∀ n rec, VisitSteps F rec → ∀ col (a : Nat) (o : Obj P) s b s', NeatS F col s → F.D a →
    s.heap[a]? = some o → m n rec a o s = .ok (b, s') →
    ∃ col', Next col col' s.heap s'.heap ∧ NeatS F col' s' ∧ Got F col' s'.heap a b

theorem visit_steps {m : Method P} {pid : Nat → Nat} (hp : ∀ a b, pid a = pid b → a = b)
    (hm : MethodSteps F m) : ∀ n, VisitSteps F (visit m pid n) := by
  intro n
  induction n with
  | zero => intro col a s b s' _ _ h; simp [visit] at h
  | succ n ih =>
    intro col a s b s' hs ha h
    unfold visit at h
    split at h
    · rename_i b' hl
      cases h
      unfold St.lookup at hl
      obtain ⟨e, he, rfl⟩ := Option.map_eq_some_iff.1 hl
      have h1 := List.mem_of_find?_eq_some he
      have h2 : e.1 = a := hp _ _ (by simpa using List.find?_some he)
      exact ⟨col, .refl _ _, hs, h2 ▸ (hs.memo e h1).2⟩
    · split at h
      · cases h
      · rename_i o ho
        split at h
        · cases h
        · rename_i b1 s1 hr
          cases h
          obtain ⟨col', k1, k2, k3⟩ := hm n _ ih col a o s _ _ hs ha.1 ho hr
          refine ⟨col', k1, ⟨k2.toNeat, ?_⟩, k3⟩
          intro e he
          rcases List.mem_cons.1 he with rfl | he
          · exact ⟨Nat.lt_of_lt_of_le ha.2 k1.1, k3⟩
          · exact k2.memo e he

theorem mapSt_steps {α β : Type} {Pre : (Nat → Color) → Heap P → α → Prop}
    {R : (Nat → Color) → Heap P → α → β → Prop}
    (hpre : ∀ c c' (h h' : Heap P) x, Next c c' h h' → Pre c h x → Pre c' h' x)
    (hR : ∀ c c' (h h' : Heap P) x y, Next c c' h h' → R c h x y → R c' h' x y)
    {f : α → St P → Except Err (β × St P)}
    (hf : Steps F Pre (fun c h x y => Pre c h x ∧ R c h x y) f) :
    ∀ (xs : List α) col s ys s', NeatS F col s → (∀ x ∈ xs, Pre col s.heap x) → mapSt f xs s = .ok (ys, s') →
      ∃ col', Next col col' s.heap s'.heap ∧ NeatS F col' s' ∧ Pointwise (R col' s'.heap) xs ys := by
  intro xs
  induction xs with
  | nil => intro col s ys s' hs _ h; cases h; exact ⟨col, .refl _ _, hs, .nil⟩
  | cons x xs ih =>
    intro col s ys s' hs hx h
    simp only [mapSt] at h
    split at h
    · cases h
    · rename_i y s1 h1
      split at h
      · cases h
      · rename_i zs s2 h2
        cases h
        obtain ⟨c1, a1, a2, a3, a4⟩ := hf col x s y s1 hs (hx x List.mem_cons_self) h1
        obtain ⟨c2, b1, b2, b3⟩ := ih c1 s1 zs s' a2
          (fun z hz => hpre _ _ _ _ _ a1 (hx z (List.mem_cons_of_mem _ hz))) h2
        exact ⟨c2, a1.trans b1, b2, .cons (hR _ _ _ _ _ _ b1 a4) b3⟩

/-- The results of several visits. -/
theorem mapVisit_steps {rec : Visit P} (hr : VisitSteps F rec) {xs : List Nat} {s : St P} {ys : List Nat}
    {s' : St P} (hs : NeatS F col s) (hx : ∀ x ∈ xs, Item F s.heap x) (h : mapSt rec xs s = .ok (ys, s')) :
    ∃ col', Next col col' s.heap s'.heap ∧ NeatS F col' s' ∧
      Pointwise (fun x y => Got F col' s'.heap x y) xs ys := by
  obtain ⟨c, h1, h2, h3⟩ := mapSt_steps (F := F) (Pre := fun _ h x => Item F h x)
    (R := fun c h x y => Item F h x ∧ Got F c h x y)
    (fun c c' h h' x hn hi => hi.next hn)
    (fun c c' h h' x y hn hR => ⟨hR.1.next hn, hR.2.next hR.1.2 hn⟩)
    (f := rec) (fun col x s y s' hs hp hx => by
      obtain ⟨c, k1, k2, k3⟩ := hr col x s y s' hs hp hx
      exact ⟨c, k1, k2, hp.next k1, hp.next k1, k3⟩) xs col s ys s' hs hx h
  refine ⟨c, h1, h2, ?_⟩
  clear h
  induction h3 with
  | nil => exact .nil
  | cons a _ ih => exact .cons a.2 (ih (fun x hx' => hx x (List.mem_cons_of_mem _ hx')))

/-- What becomes of a term. -/
def TermGot (F : Pal) (col : Nat → Color) (h : Heap P) : Term P → Term P → Prop
  | .pred _, u => ∃ q, u = .pred q
  | .rule r, u => ((Full (col r)) ∧ ∃ q, u = .pred q) ∨ ∃ y, u = .rule y ∧ Got F col h r y

def TermItem (F : Pal) (h : Heap P) : Term P → Prop
  | .pred _ => True
  | .rule r => Item F h r

theorem TermItem.next {c c' : Nat → Color} {h h' : Heap P} {t : Term P} (hi : TermItem F h t)
    (hn : Next c c' h h') : TermItem F h' t := by
  cases t with
  | pred q => trivial
  | rule r => exact Item.next hi hn

theorem TermGot.next {c c' : Nat → Color} {h h' : Heap P} {t u : Term P} (hi : TermItem F h t)
    (hg : TermGot F c h t u) (hn : Next c c' h h') : TermGot F c' h' t u := by
  cases t with
  | pred q => exact hg
  | rule r =>
    rcases hg with ⟨h1, h2⟩ | ⟨y, h1, h2⟩
    · exact .inl ⟨by rw [hn.2 r hi.2]; exact h1, h2⟩
    · exact .inr ⟨y, h1, h2.next hi.2 hn⟩

theorem mapTerm_steps {f : Term P → St P → Except Err (Term P × St P)}
    (hf : Steps F (fun _ h t => TermItem F h t) (fun c h t u => TermGot F c h t u) f) {xs : List (Term P)}
    {s : St P} {ys : List (Term P)} {s' : St P} (hs : NeatS F col s) (hx : ∀ x ∈ xs, TermItem F s.heap x)
    (h : mapSt f xs s = .ok (ys, s')) :
    ∃ col', Next col col' s.heap s'.heap ∧ NeatS F col' s' ∧ Pointwise (TermGot F col' s'.heap) xs ys := by
  obtain ⟨c, h1, h2, h3⟩ := mapSt_steps (F := F) (Pre := fun _ h x => TermItem F h x)
    (R := fun c h x y => TermItem F h x ∧ TermGot F c h x y)
    (fun c c' h h' x hn hi => hi.next hn)
    (fun c c' h h' x y hn hR => ⟨hR.1.next hn, hR.2.next hR.1 hn⟩)
    (f := f) (fun col x s y s' hs hp hx => by
      obtain ⟨c, k1, k2, k3⟩ := hf col x s y s' hs hp hx
      exact ⟨c, k1, k2, hp.next k1, hp.next k1, k3⟩) xs col s ys s' hs hx h
  refine ⟨c, h1, h2, ?_⟩
  clear h
  induction h3 with
  | nil => exact .nil
  | cons a _ ih => exact .cons a.2 (ih (fun x hx' => hx x (List.mem_cons_of_mem _ hx')))

theorem visitTerm_steps {rec : Visit P} (hr : VisitSteps F rec) :
    Steps F (fun _ h t => TermItem F h t) (fun c h t u => TermGot F c h t u) (visitTerm rec) := by
  intro col t s u s' hs ht h
  cases t with
  | pred p => cases h; exact ⟨col, .refl _ _, hs, _, rfl⟩
  | rule r =>
    simp only [visitTerm] at h
    cases hm : rec r s with
    | error e => rw [hm] at h; cases h
    | ok y =>
      rw [hm] at h; cases h
      obtain ⟨c, k1, k2, k3⟩ := hr col r s _ _ hs ht hm
      exact ⟨c, k1, k2, .inr ⟨_, rfl, k3⟩⟩

/-! ### Rebuilding -/

theorem placed_mono {sq : Bool} : ∀ {ts : List (Term P)} {b b' : Prop}, (b → b') →
    Placed sq col b ts → Placed sq col b' ts := by
  intro ts b b' hb hp
  cases ts with
  | nil => trivial
  | cons t ts =>
    cases t with
    | pred q => exact hp
    | rule r => exact ⟨hp.1.imp id (fun h => ⟨h.1, hb h.2⟩), hp.2⟩

theorem placed_got {h : Heap P} : ∀ {ts us : List (Term P)} {b b' : Prop}, (b → b') →
    Pointwise (TermGot F col h) ts us → Placed F.sq col b ts → Placed F.sq col b' us := by
  intro ts us b b' hb hp
  induction hp generalizing b b' with
  | nil => intro _; trivial
  | cons h1 _ ih =>
    rename_i t u ts us _
    intro hpl
    cases t with
    | pred q => obtain ⟨q', rfl⟩ := h1; exact ih id hpl
    | rule r =>
      rcases h1 with ⟨k1, q', rfl⟩ | ⟨y, rfl, k2⟩
      · exact ih (fun _ => trivial) hpl.2
      · refine ⟨?_, ih (fun e => ?_) hpl.2⟩
        · rcases hpl.1 with k | ⟨k, kb⟩
          · exact .inl (k2.2.sd k)
          · exact .inr ⟨(k ▸ k2.2 : Img .null (col y)).null, hb kb⟩
        · exact (e ▸ k2.2 : Img .tail (col y)).tail

theorem last_got {h : Heap P} {ts us : List (Term P)} (hp : Pointwise (TermGot F col h) ts us)
    (hl : LastPred ts) : LastPred us := by
  induction hp with
  | nil => exact hl
  | cons h1 h2 ih =>
    cases h2 with
    | nil =>
      obtain ⟨q, rfl⟩ := hl
      obtain ⟨q', rfl⟩ := h1
      exact ⟨q', rfl⟩
    | cons h3 h4 => exact ih hl

theorem got_kids {h : Heap P} {ts us : List (Term P)} (hp : Pointwise (TermGot F col h) ts us) :
    ∀ c ∈ termRules us, F.D c ∧ c < h.length := by
  induction hp with
  | nil => intro c hc; cases hc
  | cons h1 _ ih =>
    rename_i t u _ _ _
    have : ∀ y, u = .rule y → F.D y ∧ y < h.length := by
      rintro y rfl
      cases t with
      | pred q => obtain ⟨q', e⟩ := h1; cases e
      | rule r =>
        rcases h1 with ⟨_, q', e⟩ | ⟨y', e, k⟩
        · cases e
        · cases e; exact k.1
    cases u with
    | pred q => exact ih
    | rule y =>
      intro c hc
      rcases List.mem_cons.1 hc with rfl | hc
      · exact this _ rfl
      · exact ih c hc

theorem paint_old {k : Color} {l x : Nat} (h : x < l) : paint col l k x = col x := by
  simp only [paint]; rw [if_neg (by omega)]

theorem paint_new {k : Color} {l : Nat} : paint col l k l = k := by simp [paint]

/-- Making a production from results of terms. -/
theorem prod_steps {f : Term P → St P → Except Err (Term P × St P)}
    (hf : Steps F (fun _ h t => TermItem F h t) (fun c h t u => TermGot F c h t u) f)
    {a m : Nat} {ts : List (Term P)} {s s' : St P} {b : Nat} (hs : NeatS F col s) (hd : F.D a)
    (ho : s.heap[a]? = some (.prod ts m)) (hS : (∃ l, F.S l) → col a ≠ .hollow)
    (h : rebuildAll f ts (.prod · m) s = .ok (b, s')) :
    ∃ col', Next col col' s.heap s'.heap ∧ NeatS F col' s' ∧ Got F col' s'.heap a b := by
  have hlt := (List.getElem?_eq_some_iff.1 ho).1
  have hg := hs.good a _ hd ho
  unfold rebuildAll at h
  cases hm : mapSt f ts s with
  | error e => rw [hm] at h; cases h
  | ok y =>
    obtain ⟨us, s1⟩ := y
    rw [hm] at h
    cases h
    obtain ⟨c, k1, k2, k3⟩ := mapTerm_steps hf hs (by
      intro x hx
      cases x with
      | pred q => trivial
      | rule r =>
        refine hg.kids r ?_
        clear hm ho hg
        induction ts with
        | nil => cases hx
        | cons t ts ih =>
          rcases List.mem_cons.1 hx with rfl | hx'
          · exact List.mem_cons_self
          · cases t with
            | pred q => exact ih hx'
            | rule r' => exact List.mem_cons_of_mem _ (ih hx')) hm
    have hca := k1.2 a hlt
    have hok : Ok F.sq c a (.prod ts m) := ok_congr hca (fun x hx => k1.2 x (hg.kids x hx).2) hg.ok
    have hkids := got_kids k3
    obtain ⟨c', p1, p2, p3, p4, p5⟩ := k2.alloc (o := .prod us m) (c a) (by
      have : Ok F.sq c a (.prod us m) := by
        rcases hok with ⟨h1, h2, h3⟩ | ⟨h1, e, rfl, h2⟩
        · refine .inl ⟨?_, placed_got id k3 h2, h3.imp id (fun h => ⟨h.1, last_got k3 h.2⟩)⟩
          cases k3 with
          | nil => exact h1
          | cons _ _ => exact List.cons_ne_nil _ _
        · cases k3 with
          | cons q1 q2 =>
            cases q2
            rcases q1 with ⟨q, _⟩ | ⟨y, rfl, q⟩
            · rw [h2] at q; rcases q with q | q <;> cases q
            · exact .inr ⟨h1, y, rfl, (h2 ▸ q.2 : Img .blank (c y)).blank⟩
      rcases this with ⟨h1, h2, h3⟩ | ⟨h1, e, rfl, h2⟩
      · exact .inl ⟨h1, placed_congr (fun r hr => paint_old (hkids r hr).2) h2, by rw [paint_new]; exact h3⟩
      · refine .inr ⟨by rw [paint_new]; exact h1, e, rfl, ?_⟩
        rw [paint_old (hkids e (by simp [termRules])).2]; exact h2) hg.tag hkids
      (fun h => by rw [hca]; exact hS ⟨_, h⟩)
    refine ⟨c', k1.trans p1, p2, ⟨p4, p5⟩, .inl ?_⟩
    exact p3.trans (hca.trans ((k1.trans p1).2 a hlt).symm)

theorem okProds_got {h : Heap P} {k : Color} {ps qs : List Nat}
    (hp : Pointwise (fun x y => Got F col h x y) ps qs) (ho : OkProds k (ps.map col)) :
    OkProds k (qs.map col) := by
  have all : ∀ {Q Q' : Color → Prop}, (∀ x y, Img x y → Q x → Q' y) → (∀ c ∈ ps.map col, Q c) →
      ∀ c ∈ qs.map col, Q' c := by
    intro Q Q' hQ
    clear ho
    induction hp with
    | nil => intro _ c hc; cases hc
    | cons h1 _ ih =>
      intro hall c hc
      simp only [List.map_cons, List.mem_cons] at hc
      rcases hc with rfl | hc
      · exact hQ _ _ h1.2 (hall _ (by simp))
      · exact ih (fun c hc => hall c (by simp only [List.map_cons, List.mem_cons]; exact .inr hc)) c hc
  have hl : qs.length = ps.length := by
    clear ho all
    induction hp with
    | nil => rfl
    | cons _ _ ih => simp [ih]
  rcases ho with ⟨h1, h2⟩ | ⟨h1, h2⟩ | ⟨h1, h2, h3⟩ | ⟨h1, h2⟩
  · exact .inl ⟨h1, all (fun x y hi hx => hi.full hx) h2⟩
  · exact .inr (.inl ⟨h1, all (Q := fun c => c = .tail) (fun x y hi hx => by subst hx; exact hi.tail) h2⟩)
  · refine .inr (.inr (.inl ⟨h1, by simpa [hl] using h2, all (fun x y hi hx => ?_) h3⟩))
    rcases hx with hx | rfl | rfl
    · exact .inl (hi.full hx)
    · exact .inr (.inl hi.void)
    · rcases hi with rfl | ⟨_, rfl⟩ | ⟨e, _⟩
      · exact .inr (.inr rfl)
      · exact .inr (.inl rfl)
      · cases e
  · refine .inr (.inr (.inr ⟨h1, ?_⟩))
    cases hp with
    | nil => cases h2
    | cons q1 q2 =>
      cases q2 with
      | nil =>
        simp only [List.map_cons, List.map_nil, List.cons.injEq, and_true] at h2 ⊢
        exact (h2 ▸ q1.2 : Img .void _).void
      | cons _ _ => simp at h2

/-- Making an object from several results. -/
theorem rebuildAll_steps {rec : Visit P} (hr : VisitSteps F rec) {a : Nat} {o : Obj P} {xs : List Nat}
    {mk : List Nat → Obj P} {s s' : St P} {b : Nat} (hs : NeatS F col s) (hd : F.D a)
    (ho : s.heap[a]? = some o) (hxs : o.children = xs) (hmk : ∀ ys, (mk ys).children = ys)
    (htag : ∀ ys, F.T (mk ys).tag = true) (hnh : col a ≠ .hollow)
    (hok : ∀ c (h : Heap P) ys l, c l = c a → Ok F.sq c a o →
      Pointwise (fun x y => Got F c h x y) xs ys → Ok F.sq c a (mk ys))
    (hok' : ∀ c a l ys, c l = c a → Ok F.sq c a (mk ys) → Ok F.sq c l (mk ys))
    (h : rebuildAll rec xs mk s = .ok (b, s')) :
    ∃ col', Next col col' s.heap s'.heap ∧ NeatS F col' s' ∧ Got F col' s'.heap a b := by
  have hlt := (List.getElem?_eq_some_iff.1 ho).1
  have hg := hs.good a _ hd ho
  unfold rebuildAll at h
  cases hm : mapSt rec xs s with
  | error e => rw [hm] at h; cases h
  | ok y =>
    obtain ⟨ys, s1⟩ := y
    rw [hm] at h
    cases h
    obtain ⟨c, k1, k2, k3⟩ := mapVisit_steps hr hs (fun x hx => hg.kids x (hxs ▸ hx)) hm
    have hca := k1.2 a hlt
    have hlt' : a < s1.heap.length := Nat.lt_of_lt_of_le hlt k1.1
    have hoka : Ok F.sq c a o := ok_congr hca (fun x hx => k1.2 x (hg.kids x hx).2) hg.ok
    have hkids : ∀ x ∈ ys, F.D x ∧ x < s1.heap.length := fun x hx => by
      obtain ⟨_, _, hq⟩ := Pass.pointwise_mem_right k3 hx
      exact hq.1
    have hnew := hok c s1.heap ys a rfl hoka k3
    obtain ⟨c', p1, p2, p3, p4, p5⟩ := k2.alloc (o := mk ys) (c a) (by
      refine hok' _ a _ ys (by rw [paint_new, paint_old hlt']) ?_
      exact ok_congr (paint_old hlt') (fun x hx => paint_old (hkids x (hmk ys ▸ hx)).2) hnew) (htag ys)
      (fun x hx => hkids x (hmk ys ▸ hx)) (fun _ => by rw [hca]; exact hnh)
    refine ⟨c', k1.trans p1, p2, ⟨p4, p5⟩, .inl ?_⟩
    exact p3.trans (hca.trans ((k1.trans p1).2 a hlt).symm)

/-- Making an object from one result. -/
theorem rebuild_steps {rec : Visit P} (hr : VisitSteps F rec) {a : Nat} {o : Obj P} {r : Nat}
    {mk : Nat → Obj P} {s s' : St P} {b : Nat} (hs : NeatS F col s) (hd : F.D a)
    (ho : s.heap[a]? = some o) (hxs : o.children = [r]) (hmk : ∀ y, (mk y).children = [y])
    (htag : ∀ y, F.T (mk y).tag = true) (hnh : col a ≠ .hollow)
    (hok : ∀ c y, Ok F.sq c a o → Img (c r) (c y) → Ok F.sq c a (mk y))
    (hok' : ∀ c a l y, c l = c a → Ok F.sq c a (mk y) → Ok F.sq c l (mk y))
    (h : rebuild rec r mk s = .ok (b, s')) :
    ∃ col', Next col col' s.heap s'.heap ∧ NeatS F col' s' ∧ Got F col' s'.heap a b := by
  have hlt := (List.getElem?_eq_some_iff.1 ho).1
  have hg := hs.good a _ hd ho
  unfold rebuild at h
  cases hm : rec r s with
  | error e => rw [hm] at h; cases h
  | ok y =>
    obtain ⟨y, s1⟩ := y
    rw [hm] at h
    cases h
    obtain ⟨c, k1, k2, k3⟩ := hr col r s y s1 hs (hg.kids r (by rw [hxs]; simp)) hm
    have hca := k1.2 a hlt
    have hlt' : a < s1.heap.length := Nat.lt_of_lt_of_le hlt k1.1
    have hoka : Ok F.sq c a o := ok_congr hca (fun x hx => k1.2 x (hg.kids x hx).2) hg.ok
    have hkids : ∀ x ∈ (mk y).children, F.D x ∧ x < s1.heap.length := fun x hx => by
      rw [hmk, List.mem_singleton] at hx
      subst hx; exact k3.1
    have hnew := hok c y hoka k3.2
    obtain ⟨c', p1, p2, p3, p4, p5⟩ := k2.alloc (o := mk y) (c a) (by
      refine hok' _ a _ y (by rw [paint_new, paint_old hlt']) ?_
      exact ok_congr (paint_old hlt') (fun x hx => paint_old (hkids x hx).2) hnew) (htag y)
      hkids (fun _ => by rw [hca]; exact hnh)
    refine ⟨c', k1.trans p1, p2, ⟨p4, p5⟩, .inl ?_⟩
    exact p3.trans (hca.trans ((k1.trans p1).2 a hlt).symm)

theorem ok_not_hollow {sq : Bool} {a : Nat} {o : Obj P} (ho : Ok sq col a o) (hp : ∀ ts m, o ≠ .prod ts m) :
    col a ≠ .hollow := by
  intro e
  cases o <;> simp only [Ok, OkProds, e] at ho <;> try simp at ho
  case prod ts m => exact hp _ _ rfl
  case repeatable => split at ho <;> simp at ho

theorem or_got {h : Heap P} {a : Nat} {rs ys : List Nat} (hp : Pointwise (fun x y => Got F col h x y) rs ys)
    (ho : Ok (P := P) F.sq col a (.or rs)) : Ok (P := P) F.sq col a (.or ys) := by
  have hl : ys.length = rs.length := by
    clear ho
    induction hp with
    | nil => rfl
    | cons _ _ ih => simp [ih]
  rcases ho with ⟨h1, h2⟩ | ⟨h1, h2, h3⟩
  · refine .inl ⟨h1, fun y hy => ?_⟩
    obtain ⟨x, hx, hg⟩ := Pass.pointwise_mem_right hp hy
    exact hg.2.sd (h2 x hx)
  · refine .inr ⟨h1, by omega, fun y hy => ?_⟩
    obtain ⟨x, hx, hg⟩ := Pass.pointwise_mem_right hp hy
    exact (h3 x hx).imp hg.2.sd (fun e => by have k := hg.2; rw [e] at k; exact k.blank)

theorem self_steps {s : St P} {a : Nat} (hs : NeatS F col s) (hd : F.D a) (hlt : a < s.heap.length) :
    ∃ col', Next col col' s.heap s.heap ∧ NeatS F col' s ∧ Got F col' s.heap a a :=
  ⟨col, .refl _ _, hs, ⟨hd, hlt⟩, .inl rfl⟩

/-- The methods that all transformators share. -/
theorem default_steps (hrule : F.T .rule = true) {n : Nat} {rec : Visit P} (hr : VisitSteps F rec) {a : Nat}
    {o : Obj P} {s s' : St P} {b : Nat} (hs : NeatS F col s) (hd : F.D a) (ho : s.heap[a]? = some o)
    (hS : (∃ l, F.S l) → col a ≠ .hollow) (h : defaultMethod n rec a o s = .ok (b, s')) :
    ∃ col', Next col col' s.heap s'.heap ∧ NeatS F col' s' ∧ Got F col' s'.heap a b := by
  have hg := hs.good a o hd ho
  have hlt := (List.getElem?_eq_some_iff.1 ho).1
  have htag := hg.tag
  cases o with
  | prod ts m => exact prod_steps (visitTerm_steps hr) hs hd ho hS h
  | rule ps =>
    refine rebuildAll_steps (mk := .rule) hr hs hd ho rfl (fun _ => rfl) (fun _ => htag) (ok_not_hollow hg.ok (by simp)) ?_ ?_ h
    · intro c h ys l _ ho hp; exact okProds_got hp ho
    · intro c a l ys e ho; simp only [Ok] at ho ⊢; rw [e]; exact ho
  | bnf ps x y z w =>
    refine rebuildAll_steps (mk := .rule) hr hs hd ho rfl (fun _ => rfl) (fun _ => hrule) (ok_not_hollow hg.ok (by simp)) ?_ ?_ h
    · intro c h ys l _ ho hp; exact okProds_got hp ho
    · intro c a l ys e ho; simp only [Ok] at ho ⊢; rw [e]; exact ho
  | or rs =>
    refine rebuildAll_steps (mk := .or) hr hs hd ho rfl (fun _ => rfl) (fun _ => htag) (ok_not_hollow hg.ok (by simp)) ?_ ?_ h
    · intro c h ys l _ ho hp; exact or_got hp ho
    · intro c a l ys e ho; simp only [Ok] at ho ⊢; rw [e]; exact ho
  | emptyProd => cases h; exact self_steps hs hd hlt
  | pipeProd => cases h; exact self_steps hs hd hlt
  | forward => cases h; exact self_steps hs hd hlt
  | empty => cases h; exact self_steps hs hd hlt
  | pipe => cases h; exact self_steps hs hd hlt
  | optional => cases h
  | repeatable => cases h
  | repOptional => cases h
  | named r x =>
    refine rebuild_steps (mk := (.named · x)) hr hs hd ho rfl (fun _ => rfl) (fun _ => htag) (ok_not_hollow hg.ok (by simp)) ?_ ?_ h
    · intro c y ho hi; exact ⟨ho.1, hi.sd ho.2⟩
    · intro c a l y e ho; simp only [Ok] at ho ⊢; rw [e]; exact ho
  | interp r x =>
    refine rebuild_steps (mk := (.interp · x)) hr hs hd ho rfl (fun _ => rfl) (fun _ => htag) (ok_not_hollow hg.ok (by simp)) ?_ ?_ h
    · intro c y ho hi; exact ⟨ho.1, hi.sd ho.2⟩
    · intro c a l y e ho; simp only [Ok] at ho ⊢; rw [e]; exact ho
  | relation r x =>
    refine rebuild_steps (mk := (.relation · x)) hr hs hd ho rfl (fun _ => rfl) (fun _ => htag) (ok_not_hollow hg.ok (by simp)) ?_ ?_ h
    · intro c y ho hi; exact ⟨ho.1, hi.sd ho.2⟩
    · intro c a l y e ho; simp only [Ok] at ho ⊢; rw [e]; exact ho
  | minBounded r x y =>
    refine rebuild_steps (mk := (.minBounded · x y)) hr hs hd ho rfl (fun _ => rfl) (fun _ => htag) (ok_not_hollow hg.ok (by simp)) ?_ ?_ h
    · intro c y ho hi; exact ho.imp (fun h => ⟨h.1, hi.full h.2⟩) (fun h => ⟨h.1, h.2.1, hi.sd h.2.2⟩)
    · intro c a l y e ho; simp only [Ok] at ho ⊢; rw [e]; exact ho
  | maxBounded r x y =>
    refine rebuild_steps (mk := (.maxBounded · x y)) hr hs hd ho rfl (fun _ => rfl) (fun _ => htag) (ok_not_hollow hg.ok (by simp)) ?_ ?_ h
    · intro c y ho hi; exact ho.imp (fun h => ⟨h.1, hi.full h.2⟩) (fun h => ⟨h.1, h.2.1, hi.sd h.2.2⟩)
    · intro c a l y e ho; simp only [Ok] at ho ⊢; rw [e]; exact ho
  | minMaxBounded r x y z =>
    refine rebuild_steps (mk := (.minMaxBounded · x y z)) hr hs hd ho rfl (fun _ => rfl) (fun _ => htag) (ok_not_hollow hg.ok (by simp)) ?_ ?_ h
    · intro c y ho hi; exact ho.imp (fun h => ⟨h.1, hi.full h.2⟩) (fun h => ⟨h.1, h.2.1, hi.sd h.2.2⟩)
    · intro c a l y e ho; simp only [Ok] at ho ⊢; rw [e]; exact ho

end Yargy.Tint
