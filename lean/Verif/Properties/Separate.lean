import Verif.Proofs.TokenLocal
import Verif.Properties.Text
/-!
C68: what stands between white space is cut into tokens as if it stood alone; hence a line of a gazetteer is found
wherever it stands between white space.
-/
namespace Yargy
open Spec Local

variable {L : Lang} {setOrder : List Str → List Str} {relation : Nat → Relation} {pid : Nat → Nat} {limit root : Nat}
  {h h' : Heap Pred} {H : Type} [DecidableEq H] {hash : Key → H} {r : Reader} {p : TextParser} {c : Char}

/-- C68: the tokens of a text are those of what is before a separating character, followed by those of what is after
it. -/
theorem tokens_split {t : Tokenizer} (hne : t.compiled ≠ []) (hin : ∀ r ∈ t.compiled, Inside r)
    (hs : ∀ r ∈ t.compiled, Separates c r) {a b : Str} {ts us : List Token} (ha : t.call a = .ok ts)
    (hb : t.call b = .ok us) : t.call (a ++ c :: b) = .ok (ts ++ us.map (movedBy (a.length + 1))) := by
  obtain ⟨fs, f1, f2⟩ := call_cut hne hin a
  obtain ⟨gs, g1, g2⟩ := call_cut hne hin b
  obtain ⟨ks, k1, k2⟩ := call_cut hne hin (a ++ c :: b)
  rw [ha] at f1
  rw [hb] at g1
  cases f1
  cases g1
  have e := cut_unique k2 (cut_append hs hin f2 (Nat.zero_le _) g2)
  rw [k1, e, List.map_append, List.map_map, List.map_map]
  have i1 := cut_inside hin f2
  congr 2
  · refine List.map_congr_left (fun f hf => ?_)
    have := i1 f hf
    unfold Found.token
    rw [List.drop_append_of_le_length (by omega), List.take_append_of_le_length (by rw [List.length_drop]; omega)]
  · refine List.map_congr_left (fun f hf => ?_)
    show Found.token _ (later (a.length + 1) f) = movedBy (a.length + 1) (Found.token b f)
    unfold Found.token later movedBy
    dsimp only
    rw [show a.length + 1 + f.start = a.length + (f.start + 1) by omega, List.drop_append,
      List.drop_eq_nil_of_le (by omega), List.nil_append, show a.length + (f.start + 1) - a.length = f.start + 1 by omega,
      List.drop_succ_cons, show a.length + (f.start + 1) + f.len = a.length + 1 + (f.start + f.len) by omega]

theorem plus_proper (q : Char → Bool) : ReProper (Re.plus q) :=
  ⟨trivial, fun _ ⟨c, _, e⟩ => (nomatch e)⟩

/-- White space other than line breaks separates words for the default rules. -/
theorem default_separates {C : Classes} (hC : SaneClasses C) (hc : C.space c = true) (h1 : c ≠ '\n') (h2 : c ≠ '\r') :
    ∀ r ∈ defaultRules C, Inside r ∧ Separates c r := by
  have no : ∀ (q : Char → Bool), (∀ c, q c = true → C.space c = false) → q c = false := by
    intro q hq
    cases e : q c with
    | false => rfl
    | true => rw [hq c e] at hc; cases hc
  have punct : (punctuation.contains c) = false := by
    cases e : punctuation.contains c with
    | false => rfl
    | true => rw [hC.punct c (by simpa using e)] at hc; cases hc
  intro r hr
  simp only [defaultRules, List.mem_cons, List.not_mem_nil, or_false] at hr
  rcases hr with rfl | rfl | rfl | rfl | rfl | rfl <;> refine ⟨re_inside _ _ _, re_separates _ ?_ ?_ _ _⟩
  · exact plus_proper _
  · exact no _ hC.russian
  · exact plus_proper _
  · exact no _ hC.latin
  · exact plus_proper _
  · exact no _ hC.digit
  · trivial
  · exact punct
  · exact plus_proper _
  · show (c == '\n' || c == '\r') = false
    simp [h1, h2]
  · trivial
  · show (!C.space c) = false
    rw [hc]; rfl

/-- C68, for the default tokenizer. -/
theorem default_tokens_split {C : Classes} (hC : SaneClasses C) (hc : C.space c = true) (h1 : c ≠ '\n') (h2 : c ≠ '\r')
    {t : Tokenizer} (ht : Tokenizer.new (defaultRules C) = .ok t) {a b : Str} {ts us : List Token}
    (ha : t.call a = .ok ts) (hb : t.call b = .ok us) :
    t.call (a ++ c :: b) = .ok (ts ++ us.map (movedBy (a.length + 1))) := by
  obtain ⟨e, _⟩ := new_ok ht
  have hall := default_separates hC hc h1 h2
  subst e
  exact tokens_split (by simp [defaultRules]) (fun r hr => (hall r hr).1) (fun r hr => (hall r hr).2) ha hb

/-- The words of a text are those before white space and those after it. -/
theorem reader_split {C : Classes} (hC : SaneClasses C) (hc : C.space c = true) (h1 : c ≠ '\n') (h2 : c ≠ '\r')
    (ht : Tokenizer.new (defaultRules C) = .ok r.tokenizer) (hr : Answers r) (a b : Str) :
    r.split (a ++ c :: b) = r.split a ++ r.split b := by
  obtain ⟨ts, _, k1, _, _, k2, _⟩ := reader_tokens hr a
  obtain ⟨us, _, g1, _, _, g2, _⟩ := reader_tokens hr b
  obtain ⟨vs, _, e1, _, _, e2, _⟩ := reader_tokens hr (a ++ c :: b)
  rw [default_tokens_split hC hc h1 h2 ht k1 g1] at e1
  cases e1
  rw [e2, k2, g2, List.map_append, List.map_map]
  rfl

/-- The tab separates, for the default tokenizer of the examples; a letter does not. -/
example : (sampleReader.tokenizer.call "ab\tba".toList).toOption.map (fun ts => ts.map (fun x => (x.value, x.span))) =
      some [("ab".toList, (0, 2)), ("ba".toList, (3, 5))] ∧
    (sampleReader.tokenizer.call "abcba".toList).toOption.map (fun ts => ts.map (fun x => (x.value, x.span))) =
      some [("abcba".toList, (0, 5))] := by
  decide +kernel

end Yargy
