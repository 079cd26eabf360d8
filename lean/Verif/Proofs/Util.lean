/-! Small list lemmas missing from core. -/
namespace Yargy

theorem getD_eq_getElem {α} (l : List α) (d : α) {i : Nat} (h : i < l.length) :
    l.getD i d = l[i] := by
  simp [List.getD_eq_getElem?_getD, h]

end Yargy
