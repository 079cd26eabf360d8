import Verif.Properties.Tokenizers
/-!
C43: the tags a tagger knows, said without `check_tag`.
-/
namespace Yargy

/-- The tag stands in the list `tags` of a user's tagger somewhere inside the tagger (`yargy/tagger.py:4,28-32`). -/
inductive ListsTag (tag : Str) : Tagger → Prop where
  | user {tags call} : tag ∈ tags → ListsTag tag (.user tags call)
  | part {taggers t} : t ∈ taggers → ListsTag tag t → ListsTag tag (.compose taggers)

mutual
theorem lists_of_check {tag : Str} : ∀ (t : Tagger), t.checkTag tag = true → ListsTag tag t
  | .base => fun h => by rw [Tagger.checkTag] at h; cases h
  | .pass => fun h => by rw [Tagger.checkTag] at h; cases h
  | .user tags _ => fun h => by rw [Tagger.checkTag] at h; exact .user (by simpa using h)
  | .compose ts => fun h => by
    rw [Tagger.checkTag] at h
    obtain ⟨t, ht, hl⟩ := lists_of_any ts h
    exact .part ht hl
theorem lists_of_any {tag : Str} : ∀ (ts : List Tagger), Tagger.checkAny ts tag = true → ∃ t ∈ ts, ListsTag tag t
  | [] => fun h => by rw [Tagger.checkAny] at h; cases h
  | t :: rest => fun h => by
    rw [Tagger.checkAny, Bool.or_eq_true] at h
    rcases h with h | h
    · exact ⟨t, List.mem_cons_self, lists_of_check t h⟩
    · obtain ⟨u, hu, hl⟩ := lists_of_any rest h
      exact ⟨u, List.mem_cons_of_mem _ hu, hl⟩
end

/-- A tagger knows exactly the tags that users' taggers inside it list, however compositions are nested; the
taggers of the library know none. -/
theorem tag_known_iff (t : Tagger) (tag : Str) : t.checkTag tag = true ↔ ListsTag tag t := by
  refine ⟨lists_of_check t, fun h => ?_⟩
  induction h with
  | user h => rw [Tagger.checkTag]; simpa using h
  | part ht _ ih => exact (compose_tags _ _).2 ⟨_, ht, ih⟩

example : ListsTag "N".toList (.compose [.pass, sampleTagger]) ∧ ¬ ListsTag "M".toList (.compose [.pass, sampleTagger]) := by
  rw [← tag_known_iff, ← tag_known_iff]
  decide +kernel

end Yargy
