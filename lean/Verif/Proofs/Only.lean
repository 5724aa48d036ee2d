import Mathlib.Data.List.Nodup
import Verif.Model.Item

/-!
# The only one of its name
-/

set_option autoImplicit false

namespace Genco

theorem only_one {α β : Type} {l : List α} (hl : l.Nodup) (f : α → β) (key : β → Str) (b : β) :
    (∃ before after, l.map f = before ++ b :: after ∧ ∀ x ∈ before ++ after, key x ≠ key b) ↔
      ∃ j ∈ l, f j = b ∧ ∀ k ∈ l, key (f k) = key b → k = j := by
  constructor
  · rintro ⟨before, after, h, hu⟩
    obtain ⟨a, c, rfl, rfl, hc⟩ := List.map_eq_append_iff.1 h
    obtain ⟨j, c, rfl, rfl, rfl⟩ := List.map_eq_cons_iff.1 hc
    refine ⟨j, by simp, rfl, ?_⟩
    intro k hk hkey
    rcases List.mem_append.1 hk with hk | hk
    · exact absurd hkey (hu _ (List.mem_append_left _ (List.mem_map_of_mem hk)))
    · rcases List.mem_cons.1 hk with hk | hk
      · exact hk
      · exact absurd hkey (hu _ (List.mem_append_right _ (List.mem_map_of_mem hk)))
  · rintro ⟨j, hj, rfl, hu⟩
    obtain ⟨a, c, rfl⟩ := List.append_of_mem hj
    refine ⟨a.map f, c.map f, by simp, ?_⟩
    intro x hx hkey
    rw [← List.map_append] at hx
    obtain ⟨k, hk, rfl⟩ := List.mem_map.1 hx
    have hkj := hu k (by
      rcases List.mem_append.1 hk with hk | hk
      · exact List.mem_append_left _ hk
      · exact List.mem_append_right _ (List.mem_cons_of_mem _ hk)) hkey
    subst hkj
    rw [List.nodup_middle, List.nodup_cons] at hl
    exact hl.1 hk

end Genco
