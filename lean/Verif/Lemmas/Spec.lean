import Verif.Spec.Row
import Verif.Lemmas.RowC
import Mathlib.Data.List.Count

namespace Ringing
open Spec

theorem bellAt_eq_fn (r : Row) (i : Nat) : bellAt r i = Row.fn r i := by
  unfold bellAt
  split
  · rename_i h; rw [Row.fn_of_lt h]
  · rename_i h; rw [Row.fn_of_ge (by omega)]

theorem isRow_iff_valid (r : Row) : IsRow r ↔ Row.Valid r := by
  unfold IsRow
  constructor
  · rintro ⟨hl, h⟩
    refine ⟨?_, hl⟩
    have hsub : List.range r.length ⊆ r := by
      intro b hb
      rw [← List.one_le_count_iff]
      rw [h b (List.mem_range.1 hb)]
    have := List.subperm_of_subset List.nodup_range hsub
    exact (this.perm_of_length_le (by simp)).symm
  · intro h
    refine ⟨h.2, fun b hb => ?_⟩
    exact List.count_eq_one_of_mem h.nodup (h.mem_iff.2 hb)

end Ringing
