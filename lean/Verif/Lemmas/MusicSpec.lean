import Verif.Spec.Music
import Mathlib.Tactic.Push
/-! Facts about the readings of patterns. -/
namespace Spec

theorem mem_starReadings {f : List Nat → List (List Nat)} {r w : List Nat} :
    w ∈ starReadings f r ↔ ∃ a t v, r = a ++ t ∧ v ∈ f t ∧ w = a ++ v := by
  induction r generalizing w with
  | nil =>
    rw [starReadings]
    constructor
    · intro h; exact ⟨[], [], w, rfl, h, rfl⟩
    · rintro ⟨a, t, v, e, h, rfl⟩
      obtain ⟨rfl, rfl⟩ := List.append_eq_nil_iff.1 e.symm
      exact h
  | cons x r ih =>
    rw [starReadings, List.mem_append, List.mem_map]
    constructor
    · rintro (h | ⟨w', h, rfl⟩)
      · exact ⟨[], x :: r, w, rfl, h, rfl⟩
      · obtain ⟨a, t, v, e, h', rfl⟩ := ih.1 h
        exact ⟨x :: a, t, v, by rw [e]; rfl, h', rfl⟩
    · rintro ⟨a, t, v, e, h, rfl⟩
      cases a with
      | nil => left; rw [List.nil_append] at e; rw [e]; exact h
      | cons y a =>
        injection e with e1 e2
        subst e1
        exact Or.inr ⟨a ++ v, ih.2 ⟨a, t, v, e2, h, rfl⟩, rfl⟩

/-- A row can be read in some way just if it matches. -/
theorem readings_ne_nil (p : List Tok) (r : List Nat) : readings p r ≠ [] ↔ Matches p r := by
  induction p generalizing r with
  | nil => unfold readings Matches; split <;> simp_all
  | cons t p ih =>
    cases t with
    | bell b =>
      cases r with
      | nil => simp [readings, Matches]
      | cons x r =>
        rw [readings, Matches]
        by_cases h : x = b
        · subst h; rw [if_pos rfl, ih]; simp
        · rw [if_neg h]; simp [h]
    | any =>
      cases r with
      | nil => simp [readings, Matches]
      | cons x r => rw [readings, Matches, Ne, List.map_eq_nil_iff]; rw [show (¬readings p r = []) = (readings p r ≠ []) from rfl, ih]; exact ⟨fun h => ⟨x, r, rfl, h⟩, by rintro ⟨y, t, e, h⟩; injection e with e1 e2; rw [e2]; exact h⟩
    | set l =>
      cases r with
      | nil => simp [readings, Matches]
      | cons x r =>
        rw [readings, Matches, Ne, List.flatMap_eq_nil_iff]
        push Not
        constructor
        · rintro ⟨b, hb, h⟩
          split at h
          · rename_i e; subst e; exact ⟨x, r, rfl, hb, (ih r).1 h⟩
          · exact absurd rfl h
        · rintro ⟨y, t, e, hy, h⟩
          injection e with e1 e2
          subst e1 e2
          exact ⟨x, hy, by rw [if_pos rfl]; exact (ih r).2 h⟩
    | star =>
      rw [readings, Matches]
      constructor
      · intro h
        obtain ⟨w, hw⟩ := List.exists_mem_of_ne_nil _ h
        obtain ⟨a, t, v, e, h, -⟩ := mem_starReadings.1 hw
        exact ⟨a, t, e, (ih t).1 (List.ne_nil_of_mem h)⟩
      · rintro ⟨a, t, e, h⟩
        obtain ⟨v, hv⟩ := List.exists_mem_of_ne_nil _ ((ih t).2 h)
        exact List.ne_nil_of_mem (mem_starReadings.2 ⟨a, t, v, e, hv, rfl⟩)

end Spec
