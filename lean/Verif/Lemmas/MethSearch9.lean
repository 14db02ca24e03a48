import Verif.Lemmas.MethSearch8

namespace Ringing
open Spec Row MethodUtils
namespace MethSearch

/-! ### Long places in the lead going round -/

theorem Facts.placeAt {A : Args} {full : List Change} {g : Nat → Change} (F : Facts A full g) {o p : Nat} (ho : o < A.leadLen) (i : Int)
    (hi : ∃ t : Int, i = o + t * (A.leadLen : Int)) :
    IsPlace A.bells (Spec.around (full.map Change.swaps) i) p ↔ PlaceAt A.bells g p o := by
  rw [F.around ho i hi]; rfl

theorem Facts.long_of_run {A : Args} {full : List Change} {g : Nat → Change} (F : Facts A full g) {k d : Nat} (hd : d < A.leadLen)
    (h : Run A.bells g k d) : LongPlace A.bells k (full.map Change.swaps) := by
  obtain ⟨p, r, h1, h2, h3⟩ := h
  refine ⟨p, (d - r : Nat), fun j hj => ?_⟩
  rw [F.placeAt (o := d - r + j) (by omega) _ ⟨0, by omega⟩]
  exact h3 _ (by omega) (by omega)

theorem Facts.long_of_le {A : Args} {full : List Change} {g : Nat → Change} (F : Facts A full g) {k : Nat} (hn : A.leadLen ≠ 0)
    (h : RunLE A.bells g A.leadLen k) : LongPlace A.bells k (full.map Change.swaps) := by
  obtain ⟨p, x, y, h1, hx, hy, h2, h3, h4⟩ := h
  refine ⟨p, (A.leadLen - 1 - x : Nat), fun j hj => ?_⟩
  by_cases h5 : A.leadLen - 1 - x + j < A.leadLen
  · rw [F.placeAt (o := A.leadLen - 1 - x + j) h5 _ ⟨0, by omega⟩]
    by_cases h6 : A.leadLen - 1 - x + j = A.leadLen - 1
    · rw [h6]; exact h1
    · exact h2 _ (by omega) (by omega)
  · rw [F.placeAt (o := A.leadLen - 1 - x + j - A.leadLen) (by omega) _ ⟨1, by omega⟩]
    exact h3 _ (by omega)

theorem Facts.le_of_window {A : Args} {full : List Change} {g : Nat → Change} (F : Facts A full g) {k i p : Nat}
    (hk : 0 < k) (hk2 : k < 2 * A.leadLen) (hi : i < A.leadLen) (hik : A.leadLen ≤ i + k)
    (h : ∀ j : Nat, j < k → IsPlace A.bells (Spec.around (full.map Change.swaps) ((i : Int) + j)) p) :
    RunLE A.bells g A.leadLen k := by
  have h1 : ∀ o, i ≤ o → o < A.leadLen → PlaceAt A.bells g p o := by
    intro o h1 h2
    have := h (o - i) (by omega)
    rwa [F.placeAt (o := o) h2 _ ⟨0, by omega⟩] at this
  have h2 : ∀ o, o < A.leadLen → o < i + k - A.leadLen → PlaceAt A.bells g p o := by
    intro o h2 h3
    have := h (o + A.leadLen - i) (by omega)
    rwa [F.placeAt (o := o) h2 _ ⟨1, by omega⟩] at this
  by_cases h3 : i + k - A.leadLen ≤ A.leadLen - 1
  · exact ⟨p, A.leadLen - 1 - i, i + k - A.leadLen, h1 _ (by omega) (by omega), by omega, h3,
      fun o h4 h5 => h1 o (by omega) (by omega), fun o h4 => h2 o (by omega) h4, by omega⟩
  · exact ⟨p, A.leadLen - 1, A.leadLen - 1, h1 _ (by omega) (by omega), le_rfl, le_rfl,
      fun o h4 h5 => h2 o (by omega) (by omega), fun o h4 => h2 o (by omega) (by omega), by omega⟩

theorem Facts.window {A : Args} {full : List Change} {g : Nat → Change} (F : Facts A full g) {k : Nat} (hn : A.leadLen ≠ 0)
    (h : LongPlace A.bells k (full.map Change.swaps)) :
    ∃ (p i : Nat), i < A.leadLen ∧ ∀ j : Nat, j < k → IsPlace A.bells (Spec.around (full.map Change.swaps) ((i : Int) + j)) p := by
  obtain ⟨p, i, h⟩ := h
  obtain ⟨i', t, h1, rfl⟩ := reduce_int (n := A.leadLen) (by omega) i
  refine ⟨p, i', h1, fun j hj => ?_⟩
  have := h j hj
  have hl : (full.map Change.swaps).length = A.leadLen := by rw [List.length_map, F.len]
  rwa [around_congr _ (k := (i' : Int) + j) t (by rw [hl]; ring)] at this

/-- Without symmetry. -/
theorem Facts.long_iff {A : Args} {full : List Change} {g : Nat → Change} (F : Facts A full g) {k : Nat} (hn : A.leadLen ≠ 0)
    (hk : 0 < k) (hk2 : k < 2 * A.leadLen) :
    LongPlace A.bells k (full.map Change.swaps) ↔ (∃ d, d < A.leadLen ∧ Run A.bells g k d) ∨ RunLE A.bells g A.leadLen k := by
  constructor
  · intro h
    obtain ⟨p, i, hi, h⟩ := F.window hn h
    by_cases hik : A.leadLen ≤ i + k
    · exact Or.inr (F.le_of_window hk hk2 hi hik h)
    · left
      refine ⟨i + k - 1, by omega, p, k - 1, by omega, by omega, fun o h1 h2 => ?_⟩
      have := h (o - i) (by omega)
      rwa [F.placeAt (o := o) (by omega) _ ⟨0, by omega⟩] at this
  · rintro (⟨d, hd, h⟩ | h)
    · exact F.long_of_run hd h
    · exact F.long_of_le hn h

/-- In a palindromic lead. -/
theorem Facts.long_sym {A : Args} {full : List Change} {g : Nat → Change} (F : Facts A full g) {k : Nat} (hn : A.leadLen ≠ 0)
    (hev : A.leadLen % 2 = 0) (hk : 0 < k) (hk2 : k < 2 * A.leadLen)
    (hsym : ∀ j, j < A.leadLen / 2 → g (A.leadLen / 2 - 1 + j) = g (A.leadLen / 2 - 1 - j)) :
    LongPlace A.bells k (full.map Change.swaps) ↔
      (∃ d, d < A.leadLen / 2 ∧ Run A.bells g k d) ∨ Run A.bells g k (A.leadLen - 1) ∨
      Run A.bells g (k / 2 + 1) (A.leadLen / 2 - 1) ∨ Run A.bells g (k / 2 + 1) (A.leadLen - 1) ∨
      RunLE A.bells g A.leadLen k := by
  constructor
  · intro h
    obtain ⟨p, i, hi, h⟩ := F.window hn h
    by_cases hik : A.leadLen ≤ i + k
    · exact Or.inr (Or.inr (Or.inr (Or.inr (F.le_of_window hk hk2 hi hik h))))
    · have hP : ∀ o, i ≤ o → o < i + k → PlaceAt A.bells g p o := by
        intro o h1 h2
        have := h (o - i) (by omega)
        rwa [F.placeAt (o := o) (by omega) _ ⟨0, by omega⟩] at this
      have href : ∀ o, o + 1 < A.leadLen → PlaceAt A.bells g p (A.leadLen - 2 - o) → PlaceAt A.bells g p o := by
        intro o h1 h2
        unfold PlaceAt at *
        by_cases h3 : o < A.leadLen / 2 - 1
        · have := hsym (A.leadLen / 2 - 1 - o) (by omega)
          rw [show A.leadLen / 2 - 1 + (A.leadLen / 2 - 1 - o) = A.leadLen - 2 - o by omega,
            show A.leadLen / 2 - 1 - (A.leadLen / 2 - 1 - o) = o by omega] at this
          rwa [this] at h2
        · have := hsym (o - (A.leadLen / 2 - 1)) (by omega)
          rw [show A.leadLen / 2 - 1 + (o - (A.leadLen / 2 - 1)) = o by omega,
            show A.leadLen / 2 - 1 - (o - (A.leadLen / 2 - 1)) = A.leadLen - 2 - o by omega] at this
          rwa [this]
      by_cases h1 : i + k ≤ A.leadLen / 2
      · left
        exact ⟨i + k - 1, by omega, p, k - 1, by omega, by omega, fun o h2 h3 => hP o (by omega) (by omega)⟩
      · by_cases h2 : A.leadLen / 2 - 1 ≤ i
        · left
          exact ⟨A.leadLen - 2 - i, by omega, p, k - 1, by omega, by omega,
            fun o h3 h4 => href o (by omega) (hP _ (by omega) (by omega))⟩
        · right; right; left
          by_cases h3 : i + k - A.leadLen / 2 ≤ A.leadLen / 2 - 1 - i
          · exact ⟨p, A.leadLen / 2 - 1 - i, by omega, by omega, fun o h4 h5 => hP o (by omega) (by omega)⟩
          · exact ⟨p, i + k - A.leadLen / 2, by omega, by omega,
              fun o h4 h5 => href o (by omega) (hP _ (by omega) (by omega))⟩
  · rintro (⟨d, hd, h⟩ | h | ⟨p, r, h1, h2, h3⟩ | ⟨p, r, h1, h2, h3⟩ | h)
    · exact F.long_of_run (by omega) h
    · exact F.long_of_run (by omega) h
    · refine ⟨p, (A.leadLen / 2 - 1 - r : Nat), fun j hj => ?_⟩
      rw [F.placeAt (o := A.leadLen / 2 - 1 - r + j) (by omega) _ ⟨0, by omega⟩]
      by_cases h4 : j ≤ r
      · exact h3 _ (by omega) (by omega)
      · have := hsym (j - r) (by omega)
        unfold PlaceAt
        rw [show A.leadLen / 2 - 1 - r + j = A.leadLen / 2 - 1 + (j - r) by omega, this]
        exact h3 _ (by omega) (by omega)
    · refine ⟨p, (A.leadLen - 1 - r : Nat), fun j hj => ?_⟩
      by_cases h4 : j ≤ r
      · rw [F.placeAt (o := A.leadLen - 1 - r + j) (by omega) _ ⟨0, by omega⟩]
        exact h3 _ (by omega) (by omega)
      · have hl : PlaceAt A.bells g p (A.leadLen - 1 - (j - r)) := h3 _ (by omega) (by omega)
        rw [F.placeAt (o := j - r - 1) (by omega) _ ⟨1, by omega⟩]
        unfold PlaceAt at *
        by_cases h5 : j - r ≤ A.leadLen / 2
        · have := hsym (A.leadLen / 2 - (j - r)) (by omega)
          rw [show A.leadLen / 2 - 1 + (A.leadLen / 2 - (j - r)) = A.leadLen - 1 - (j - r) by omega,
            show A.leadLen / 2 - 1 - (A.leadLen / 2 - (j - r)) = j - r - 1 by omega] at this
          rwa [this] at hl
        · have := hsym (j - r - A.leadLen / 2) (by omega)
          rw [show A.leadLen / 2 - 1 + (j - r - A.leadLen / 2) = j - r - 1 by omega,
            show A.leadLen / 2 - 1 - (j - r - A.leadLen / 2) = A.leadLen - 1 - (j - r) by omega] at this
          rwa [this]
    · exact F.long_of_le hn h

end MethSearch
end Ringing
