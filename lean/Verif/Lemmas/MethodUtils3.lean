import Verif.Lemmas.MethodUtils2
import Verif.Lemmas.MethodClass
import Mathlib.Data.Nat.Count
import Mathlib.Data.Nat.Periodic
import Mathlib.Combinatorics.Pigeonhole

namespace Ringing
open Spec Row MethodUtils

/-! ### Comparing changes -/

theorem readAll_write : ∀ {ps : List Nat}, (∀ p ∈ ps, p < 33) →
    readAll (ps.flatMap Bell.write) = .ok ps := by
  intro ps
  induction ps with
  | nil => intro _; rfl
  | cons p ps ih =>
    intro h
    have hp := h p (by simp)
    rw [List.flatMap_cons]
    have : Bell.write p = [Bell.toChar p] := by unfold Bell.write; rw [if_pos hp]
    rw [this, List.singleton_append, readAll, Bell.readChar_toChar p hp, Out.ok_bind,
      ih (fun x hx => h x (by simp [hx]))]
    rfl

theorem places_lt {c : Change} (h : c.WF) : ∀ p ∈ c.places, p < c.n := by
  intro p hp
  exact ((h.mem_places p).1 hp).1

theorem compareChanges_eq {a b : Change} (ha : a.WF) (hb : b.WF) (h1 : a.n ≤ 33) (h2 : b.n ≤ 33) :
    compareChangesC a b = .ok (Row.lt a.places b.places) := by
  unfold compareChangesC
  by_cases e1 : a.countPlaces = 0
  · rw [if_pos e1]
    have pa := countPlaces_eq_zero.1 e1
    rw [pa]
    unfold Change.countPlaces
    cases b.places with
    | nil => rfl
    | cons x xs => simp [Row.lt]
  · rw [if_neg e1]
    by_cases e2 : b.countPlaces = 0
    · rw [if_pos e2, countPlaces_eq_zero.1 e2]
      cases a.places <;> rfl
    · rw [if_neg e2]
      have pa : a.places ≠ [] := fun h => e1 (countPlaces_eq_zero.2 h)
      have pb : b.places ≠ [] := fun h => e2 (countPlaces_eq_zero.2 h)
      rw [print_of_places pa, print_of_places pb,
        readAll_write (fun p hp => lt_of_lt_of_le (places_lt ha p hp) h1),
        readAll_write (fun p hp => lt_of_lt_of_le (places_lt hb p hp) h2)]
      rfl

theorem row_lt_lex : ∀ {a b : List Nat}, Row.lt a b = true ↔ List.Lex (· < ·) a b := by
  intro a
  induction a with
  | nil =>
    intro b
    cases b with
    | nil => simp [Row.lt]
    | cons y b => simp [Row.lt]
  | cons x a ih =>
    intro b
    cases b with
    | nil => simp [Row.lt]
    | cons y b =>
      rw [Row.lt, List.cons_lex_cons_iff]
      by_cases h1 : x < y
      · simp [h1]
      · by_cases h2 : y < x
        · simp [h1, h2]; omega
        · have : x = y := by omega
          subst this
          simp [ih]

/-! ### Coursing orders -/

theorem iterate_return {f : Nat → Nat} {n : Nat} (hlt : ∀ i, i < n → f i < n)
    (hinj : Function.Injective f) {x : Nat} (hx : x < n) : ∃ c, 0 < c ∧ c ≤ n ∧ f^[c] x = x := by
  have hmaps : ∀ k, f^[k] x < n := by
    intro k
    induction k with
    | zero => exact hx
    | succ k ih => rw [Function.iterate_succ_apply']; exact hlt _ ih
  obtain ⟨i, hi, j, hj, hne, e⟩ := Finset.exists_ne_map_eq_of_card_lt_of_maps_to
    (s := Finset.range (n + 1)) (t := Finset.range n) (by simp) (f := fun k => f^[k] x)
    (by intro k _; simpa using hmaps k)
  simp only [Finset.mem_range] at hi hj
  have key : ∀ {i j}, i < j → f^[i] x = f^[j] x → f^[j - i] x = x := by
    intro i j hij e
    apply (hinj.iterate i)
    rw [← Function.iterate_add_apply, show i + (j - i) = j by omega, e]
  rcases Nat.lt_or_gt_of_ne hne with h | h
  · exact ⟨j - i, by omega, by omega, key h e⟩
  · exact ⟨i - j, by omega, by omega, key h e.symm⟩

theorem tenorLoop_spec {lh : Row} (hv : Valid lh) {n : Nat} (hn : lh.length = n) :
    ∀ {fuel b i : Nat}, b < n → (∃ c, 0 < c ∧ c ≤ fuel ∧ n ≤ (fn lh)^[c] b + 2) →
    ∃ c, 0 < c ∧ tenorLoop lh n fuel b i = .ok ((fn lh)^[c] b, i + c) ∧ n ≤ (fn lh)^[c] b + 2 ∧
      ∀ k, 0 < k → k < c → (fn lh)^[k] b + 2 < n := by
  intro fuel
  induction fuel with
  | zero => rintro b i _ ⟨c, h1, h2, -⟩; omega
  | succ fuel ih =>
    rintro b i hb ⟨c, h1, h2, h3⟩
    have hlt : fn lh b < n := hv.fn_lt (le_of_eq hn) hb
    rw [tenorLoop, vget_ok (show b < List.length lh by omega), Out.ok_bind, ← fn_of_lt]
    by_cases hb2 : fn lh b + 2 < n
    · rw [if_pos hb2]
      have hc1 : c ≠ 1 := by
        rintro rfl
        rw [Function.iterate_one] at h3; omega
      obtain ⟨d, d1, d2, d3, d4⟩ := ih (b := fn lh b) (i := i + 1) hlt
        ⟨c - 1, by omega, by omega, by
          rw [← Function.iterate_succ_apply, Nat.succ_eq_add_one, show c - 1 + 1 = c by omega]; exact h3⟩
      refine ⟨d + 1, by omega, ?_, ?_, ?_⟩
      · rw [d2, Function.iterate_succ_apply]; congr 2; omega
      · rw [Function.iterate_succ_apply]; exact d3
      · intro k h4 h5
        obtain ⟨k, rfl⟩ : ∃ k', k = k' + 1 := ⟨k - 1, by omega⟩
        rw [Function.iterate_succ_apply]
        by_cases hk : k = 0
        · subst hk; exact hb2
        · exact d4 k (by omega) (by omega)
    · rw [if_neg hb2]
      exact ⟨1, by omega, rfl, by rw [Function.iterate_one]; omega, fun k h4 h5 => by omega⟩

theorem powLoop_spec {lh : Row} (hv : Valid lh) : ∀ {k : Nat} {cg : Row}, Valid cg → cg.length = lh.length →
    ∃ g, powLoop lh k cg = .ok g ∧ Valid g ∧ g.length = lh.length ∧
      ∀ x, fn g x = fn cg ((fn lh)^[k] x) := by
  intro k
  induction k with
  | zero => intro cg hc hl; exact ⟨cg, rfl, hc, hl, fun x => rfl⟩
  | succ k ih =>
    intro cg hc hl
    rw [powLoop, mulC_eq hc hv, Out.ok_bind]
    obtain ⟨g, g1, g2, g3, g4⟩ := ih (valid_mul hc hv) (by simp [hl])
    refine ⟨g, g1, g2, g3, fun x => ?_⟩
    rw [g4, fn_mul, Function.iterate_succ_apply']

theorem courseLoop_spec {g : Row} (hv : Valid g) {n : Nat} (hn : g.length = n) :
    ∀ {t fuel b : Nat}, b < n → 0 < t → (fn g)^[t] b + 1 = n →
    (∀ k, 0 < k → k < t → (fn g)^[k] b + 1 ≠ n) → t ≤ fuel →
    courseLoop g n fuel b = .ok ((List.range' 1 t).map fun k => (fn g)^[k] b) := by
  intro t
  induction t with
  | zero => intro fuel b _ h; omega
  | succ t ih =>
    intro fuel b hb _ h1 h2 h3
    obtain ⟨fuel, rfl⟩ : ∃ f, fuel = f + 1 := ⟨fuel - 1, by omega⟩
    have hlt : fn g b < n := hv.fn_lt (le_of_eq hn) hb
    rw [courseLoop, vget_ok (show b < List.length g by omega), Out.ok_bind, ← fn_of_lt]
    by_cases ht : t = 0
    · subst ht
      rw [Function.iterate_one] at h1
      rw [if_pos h1]
      rfl
    · have hne : fn g b + 1 ≠ n := by simpa using h2 1 (by omega) (by omega)
      rw [if_neg hne, ih hlt (by omega) (by rw [← Function.iterate_succ_apply]; exact h1) (by
        intro k h4 h5
        rw [← Function.iterate_succ_apply]
        exact h2 (k + 1) (by omega) (by omega)) (by omega), Out.ok_bind]
      rw [Out.pure_eq, List.range'_succ, List.map_cons]
      congr 2
      rw [List.range'_eq_map_range, List.range'_eq_map_range, List.map_map, List.map_map]
      apply List.map_congr_left
      intro k _
      show (fn g)^[1 + k] (fn g b) = (fn g)^[1 + 1 + k] b
      rw [← Function.iterate_succ_apply]
      congr 1; omega

end Ringing
