import Verif.Spec.Dimension
import Mathlib.Data.Nat.Digits.Lemmas
import Mathlib.Data.Int.GCD
import Mathlib.Tactic.Ring
import Mathlib.Tactic.Linarith

/-! Lemmas on lengths with a unit. -/
namespace Ringing
namespace Dim
open Spec Bell

theorem chk_ok {v : Int} (h1 : -2 ^ 31 ≤ v) (h2 : v < 2 ^ 31) : chk v = .ok v := by
  unfold chk; rw [if_neg (by omega)]

theorem isDigit_iff (c : Char) : isDigit c = true ↔ Digit c := by unfold isDigit Digit; simp

theorem isSpace_iff (c : Char) : isSpace c = true ↔ Space c := by unfold isSpace Space; simp

theorem number_append (A B : List Char) : number (A ++ B) = number A * 10 ^ B.length + number B := by
  unfold number
  rw [List.reverse_append, List.map_append, Nat.ofDigits_append, List.length_map, List.length_reverse]
  ring

theorem number_single (c : Char) : number [c] = digitVal c := by
  unfold number digitVal; simp

theorem number_cons (c : Char) (B : List Char) : number (c :: B) = digitVal c * 10 ^ B.length + number B := by
  have := number_append [c] B
  rw [number_single] at this; exact this

theorem pow_pos10 (n : Nat) : 1 ≤ 10 ^ n := Nat.one_le_iff_ne_zero.2 (by positivity)

theorem digitsC_spec {B : List Char} (hB : ∀ c ∈ B, Digit c) {e : List Char} (he : ∀ c, e.head? = some c → ¬Digit c) {a : Nat}
    (h : a * 10 ^ B.length + number B < 2 ^ 31) : digitsC (B ++ e) a = .ok (((a * 10 ^ B.length + number B : Nat) : Int), e) := by
  induction B generalizing a with
  | nil =>
    rw [List.nil_append]
    have : number [] = 0 := by unfold number; rfl
    rw [this, List.length_nil, Nat.pow_zero, Nat.mul_one, Nat.add_zero]
    cases e with
    | nil => rfl
    | cons c e =>
      unfold digitsC
      rw [if_neg]
      rw [isDigit_iff]; exact he c rfl
  | cons c B ih =>
    rw [List.cons_append]
    unfold digitsC
    rw [if_pos ((isDigit_iff c).2 (hB c (by simp)))]
    have e1 : a * 10 ^ (c :: B).length + number (c :: B) = (10 * a + digitVal c) * 10 ^ B.length + number B := by
      rw [number_cons, List.length_cons, Nat.pow_succ]; ring
    rw [e1] at h
    have h1 : 10 * a + digitVal c < 2 ^ 31 := by
      have := Nat.le_mul_of_pos_right (10 * a + digitVal c) (pow_pos10 B.length); omega
    rw [chk_ok (by omega) (by omega), Out.ok_bind, chk_ok (by omega) (by omega), Out.ok_bind]
    have := ih (fun c h => hB c (by simp [h])) h
    push_cast at this
    rw [this, e1]
    push_cast; rfl

theorem numberC_spec {A : List Char} (hA : Num A) {e : List Char} (he : ∀ c, e.head? = some c → ¬Digit c) (h : number A < 2 ^ 31) :
    numberC (A ++ e) = .ok ((number A : Int), e) := by
  obtain ⟨h0, h1⟩ := hA
  cases A with
  | nil => exact absurd rfl h0
  | cons c A =>
    rw [List.cons_append]
    unfold numberC
    simp only
    rw [if_pos ((isDigit_iff c).2 (h1 c (by simp)))]
    rw [number_cons] at h ⊢
    exact digitsC_spec (fun c h => h1 c (by simp [h])) he h

theorem pointC_spec {B : List Char} (hB : ∀ c ∈ B, Digit c) {e : List Char} (he : ∀ c, e.head? = some c → ¬Digit c) {a b : Nat}
    (h : a * 10 ^ B.length + number B < 2 ^ 31) (h' : b * 10 ^ B.length < 2 ^ 31) :
    pointC (B ++ e) a b = .ok (((a * 10 ^ B.length + number B : Nat) : Int), ((b * 10 ^ B.length : Nat) : Int), e) := by
  induction B generalizing a b with
  | nil =>
    rw [List.nil_append]
    have : number [] = 0 := by unfold number; rfl
    rw [this, List.length_nil, Nat.pow_zero, Nat.mul_one, Nat.add_zero, Nat.mul_one]
    cases e with
    | nil => rfl
    | cons c e =>
      unfold pointC
      rw [if_neg]
      rw [isDigit_iff]; exact he c rfl
  | cons c B ih =>
    rw [List.cons_append]
    unfold pointC
    rw [if_pos ((isDigit_iff c).2 (hB c (by simp)))]
    have e1 : a * 10 ^ (c :: B).length + number (c :: B) = (10 * a + digitVal c) * 10 ^ B.length + number B := by
      rw [number_cons, List.length_cons, Nat.pow_succ]; ring
    have e2 : b * 10 ^ (c :: B).length = (10 * b) * 10 ^ B.length := by rw [List.length_cons, Nat.pow_succ]; ring
    rw [e1] at h
    rw [e2] at h'
    have h1 : 10 * a + digitVal c < 2 ^ 31 := by
      have := Nat.le_mul_of_pos_right (10 * a + digitVal c) (pow_pos10 B.length); omega
    have h2 : 10 * b < 2 ^ 31 := by
      have := Nat.le_mul_of_pos_right (10 * b) (pow_pos10 B.length); omega
    rw [chk_ok (by omega) (by omega), Out.ok_bind, chk_ok (by omega) (by omega), Out.ok_bind, chk_ok (by omega) (by omega), Out.ok_bind]
    have := ih (fun c h => hB c (by simp [h])) h h'
    push_cast at this
    rw [this, e1, e2]
    push_cast; rfl

theorem gcdC_spec {a b : Int} (ha : -2 ^ 31 < a) (ha' : a < 2 ^ 31) (hb : -2 ^ 31 < b) (hb' : b < 2 ^ 31) : ∃ g, gcdC a b = .ok g ∧ g.natAbs = Int.gcd a b := by
  induction hk : b.natAbs using Nat.strong_induction_on generalizing a b with
  | _ k ih =>
    rw [gcdC]
    by_cases h : b = 0
    · rw [if_pos h]; exact ⟨a, rfl, by rw [h, Int.gcd_zero_right]⟩
    · rw [if_neg h, if_neg (by omega)]
      have hlt : (a.tmod b).natAbs < b.natAbs := by rw [Int.natAbs_tmod]; exact Nat.mod_lt _ (Int.natAbs_pos.2 h)
      have hle : (a.tmod b).natAbs ≤ a.natAbs := by rw [Int.natAbs_tmod]; exact Nat.mod_le _ _
      obtain ⟨g, h1, h2⟩ := ih _ (hk ▸ hlt) (a := b) (b := a.tmod b) hb hb' (by omega) (by omega) rfl
      refine ⟨g, h1, h2.trans ?_⟩
      unfold Int.gcd
      rw [Int.natAbs_tmod, Nat.gcd_comm b.natAbs, ← Nat.gcd_rec, Nat.gcd_comm]

theorem reduceC_spec {n d : Int} {u : Units} (hn : -2 ^ 31 < n) (hn' : n < 2 ^ 31) (hd : -2 ^ 31 < d) (hd' : d < 2 ^ 31) (h0 : d ≠ 0) :
    ∃ x, reduceC ⟨n, d, u⟩ = .ok x ∧ x.u = u ∧ Lowest x n d := by
  obtain ⟨g, hg, hga⟩ := gcdC_spec hn hn' hd hd'
  have hg0 : g ≠ 0 := by
    intro h; rw [h] at hga
    have := Int.gcd_eq_zero_iff.1 hga.symm
    exact h0 this.2
  have hdn : g ∣ n := Int.natAbs_dvd.1 (by rw [hga]; exact Int.gcd_dvd_left ..)
  have hdd : g ∣ d := Int.natAbs_dvd.1 (by rw [hga]; exact Int.gcd_dvd_right ..)
  obtain ⟨n', rfl⟩ := hdn
  obtain ⟨d', rfl⟩ := hdd
  have hcop : Int.gcd n' d' = 1 := by
    rw [Int.gcd_mul_left] at hga
    have h1 : g.natAbs ≠ 0 := Int.natAbs_ne_zero.2 hg0
    have : g.natAbs * 1 = g.natAbs * Int.gcd n' d' := by omega
    exact (Nat.eq_of_mul_eq_mul_left (Nat.pos_of_ne_zero h1) this).symm
  have hd0 : d' ≠ 0 := fun h => h0 (by rw [h, Int.mul_zero])
  have b1 : n'.natAbs ≤ (g * n').natAbs := by rw [Int.natAbs_mul]; exact Nat.le_mul_of_pos_left _ (Int.natAbs_pos.2 hg0)
  have b2 : d'.natAbs ≤ (g * d').natAbs := by rw [Int.natAbs_mul]; exact Nat.le_mul_of_pos_left _ (Int.natAbs_pos.2 hg0)
  unfold reduceC divC
  simp only
  rw [hg, Out.ok_bind, if_neg (by omega), Out.ok_bind, if_neg (by omega), Out.ok_bind, Int.mul_tdiv_cancel_left _ hg0, Int.mul_tdiv_cancel_left _ hg0]
  by_cases hneg : d' < 0
  · rw [if_pos hneg, chk_ok (by omega) (by omega), Out.ok_bind, chk_ok (by omega) (by omega), Out.ok_bind]
    refine ⟨_, rfl, rfl, by show 0 < -d'; omega, ?_, ?_⟩
    · show Int.gcd (-n') (-d') = 1
      rw [Int.gcd_neg, Int.neg_gcd]; exact hcop
    · show -n' * (g * d') = g * n' * -d'; ring
  · rw [if_neg hneg]
    refine ⟨_, rfl, rfl, by show 0 < d'; omega, hcop, ?_⟩
    show n' * (g * d') = g * n' * d'; ring

/-- A fraction in lowest terms is determined by its value. -/
theorem lowest_unique {x y : Dimension} {v w : Int} (hw : w ≠ 0) (hx : Lowest x v w) (hy : Lowest y v w) : x.n = y.n ∧ x.d = y.d := by
  obtain ⟨x1, x2, x3⟩ := hx
  obtain ⟨y1, y2, y3⟩ := hy
  have e : x.n * y.d = y.n * x.d := by
    have : (x.n * y.d) * w = (y.n * x.d) * w := by
      calc (x.n * y.d) * w = (x.n * w) * y.d := by ring
        _ = (v * x.d) * y.d := by rw [x3]
        _ = (v * y.d) * x.d := by ring
        _ = (y.n * w) * x.d := by rw [y3]
        _ = (y.n * x.d) * w := by ring
    exact Int.eq_of_mul_eq_mul_right hw this
  have d1 : x.d ∣ y.d := by
    have : x.d ∣ x.n * y.d := by rw [e]; exact Int.dvd_mul_left ..
    exact Int.dvd_of_dvd_mul_right_of_gcd_one this (by rw [Int.gcd_comm]; exact x2)
  have d2 : y.d ∣ x.d := by
    have : y.d ∣ y.n * x.d := by rw [← e]; exact Int.dvd_mul_left ..
    exact Int.dvd_of_dvd_mul_right_of_gcd_one this (by rw [Int.gcd_comm]; exact y2)
  have hd : x.d = y.d := Int.dvd_antisymm (by omega) (by omega) d1 d2
  rw [hd] at e
  exact ⟨Int.eq_of_mul_eq_mul_right (by omega) e, hd⟩

theorem digit_not_space {c : Char} (h : Digit c) : ¬Space c := by
  unfold Digit at h
  unfold Space
  rintro (rfl | rfl | rfl | rfl | rfl | rfl) <;> revert h <;> decide

theorem dropSpace {w e : List Char} (hw : Blanks w) (he : ∀ c, e.head? = some c → ¬Space c) : (w ++ e).dropWhile isSpace = e := by
  induction w with
  | nil =>
    cases e with
    | nil => rfl
    | cons c e => rw [List.nil_append, List.dropWhile_cons_of_neg]; rw [isSpace_iff]; exact he c rfl
  | cons c w ih =>
    rw [List.cons_append, List.dropWhile_cons_of_pos ((isSpace_iff c).2 (hw c (by simp)))]
    exact ih fun c h => hw c (by simp [h])

end Dim
end Ringing
