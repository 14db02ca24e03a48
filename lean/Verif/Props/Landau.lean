import Verif.Lemmas.Landau2
import Verif.Spec.MathUtils
import Mathlib.Analysis.SpecialFunctions.Log.Basic
import Mathlib.Analysis.SpecialFunctions.Pow.Real
import Mathlib.Analysis.Complex.ExponentialBounds
/-
C50: `landau` is right for every stage up to 119, with the bound the code computes, and cannot be
right from 120 on.
-/
namespace Ringing
open Spec

/-- `b` is a value the floating-point expression `1.328 * sqrt(n * log(n))` may have: not negative, and
within a tenth of the real number (the rounding errors of four operations on doubles are far
smaller). -/
def ComputedBound (n : Nat) (b : ℝ) : Prop := 0 ≤ b ∧ |b - 1.328 * √(n * Real.log n)| ≤ 1 / 10

theorem bound_ge {n k p : Nat} {b : ℝ} (hb : ComputedBound n b) (hn : 2 ^ k ≤ n) {m : Nat} (hm : m ≤ n)
    (h : ((p : ℝ) + 1 / 10) ^ 2 ≤ 1.328 ^ 2 * (m * (k * 0.693))) : (p : ℝ) ≤ b := by
  obtain ⟨-, h1⟩ := hb
  have h2 := (abs_le.1 h1).1
  have hk : (k : ℝ) * 0.693 ≤ Real.log n := by
    have e : (k : ℝ) * Real.log 2 = Real.log ((2 : ℝ) ^ k) := by rw [Real.log_pow]
    have h3 : Real.log ((2 : ℝ) ^ k) ≤ Real.log n := Real.log_le_log (by positivity) (by exact_mod_cast hn)
    have h4 := Real.log_two_gt_d9
    have h5 : (k : ℝ) * 0.693 ≤ k * Real.log 2 := mul_le_mul_of_nonneg_left (by linarith) (by positivity)
    linarith
  have h6 : (m : ℝ) * (k * 0.693) ≤ n * Real.log n :=
    mul_le_mul (by exact_mod_cast hm) hk (by positivity) (by positivity)
  have h7 : ((p : ℝ) + 1 / 10) / 1.328 ≤ √(n * Real.log n) := by
    apply Real.le_sqrt_of_sq_le
    rw [div_pow, div_le_iff₀ (by norm_num)]
    nlinarith
  rw [div_le_iff₀ (by norm_num)] at h7
  linarith

theorem bound_ge_three {b : ℝ} (hb : ComputedBound 3 b) : (2 : ℝ) ≤ b := by
  obtain ⟨-, h1⟩ := hb
  have h2 := (abs_le.1 h1).1
  have hk : (1.0395 : ℝ) ≤ Real.log 3 := by
    have e : (3 : ℝ) * Real.log 2 = Real.log 8 := by
      rw [show (8 : ℝ) = 2 ^ 3 by norm_num, Real.log_pow]; norm_num
    have e2 : (2 : ℝ) * Real.log 3 = Real.log 9 := by
      rw [show (9 : ℝ) = 3 ^ 2 by norm_num, Real.log_pow]; norm_num
    have h3 : Real.log 8 ≤ Real.log 9 := Real.log_le_log (by norm_num) (by norm_num)
    have h4 := Real.log_two_gt_d9
    linarith
  have h7 : ((2 : ℝ) + 1 / 10) / 1.328 ≤ √((3 : Nat) * Real.log (3 : Nat)) := by
    apply Real.le_sqrt_of_sq_le
    push_cast
    rw [div_pow, div_le_iff₀ (by norm_num)]
    nlinarith
  rw [div_le_iff₀ (by norm_num)] at h7
  linarith

theorem bound_le {n : Nat} {b : ℝ} (hb : ComputedBound n b) (h : n ≤ 119) : b ≤ 400 := by
  obtain ⟨-, h1⟩ := hb
  have h2 := (abs_le.1 h1).2
  have h3 : √((n : ℝ) * Real.log n) ≤ 119 := by
    apply Real.sqrt_le_iff.2
    refine ⟨by norm_num, ?_⟩
    have h4 : Real.log n ≤ n := Real.log_le_self (by positivity)
    have h5 : (n : ℝ) ≤ 119 := by exact_mod_cast h
    have h6 : (0 : ℝ) ≤ n := by positivity
    nlinarith
  linarith

theorem need_le {n : Nat} {b : ℝ} (hb : ComputedBound n b) :
    ∀ q ∈ LandauT.primes.take (LandauT.need n), q ≤ ⌊b⌋₊ + 1 := by
  have key : ∀ c : Nat, (c : ℝ) ≤ b → (∀ q ∈ LandauT.primes.take (LandauT.need n), q ≤ c + 1) →
      ∀ q ∈ LandauT.primes.take (LandauT.need n), q ≤ ⌊b⌋₊ + 1 := by
    intro c hc h q hq
    have := h q hq
    have := Nat.le_floor hc
    omega
  unfold LandauT.need at key ⊢
  by_cases h1 : n < 2
  · simp [h1]
  by_cases h2 : n < 3
  · simp only [h1, h2, if_true, if_false] at key ⊢
    exact key 1 (bound_ge hb (k := 1) (m := 2) (by omega) (by omega) (by norm_num)) (by decide)
  by_cases h3 : n < 8
  · simp only [h1, h2, h3, if_true, if_false] at key ⊢
    refine key 2 ?_ (by decide)
    rcases Nat.eq_or_lt_of_le (show 3 ≤ n by omega) with rfl | h
    · exact bound_ge_three hb
    · exact bound_ge hb (k := 2) (m := 4) (by omega) (by omega) (by norm_num)
  by_cases h4 : n < 14
  · simp only [h1, h2, h3, h4, if_true, if_false] at key ⊢
    exact key 4 (bound_ge hb (k := 3) (m := 8) (by omega) (by omega) (by norm_num)) (by decide)
  by_cases h5 : n < 27
  · simp only [h1, h2, h3, h4, h5, if_true, if_false] at key ⊢
    exact key 6 (bound_ge hb (k := 3) (m := 14) (by omega) (by omega) (by norm_num)) (by decide)
  by_cases h6 : n < 32
  · simp only [h1, h2, h3, h4, h5, h6, if_true, if_false] at key ⊢
    exact key 10 (bound_ge hb (k := 4) (m := 27) (by omega) (by omega) (by norm_num)) (by decide)
  by_cases h7 : n < 57
  · simp only [h1, h2, h3, h4, h5, h6, h7, if_true, if_false] at key ⊢
    exact key 12 (bound_ge hb (k := 5) (m := 32) (by omega) (by omega) (by norm_num)) (by decide)
  by_cases h8 : n < 62
  · simp only [h1, h2, h3, h4, h5, h6, h7, h8, if_true, if_false] at key ⊢
    exact key 16 (bound_ge hb (k := 5) (m := 57) (by omega) (by omega) (by norm_num)) (by decide)
  by_cases h9 : n < 93
  · simp only [h1, h2, h3, h4, h5, h6, h7, h8, h9, if_true, if_false] at key ⊢
    exact key 18 (bound_ge hb (k := 5) (m := 62) (by omega) (by omega) (by norm_num)) (by decide)
  by_cases h10 : n < 118
  · simp only [h1, h2, h3, h4, h5, h6, h7, h8, h9, h10, if_true, if_false] at key ⊢
    exact key 22 (bound_ge hb (k := 6) (m := 93) (by omega) (by omega) (by norm_num)) (by decide)
  · simp only [h1, h2, h3, h4, h5, h6, h7, h8, h9, h10, if_false] at key ⊢
    exact key 28 (bound_ge hb (k := 6) (m := 118) (by omega) (by omega) (by norm_num)) (by decide)

/-- `landau n` is the largest order of a permutation of `n` objects, for every `n` up to 119, where the
bound on the primes is what the code computes, give or take a tenth before the rounding down. -/
theorem C50_landau (n : Nat) (h1 : 1 ≤ n) (hn : n ≤ 119) (b : ℝ) (hb : ComputedBound n b) :
    ∃ v, landauC n (⌊b⌋₊ + 1) = .ok v ∧ IsMax (OrderOn n) v := by
  have hfull := LandauT.full_spec (m := n) (by omega)
  have hbig : ∀ x, 0 < x → psum x ≤ n → x < 2 ^ 32 := by
    intro x hx hs
    exact ((LandauT.full_spec (m := 119) (by omega)).2 x ⟨hx, hs.trans hn⟩).trans_lt LandauT.small
  have hp16 : ⌊b⌋₊ + 1 < 2 ^ 16 := by
    have h2 : ⌊b⌋₊ ≤ 400 := by
      have := Nat.floor_le_floor (bound_le hb hn)
      have e : ⌊(400 : ℝ)⌋₊ = 400 := Nat.floor_natCast 400
      omega
    omega
  obtain ⟨v, h3, h4, h5⟩ := landauC_spec hp16 (show n < 2 ^ 16 by omega) hbig
  refine ⟨v, h3, order_of_psum h4.1 h4.2.2, fun x hx => ?_⟩
  obtain ⟨hx0, hxs⟩ := psum_of_order hx
  have hc := List.all_eq_true.1 LandauT.check n (List.mem_range.2 (by omega))
  rw [beq_iff_eq] at hc
  have hr := LandauT.tab_spec (l := LandauT.primes.take (LandauT.need n))
    (fun p hp => LandauT.primes_prime p (List.mem_of_mem_take hp))
    ((by decide : LandauT.primes.Nodup).sublist (List.take_sublist _ _)) (m := n) (by omega)
  obtain ⟨r1, r2, r3⟩ := hr.1
  have : (LandauT.tab (LandauT.primes.take (LandauT.need n))).getD n 0 ≤ v :=
    h5 _ ⟨r1, fun q hq hd => need_le hb q (r2 q hq hd), r3⟩
  rw [hc] at this
  exact (hfull.2 x ⟨hx0, hxs⟩).trans this

/-- The exact value of the expression is such a bound. -/
example : ∃ v, landauC 12 (⌊(1.328 : ℝ) * √((12 : Nat) * Real.log (12 : Nat))⌋₊ + 1) = .ok v ∧ IsMax (OrderOn 12) v :=
  C50_landau 12 (by omega) (by omega) _ ⟨by positivity, by norm_num⟩

example : landauC 12 8 = .ok 60 := by decide +kernel

/-- From 120 objects on the largest order does not fit the 32 bits of the result: no value the function
can return is right. -/
theorem C50_overflow (n : Nat) (hn : 120 ≤ n) (v : Nat) (hv : v < 2 ^ 32) : ¬ IsMax (OrderOn n) v := by
  rintro ⟨-, h⟩
  have := h 5354228880 ⟨[16, 9, 5, 7, 11, 13, 17, 19, 23], by decide, by simp; omega, by decide⟩
  omega

/-- … whereas up to 119 it does. -/
theorem C50_fits (n : Nat) (hn : n ≤ 119) : ∃ v, v < 2 ^ 32 ∧ IsMax (OrderOn n) v := by
  have hfull := LandauT.full_spec (m := n) (by omega)
  refine ⟨_, ((LandauT.full_spec (m := 119) (by omega)).2 _ ⟨hfull.1.1, hfull.1.2.trans hn⟩).trans_lt LandauT.small,
    order_of_psum hfull.1.1 hfull.1.2, fun x hx => hfull.2 x (psum_of_order hx)⟩

/-- The same for any other bound `pmax` on the primes that is at least the largest prime dividing some
maximal order. -/
theorem C50_any_bound (n pmax : Nat) (hn : n ≤ 119) (hp : pmax < 2 ^ 16)
    (hb : ∃ x, IsMax (OrderOn n) x ∧ ∀ q, q.Prime → q ∣ x → q ≤ pmax) :
    ∃ v, landauC n pmax = .ok v ∧ IsMax (OrderOn n) v := by
  have hbig : ∀ x, 0 < x → psum x ≤ n → x < 2 ^ 32 := fun x hx h =>
    ((LandauT.full_spec (m := 119) (by omega)).2 x ⟨hx, h.trans hn⟩).trans_lt LandauT.small
  obtain ⟨v, h1, h2, h3⟩ := landauC_spec hp (by omega) hbig
  refine ⟨v, h1, order_of_psum h2.1 h2.2.2, ?_⟩
  intro x hx
  obtain ⟨y, ⟨hy1, hy2⟩, hy3⟩ := hb
  obtain ⟨hy0, hys⟩ := psum_of_order hy1
  exact (hy2 x hx).trans (h3 y ⟨hy0, hy3, hys⟩)

/-- With a bound of at least `n` no assumption on primes is needed. -/
theorem C50_generous_bound (n pmax : Nat) (hn : n ≤ 119) (hp : pmax < 2 ^ 16) (hb : n ≤ pmax) :
    ∃ v, landauC n pmax = .ok v ∧ IsMax (OrderOn n) v := by
  have hbig : ∀ x, 0 < x → psum x ≤ n → x < 2 ^ 32 := fun x hx h =>
    ((LandauT.full_spec (m := 119) (by omega)).2 x ⟨hx, h.trans hn⟩).trans_lt LandauT.small
  obtain ⟨v, h1, h2, h3⟩ := landauC_spec hp (by omega) hbig
  refine ⟨v, h1, order_of_psum h2.1 h2.2.2, ?_⟩
  intro x hx
  obtain ⟨hx0, hxs⟩ := psum_of_order hx
  refine h3 x ⟨hx0, ?_, hxs⟩
  intro q hq hd
  have h4 := pow_le_psum hq hd (by omega)
  have h5 : q ^ 1 ≤ q ^ x.factorization q :=
    Nat.pow_le_pow_right hq.pos (Nat.Prime.factorization_pos_of_dvd hq (by omega) hd)
  rw [pow_one] at h5
  omega

end Ringing
