import Verif.Lemmas.Landau
import Verif.Lemmas.Cycles2
import Verif.Spec.MathUtils
/-
C44: the integer functions.
-/
namespace Ringing
open Spec

/-- `hcf` of positive integers is the greatest common divisor. -/
theorem C44_hcf (a b : Nat) (ha : 0 < a) (hb : 0 < b) :
    ∃ h, hcfC a b = .ok h ∧ IsMax (fun d => d ∣ a ∧ d ∣ b) h :=
  ⟨_, Row.hcfC_spec ha hb, ⟨Nat.gcd_dvd_left a b, Nat.gcd_dvd_right a b⟩, fun d hd =>
    Nat.le_of_dvd (Nat.gcd_pos_of_pos_left _ ha) (Nat.dvd_gcd hd.1 hd.2)⟩

example : hcfC 12 18 = .ok 6 := by decide +kernel

/-- `hcf` with a zero argument divides by zero. -/
theorem C44_hcf_zero (a : Nat) : hcfC a 0 = .ub ∧ hcfC 0 a = .ub := by
  constructor
  · unfold hcfC; simp [hcfLoop]
  · unfold hcfC
    by_cases h : 0 < a
    · simp [h, hcfLoop]
    · have : a = 0 := by omega
      subst this; simp [hcfLoop]

/-- `lcm` of positive integers is the least common multiple, if the product is a valid `int`. -/
theorem C44_lcm (a b : Nat) (ha : 0 < a) (hb : 0 < b) (hab : a * b < 2 ^ 31) :
    ∃ l, lcmC a b = .ok l ∧ a ∣ l ∧ b ∣ l ∧ 0 < l ∧ ∀ m, 0 < m → a ∣ m → b ∣ m → l ≤ m :=
  ⟨_, Row.lcmC_spec ha hb hab, Nat.dvd_lcm_left a b, Nat.dvd_lcm_right a b, Nat.lcm_pos ha hb,
    fun _ hm h1 h2 => Nat.le_of_dvd hm (Nat.lcm_dvd h1 h2)⟩

example : lcmC 12 18 = .ok 36 := by decide +kernel

/-- `factorial` is the factorial, reduced to the width of `unsigned`; it is exact up to 12. -/
theorem C44_factorial (n : Nat) (h : n < 2 ^ 32) :
    factorialC n = n.factorial % 2 ^ 32 ∧ (factorialC n = n.factorial ↔ n ≤ 12) := by
  refine ⟨factorialC_eq h, ?_, factorialC_small⟩
  intro he
  by_contra hc
  have h1 : (13).factorial ≤ n.factorial := Nat.factorial_le (by omega)
  have h2 : factorialC n < 2 ^ 32 := by rw [factorialC_eq h]; exact Nat.mod_lt _ (by decide)
  have h3 : 2 ^ 32 ≤ (13).factorial := by decide
  omega

example : factorialC 13 = 1932053504 := by decide +kernel

/-- `fibonacci n` is the `(n+1)`-st Fibonacci number, reduced to the width of `unsigned`; it is
exact up to 46. -/
theorem C44_fibonacci (n : Nat) :
    fibonacciC n = Nat.fib (n + 1) % 2 ^ 32 ∧ (fibonacciC n = Nat.fib (n + 1) ↔ n ≤ 46) := by
  have h47 : Nat.fib 47 = 2971215073 := by decide +kernel
  have h48 : Nat.fib 48 = 4807526976 := by decide +kernel
  refine ⟨fibonacciC_eq n, ?_, ?_⟩
  · intro he
    by_contra hc
    have h1 : Nat.fib 48 ≤ Nat.fib (n + 1) := Nat.fib_mono (by omega)
    have h2 : fibonacciC n < 2 ^ 32 := by rw [fibonacciC_eq]; exact Nat.mod_lt _ (by decide)
    omega
  · intro hn
    rw [fibonacciC_eq]
    apply Nat.mod_eq_of_lt
    have h1 : Nat.fib (n + 1) ≤ Nat.fib 47 := Nat.fib_mono (by omega)
    omega

example : fibonacciC 10 = 89 := by decide +kernel

/-- `ipower` computes the power whenever it is representable in 64 bits (no intermediate overflow
happens first), and never returns anything else. -/
theorem C44_ipower (b : Int) (e : Nat) :
    (∀ v, ipowerC b e = .ok v ↔ v = b ^ e ∧ -2 ^ 63 ≤ b ^ e ∧ b ^ e < 2 ^ 63) := by
  intro v
  have : ipowerC b e = ipowerNatC b e := by
    unfold ipowerC
    rw [if_neg (by omega)]; simp
  rw [this]
  constructor
  · intro h
    obtain ⟨h1, h2, h3⟩ := ipowerNat_some h
    rw [← h1]; exact ⟨rfl, h2, h3⟩
  · rintro ⟨rfl, h⟩
    exact ipowerNat_ok h

/-- A negative exponent gives 0. -/
theorem C44_ipower_neg (b e : Int) (h : e < 0) : ipowerC b e = .ok 0 := by
  unfold ipowerC; rw [if_pos h]

example : (-2 : Int) ^ 63 = -2 ^ 63 ∧ (-2 ^ 63 : Int) < 2 ^ 63 := by norm_num

/-- `is_prime` decides primality. -/
theorem C44_is_prime (n : Nat) : ∃ b, isPrimeC n = .ok b ∧ (b = true ↔ n.Prime) :=
  ⟨_, isPrimeC_eq n, by simp⟩

/-- `next_prime` returns the smallest prime greater than its argument, provided there is one below
`2^32`. -/
theorem C44_next_prime (n p : Nat) (hp : p.Prime) (h1 : n < p) (h2 : p < 2 ^ 32)
    (hmin : ∀ q, q.Prime → n < q → p ≤ q) : ∃ fuel, nextPrimeC fuel n = .ok p :=
  ⟨p - n, nextPrime_spec hp h2 (p - n) n h1 (by omega) (fun q a b c => by have := hmin q c a; omega)⟩

/-- Such a prime exists for every argument below `2^31`. -/
theorem C44_next_prime_exists (n : Nat) (h : n < 2 ^ 31) :
    ∃ p fuel, nextPrimeC fuel n = .ok p ∧ p.Prime ∧ n < p ∧ ∀ q, q.Prime → n < q → p ≤ q := by
  rcases Nat.eq_zero_or_pos n with rfl | hn
  · refine ⟨2, 2, ?_, Nat.prime_two, by omega, fun q hq _ => hq.two_le⟩
    exact nextPrime_spec Nat.prime_two (by omega) 2 0 (by omega) (by omega)
      (fun q a b c => by have := c.two_le; omega)
  · obtain ⟨p, hp, h1, h2, h3⟩ := exists_next_prime (show n ≠ 0 by omega)
    have hne : p ≠ 2 ^ 32 := by
      rintro rfl
      exact absurd hp (by
        intro hc
        have := (Nat.dvd_prime hc).1 (show 2 ∣ 2 ^ 32 from ⟨2 ^ 31, by norm_num⟩)
        omega)
    refine ⟨p, p - n, nextPrime_spec hp (by omega) _ n h1 (by omega) h3, hp, h1, ?_⟩
    intro q hq hlt
    by_contra hc
    exact h3 q hlt (by omega) hq

end Ringing
