import Verif.Lemmas.MathUtils
import Verif.Lemmas.Out
import Verif.Spec.MathUtils
import Mathlib.Data.Nat.Factorization.Basic
import Mathlib.Data.Nat.Factorization.Induction
import Mathlib.NumberTheory.Bertrand
import Mathlib.Data.Nat.Sqrt
import Mathlib.Data.Nat.Fib.Basic

namespace Ringing
open Spec

theorem fibLoop_eq : ∀ (n k : Nat), 0 < n →
    fibLoop n (Nat.fib k % 2 ^ 32) (Nat.fib (k + 1) % 2 ^ 32) = Nat.fib (k + n) % 2 ^ 32 := by
  intro n
  induction n with
  | zero => intro k h; omega
  | succ n ih =>
    intro k _
    unfold fibLoop
    by_cases hn : n = 0
    · subst hn; simp
    · rw [if_neg hn]
      have : u32 (Nat.fib k % 2 ^ 32 + Nat.fib (k + 1) % 2 ^ 32) = Nat.fib (k + 1 + 1) % 2 ^ 32 := by
        rw [u32, ← Nat.add_mod, Nat.fib_add_two]
      rw [this, ih (k + 1) (by omega)]
      congr 2; omega

theorem fibonacciC_eq (n : Nat) : fibonacciC n = Nat.fib (n + 1) % 2 ^ 32 := by
  unfold fibonacciC
  split_ifs with h
  · subst h; rfl
  · have := fibLoop_eq n 1 (by omega)
    rw [show Nat.fib 1 % 2 ^ 32 = 1 from rfl, show Nat.fib (1 + 1) % 2 ^ 32 = 1 from rfl] at this
    rw [this, Nat.add_comm]

/-! `ipower` -/

theorem llong_of {x : Int} (h : -2 ^ 63 ≤ x ∧ x < 2 ^ 63) : llong x = .ok x := by
  unfold llong; rw [if_pos h]

theorem ipowerNat_ok {b : Int} : ∀ {e : Nat}, (-2 ^ 63 ≤ b ^ e ∧ b ^ e < 2 ^ 63) →
    ipowerNatC b e = .ok (b ^ e) := by
  intro e
  induction e using Nat.strong_induction_on with
  | _ e ih =>
    intro h
    unfold ipowerNatC
    by_cases h0 : e = 0
    · rw [dif_pos h0]; simp [h0]
    · rw [dif_neg h0]
      -- smaller powers fit as well
      have hfit : ∀ k, k < e → -2 ^ 63 ≤ b ^ k ∧ b ^ k < 2 ^ 63 := by
        intro k hk
        have habs : |b ^ e| ≤ 2 ^ 63 := abs_le.2 ⟨h.1, by omega⟩
        by_cases hb : |b| ≤ 1
        · have : |b ^ k| ≤ 1 := by rw [abs_pow]; exact pow_le_one₀ (abs_nonneg b) hb
          have := abs_le.1 this
          omega
        · have hb' : 1 < |b| := by omega
          have : |b ^ k| < |b ^ e| := by
            rw [abs_pow, abs_pow]; exact pow_lt_pow_right₀ hb' hk
          have := abs_lt.1 (lt_of_lt_of_le this habs)
          omega
      split_ifs with hp
      · rw [ih (e - 1) (by omega) (hfit _ (by omega)), Out.ok_bind]
        have : b * b ^ (e - 1) = b ^ e := by
          rw [← pow_succ', Nat.sub_add_cancel (by omega)]
        rw [this, llong_of h]
      · rw [ih (e / 2) (by omega) (hfit _ (by omega)), Out.ok_bind]
        have : b ^ (e / 2) * b ^ (e / 2) = b ^ e := by
          rw [← pow_add]; congr 1; omega
        rw [this, llong_of h]

theorem ipowerNat_some {b : Int} : ∀ {e : Nat} {v : Int}, ipowerNatC b e = .ok v →
    v = b ^ e ∧ -2 ^ 63 ≤ v ∧ v < 2 ^ 63 := by
  intro e
  induction e using Nat.strong_induction_on with
  | _ e ih =>
    intro v h
    unfold ipowerNatC at h
    by_cases h0 : e = 0
    · rw [dif_pos h0] at h; injection h with h; subst h; simp [h0]
    · rw [dif_neg h0] at h
      split_ifs at h with hp
      · cases ht : ipowerNatC b (e - 1) with
        | ok t =>
          rw [ht, Out.ok_bind] at h
          unfold llong at h
          split_ifs at h with hf
          injection h with h
          obtain ⟨h1, -⟩ := ih (e - 1) (by omega) ht
          rw [h] at hf
          refine ⟨?_, hf⟩
          rw [← h, h1, ← pow_succ', Nat.sub_add_cancel (by omega)]
        | throw _ => rw [ht] at h; cases h
        | ub => rw [ht] at h; cases h
        | timeout => rw [ht] at h; cases h
      · cases ht : ipowerNatC b (e / 2) with
        | ok t =>
          rw [ht, Out.ok_bind] at h
          unfold llong at h
          split_ifs at h with hf
          injection h with h
          obtain ⟨h1, -⟩ := ih (e / 2) (by omega) ht
          rw [h] at hf
          refine ⟨?_, hf⟩
          rw [← h, h1, ← pow_add]; congr 1; omega
        | throw _ => rw [ht] at h; cases h
        | ub => rw [ht] at h; cases h
        | timeout => rw [ht] at h; cases h

/-! primes -/

theorem primeLoop_spec {n : Nat} (hn : 2 ≤ n) : ∀ (fuel p : Nat), 2 ≤ p → n < p + fuel →
    (∀ q, 2 ≤ q → q < p → ¬ q ∣ n) →
    primeLoop n (Nat.sqrt n) fuel p = .ok (decide n.Prime) := by
  intro fuel
  induction fuel with
  | zero =>
    intro p h1 h2 h3
    exact absurd (dvd_refl n) (h3 n hn (by omega))
  | succ fuel ih =>
    intro p h1 h2 h3
    unfold primeLoop
    by_cases hle : p ≤ Nat.sqrt n
    · rw [if_pos hle]
      by_cases hd : n % p = 0
      · rw [if_pos hd]
        have hpn : p * p ≤ n := Nat.le_sqrt.1 hle
        have : ¬ n.Prime := by
          intro hp
          have := (Nat.dvd_prime hp).1 (Nat.dvd_of_mod_eq_zero hd)
          rcases this with h | h
          · omega
          · subst h; nlinarith
        simp [this]
      · rw [if_neg hd]
        refine ih (p + 1) (by omega) (by omega) ?_
        intro q hq1 hq2 hdvd
        rcases Nat.lt_or_ge q p with h | h
        · exact h3 q hq1 h hdvd
        · have : q = p := by omega
          subst this; exact hd (Nat.mod_eq_zero_of_dvd hdvd)
    · rw [if_neg hle]
      have : n.Prime := by
        rw [Nat.prime_def_le_sqrt]
        refine ⟨hn, fun m hm1 hm2 => h3 m hm1 (by omega)⟩
      simp [this]

theorem isPrimeC_eq (n : Nat) : isPrimeC n = .ok (decide n.Prime) := by
  unfold isPrimeC
  split_ifs with h
  · have : ¬ n.Prime := fun hp => by have := hp.two_le; omega
    simp [this]
  · exact primeLoop_spec (by omega) (n + 1) 2 (le_refl _) (by omega) (fun q h1 h2 => by omega)

theorem nextPrime_spec {p : Nat} (hp : p.Prime) (h32 : p < 2 ^ 32) : ∀ (fuel n : Nat), n < p → p ≤ n + fuel →
    (∀ q, n < q → q < p → ¬ q.Prime) → nextPrimeC fuel n = .ok p := by
  intro fuel
  induction fuel with
  | zero => intro n h1 h2; omega
  | succ fuel ih =>
    intro n h1 h2 h3
    unfold nextPrimeC
    simp only
    rw [u32_of_lt (by omega), isPrimeC_eq, Out.ok_bind]
    rcases Nat.lt_or_ge (n + 1) p with h | h
    · have := h3 (n + 1) (by omega) h
      simp only [this, decide_false]
      exact ih (n + 1) h (by omega) (fun q a b => h3 q (by omega) b)
    · have : n + 1 = p := by omega
      rw [this]; simp [hp]

theorem exists_next_prime {n : Nat} (hn : n ≠ 0) : ∃ p, p.Prime ∧ n < p ∧ p ≤ 2 * n ∧
    ∀ q, n < q → q < p → ¬ q.Prime := by
  obtain ⟨p0, hp0, h1, h2⟩ := Nat.exists_prime_lt_and_le_two_mul n hn
  classical
  have hex : ∃ p, p.Prime ∧ n < p := ⟨p0, hp0, h1⟩
  refine ⟨Nat.find hex, (Nat.find_spec hex).1, (Nat.find_spec hex).2, ?_, ?_⟩
  · exact (Nat.find_min' hex ⟨hp0, h1⟩).trans h2
  · intro q hq1 hq2 hq3
    exact Nat.find_min hex hq2 ⟨hq3, hq1⟩

/-! Landau's function -/

/-- The sum of the prime powers exactly dividing `x`. -/
def psum (x : Nat) : Nat := ∑ p ∈ x.primeFactors, p ^ x.factorization p

theorem psum_one : psum 1 = 0 := by simp [psum]

theorem psum_mul {a b : Nat} (h : Nat.Coprime a b) (ha : a ≠ 0) (hb : b ≠ 0) :
    psum (a * b) = psum a + psum b := by
  unfold psum
  rw [h.primeFactors_mul, Finset.sum_union h.disjoint_primeFactors]
  congr 1
  · apply Finset.sum_congr rfl
    intro p hp
    rw [Nat.factorization_mul ha hb, Finsupp.add_apply]
    have : b.factorization p = 0 := by
      apply Nat.factorization_eq_zero_of_not_dvd
      intro hd
      have h1 := Nat.dvd_of_mem_primeFactors hp
      have h2 := Nat.prime_of_mem_primeFactors hp
      have := Nat.dvd_gcd h1 hd
      rw [h.gcd_eq_one] at this
      exact h2.one_lt.ne' (Nat.dvd_one.1 this)
    rw [this, Nat.add_zero]
  · apply Finset.sum_congr rfl
    intro p hp
    rw [Nat.factorization_mul ha hb, Finsupp.add_apply]
    have : a.factorization p = 0 := by
      apply Nat.factorization_eq_zero_of_not_dvd
      intro hd
      have h1 := Nat.dvd_of_mem_primeFactors hp
      have h2 := Nat.prime_of_mem_primeFactors hp
      have := Nat.dvd_gcd hd h1
      rw [h.gcd_eq_one] at this
      exact h2.one_lt.ne' (Nat.dvd_one.1 this)
    rw [this, Nat.zero_add]

theorem psum_prime_pow {p k : Nat} (hp : p.Prime) (hk : 0 < k) : psum (p ^ k) = p ^ k := by
  unfold psum
  rw [Nat.primeFactors_prime_pow hk.ne' hp, Finset.sum_singleton, hp.factorization_pow]
  simp

theorem pow_le_psum {p x : Nat} (hp : p.Prime) (hd : p ∣ x) (hx : x ≠ 0) : p ^ x.factorization p ≤ psum x := by
  unfold psum
  exact Finset.single_le_sum (f := fun p => p ^ x.factorization p) (fun _ _ => Nat.zero_le _)
    (Nat.mem_primeFactors.2 ⟨hp, hd, hx⟩)

theorem psum_le_self {x : Nat} (hx : x ≠ 0) : psum x ≤ x := by
  induction x using Nat.recOnPosPrimePosCoprime with
  | zero => exact absurd rfl hx
  | one => simp [psum_one]
  | prime_pow p n hp hn => rw [psum_prime_pow hp hn]
  | coprime a b ha hb hab iha ihb =>
    rw [psum_mul hab (by omega) (by omega)]
    have := iha (by omega)
    have := ihb (by omega)
    nlinarith

theorem cube_le_three_pow : ∀ q : Nat, q ^ 3 ≤ 3 ^ q
  | 0 => by norm_num
  | 1 => by norm_num
  | 2 => by norm_num
  | 3 => by norm_num
  | n + 4 => by
    have ih := cube_le_three_pow (n + 3)
    rw [pow_succ 3 (n + 3)]
    nlinarith [Nat.zero_le (n ^ 3), Nat.zero_le (n ^ 2), Nat.zero_le n]

theorem cube_le_psum {x : Nat} (hx : x ≠ 0) : x ^ 3 ≤ 3 ^ psum x := by
  induction x using Nat.recOnPosPrimePosCoprime with
  | zero => exact absurd rfl hx
  | one => simp [psum_one]
  | prime_pow p n hp hn => rw [psum_prime_pow hp hn]; exact cube_le_three_pow _
  | coprime a b ha hb hab iha ihb =>
    rw [psum_mul hab (by omega) (by omega), mul_pow, pow_add]
    exact Nat.mul_le_mul (iha (by omega)) (ihb (by omega))

theorem psum_small {x : Nat} (hx : 0 < x) (h : psum x ≤ 60) : x < 2 ^ 32 := by
  have h1 := cube_le_psum (show x ≠ 0 by omega)
  have h2 : 3 ^ psum x ≤ 3 ^ 60 := Nat.pow_le_pow_right (by omega) h
  have h3 : (3 : Nat) ^ 60 < (2 ^ 32) ^ 3 := by norm_num
  exact lt_of_pow_lt_pow_left₀ 3 (Nat.zero_le _) (by omega)

theorem psum_lcm {a b : Nat} (ha : a ≠ 0) (hb : b ≠ 0) : psum (Nat.lcm a b) ≤ psum a + psum b := by
  unfold psum
  have hpf : (Nat.lcm a b).primeFactors = a.primeFactors ∪ b.primeFactors := by
    ext p
    simp only [Nat.mem_primeFactors, Finset.mem_union]
    constructor
    · rintro ⟨hp, hd, -⟩
      rcases (Nat.Prime.dvd_mul hp).1 (hd.trans (Nat.lcm_dvd_mul a b)) with h | h
      · exact Or.inl ⟨hp, h, ha⟩
      · exact Or.inr ⟨hp, h, hb⟩
    · rintro (⟨hp, hd, -⟩ | ⟨hp, hd, -⟩)
      · exact ⟨hp, hd.trans (Nat.dvd_lcm_left a b), Nat.lcm_ne_zero ha hb⟩
      · exact ⟨hp, hd.trans (Nat.dvd_lcm_right a b), Nat.lcm_ne_zero ha hb⟩
  rw [hpf, Nat.factorization_lcm ha hb]
  have h1 : ∑ p ∈ a.primeFactors ∪ b.primeFactors, p ^ (a.factorization ⊔ b.factorization) p ≤
      ∑ p ∈ a.primeFactors ∪ b.primeFactors,
        ((if p ∈ a.primeFactors then p ^ a.factorization p else 0) +
         (if p ∈ b.primeFactors then p ^ b.factorization p else 0)) := by
    apply Finset.sum_le_sum
    intro p hp
    rw [Finsupp.sup_apply]
    rcases Nat.le_total (a.factorization p) (b.factorization p) with hle | hle
    · rw [sup_eq_right.2 hle]
      by_cases hpb : p ∈ b.primeFactors
      · rw [if_pos hpb]; omega
      · have e : b.factorization p = 0 := by
          rw [← Finsupp.notMem_support_iff]; simpa using hpb
        have hpa : p ∈ a.primeFactors := by
          rcases Finset.mem_union.1 hp with h | h
          · exact h
          · exact absurd h hpb
        have e2 : a.factorization p = 0 := by omega
        rw [if_pos hpa, e, e2]; simp
    · rw [sup_eq_left.2 hle]
      by_cases hpa : p ∈ a.primeFactors
      · rw [if_pos hpa]; omega
      · have e : a.factorization p = 0 := by
          rw [← Finsupp.notMem_support_iff]; simpa using hpa
        have hpb : p ∈ b.primeFactors := by
          rcases Finset.mem_union.1 hp with h | h
          · exact absurd h hpa
          · exact h
        have e2 : b.factorization p = 0 := by omega
        rw [if_pos hpb, e, e2]; simp
  refine h1.trans ?_
  rw [Finset.sum_add_distrib, Finset.sum_ite_mem, Finset.sum_ite_mem]
  simp

/-- The orders of permutations of `n` objects are bounded by numbers with small `psum`. -/
theorem psum_of_order {n x : Nat} (h : OrderOn n x) : 0 < x ∧ psum x ≤ n := by
  obtain ⟨l, h1, h2, rfl⟩ := h
  have key : 0 < l.foldr Nat.lcm 1 ∧ psum (l.foldr Nat.lcm 1) ≤ l.sum := by
    clear h2
    induction l with
    | nil => simp [psum_one]
    | cons c l ih =>
      obtain ⟨i1, i2⟩ := ih (fun c hc => h1 c (by simp [hc]))
      have hc := h1 c (by simp)
      simp only [List.foldr_cons, List.sum_cons]
      refine ⟨Nat.lcm_pos hc i1, ?_⟩
      have := psum_lcm (show c ≠ 0 by omega) (show l.foldr Nat.lcm 1 ≠ 0 by omega)
      have := psum_le_self (show c ≠ 0 by omega)
      omega
  exact ⟨key.1, key.2.trans h2⟩

theorem order_of_psum {n x : Nat} (hx : 0 < x) (h : psum x ≤ n) : OrderOn n x := by
  have key : ∃ l : List Nat, (∀ c ∈ l, 0 < c) ∧ l.sum = psum x ∧ x = l.foldr Nat.lcm 1 := by
    clear h
    induction x using Nat.recOnPosPrimePosCoprime with
    | zero => omega
    | one => exact ⟨[], by simp, by simp [psum_one], rfl⟩
    | prime_pow p k hp hk =>
      exact ⟨[p ^ k], by simp [hx], by simp [psum_prime_pow hp hk], by simp⟩
    | coprime a b ha hb hab iha ihb =>
      obtain ⟨l1, a1, a2, a3⟩ := iha (by omega)
      obtain ⟨l2, b1, b2, b3⟩ := ihb (by omega)
      refine ⟨l1 ++ l2, ?_, ?_, ?_⟩
      · intro c hc
        rcases List.mem_append.1 hc with h | h
        · exact a1 c h
        · exact b1 c h
      · rw [List.sum_append, a2, b2, psum_mul hab (by omega) (by omega)]
      · have : ∀ l : List Nat, ∀ y, l.foldr Nat.lcm y = Nat.lcm (l.foldr Nat.lcm 1) y := by
          intro l
          induction l with
          | nil => intro y; simp
          | cons c l ih => intro y; simp only [List.foldr_cons]; rw [ih y, Nat.lcm_assoc]
        rw [List.foldr_append, this, ← a3, ← b3, hab.lcm_eq_mul]
  obtain ⟨l, h1, h2, h3⟩ := key
  exact ⟨l, h1, by omega, h3⟩

/-- The numbers reachable with the primes satisfying `P` and total `m`. -/
def Reach (P : Nat → Prop) (m x : Nat) : Prop := 0 < x ∧ (∀ q, q.Prime → q ∣ x → P q) ∧ psum x ≤ m

theorem landauQ_spec {n p m : Nat} (hp : p.Prime) (hpm : p < 2 ^ 16) (hn : m ≤ n) (hn16 : n < 2 ^ 16)
    (hbig : ∀ x, 0 < x → psum x ≤ n → x < 2 ^ 32)
    {P : Nat → Prop} (hP : ∀ q, P q → q < p) :
    ∀ (fuel k : Nat) (g : List Nat), g.length = n + 1 → 0 < k →
    (∀ i, i < m → IsMax (Reach P i) (g.getD i 0)) →
    Reach (fun q => P q ∨ q = p) m (g.getD m 0) →
    (∀ x, Reach (fun q => P q ∨ q = p) m x → x.factorization p < k → x ≤ g.getD m 0) →
    p ^ k < 2 ^ 32 → m + 2 ≤ p ^ k + fuel → 0 < fuel →
    ∃ g', landauQ p m fuel (p ^ k) g = .ok g' ∧ g'.length = n + 1 ∧ (∀ i, i ≠ m → g'.getD i 0 = g.getD i 0) ∧
      IsMax (Reach (fun q => P q ∨ q = p) m) (g'.getD m 0) := by
  intro fuel
  induction fuel with
  | zero => intro k g h1 h2 h3 h4 h5 h6 h7 h8; omega
  | succ fuel ih =>
    intro k g hlen hk hlow hin hmax h32 hfuel _
    unfold landauQ
    by_cases hq : p ^ k ≤ m
    · rw [if_pos hq, vget_ok (show m - p ^ k < g.length by omega), Out.ok_bind,
        vget_ok (show m < g.length by omega), Out.ok_bind]
      have hpk : 0 < p ^ k := Nat.pow_pos hp.pos
      have e1 : g[m - p ^ k] = g.getD (m - p ^ k) 0 := by
        rw [List.getD_eq_getElem?_getD, List.getElem?_eq_getElem (by omega)]; rfl
      have e2 : g[m] = g.getD m 0 := by
        rw [List.getD_eq_getElem?_getD, List.getElem?_eq_getElem (by omega)]; rfl
      rw [e1, e2]
      obtain ⟨⟨hz0, hzP, hzs⟩, hzmax⟩ := hlow (m - p ^ k) (by omega)
      generalize g.getD (m - p ^ k) 0 = z at hz0 hzP hzs hzmax ⊢
      have hcop : Nat.Coprime (p ^ k) z := by
        apply Nat.Coprime.pow_left
        rw [Nat.Prime.coprime_iff_not_dvd hp]
        intro hd
        exact absurd (hP p (hzP p hp hd)) (by omega)
      have hps : psum (p ^ k * z) = p ^ k + psum z := by
        rw [psum_mul hcop (by omega) (by omega), psum_prime_pow hp hk]
      have hreach : Reach (fun q => P q ∨ q = p) m (p ^ k * z) := by
        refine ⟨Nat.mul_pos hpk hz0, ?_, by omega⟩
        intro q hq1 hq2
        rcases (Nat.Prime.dvd_mul hq1).1 hq2 with h | h
        · right; exact (Nat.prime_dvd_prime_iff_eq hq1 hp).1 (hq1.dvd_of_dvd_pow h)
        · left; exact hzP q hq1 h
      have hlt : p ^ k * z < 2 ^ 32 := hbig _ hreach.1 (by have := hreach.2.2; omega)
      simp only [u32_of_lt hlt]
      -- numbers with exponent exactly k
      have hexact : ∀ x, Reach (fun q => P q ∨ q = p) m x → x.factorization p = k → x ≤ p ^ k * z := by
        rintro x ⟨hx0, hxP, hxs⟩ hf
        have hdvd : p ^ k ∣ x := by rw [← hf]; exact Nat.ordProj_dvd x p
        obtain ⟨y, rfl⟩ := hdvd
        have hy0 : 0 < y := Nat.pos_of_ne_zero (by rintro rfl; simp at hx0)
        have hyp : ¬ p ∣ y := by
          intro hd
          have : y.factorization p = 0 := by
            rw [Nat.factorization_mul (by omega) (by omega), Finsupp.add_apply, hp.factorization_pow] at hf
            simp at hf; omega
          have := (Nat.Prime.factorization_pos_of_dvd hp (by omega) hd)
          omega
        have hc2 : Nat.Coprime (p ^ k) y := Nat.Coprime.pow_left _ ((Nat.Prime.coprime_iff_not_dvd hp).2 hyp)
        rw [psum_mul hc2 (by omega) (by omega), psum_prime_pow hp hk] at hxs
        have hy : Reach P (m - p ^ k) y := by
          refine ⟨hy0, ?_, by omega⟩
          intro q hq1 hq2
          rcases hxP q hq1 (hq2.mul_left _) with h | h
          · exact h
          · subst h; exact absurd hq2 hyp
        exact Nat.mul_le_mul_left _ (hzmax y hy)
      have h32' : p ^ (k + 1) < 2 ^ 32 := by
        rw [pow_succ]
        calc p ^ k * p ≤ m * p := Nat.mul_le_mul_right _ hq
          _ < 2 ^ 16 * 2 ^ 16 := by nlinarith
          _ = 2 ^ 32 := by norm_num
      have hgrow : p ^ k + 1 ≤ p ^ (k + 1) := Nat.pow_lt_pow_right hp.one_lt (by omega)
      have hstep : u32 (p ^ k * p) = p ^ (k + 1) := by rw [← pow_succ, u32_of_lt h32']
      have hsplit : ∀ x : Nat, x.factorization p < k + 1 → x.factorization p < k ∨ x.factorization p = k := by
        intro x h; omega
      by_cases hgt : p ^ k * z > g.getD m 0
      · rw [if_pos hgt, vset_ok _ (show m < g.length by omega), Out.ok_bind, hstep]
        have gm : (g.set m (p ^ k * z)).getD m 0 = p ^ k * z := by
          simp [List.getD_eq_getElem?_getD, show m < g.length by omega]
        have gi : ∀ i, i ≠ m → (g.set m (p ^ k * z)).getD i 0 = g.getD i 0 := by
          intro i hi
          simp [List.getD_eq_getElem?_getD, List.getElem?_set_ne (Ne.symm hi)]
        obtain ⟨g', r1, r2, r3, r4⟩ := ih (k + 1) (g.set m (p ^ k * z)) (by simp [hlen]) (by omega)
          (by intro i hi; rw [gi i (by omega)]; exact hlow i hi) (by rw [gm]; exact hreach)
          (by
            intro x hx hf
            rw [gm]
            rcases hsplit x hf with h | h
            · have := hmax x hx h; omega
            · exact hexact x hx h) h32' (by omega) (by omega)
        exact ⟨g', r1, r2, fun i hi => by rw [r3 i hi, gi i hi], r4⟩
      · rw [if_neg hgt, Out.pure_eq, Out.ok_bind, hstep]
        exact ih (k + 1) g hlen (by omega) hlow hin (by
          intro x hx hf
          rcases hsplit x hf with h | h
          · exact hmax x hx h
          · have := hexact x hx h; omega) h32' (by omega) (by omega)
    · rw [if_neg hq]
      refine ⟨g, rfl, hlen, fun _ _ => rfl, hin, ?_⟩
      intro x hx
      by_cases hd : p ∣ x
      · refine hmax x hx ?_
        by_contra hc
        have h1 := pow_le_psum hp hd (by have := hx.1; omega)
        have h2 : p ^ k ≤ p ^ x.factorization p := Nat.pow_le_pow_right hp.pos (by omega)
        have := hx.2.2
        omega
      · refine hmax x hx ?_
        rw [Nat.factorization_eq_zero_of_not_dvd hd]; exact hk

theorem landauM_spec {n p : Nat} (hp : p.Prime) (hpm : p < 2 ^ 16) (hn16 : n < 2 ^ 16)
    (hbig : ∀ x, 0 < x → psum x ≤ n → x < 2 ^ 32)
    {P : Nat → Prop} (hP : ∀ q, P q → q < p) :
    ∀ (m : Nat) (g : List Nat), m ≤ n → g.length = n + 1 →
    (∀ i, i ≤ m → IsMax (Reach P i) (g.getD i 0)) →
    (∀ i, m < i → i ≤ n → IsMax (Reach (fun q => P q ∨ q = p) i) (g.getD i 0)) →
    ∃ g', landauM p m g = .ok g' ∧ g'.length = n + 1 ∧
      ∀ i, i ≤ n → IsMax (Reach (fun q => P q ∨ q = p) i) (g'.getD i 0) := by
  intro m
  induction m with
  | zero =>
    intro g hm hl h1 h2
    refine ⟨g, rfl, hl, ?_⟩
    intro i hi
    rcases Nat.eq_zero_or_pos i with rfl | h
    · obtain ⟨⟨a1, a2, a3⟩, a4⟩ := h1 0 (le_refl _)
      refine ⟨⟨a1, fun q x y => Or.inl (a2 q x y), a3⟩, ?_⟩
      rintro x ⟨b1, b2, b3⟩
      apply a4
      refine ⟨b1, ?_, b3⟩
      intro q hq hd
      have := pow_le_psum hq hd (by omega)
      have : 0 < q ^ x.factorization q := Nat.pow_pos hq.pos
      omega
    · exact h2 i h hi
  | succ m ih =>
    intro g hm hl h1 h2
    unfold landauM
    obtain ⟨⟨a1, a2, a3⟩, a4⟩ := h1 (m + 1) (le_refl _)
    have hp2 := hp.two_le
    obtain ⟨g', r1, r2, r3, r4⟩ := landauQ_spec hp hpm hm hn16 hbig hP (m + 2) 1 g hl (by omega)
      (fun i hi => h1 i (by omega)) ⟨a1, fun q x y => Or.inl (a2 q x y), a3⟩
      (by
        rintro x ⟨b1, b2, b3⟩ hf
        apply a4
        refine ⟨b1, ?_, b3⟩
        intro q hq hd
        rcases b2 q hq hd with h | h
        · exact h
        · subst h
          have := Nat.Prime.factorization_pos_of_dvd hq (by omega) hd
          omega) (by rw [pow_one]; omega) (by rw [pow_one]; omega) (by omega)
    rw [pow_one] at r1
    rw [r1, Out.ok_bind]
    apply ih g' (by omega) r2
    · intro i hi; rw [r3 i (by omega)]; exact h1 i (by omega)
    · intro i hi hi'
      rcases Nat.lt_or_ge (m + 1) i with h | h
      · rw [r3 i (by omega)]; exact h2 i h hi'
      · have : i = m + 1 := by omega
        subst this; exact r4

theorem isMax_congr {A B : Nat → Prop} {v : Nat} (h : IsMax A v) (e : ∀ x, A x ↔ B x) : IsMax B v :=
  ⟨(e v).1 h.1, fun x hx => h.2 x ((e x).2 hx)⟩

theorem landauP_spec {n pmax : Nat} (hpm : pmax < 2 ^ 16) (hn16 : n < 2 ^ 16)
    (hbig : ∀ x, 0 < x → psum x ≤ n → x < 2 ^ 32) :
    ∀ (fuel p : Nat) (g : List Nat), p.Prime → p ≤ 2 * pmax + 2 → pmax + 1 < p + fuel → 0 < fuel → g.length = n + 1 →
    (∀ q, q.Prime → pmax < q → p ≤ q ∨ q ≤ p) →
    (∀ i, i ≤ n → IsMax (Reach (fun q => q < p) i) (g.getD i 0)) →
    (∀ q, q.Prime → q < p → q ≤ pmax) →
    ∃ g', landauP n pmax fuel p g = .ok g' ∧ g'.length = n + 1 ∧
      ∀ i, i ≤ n → IsMax (Reach (fun q => q ≤ pmax) i) (g'.getD i 0) := by
  intro fuel
  induction fuel with
  | zero => intro p g _ _ _ h; omega
  | succ fuel ih =>
    intro p g hp hp2 hf _ hl _ hg hlow
    unfold landauP
    by_cases hle : p ≤ pmax
    · rw [if_pos hle]
      obtain ⟨g1, r1, r2, r3⟩ := landauM_spec hp (by omega) hn16 hbig (P := fun q => q < p) (fun q h => h)
        n g (le_refl _) hl hg (fun i h1 h2 => by omega)
      rw [r1, Out.ok_bind]
      obtain ⟨p', hp', h1, h2, h3⟩ := exists_next_prime (show p ≠ 0 from hp.ne_zero)
      rw [nextPrime_spec hp' (by omega) (p + 1) p h1 (by omega) h3, Out.ok_bind]
      refine ih p' g1 hp' (by omega) (by omega) (by omega) r2 (fun q _ _ => by omega) ?_ ?_
      · intro i hi
        refine isMax_congr (r3 i hi) ?_
        intro x
        unfold Reach
        refine and_congr_right fun hx => and_congr_left fun _ => forall_congr' fun q => ?_
        refine forall_congr' fun hq => forall_congr' fun hd => ?_
        constructor
        · rintro (h | h) <;> omega
        · intro h
          by_contra hc
          push Not at hc
          exact h3 q (by omega) h hq
      · intro q hq hqp
        by_contra hc
        exact h3 q (by omega) hqp hq
    · rw [if_neg hle]
      refine ⟨g, rfl, hl, ?_⟩
      intro i hi
      refine isMax_congr (hg i hi) ?_
      intro x
      unfold Reach
      refine and_congr_right fun hx => and_congr_left fun _ => forall_congr' fun q => ?_
      refine forall_congr' fun hq => forall_congr' fun hd => ?_
      constructor
      · intro h; exact hlow q hq h
      · intro h; omega

theorem landauC_spec {n pmax : Nat} (hpm : pmax < 2 ^ 16) (hn16 : n < 2 ^ 16)
    (hbig : ∀ x, 0 < x → psum x ≤ n → x < 2 ^ 32) :
    ∃ v, landauC n pmax = .ok v ∧ IsMax (Reach (fun q => q ≤ pmax) n) v := by
  have h0 : ∀ i, i ≤ n → IsMax (Reach (fun q => q < 2) i) ((List.replicate (n + 1) 1).getD i 0) := by
    intro i hi
    have : (List.replicate (n + 1) 1).getD i 0 = 1 := by
      simp [List.getD_eq_getElem?_getD, show i < n + 1 by omega]
    rw [this]
    refine ⟨⟨by omega, ?_, by simp [psum_one]⟩, ?_⟩
    · intro q hq hd; exact absurd (Nat.dvd_one.1 hd) hq.one_lt.ne'
    · rintro x ⟨h1, h2, -⟩
      by_contra hc
      obtain ⟨q, hq, hd⟩ := Nat.exists_prime_and_dvd (show x ≠ 1 by omega)
      have := h2 q hq hd
      have := hq.two_le
      omega
  obtain ⟨g, r1, r2, r3⟩ := landauP_spec hpm hn16 hbig (pmax + 1) 2 (List.replicate (n + 1) 1)
    Nat.prime_two (by omega) (by omega) (by omega) (by simp) (fun q _ _ => by omega) h0
    (fun q hq h => by have := hq.two_le; omega)
  refine ⟨g.getD n 0, ?_, r3 n (le_refl _)⟩
  unfold landauC
  rw [r1, Out.ok_bind, vget_ok (by omega)]
  rw [List.getD_eq_getElem?_getD, List.getElem?_eq_getElem (by omega)]; rfl

end Ringing
