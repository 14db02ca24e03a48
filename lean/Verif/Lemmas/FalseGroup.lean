import Mathlib.Data.ZMod.Basic
import Mathlib.Tactic.Ring
import Mathlib.Tactic.LinearCombination
import Verif.Spec.FalseSymbols
import Verif.Lemmas.Group9
/-
The plain bob lead heads on an even number of bells as the symmetries of a polygon whose corners are the working
bells.
-/
namespace Ringing
namespace Falseness
open Spec

/-- The corner of a working bell: `0, -1, 1, -2, 2, ...`. -/
def labZ (v : Nat) : Int := if v % 2 = 1 then (((v - 1) / 2 : Nat) : Int) else -((v / 2 : Nat) : Int)

/-- The corner modulo the number of working bells. -/
def lab (n v : Nat) : ZMod n := ((labZ v : Int) : ZMod n)

theorem cast_eq {n : Nat} {a b : Int} : ((a : Int) : ZMod n) = (b : Int) ↔ (n : Int) ∣ b - a :=
  ZMod.intCast_eq_intCast_iff_dvd_sub a b n

/-- Integers that are near to each other and agree modulo `n` are equal. -/
theorem cast_near {n : Nat} {a b : Int} (h : ((a : Int) : ZMod n) = (b : Int)) (h1 : a - b < n) (h2 : b - a < n) :
    a = b := by
  obtain ⟨c, hc⟩ := cast_eq.1 h
  have h3 : c < 1 := by
    by_contra h3
    have : (n : Int) * 1 ≤ n * c := Int.mul_le_mul_of_nonneg_left (by omega) (by omega)
    omega
  have h4 : -1 < c := by
    by_contra h4
    have : (n : Int) * c ≤ n * (-1) := Int.mul_le_mul_of_nonneg_left (by omega) (by omega)
    omega
  have : c = 0 := by omega
  subst this
  omega

theorem labZ_inj {v w : Nat} (hv : 1 ≤ v) (hw : 1 ≤ w) (h : labZ v = labZ w) : v = w := by
  unfold labZ at h
  split at h <;> split at h <;> omega

theorem labZ_range {n v : Nat} (hn : n % 2 = 1) (hv : v ≤ n) : 2 * labZ v ≤ n - 1 ∧ -((n : Int) - 1) ≤ 2 * labZ v := by
  unfold labZ
  split <;> constructor <;> omega

theorem lab_inj {n v w : Nat} (hn : n % 2 = 1) (hv : 1 ≤ v) (hv' : v ≤ n) (hw : 1 ≤ w) (hw' : w ≤ n)
    (h : lab n v = lab n w) : v = w := by
  have h1 := labZ_range hn hv'
  have h2 := labZ_range hn hw'
  exact labZ_inj hv hw (cast_near h (by omega) (by omega))

theorem lab_surj {n : Nat} (hn : n % 2 = 1) (z : ZMod n) : ∃ v, 1 ≤ v ∧ v ≤ n ∧ lab n v = z := by
  have : NeZero n := ⟨by omega⟩
  have hz : ((z.val : Nat) : ZMod n) = z := ZMod.natCast_zmod_val z
  have hl := ZMod.val_lt z
  by_cases h : 2 * z.val < n
  · refine ⟨2 * z.val + 1, by omega, by omega, ?_⟩
    unfold lab labZ
    rw [if_pos (by omega), show (2 * z.val + 1 - 1) / 2 = z.val by omega]
    simp
  · refine ⟨2 * (n - z.val), by omega, by omega, ?_⟩
    unfold lab labZ
    rw [if_neg (by omega), show 2 * (n - z.val) / 2 = n - z.val by omega]
    rw [Int.cast_neg, Int.cast_natCast, Nat.cast_sub (by omega), hz]
    simp

/-- The permutation is the symmetry `z ↦ s z + k` of the polygon. -/
structure Dih (n : Nat) (p : Equiv.Perm Nat) (s : Int) (k : ZMod n) : Prop where
  sgn : s = 1 ∨ s = -1
  zero : p 0 = 0
  big : ∀ v, n < v → p v = v
  lab : ∀ v, 1 ≤ v → v ≤ n → Falseness.lab n (p v) = (s : ZMod n) * Falseness.lab n v + k

theorem Dih.range {n : Nat} {p : Equiv.Perm Nat} {s : Int} {k : ZMod n} (h : Dih n p s k) {v : Nat} (h1 : 1 ≤ v)
    (h2 : v ≤ n) : 1 ≤ p v ∧ p v ≤ n := by
  constructor
  · by_contra h3
    have : p v = p 0 := by rw [h.zero]; omega
    have := p.injective this
    omega
  · by_contra h3
    have : p (p v) = p v := h.big _ (by omega)
    have := p.injective this
    omega

theorem Dih.congr {n : Nat} {p : Equiv.Perm Nat} {s t : Int} {k l : ZMod n} (h : Dih n p s k) (hs : s = t) (hk : k = l) :
    Dih n p t l := hs ▸ hk ▸ h

theorem Dih.one (n : Nat) : Dih n 1 1 0 := ⟨Or.inl rfl, rfl, fun _ _ => rfl, fun v _ _ => by simp⟩

theorem sq_sgn {s : Int} (h : s = 1 ∨ s = -1) : s * s = 1 := by rcases h with rfl | rfl <;> rfl

theorem sgn_mul {s t : Int} (h : s = 1 ∨ s = -1) (h' : t = 1 ∨ t = -1) : s * t = 1 ∨ s * t = -1 := by
  rcases h with rfl | rfl <;> rcases h' with rfl | rfl <;> simp

theorem Dih.mul {n : Nat} {p q : Equiv.Perm Nat} {s t : Int} {k l : ZMod n} (h : Dih n p s k) (h' : Dih n q t l) :
    Dih n (p * q) (s * t) ((s : ZMod n) * l + k) := by
  refine ⟨sgn_mul h.sgn h'.sgn, ?_, ?_, ?_⟩
  · rw [Equiv.Perm.mul_apply, h'.zero, h.zero]
  · intro v hv; rw [Equiv.Perm.mul_apply, h'.big v hv, h.big v hv]
  · intro v h1 h2
    have := h'.range h1 h2
    rw [Equiv.Perm.mul_apply, h.lab _ this.1 this.2, h'.lab v h1 h2, Int.cast_mul]
    ring

theorem Dih.inv {n : Nat} {p : Equiv.Perm Nat} {s : Int} {k : ZMod n} (h : Dih n p s k) (hn : n % 2 = 1) :
    Dih n p⁻¹ s (-((s : ZMod n) * k)) := by
  refine ⟨h.sgn, ?_, ?_, ?_⟩
  · rw [Equiv.Perm.inv_eq_iff_eq, h.zero]
  · intro v hv; rw [Equiv.Perm.inv_eq_iff_eq, h.big v hv]
  · intro v h1 h2
    obtain ⟨w, rfl⟩ := p.surjective v
    have hw : 1 ≤ w ∧ w ≤ n := by
      constructor
      · by_contra h3
        have : w = 0 := by omega
        rw [this, h.zero] at h1; omega
      · by_contra h3
        rw [h.big w (by omega)] at h2; omega
    rw [show p⁻¹ (p w) = w from Equiv.symm_apply_apply p w, h.lab w hw.1 hw.2]
    have : (s : ZMod n) * s = 1 := by rw [← Int.cast_mul, sq_sgn h.sgn]; simp
    linear_combination (-Falseness.lab n w) * this

theorem Dih.ext {n : Nat} (hn : n % 2 = 1) {p q : Equiv.Perm Nat} {s : Int} {k : ZMod n} (h : Dih n p s k)
    (h' : Dih n q s k) : p = q := by
  ext v
  by_cases h0 : v = 0
  · rw [h0, h.zero, h'.zero]
  · by_cases h1 : n < v
    · rw [h.big v h1, h'.big v h1]
    · have r := h.range (v := v) (by omega) (by omega)
      have r' := h'.range (v := v) (by omega) (by omega)
      exact lab_inj hn r.1 r.2 r'.1 r'.2 (by rw [h.lab v (by omega) (by omega), h'.lab v (by omega) (by omega)])

/-! ### The two generators -/

theorem valid_firstLeadHead {b : Nat} (he : b % 2 = 0) (hb : 4 ≤ b) (hb' : b ≤ 256) : Row.Valid (firstLeadHead b) := by
  apply Row.valid_map_range hb'
  · intro i hi; split_ifs <;> omega
  · intro i j hi hj e; split_ifs at e <;> omega

theorem valid_seconds {b : Nat} (he : b % 2 = 0) (hb' : b ≤ 256) : Row.Valid (seconds b) := by
  apply Row.valid_map_range hb'
  · intro i hi; split_ifs <;> omega
  · intro i j hi hj e; revert e; split_ifs <;> omega

theorem dih_firstLeadHead {b : Nat} (he : b % 2 = 0) (hb : 4 ≤ b) (hb' : b ≤ 256) :
    Dih (b - 1) (permOf (firstLeadHead b)) 1 (-1) := by
  have hv := valid_firstLeadHead he hb hb'
  have hl : (firstLeadHead b).length = b := by simp [firstLeadHead]
  refine ⟨Or.inl rfl, ?_, ?_, ?_⟩
  · rw [permOf_apply hv, firstLeadHead, Row.fn_map_range (by omega), if_pos rfl]
  · intro v h; rw [permOf_apply hv, Row.fn_of_ge (by omega)]
  · intro v h1 h2
    rw [permOf_apply hv, firstLeadHead, Row.fn_map_range (by omega)]
    unfold lab
    rw [show ((1 : Int) : ZMod (b - 1)) * ((labZ v : Int) : ZMod (b - 1)) + (-1) = ((labZ v - 1 : Int) : ZMod (b - 1)) by
      push_cast; ring]
    by_cases c1 : v = 1
    · subst c1; rw [if_neg (by omega), if_pos rfl]; rfl
    · rw [if_neg (by omega), if_neg c1]
      by_cases c2 : v % 2 = 1
      · rw [if_pos c2]
        congr 1
        unfold labZ
        rw [if_pos (by omega), if_pos c2]; omega
      · rw [if_neg c2]
        by_cases c3 : v + 2 < b
        · rw [if_pos c3]
          congr 1
          unfold labZ
          rw [if_neg (by omega), if_neg c2]; omega
        · rw [if_neg c3, cast_eq]
          unfold labZ
          rw [if_neg c2, if_pos (by omega)]
          exact ⟨-1, by omega⟩

theorem dih_seconds {b : Nat} (he : b % 2 = 0) (hb : 4 ≤ b) (hb' : b ≤ 256) : Dih (b - 1) (permOf (seconds b)) (-1) 0 := by
  have hv := valid_seconds he hb'
  have hl : (seconds b).length = b := by simp [seconds]
  refine ⟨Or.inr rfl, ?_, ?_, ?_⟩
  · rw [permOf_apply hv, seconds, Row.fn_map_range (by omega), if_pos (by omega)]
  · intro v h; rw [permOf_apply hv, Row.fn_of_ge (by omega)]
  · intro v h1 h2
    rw [permOf_apply hv, seconds, Row.fn_map_range (by omega)]
    unfold lab
    rw [show ((-1 : Int) : ZMod (b - 1)) * ((labZ v : Int) : ZMod (b - 1)) + 0 = ((-labZ v : Int) : ZMod (b - 1)) by
      push_cast; ring]
    congr 1
    by_cases c1 : v = 1
    · subst c1; rfl
    · rw [if_neg (by omega)]
      by_cases c2 : v % 2 = 0
      · rw [if_pos c2]; unfold labZ; rw [if_pos (by omega), if_neg (by omega)]; omega
      · rw [if_neg c2]; unfold labZ; rw [if_neg (by omega), if_pos (by omega)]

theorem dih_pow {b : Nat} (he : b % 2 = 0) (hb : 4 ≤ b) (hb' : b ≤ 256) (j : Nat) :
    Dih (b - 1) (permOf (firstLeadHead b) ^ j) 1 (-(j : ZMod (b - 1))) := by
  induction j with
  | zero => simpa using Dih.one (b - 1)
  | succ j ih =>
    rw [pow_succ]
    refine (ih.mul (dih_firstLeadHead he hb hb')).congr rfl ?_
    rw [Nat.cast_succ, Int.cast_one]
    ring

/-- Every symmetry of the polygon is in the group. -/
theorem exists_mem_dih {b : Nat} (he : b % 2 = 0) (hb : 4 ≤ b) (hb' : b ≤ 256) {s : Int} (hs : s = 1 ∨ s = -1)
    (k : ZMod (b - 1)) : ∃ p ∈ PlainBob b, Dih (b - 1) p s k := by
  have : NeZero (b - 1) := ⟨by omega⟩
  have g1 : permOf (firstLeadHead b) ∈ PlainBob b := Subgroup.subset_closure ⟨_, by simp, rfl⟩
  have g2 : permOf (seconds b) ∈ PlainBob b := Subgroup.subset_closure ⟨_, by simp, rfl⟩
  have hk : ((((-k).val : Nat)) : ZMod (b - 1)) = -k := ZMod.natCast_zmod_val _
  rcases hs with rfl | rfl
  · have h := dih_pow he hb hb' (-k).val
    rw [hk, neg_neg] at h
    exact ⟨_, Subgroup.pow_mem _ g1 _, h⟩
  · have h := (dih_pow he hb hb' (-k).val).mul (dih_seconds he hb hb')
    rw [hk, neg_neg] at h
    exact ⟨_, Subgroup.mul_mem _ (Subgroup.pow_mem _ g1 _) g2, h.congr rfl (by rw [mul_zero, zero_add])⟩

theorem exists_dih {b : Nat} (he : b % 2 = 0) (hb : 4 ≤ b) (hb' : b ≤ 256) {s : Int} (hs : s = 1 ∨ s = -1)
    (k : ZMod (b - 1)) : ∃ p, Dih (b - 1) p s k :=
  let ⟨p, _, h⟩ := exists_mem_dih he hb hb' hs k
  ⟨p, h⟩

/-- The group consists of the symmetries of the polygon. -/
theorem plainBob_dih {b : Nat} (he : b % 2 = 0) (hb : 4 ≤ b) (hb' : b ≤ 256) {p : Equiv.Perm Nat} :
    p ∈ PlainBob b ↔ ∃ s k, Dih (b - 1) p s k := by
  have hn : (b - 1) % 2 = 1 := by omega
  have : NeZero (b - 1) := ⟨by omega⟩
  constructor
  · intro h
    unfold PlainBob generated at h
    induction h using Subgroup.closure_induction with
    | mem x hx =>
      obtain ⟨g, hg, rfl⟩ := hx
      simp only [List.mem_cons, List.not_mem_nil, or_false] at hg
      rcases hg with rfl | rfl
      · exact ⟨_, _, dih_firstLeadHead he hb hb'⟩
      · exact ⟨_, _, dih_seconds he hb hb'⟩
    | one => exact ⟨_, _, Dih.one _⟩
    | mul x y _ _ hx hy =>
      obtain ⟨s, k, h1⟩ := hx
      obtain ⟨t, l, h2⟩ := hy
      exact ⟨_, _, h1.mul h2⟩
    | inv x _ hx =>
      obtain ⟨s, k, h1⟩ := hx
      exact ⟨_, _, h1.inv hn⟩
  · rintro ⟨s, k, h⟩
    obtain ⟨q, hq, h'⟩ := exists_mem_dih he hb hb' h.sgn k
    rw [h.ext hn h']; exact hq

end Falseness
end Ringing
