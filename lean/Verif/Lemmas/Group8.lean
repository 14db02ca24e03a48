import Verif.Lemmas.Group7
import Mathlib.Data.ZMod.Basic
import Mathlib.GroupTheory.OrderOfElement
/- Helper lemmas: cyclic and dihedral groups. -/
namespace Ringing
open Spec
namespace Group

/-- The permutation `p` moves the `nw` places from `nh` round one cycle: `κ` numbers the places along the
cycle. -/
structure Cyc (nw nh : Nat) (κ : Nat → ZMod nw) (p : Equiv.Perm Nat) : Prop where
  fix : ∀ i, i < nh ∨ nh + nw ≤ i → p i = i
  maps : ∀ i, nh ≤ i → i < nh + nw → nh ≤ p i ∧ p i < nh + nw
  step : ∀ i, nh ≤ i → i < nh + nw → κ (p i) = κ i + 1

/-- The places are numbered differently. -/
def Num (nw nh : Nat) (κ : Nat → ZMod nw) : Prop :=
  ∀ i j, nh ≤ i → i < nh + nw → nh ≤ j → j < nh + nw → κ i = κ j → i = j

variable {nw nh : Nat} {κ : Nat → ZMod nw} {p q : Equiv.Perm Nat}

theorem Cyc.pow (h : Cyc nw nh κ p) (k : Nat) : (∀ i, i < nh ∨ nh + nw ≤ i → (p ^ k) i = i) ∧
    ∀ i, nh ≤ i → i < nh + nw → nh ≤ (p ^ k) i ∧ (p ^ k) i < nh + nw ∧ κ ((p ^ k) i) = κ i + k := by
  induction k with
  | zero => exact ⟨fun i _ => rfl, fun i h1 h2 => ⟨h1, h2, by simp⟩⟩
  | succ k ih =>
    refine ⟨fun i hi => ?_, fun i h1 h2 => ?_⟩
    · rw [pow_succ', Equiv.Perm.mul_apply, ih.1 i hi, h.fix i hi]
    · obtain ⟨a, b, c⟩ := ih.2 i h1 h2
      obtain ⟨d, e⟩ := h.maps _ a b
      rw [pow_succ', Equiv.Perm.mul_apply]
      exact ⟨d, e, by rw [h.step _ a b, c]; push_cast; ring⟩

theorem Cyc.order (h : Cyc nw nh κ p) (hk : Num nw nh κ) (h0 : 0 < nw) : orderOf p = nw := by
  have : NeZero nw := ⟨by omega⟩
  rw [orderOf_eq_iff h0]
  constructor
  · ext i
    by_cases hi : i < nh ∨ nh + nw ≤ i
    · rw [(h.pow nw).1 i hi]; rfl
    · push Not at hi
      obtain ⟨a, b, c⟩ := (h.pow nw).2 i hi.1 hi.2
      exact hk _ _ a b hi.1 hi.2 (by rw [c]; simp)
  · intro m hm hm0 e
    obtain ⟨a, b, c⟩ := (h.pow m).2 nh (le_refl _) (by omega)
    rw [e] at c
    have : ((m : Nat) : ZMod nw) = 0 := by
      have := c.symm
      simpa using this
    rw [ZMod.natCast_eq_zero_iff] at this
    exact absurd (Nat.le_of_dvd hm0 this) (by omega)

/-- Reflections. -/
theorem Cyc.refl_conj (h : Cyc nw nh κ p) (hk : Num nw nh κ) {c : ZMod nw}
    (qfix : ∀ i, i < nh ∨ nh + nw ≤ i → q i = i)
    (qmaps : ∀ i, nh ≤ i → i < nh + nw → nh ≤ q i ∧ q i < nh + nw)
    (qstep : ∀ i, nh ≤ i → i < nh + nw → κ (q i) = - κ i + c) :
    q * q = 1 ∧ p * q * p = q := by
  constructor
  · ext i
    rw [Equiv.Perm.mul_apply]
    by_cases hi : i < nh ∨ nh + nw ≤ i
    · rw [qfix i hi, qfix i hi]; rfl
    · push Not at hi
      obtain ⟨a, b⟩ := qmaps i hi.1 hi.2
      obtain ⟨a', b'⟩ := qmaps _ a b
      exact hk _ _ a' b' hi.1 hi.2 (by rw [qstep _ a b, qstep i hi.1 hi.2]; simp)
  · ext i
    rw [Equiv.Perm.mul_apply, Equiv.Perm.mul_apply]
    by_cases hi : i < nh ∨ nh + nw ≤ i
    · rw [h.fix i hi, qfix i hi, h.fix i hi]
    · push Not at hi
      obtain ⟨a, b⟩ := h.maps i hi.1 hi.2
      obtain ⟨a', b'⟩ := qmaps _ a b
      obtain ⟨a'', b''⟩ := h.maps _ a' b'
      obtain ⟨a3, b3⟩ := qmaps i hi.1 hi.2
      exact hk _ _ a'' b'' a3 b3 (by
        rw [h.step _ a' b', qstep _ a b, h.step i hi.1 hi.2, qstep i hi.1 hi.2]; ring)

/-- The group generated by an element of finite order and an element that inverts it. -/
theorem closure_dihedral {G : Type} [_root_.Group G] {p q : G} {n : Nat} (hn : orderOf p = n) (h0 : 0 < n)
    (h1 : q * q = 1) (h2 : p * q * p = q) (x : G) :
    x ∈ Subgroup.closure {p, q} ↔ ∃ k, k < n ∧ (x = p ^ k ∨ x = p ^ k * q) := by
  have hpn : p ^ n = 1 := by rw [← hn]; exact pow_orderOf_eq_one p
  have hred : ∀ m : Nat, ∃ k, k < n ∧ p ^ m = p ^ k := fun m =>
    ⟨m % n, Nat.mod_lt _ h0, by rw [← hn]; exact (pow_mod_orderOf p m).symm⟩
  have hqp : ∀ k, q * p ^ k * q = p ^ (n * k - k) := by
    have hqpq : q * p * q = p⁻¹ := by
      have h3 : p * (q * p) = q := by rw [← mul_assoc]; exact h2
      have h4 : q * p = p⁻¹ * q := eq_inv_mul_of_mul_eq h3
      rw [h4, mul_assoc, h1, mul_one]
    have hinv : q⁻¹ = q := inv_eq_of_mul_eq_one_left h1
    intro k
    have : q * p ^ k * q = (p ^ k)⁻¹ := by
      have : (q * p * q) ^ k = (p⁻¹) ^ k := by rw [hqpq]
      rw [inv_pow] at this
      rw [← this]
      have := map_pow (MulAut.conj q) p k
      simp only [MulAut.conj_apply, hinv] at this
      exact this
    rw [this]
    apply inv_eq_of_mul_eq_one_left
    rw [← pow_add, Nat.sub_add_cancel (Nat.le_mul_of_pos_left _ h0), pow_mul, hpn, one_pow]
  have key : ∀ a b : Nat, q * p ^ a = p ^ (n * a - a) * q := by
    intro a _
    rw [← hqp a, mul_assoc, h1, mul_one]
  constructor
  · intro hx
    let S : Subgroup G :=
      { carrier := {x | ∃ k, k < n ∧ (x = p ^ k ∨ x = p ^ k * q)}
        one_mem' := ⟨0, h0, Or.inl (by simp)⟩
        mul_mem' := by
          rintro a b ⟨k, hk, ha⟩ ⟨l, hl, hb⟩
          rcases ha with rfl | rfl <;> rcases hb with rfl | rfl
          · obtain ⟨m, hm, e⟩ := hred (k + l)
            exact ⟨m, hm, Or.inl (by rw [← pow_add, e])⟩
          · obtain ⟨m, hm, e⟩ := hred (k + l)
            exact ⟨m, hm, Or.inr (by rw [← mul_assoc, ← pow_add, e])⟩
          · obtain ⟨m, hm, e⟩ := hred (k + (n * l - l))
            exact ⟨m, hm, Or.inr (by rw [mul_assoc, key l 0, ← mul_assoc, ← pow_add, e])⟩
          · obtain ⟨m, hm, e⟩ := hred (k + (n * l - l))
            exact ⟨m, hm, Or.inl (by rw [mul_assoc, ← mul_assoc q, hqp, ← pow_add, e])⟩
        inv_mem' := by
          rintro a ⟨k, hk, ha⟩
          rcases ha with rfl | rfl
          · obtain ⟨m, hm, e⟩ := hred (n - k)
            refine ⟨m, hm, Or.inl ?_⟩
            rw [← e]
            apply inv_eq_of_mul_eq_one_left
            rw [← pow_add, Nat.sub_add_cancel (by omega), hpn]
          · refine ⟨k, hk, Or.inr ?_⟩
            apply inv_eq_of_mul_eq_one_left
            rw [mul_assoc, ← mul_assoc q, hqp, ← pow_add,
              show k + (n * k - k) = n * k by
                have := Nat.le_mul_of_pos_left k h0; omega, pow_mul, hpn, one_pow] }
    have : Subgroup.closure {p, q} ≤ S := by
      rw [Subgroup.closure_le]
      rintro y (rfl | rfl)
      · obtain ⟨m, hm, e⟩ := hred 1
        exact ⟨m, hm, Or.inl (by rw [← e, pow_one])⟩
      · exact ⟨0, h0, Or.inr (by simp)⟩
    exact this hx
  · rintro ⟨k, -, rfl | rfl⟩
    · exact Subgroup.pow_mem _ (Subgroup.subset_closure (by simp)) k
    · exact Subgroup.mul_mem _ (Subgroup.pow_mem _ (Subgroup.subset_closure (by simp)) k)
        (Subgroup.subset_closure (by simp))

theorem closure_cyclic {G : Type} [_root_.Group G] {p q : G} {n : Nat} (hn : orderOf p = n) (h0 : 0 < n)
    (hq : ∃ m : Nat, q = p ^ m) (x : G) :
    x ∈ Subgroup.closure {p, q} ↔ ∃ k, k < n ∧ x = p ^ k := by
  have hc : Subgroup.closure {p, q} = Subgroup.zpowers p := by
    apply le_antisymm
    · rw [Subgroup.closure_le]
      rintro y (rfl | rfl)
      · exact Subgroup.mem_zpowers _
      · obtain ⟨m, rfl⟩ := hq; exact Subgroup.pow_mem _ (Subgroup.mem_zpowers _) m
    · rw [Subgroup.zpowers_le]; exact Subgroup.subset_closure (by simp)
  have hf : IsOfFinOrder p := by rw [← orderOf_pos_iff, hn]; exact h0
  rw [hc, ← hf.mem_powers_iff_mem_zpowers, Submonoid.mem_powers_iff]
  constructor
  · rintro ⟨m, rfl⟩
    exact ⟨m % n, Nat.mod_lt _ h0, by rw [← hn, pow_mod_orderOf]⟩
  · rintro ⟨k, -, rfl⟩; exact ⟨k, rfl⟩

/-- The number of rows is the number of permutations. -/
theorem lists_length {v : List Row} {b : Nat} {G : Subgroup (Equiv.Perm Nat)} (h : Lists v b G)
    (l : List (Equiv.Perm Nat)) (hl : l.Nodup) (hm : ∀ x, x ∈ G ↔ x ∈ l) : v.length = l.length := by
  have hv : ∀ r ∈ v, Row.Valid r ∧ r.length = b ∧ permOf r ∈ G := fun r hr => by
    have := (h.mem r).1 hr
    exact ⟨(isRow_iff_valid r).1 this.1, this.2.1, this.2.2⟩
  have hnd : v.Nodup := by
    apply h.increasing.imp_of_mem
    intro a c ha hc hac e
    subst e
    obtain ⟨k, -, hk⟩ := hac
    omega
  have hp : (v.map permOf).Perm l := by
    rw [List.perm_ext_iff_of_nodup _ hl]
    · intro x
      rw [← hm, List.mem_map]
      constructor
      · rintro ⟨r, hr, rfl⟩; exact (hv r hr).2.2
      · intro hx
        obtain ⟨r, hr, e⟩ := h.all x hx
        exact ⟨r, hr, e⟩
    · rw [List.nodup_map_iff_inj_on hnd]
      intro r hr s hs e
      exact permOf_inj (hv r hr).1 (hv s hs).1 (by rw [(hv r hr).2.1, (hv s hs).2.1]) e
  rw [← hp.length_eq, List.length_map]

theorem nodup_pows {G : Type} [_root_.Group G] {p : G} {n : Nat} (hn : orderOf p = n) :
    ((List.range n).map (p ^ ·)).Nodup := by
  rw [List.nodup_map_iff_inj_on (List.nodup_range)]
  intro a ha b hb e
  rw [List.mem_range] at ha hb
  exact pow_injOn_Iio_orderOf (by simpa [hn] using ha) (by simpa [hn] using hb) e

theorem nodup_dihedral {G : Type} [_root_.Group G] {p q : G} {n : Nat} (hn : orderOf p = n)
    (hq : ∀ m : Nat, q ≠ p ^ m) (h0 : 0 < n) :
    ((List.range n).map (p ^ ·) ++ (List.range n).map (p ^ · * q)).Nodup := by
  rw [List.nodup_append]
  refine ⟨nodup_pows hn, ?_, ?_⟩
  · rw [List.nodup_map_iff_inj_on (List.nodup_range)]
    intro a ha b hb e
    rw [List.mem_range] at ha hb
    exact pow_injOn_Iio_orderOf (by simpa [hn] using ha) (by simpa [hn] using hb) (mul_right_cancel e)
  · intro a ha b hb e
    obtain ⟨k, -, rfl⟩ := List.mem_map.1 ha
    obtain ⟨l, hl, rfl⟩ := List.mem_map.1 hb
    rw [List.mem_range] at hl
    apply hq (n - l + k)
    rw [pow_add, e, ← mul_assoc, ← pow_add, Nat.sub_add_cancel (by omega), ← hn, pow_orderOf_eq_one, one_mul]

end Group
end Ringing
