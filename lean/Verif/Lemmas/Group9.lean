import Verif.Lemmas.Group8
/- Helper lemmas: the rows that generate the cyclic and dihedral groups. -/
namespace Ringing
open Spec
namespace Group

theorem cast_eq {nw a b : Nat} (h : a = b ∨ a = b + nw ∨ b = a + nw) : (a : ZMod nw) = (b : ZMod nw) := by
  rcases h with rfl | rfl | rfl <;> simp

theorem cast_inj {nw a b : Nat} (ha : 1 ≤ a) (ha' : a ≤ nw) (hb : 1 ≤ b) (hb' : b ≤ nw)
    (h : (a : ZMod nw) = (b : ZMod nw)) : a = b := by
  rw [ZMod.natCast_eq_natCast_iff'] at h
  rcases Nat.lt_or_ge a nw with h1 | h1 <;> rcases Nat.lt_or_ge b nw with h2 | h2
  · rwa [Nat.mod_eq_of_lt h1, Nat.mod_eq_of_lt h2] at h
  · have : b = nw := by omega
    subst this
    rw [Nat.mod_eq_of_lt h1, Nat.mod_self] at h; omega
  · have : a = nw := by omega
    subst this
    rw [Nat.mod_eq_of_lt h2, Nat.mod_self] at h; omega
  · omega

/-- Places along `row::cyclic`. -/
def numC (nw nh i : Nat) : Nat := i - nh + 1
/-- Places along the plain hunt. -/
def numR (nw nh i : Nat) : Nat := if (i - nh) % 2 = 1 then (i - nh + 1) / 2 else nw - (i - nh) / 2

theorem num_numC {nw nh : Nat} : Num nw nh (fun i => (numC nw nh i : ZMod nw)) := by
  intro i j h1 h2 h3 h4 e
  have := cast_inj (by unfold numC; omega) (by unfold numC; omega) (by unfold numC; omega) (by unfold numC; omega) e
  unfold numC at this
  omega

theorem num_numR {nw nh : Nat} : Num nw nh (fun i => (numR nw nh i : ZMod nw)) := by
  intro i j h1 h2 h3 h4 e
  have := cast_inj (by unfold numR; split_ifs <;> omega) (by unfold numR; split_ifs <;> omega)
    (by unfold numR; split_ifs <;> omega) (by unfold numR; split_ifs <;> omega) e
  unfold numR at this
  split_ifs at this <;> omega

theorem fn_cyclic {nw nh : Nat} (hn : nh + nw ≤ 256) (h0 : 0 < nw) (i : Nat) :
    Row.fn (Row.cyclicC (nh + nw) nh 1) i =
      if i < nh ∨ nh + nw ≤ i then i else if i + 1 = nh + nw then nh else i + 1 := by
  rw [Row.cyclicC_eq hn (by omega)]
  by_cases hi : i < nh + nw
  · rw [Row.fn_map_range hi]
    have e1 : nh + nw - nh = nw := by omega
    rw [e1]
    by_cases h1 : i < nh
    · rw [if_pos h1, if_pos (Or.inl h1)]
    · rw [if_neg h1, if_neg (by omega)]
      have : ((((i - nh : Nat) : Int) + 1) % (nw : Int)).toNat = (i - nh + 1) % nw := by
        have : (((i - nh : Nat) : Int) + 1) % (nw : Int) = (((i - nh + 1) % nw : Nat) : Int) := by push_cast; rfl
        rw [this, Int.toNat_natCast]
      rw [this]
      by_cases h2 : i + 1 = nh + nw
      · rw [if_pos h2, show i - nh + 1 = nw by omega, Nat.mod_self]; rfl
      · rw [if_neg h2, Nat.mod_eq_of_lt (by omega)]; omega
  · rw [Row.fn_of_ge (by simp; omega), if_pos (Or.inr (by omega))]

theorem valid_cyclic {n h : Nat} (hn : n ≤ 256) : Row.Valid (Row.cyclicC n h 1) ∧ (Row.cyclicC n h 1).length = n := by
  by_cases hh : h < n
  · have := C45_cyclic hn hh 1
    exact ⟨(isRow_iff_valid _).1 this.1, this.2.1⟩
  · unfold Row.cyclicC
    simp only
    rw [if_neg hh, Row.roundsC_eq hn]
    exact ⟨Row.valid_rounds hn, by simp⟩

theorem cyc_cyclic {nw nh : Nat} (hn : nh + nw ≤ 256) (h0 : 0 < nw) :
    Cyc nw nh (fun i => (numC nw nh i : ZMod nw)) (permOf (Row.cyclicC (nh + nw) nh 1)) := by
  have hv := (valid_cyclic (n := nh + nw) (h := nh) hn).1
  refine ⟨?_, ?_, ?_⟩
  · intro i hi; rw [permOf_apply hv, fn_cyclic hn h0, if_pos hi]
  · intro i h1 h2; rw [permOf_apply hv, fn_cyclic hn h0, if_neg (by omega)]; split_ifs <;> omega
  · intro i h1 h2
    rw [permOf_apply hv, fn_cyclic hn h0, if_neg (by omega)]
    rw [← Nat.cast_succ]
    apply cast_eq
    unfold numC
    split_ifs <;> omega

theorem pblh_row {nw nh : Nat} (hn : nh + nw ≤ 255) : ∃ p, Row.pblhC (nh + nw) nh = .ok p ∧ Row.Valid p ∧
    p.length = nh + nw ∧ (0 < nw → Cyc nw nh (fun i => (numR nw nh i : ZMod nw)) (permOf p)) := by
  have hv : Row.Valid ((List.range (nh + nw)).map fun i => if i < nh then i else nh + Row.huntIndex (nh + nw - nh) (i - nh)) :=
    Row.valid_pblh hn
  refine ⟨_, Row.pblhC_eq hn, hv, by simp, ?_⟩
  intro h0
  have hfn : ∀ i, Row.fn ((List.range (nh + nw)).map fun i => if i < nh then i else nh + Row.huntIndex (nh + nw - nh) (i - nh)) i =
      if i < nh ∨ nh + nw ≤ i then i else nh + Row.huntIndex nw (i - nh) := by
    intro i
    rw [Nat.add_sub_cancel_left]
    by_cases hi : i < nh + nw
    · rw [Row.fn_map_range hi]
      by_cases h1 : i < nh
      · rw [if_pos h1, if_pos (Or.inl h1)]
      · rw [if_neg h1, if_neg (by omega)]
    · rw [Row.fn_of_ge (by simp; omega), if_pos (Or.inr (by omega))]
  refine ⟨?_, ?_, ?_⟩
  · intro i hi; rw [permOf_apply hv, hfn, if_pos hi]
  · intro i h1 h2; rw [permOf_apply hv, hfn, if_neg (by omega)]; unfold Row.huntIndex; split_ifs <;> omega
  · intro i h1 h2
    rw [permOf_apply hv, hfn, if_neg (by omega)]
    rw [← Nat.cast_succ]
    apply cast_eq
    unfold numR Row.huntIndex
    simp only [Nat.add_sub_cancel_left]
    split_ifs <;> first | omega | contradiction

/-- Reverse rounds of the working bells. -/
theorem rev_row {nw nh nt : Nat} (hn : nh + nw ≤ nt) (ht : nt ≤ 256) (h0 : 0 < nt) :
    ∃ q, Row.reverseRounds3C nw nh nt = .ok q ∧ Row.Valid q ∧ q.length = nt ∧
      (∀ i, i < nh ∨ nh + nw ≤ i → permOf q i = i) ∧
      (∀ i, nh ≤ i → i < nh + nw → permOf q i = 2 * nh + nw - i - 1) := by
  obtain ⟨q, h1, h2, h3, h4, h5, h6⟩ := C45_reverse_rounds_part hn ht h0
  have hv := (isRow_iff_valid q).1 h2
  refine ⟨q, h1, hv, h3, ?_, ?_⟩
  · rintro i (hi | hi)
    · rw [permOf_apply hv, ← bellAt_eq_fn, h4 i hi]
    · rw [permOf_apply hv, ← bellAt_eq_fn, h6 i hi]
  · intro i hi hi'
    have := h5 (i - nh) (by omega)
    rw [show nh + (i - nh) = i by omega] at this
    rw [permOf_apply hv, ← bellAt_eq_fn]; omega

theorem rev_numC {nw nh : Nat} {q : Equiv.Perm Nat}
    (hq : ∀ i, nh ≤ i → i < nh + nw → q i = 2 * nh + nw - i - 1) (i : Nat) (h1 : nh ≤ i) (h2 : i < nh + nw) :
    ((numC nw nh (q i) : Nat) : ZMod nw) = - (numC nw nh i : ZMod nw) + 1 := by
  rw [hq i h1 h2, neg_add_eq_sub, eq_sub_iff_add_eq]
  have : (numC nw nh (2 * nh + nw - i - 1) + numC nw nh i : Nat) = nw + 1 := by unfold numC; omega
  rw [← Nat.cast_add, this]; simp

theorem rev_numR_odd {nw nh : Nat} {q : Equiv.Perm Nat} (hodd : nw % 2 = 1)
    (hq : ∀ i, nh ≤ i → i < nh + nw → q i = 2 * nh + nw - i - 1) (i : Nat) (h1 : nh ≤ i) (h2 : i < nh + nw) :
    ((numR nw nh (q i) : Nat) : ZMod nw) = - (numR nw nh i : ZMod nw) + (((nw + 1) / 2 : Nat) : ZMod nw) := by
  rw [hq i h1 h2, neg_add_eq_sub, eq_sub_iff_add_eq, ← Nat.cast_add]
  apply cast_eq
  unfold numR
  split_ifs <;> omega

theorem rev_numR_even {nw nh : Nat} {q : Equiv.Perm Nat} (heven : nw % 2 = 0)
    (hq : ∀ i, nh ≤ i → i < nh + nw → q i = 2 * nh + nw - i - 1) (i : Nat) (h1 : nh ≤ i) (h2 : i < nh + nw) :
    ((numR nw nh (q i) : Nat) : ZMod nw) = (numR nw nh i : ZMod nw) + (((nw / 2 : Nat)) : ZMod nw) := by
  rw [hq i h1 h2, ← Nat.cast_add]
  apply cast_eq
  unfold numR
  split_ifs <;> omega

theorem not_pow {nw nh : Nat} {κ : Nat → ZMod nw} {p q : Equiv.Perm Nat} (h : Cyc nw nh κ p) (h3 : 3 ≤ nw)
    {c : ZMod nw} (qstep : ∀ i, nh ≤ i → i < nh + nw → κ (q i) = - κ i + c) (m : Nat) : q ≠ p ^ m := by
  rintro rfl
  have h1 := qstep nh (by omega) (by omega)
  rw [((h.pow m).2 nh (by omega) (by omega)).2.2] at h1
  obtain ⟨a, b⟩ := h.maps nh (by omega) (by omega)
  have h2 := qstep _ a b
  rw [((h.pow m).2 _ a b).2.2, h.step nh (by omega) (by omega)] at h2
  have h4 : ((2 : Nat) : ZMod nw) = 0 := by
    have : (2 : ZMod nw) = (κ nh + 1 + m - (-(κ nh + 1) + c)) - (κ nh + m - (-κ nh + c)) := by ring
    push_cast
    rw [this, h2, h1]; ring
  rw [ZMod.natCast_eq_zero_iff] at h4
  have := Nat.le_of_dvd (by omega) h4
  omega

/-! ### Powers of rows -/

theorem iter_pow {P : Row} (hP : Row.Valid P) (k i : Nat) : iter (bellAt P) k i = (permOf P ^ k) i := by
  induction k with
  | zero => rfl
  | succ k ih => rw [iter, ih, pow_succ', Equiv.Perm.mul_apply, permOf_apply hP, bellAt_eq_fn]

theorem permOf_eq_iff {r : Row} (hr : Row.Valid r) (x : Equiv.Perm Nat) : permOf r = x ↔ ∀ i, bellAt r i = x i := by
  rw [Equiv.ext_iff]
  simp only [permOf_apply hr, bellAt_eq_fn]

theorem generated_pair (P Q : Row) : generated [P, Q] = Subgroup.closure {permOf P, permOf Q} := by
  unfold generated
  congr 1
  ext x
  simp

end Group
end Ringing
