import Verif.Model.MathUtils
import Mathlib.Data.Nat.Factorial.Basic
import Mathlib.Tactic.Ring

namespace Ringing

theorem u32_of_lt {x : Nat} (h : x < 2 ^ 32) : u32 x = x := Nat.mod_eq_of_lt h
theorem u64_of_lt {x : Nat} (h : x < 2 ^ 64) : u64 x = x := Nat.mod_eq_of_lt h

theorem factLoop_eq : ∀ (n f : Nat), 0 < n → f < 2 ^ 32 →
    factLoop n f = (f * (n - 1).factorial) % 2 ^ 32 := by
  intro n
  induction n with
  | zero => intro f h; omega
  | succ n ih =>
    intro f _ hf
    unfold factLoop
    by_cases hn : n = 0
    · subst hn; simp; omega
    · rw [if_neg hn, ih (u32 (f * n)) (by omega) (Nat.mod_lt _ (by decide)), u32, Nat.mod_mul_mod]
      congr 1
      rw [Nat.add_sub_cancel, mul_assoc]
      congr 1
      conv_rhs => rw [← Nat.sub_add_cancel (show 1 ≤ n by omega), Nat.factorial_succ]
      rw [Nat.sub_add_cancel (by omega)]

theorem factorialC_eq {n : Nat} (h : n < 2 ^ 32) : factorialC n = n.factorial % 2 ^ 32 := by
  unfold factorialC
  split_ifs with h0
  · subst h0; rfl
  · rw [factLoop_eq n n (by omega) h, Nat.mul_factorial_pred (by omega)]

theorem factorialC_small {n : Nat} (h : n ≤ 12) : factorialC n = n.factorial := by
  rw [factorialC_eq (by omega)]
  apply Nat.mod_eq_of_lt
  calc n.factorial ≤ (12).factorial := Nat.factorial_le h
    _ < 2 ^ 32 := by decide

end Ringing
