import Verif.Model.Out
import Mathlib.Tactic.Common
import Mathlib.Order.Basic
import Mathlib.Tactic.Linarith

namespace Ringing

theorem vget_ok {α : Type} {v : List α} {i : Nat} (h : i < v.length) : vget v i = .ok v[i] := by
  simp [vget, h]

theorem vget_ub {α : Type} {v : List α} {i : Nat} (h : ¬ i < v.length) : vget v i = .ub := by
  simp [vget, h]

theorem vset_ok {α : Type} {v : List α} {i : Nat} (a : α) (h : i < v.length) :
    vset v i a = .ok (v.set i a) := by
  simp [vset, h]

theorem forN_inv {σ : Type} {body : σ → Nat → Out σ} (P : Nat → σ → Prop) :
    ∀ (k lo : Nat) (s : σ), P lo s →
      (∀ i s, lo ≤ i → i < lo + k → P i s → ∃ s', body s i = .ok s' ∧ P (i + 1) s') →
      ∃ s', forN body k lo s = .ok s' ∧ P (lo + k) s' := by
  intro k
  induction k with
  | zero => intro lo s h _; exact ⟨s, rfl, h⟩
  | succ k ih =>
    intro lo s h hb
    obtain ⟨s1, h1, hP1⟩ := hb lo s le_rfl (by omega) h
    obtain ⟨s2, h2, hP2⟩ := ih (lo + 1) s1 hP1
      (fun i s hi hi' hp => hb i s (by omega) (by omega) hp)
    refine ⟨s2, ?_, ?_⟩
    · simp [forN, h1, h2]
    · have : lo + (k + 1) = lo + 1 + k := by omega
      rw [this]; exact hP2

/-- Loop invariant rule for `forUp`: no exception, no undefined behaviour. -/
theorem forUp_inv {σ : Type} {lo hi : Nat} {s : σ} {body : σ → Nat → Out σ} (P : Nat → σ → Prop)
    (hle : lo ≤ hi) (h0 : P lo s)
    (hb : ∀ i s, lo ≤ i → i < hi → P i s → ∃ s', body s i = .ok s' ∧ P (i + 1) s') :
    ∃ s', forUp lo hi s body = .ok s' ∧ P hi s' := by
  have := forN_inv (body := body) P (hi - lo) lo s h0
    (fun i s h1 h2 h3 => hb i s h1 (by omega) h3)
  rwa [Nat.add_sub_cancel' hle] at this

theorem toBell_of_lt {i : Nat} (h : i < 256) : toBell i = i := Nat.mod_eq_of_lt h

theorem toBell_lt (i : Nat) : toBell i < 256 := Nat.mod_lt _ (by decide)

end Ringing
