import Verif.Model.MethodName
import Verif.Spec.MethodName
import Verif.Props.NamedRows
import Verif.Props.Method
import Verif.Lemmas.Group9
/- Helper lemmas: lead head codes. -/
namespace Ringing
open Spec
namespace Method

/-- What a lead of the plain bob lead heads does. -/
theorem pblh_iter {b h : Nat} {l : Row} (hb : b ≤ 255) (hh : h < b) (hl : Row.pblhC b h = .ok l) :
    (∀ k i, i < h → iter (bellAt l) k i = i) ∧
    (∀ j k i, h ≤ i → i < b → j + h < b → k + h < b → iter (bellAt l) j i = iter (bellAt l) k i → j = k) := by
  obtain ⟨nw, rfl⟩ : ∃ nw, b = h + nw := ⟨b - h, by omega⟩
  obtain ⟨p, hp, hv, hlen, hc⟩ := Group.pblh_row (nw := nw) (nh := h) hb
  rw [hp] at hl
  injection hl with hl
  subst hl
  have hc := hc (by omega)
  have hpw : ∀ k i, ((permOf p) ^ k) i = iter (bellAt p) k i := by
    intro k
    induction k with
    | zero => intro i; rfl
    | succ k ih =>
      intro i
      rw [pow_succ', Equiv.Perm.mul_apply, ih, iter, bellAt_funext]
      exact permOf_apply hv _
  refine ⟨fun k i hi => ?_, fun j k i h1 h2 h3 h4 e => ?_⟩
  · rw [← hpw]; exact (hc.pow k).1 i (Or.inl hi)
  · rw [← hpw, ← hpw] at e
    have a := ((hc.pow j).2 i h1 h2).2.2
    have c := ((hc.pow k).2 i h1 h2).2.2
    rw [e, c] at a
    have := add_left_cancel a
    rw [ZMod.natCast_eq_natCast_iff'] at this
    rw [Nat.mod_eq_of_lt (by omega), Nat.mod_eq_of_lt (by omega)] at this
    exact this.symm

theorem codeText_eq {o n : Nat} (h1 : 1 ≤ n) (h2 : n < o) (s : Bool) :
    codeText (if s then 2 else 1) n o = leadHeadCode o n s := by
  have hd : ∀ x, x ≠ 0 → decimal x = Spec.digits x := by
    intro x hx; unfold decimal Spec.digits; rw [if_neg hx]
  have e1 : (n > o / 2) = (o < 2 * n) := by apply propext; omega
  unfold codeText leadHeadCode
  simp only [e1]
  by_cases hf : o < 2 * n
  · simp only [hf, if_true, decide_true]
    have hm : ¬ (o - n = n) := by omega
    simp only [ne_eq, hm, not_false_iff, if_true]
    obtain ⟨q, hq⟩ : ∃ q, o - n = q + 1 := ⟨o - n - 1, by omega⟩
    rw [hq]
    by_cases hp : o % 2 = 1
    · simp only [hp, if_true]
      by_cases h3 : q + 1 ≤ 3
      · have hq' : q = 0 ∨ q = 1 ∨ q = 2 := by omega
        rcases hq' with rfl | rfl | rfl <;> cases s <;> decide
      · simp only [h3, if_false]
        rw [if_pos (show q + 1 > 3 by omega), hd _ (by omega)]
        cases s <;> rfl
    · simp only [hp, if_false]
      by_cases h3 : q + 1 = 1
      · simp only [h3]; cases s <;> decide
      · rw [if_pos (show q + 1 > 1 by omega), if_neg h3, hd _ (by omega)]
        cases s <;> rfl
  · simp only [hf, if_false, decide_false, Bool.false_eq_true]
    simp only [ne_eq, not_true, if_false]
    obtain ⟨q, rfl⟩ : ∃ q, n = q + 1 := ⟨n - 1, by omega⟩
    by_cases hp : o % 2 = 1
    · simp only [hp, if_true]
      by_cases h3 : q + 1 ≤ 3
      · have hq' : q = 0 ∨ q = 1 ∨ q = 2 := by omega
        rcases hq' with rfl | rfl | rfl <;> cases s <;> decide
      · simp only [h3, if_false]
        rw [if_pos (show q + 1 > 3 by omega), hd _ (by omega)]
        cases s <;> rfl
    · simp only [hp, if_false]
      by_cases h3 : q + 1 = 1
      · simp only [h3]; cases s <;> decide
      · rw [if_pos (show q + 1 > 1 by omega), if_neg h3, hd _ (by omega)]
        cases s <;> rfl

end Method
end Ringing
