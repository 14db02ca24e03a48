import Mathlib.Data.Finset.Card
import Mathlib.Order.Interval.Finset.Nat
import Verif.Lemmas.FalseGroup
/-
Which course heads with the tenors together are moved to each other by lead heads, on many bells.
-/
namespace Ringing
namespace Falseness
open Spec

/-- The permutation moves only the five bells after the treble. -/
structure Inner (X : Equiv.Perm Nat) : Prop where
  zero : X 0 = 0
  big : ∀ v, 6 ≤ v → X v = v

theorem Inner.range {X : Equiv.Perm Nat} (h : Inner X) {v : Nat} (h1 : 1 ≤ v) (h2 : v ≤ 5) : 1 ≤ X v ∧ X v ≤ 5 := by
  constructor
  · by_contra h3
    have : X v = X 0 := by rw [h.zero]; omega
    have := X.injective this
    omega
  · by_contra h3
    have : X (X v) = X v := h.big _ (by omega)
    have := X.injective this
    omega

theorem Inner.inv {X : Equiv.Perm Nat} (h : Inner X) : Inner X⁻¹ :=
  ⟨by rw [Equiv.Perm.inv_eq_iff_eq, h.zero], fun v hv => by rw [Equiv.Perm.inv_eq_iff_eq, h.big v hv]⟩

/-- The bell at a corner near the first. -/
def unlab (u : Int) : Nat := if 0 ≤ u then (2 * u + 1).toNat else (-2 * u).toNat

theorem labZ_unlab (u : Int) : labZ (unlab u) = u := by
  unfold unlab labZ
  split <;> split <;> omega

theorem unlab_range {u : Int} (h : -2 ≤ u) (h' : u ≤ 2) : 1 ≤ unlab u ∧ unlab u ≤ 5 := by
  unfold unlab; split <;> omega

theorem labZ_small {v : Nat} (h : v ≤ 5) : -2 ≤ labZ v ∧ labZ v ≤ 2 := by
  unfold labZ; split <;> omega

/-- The corner of the bell that takes the place of `v` when `f` is turned by `s` and `k`. -/
def conjF (s k : Int) (f : Nat → Nat) (v : Nat) : Int :=
  if -2 ≤ s * (labZ v - k) ∧ s * (labZ v - k) ≤ 2 then s * labZ (f (unlab (s * (labZ v - k)))) + k else labZ v

theorem sgn_bound {s : Int} (h : s = 1 ∨ s = -1) {a m : Int} (h1 : -m ≤ a) (h2 : a ≤ m) : -m ≤ s * a ∧ s * a ≤ m := by
  rcases h with rfl | rfl <;> constructor <;> omega

variable {n : Nat}

theorem small_of_lab (hn : n % 2 = 1) (h9 : 9 ≤ n) {v : Nat} (h1 : 1 ≤ v) (h2 : v ≤ n) {u : Int}
    (hl : lab n v = ((u : Int) : ZMod n)) (hu : -6 ≤ u) (hu' : u ≤ 6) :
    (v ≤ 5 ↔ -2 ≤ u ∧ u ≤ 2) ∧ (-2 ≤ u ∧ u ≤ 2 → v = unlab u) := by
  have e : -2 ≤ u ∧ u ≤ 2 → v = unlab u := fun h => by
    have r := unlab_range h.1 h.2
    exact lab_inj hn h1 h2 r.1 (by omega) (by rw [hl, lab, labZ_unlab])
  refine ⟨⟨fun h => ?_, fun h => ?_⟩, e⟩
  · have b := labZ_small h
    have := cast_near hl (by omega) (by omega)
    omega
  · rw [e h]; exact (unlab_range h.1 h.2).2

theorem lab_inv {d : Equiv.Perm Nat} {s k : Int} (hd : Dih n d s (k : ZMod n)) {v : Nat} (h1 : 1 ≤ v) (h2 : v ≤ n) :
    lab n v = ((s * (labZ (d v) - k) : Int) : ZMod n) := by
  have h := hd.lab v h1 h2
  have hs : (s : ZMod n) * s = 1 := by rw [← Int.cast_mul, sq_sgn hd.sgn]; simp
  have hl : ((labZ (d v) : Int) : ZMod n) = lab n (d v) := rfl
  rw [Int.cast_mul, Int.cast_sub, hl, h]
  linear_combination (-lab n v) * hs

theorem Dih.pre {d : Equiv.Perm Nat} {s : Int} {k : ZMod n} (hd : Dih n d s k) {w : Nat} (h1 : 1 ≤ w) (h2 : w ≤ n) :
    ∃ v, 1 ≤ v ∧ v ≤ n ∧ d v = w := by
  obtain ⟨v, rfl⟩ := d.surjective w
  refine ⟨v, ?_, ?_, rfl⟩
  · by_contra h3
    have : v = 0 := by omega
    rw [this, hd.zero] at h1; omega
  · by_contra h3
    rw [hd.big v (by omega)] at h2; omega

/-- The places of one turned course head. -/
theorem conj_values (hn : n % 2 = 1) (h13 : 13 ≤ n) {X Y d : Equiv.Perm Nat} (hX : Inner X) (hY : Inner Y) {s k : Int}
    (hd : Dih n d s (k : ZMod n)) (hk : -4 ≤ k) (hk' : k ≤ 4) (h : Y * d = d * X) {w : Nat} (h1 : 1 ≤ w) (h5 : w ≤ 5) :
    labZ (Y w) = conjF s k X w := by
  obtain ⟨v, v1, v2, rfl⟩ := hd.pre h1 (by omega)
  have hc : Y (d v) = d (X v) := by
    have := congrArg (fun p : Equiv.Perm Nat => p v) h
    simpa [Equiv.Perm.mul_apply] using this
  have hl := lab_inv hd v1 v2
  have b := labZ_small h5
  have hb := sgn_bound hd.sgn (a := labZ (d v) - k) (m := 6) (by omega) (by omega)
  have sm := small_of_lab hn (by omega) v1 v2 hl hb.1 hb.2
  unfold conjF
  by_cases c : -2 ≤ s * (labZ (d v) - k) ∧ s * (labZ (d v) - k) ≤ 2
  · rw [if_pos c, ← sm.2 c]
    have v5 : v ≤ 5 := sm.1.2 c
    have xr := hX.range v1 v5
    have yr := hY.range h1 h5
    have b1 := labZ_small yr.2
    have b2 := labZ_small xr.2
    have b3 := sgn_bound hd.sgn b2.1 b2.2
    have e := hd.lab (X v) xr.1 (by omega)
    rw [← hc] at e
    have e' : ((labZ (Y (d v)) : Int) : ZMod n) = ((s * labZ (X v) + k : Int) : ZMod n) := by
      rw [Int.cast_add, Int.cast_mul]; exact e
    exact cast_near e' (by omega) (by omega)
  · rw [if_neg c, hc, hX.big v]
    by_contra h6
    exact c (sm.1.1 (by omega))

/-- Two symmetries whose product undoes a course head with the tenors together are inverse to each other. -/
theorem dih_cancel (hn : n % 2 = 1) (h13 : 13 ≤ n) {X Y d e : Equiv.Perm Nat} (hX : Inner X) (hY : Inner Y) {s t : Int}
    {k l : ZMod n} (hd : Dih n d s k) (he : Dih n e t l) (h : Y = d * X * e) : d * e = 1 := by
  have hfix : ∀ v, 6 ≤ v → v ≤ n → 6 ≤ e v → d (e v) = v := by
    intro v h1 _ h3
    have := congrArg (fun p : Equiv.Perm Nat => p v) h
    simp only [Equiv.Perm.mul_apply] at this
    rw [hY.big v h1, hX.big _ h3] at this
    exact this.symm
  obtain ⟨v, w, hv, hw, hvw⟩ : ∃ v w, (6 ≤ v ∧ v ≤ n ∧ 6 ≤ e v) ∧ (6 ≤ w ∧ w ≤ n ∧ 6 ≤ e w) ∧ v ≠ w := by
    have hc : ((Finset.Icc 6 n).filter fun v => e v ≤ 5).card ≤ (Finset.Icc 1 5).card := by
      apply Finset.card_le_card_of_injOn e
      · intro v hv
        simp only [Finset.coe_filter, Set.mem_ofPred_eq, Finset.mem_Icc] at hv
        have := he.range (v := v) (by omega) (by omega)
        simp only [Finset.coe_Icc, Set.mem_Icc]
        omega
      · exact e.injective.injOn
    have hs := Finset.card_filter_add_card_filter_not (s := Finset.Icc 6 n) (fun v => e v ≤ 5)
    rw [Nat.card_Icc] at hs hc
    have h1 : 1 < ((Finset.Icc 6 n).filter fun v => ¬ e v ≤ 5).card := by omega
    obtain ⟨v, hv, w, hw, hvw⟩ := Finset.one_lt_card.1 h1
    simp only [Finset.mem_filter, Finset.mem_Icc] at hv hw
    exact ⟨v, w, by omega, by omega, hvw⟩
  have hf := hd.mul he
  have e1 := hf.lab v (by omega) (by omega)
  have e2 := hf.lab w (by omega) (by omega)
  rw [Equiv.Perm.mul_apply, hfix v hv.1 hv.2.1 hv.2.2] at e1
  rw [Equiv.Perm.mul_apply, hfix w hw.1 hw.2.1 hw.2.2] at e2
  have hs : s * t = 1 := by
    rcases hf.sgn with h1 | h1
    · exact h1
    · exfalso
      rw [h1] at e1 e2
      apply hvw
      have r1 := labZ_range hn hv.2.1
      have r2 := labZ_range hn hw.2.1
      have e3 : ((2 * labZ v : Int) : ZMod n) = ((2 * labZ w : Int) : ZMod n) := by
        have a1 : ((labZ v : Int) : ZMod n) = lab n v := rfl
        have a2 : ((labZ w : Int) : ZMod n) = lab n w := rfl
        rw [Int.cast_mul, Int.cast_mul, a1, a2]
        push_cast at e1 e2 ⊢
        linear_combination e1 - e2
      obtain ⟨c, hc⟩ := cast_eq.1 e3
      have hm : (n : Int) = 2 * ((n / 2 : Nat) : Int) + 1 := by omega
      have hdv : (n : Int) ∣ labZ w - labZ v :=
        ⟨labZ w - labZ v - ((n / 2 : Nat) : Int) * c, by
          linear_combination (-((n / 2 : Nat) : Int)) * hc - (labZ w - labZ v) * hm⟩
      exact lab_inj hn (by omega) hv.2.1 (by omega) hw.2.1 (cast_eq.2 hdv)
  rw [hs] at e1
  have hk : (s : ZMod n) * l + k = 0 := by
    rw [Int.cast_one, one_mul] at e1
    linear_combination -e1
  exact Dih.ext hn (hf.congr hs hk) (Dih.one n)

/-- On fourteen bells or more, a course head with the tenors together that is moved to another one is turned by a
little. -/
theorem moved_conj (hn : n % 2 = 1) (h13 : 13 ≤ n) {X Y d e : Equiv.Perm Nat} (hX : Inner X) (hY : Inner Y) {s t : Int}
    {k l : ZMod n} (hd : Dih n d s k) (he : Dih n e t l) (h : Y = d * X * e) :
    ∃ s k : Int, (s = 1 ∨ s = -1) ∧ -4 ≤ k ∧ k ≤ 4 ∧ (∀ w, 1 ≤ w → w ≤ 5 → labZ (Y w) = conjF s k X w) ∧
      ∀ v, 1 ≤ v → v ≤ 5 → ¬ (-2 ≤ s * labZ v + k ∧ s * labZ v + k ≤ 2) → X v = v := by
  have hc := dih_cancel hn h13 hX hY hd he h
  have hcomm : Y * d = d * X := by
    have : e = d⁻¹ := (eq_inv_of_mul_eq_one_right hc)
    rw [h, this]; group
  by_cases h1 : X = 1
  · have hY1 : Y = 1 := by rw [h, h1, mul_one, hc]
    refine ⟨1, 0, Or.inl rfl, by omega, by omega, fun w w1 w5 => ?_, fun v _ _ _ => by rw [h1]; rfl⟩
    subst h1 hY1
    unfold conjF
    have b := labZ_small w5
    rw [if_pos (by omega)]
    simp only [Equiv.Perm.one_apply, labZ_unlab]
    omega
  · obtain ⟨v, hv⟩ : ∃ v, X v ≠ v := by
      by_contra h2
      push Not at h2
      exact h1 (Equiv.ext h2)
    have v1 : 1 ≤ v := by
      by_contra h2
      exact hv (by rw [show v = 0 by omega]; exact hX.zero)
    have v5 : v ≤ 5 := by
      by_contra h2
      exact hv (hX.big v (by omega))
    have hc' : Y (d v) = d (X v) := by
      have := congrArg (fun p : Equiv.Perm Nat => p v) hcomm
      simpa [Equiv.Perm.mul_apply] using this
    have d5 : d v ≤ 5 := by
      by_contra h2
      rw [hY.big _ (by omega)] at hc'
      exact hv (d.injective hc').symm
    have dr := hd.range v1 (by omega)
    have e1 := hd.lab v v1 (by omega)
    have b1 := labZ_small v5
    have b2 := labZ_small d5
    have b3 := sgn_bound hd.sgn b1.1 b1.2
    have hk : k = ((labZ (d v) - s * labZ v : Int) : ZMod n) := by
      have a1 : ((labZ v : Int) : ZMod n) = lab n v := rfl
      have a2 : ((labZ (d v) : Int) : ZMod n) = lab n (d v) := rfl
      rw [Int.cast_sub, Int.cast_mul, a1, a2, e1]; ring
    refine ⟨s, labZ (d v) - s * labZ v, hd.sgn, by omega, by omega, fun w w1 w5 => ?_, fun x x1 x5 hx => ?_⟩
    · exact conj_values hn h13 hX hY (hd.congr rfl hk) (by omega) (by omega) hcomm w1 w5
    · have hd' := hd.congr rfl hk
      have hcx : Y (d x) = d (X x) := by
        have := congrArg (fun p : Equiv.Perm Nat => p x) hcomm
        simpa [Equiv.Perm.mul_apply] using this
      have dr := hd.range x1 (by omega)
      have bx := labZ_small x5
      have hb := sgn_bound hd.sgn bx.1 bx.2
      have hl : lab n (d x) = ((s * labZ x + (labZ (d v) - s * labZ v) : Int) : ZMod n) := by
        rw [hd'.lab x x1 (by omega), Int.cast_add, Int.cast_mul]; rfl
      have sm := small_of_lab hn (by omega) dr.1 dr.2 hl (by omega) (by omega)
      rw [hY.big (d x) (by
        by_contra h6
        exact hx (sm.1.1 (by omega)))] at hcx
      exact (d.injective hcx).symm

/-- On ten bells or more, a course head turned by a little is moved by lead heads. -/
theorem conj_moved (hn : n % 2 = 1) (h9 : 9 ≤ n) {X Y d : Equiv.Perm Nat} (hX : Inner X) (hY : Inner Y) {s k : Int}
    (hd : Dih n d s (k : ZMod n)) (hk : -4 ≤ k) (hk' : k ≤ 4)
    (h : ∀ w, 1 ≤ w → w ≤ 5 → labZ (Y w) = conjF s k X w)
    (hf : ∀ v, 1 ≤ v → v ≤ 5 → ¬ (-2 ≤ s * labZ v + k ∧ s * labZ v + k ≤ 2) → X v = v) : Y = d * X * d⁻¹ := by
  rw [eq_mul_inv_iff_mul_eq]
  ext v
  rw [Equiv.Perm.mul_apply, Equiv.Perm.mul_apply]
  by_cases v0 : v = 0
  · rw [v0, hX.zero, hd.zero, hY.zero]
  by_cases vn : n < v
  · rw [hX.big v (by omega), hd.big v vn, hY.big v (by omega)]
  have v1 : 1 ≤ v := by omega
  have v2 : v ≤ n := by omega
  have dr := hd.range v1 v2
  by_cases w5 : d v ≤ 5
  · have hl := lab_inv hd v1 v2
    have b := labZ_small w5
    have hb := sgn_bound hd.sgn (a := labZ (d v) - k) (m := 6) (by omega) (by omega)
    have sm := small_of_lab hn h9 v1 v2 hl hb.1 hb.2
    have e := h (d v) dr.1 w5
    unfold conjF at e
    have yr := hY.range dr.1 w5
    by_cases c : -2 ≤ s * (labZ (d v) - k) ∧ s * (labZ (d v) - k) ≤ 2
    · rw [if_pos c, ← sm.2 c] at e
      have v5 : v ≤ 5 := sm.1.2 c
      have xr := hX.range v1 v5
      have dxr := hd.range xr.1 (by omega)
      apply lab_inj hn yr.1 (by omega) dxr.1 dxr.2
      rw [hd.lab _ xr.1 (by omega)]
      unfold lab
      rw [e, Int.cast_add, Int.cast_mul]
    · rw [if_neg c] at e
      have hx : X v = v := hX.big v (by
        by_contra h6
        exact c (sm.1.1 (by omega)))
      rw [hx]
      exact labZ_inj yr.1 dr.1 e
  · rw [hY.big _ (by omega)]
    by_cases v5 : v ≤ 5
    · have b := labZ_small v5
      have hb := sgn_bound hd.sgn b.1 b.2
      have hl : lab n (d v) = ((s * labZ v + k : Int) : ZMod n) := by
        rw [hd.lab v v1 v2, Int.cast_add, Int.cast_mul]; rfl
      have sm := small_of_lab hn h9 dr.1 dr.2 hl (by omega) (by omega)
      rw [hf v v1 v5 (fun c => w5 (sm.1.2 c))]
    · rw [hX.big v (by omega)]

end Falseness
end Ringing
