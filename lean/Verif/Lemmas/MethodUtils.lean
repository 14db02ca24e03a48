import Verif.Model.MethodUtils
import Verif.Spec.MethodUtils
import Verif.Props.MethodPred

namespace Ringing
open Spec MethodUtils

theorem anyN_ok {f : Nat → Out Bool} {g : Nat → Bool} : ∀ {k lo : Nat},
    (∀ i, lo ≤ i → i < lo + k → f i = .ok (g i)) →
    ∃ b, anyN f k lo = .ok b ∧ (b = true ↔ ∃ i, lo ≤ i ∧ i < lo + k ∧ g i = true) := by
  intro k
  induction k with
  | zero => intro lo _; exact ⟨false, rfl, by simp; omega⟩
  | succ k ih =>
    intro lo h
    rw [anyN, h lo le_rfl (by omega)]
    simp only [Out.ok_bind]
    cases hg : g lo with
    | true => exact ⟨true, by simp, by simpa using ⟨lo, le_rfl, by omega, hg⟩⟩
    | false =>
      obtain ⟨b, h1, h2⟩ := ih (lo := lo + 1) (fun i h1 h2 => h i (by omega) (by omega))
      refine ⟨b, by simp [h1], ?_⟩
      rw [h2]
      constructor
      · rintro ⟨i, h3, h4, h5⟩; exact ⟨i, by omega, by omega, h5⟩
      · rintro ⟨i, h3, h4, h5⟩
        by_cases h6 : i = lo
        · rw [h6, hg] at h5; cases h5
        · exact ⟨i, by omega, by omega, h5⟩

theorem anyUp_ok {f : Nat → Out Bool} {g : Nat → Bool} {lo hi : Nat}
    (h : ∀ i, lo ≤ i → i < hi → f i = .ok (g i)) :
    ∃ b, anyUp lo hi f = .ok b ∧ (b = true ↔ ∃ i, lo ≤ i ∧ i < hi ∧ g i = true) := by
  obtain ⟨b, h1, h2⟩ := anyN_ok (f := f) (g := g) (k := hi - lo) (lo := lo)
    (fun i h1 h2 => h i h1 (by omega))
  refine ⟨b, h1, h2.trans ⟨?_, ?_⟩⟩
  · rintro ⟨i, h1, h2, h3⟩; exact ⟨i, h1, by omega, h3⟩
  · rintro ⟨i, h1, h2, h3⟩; exact ⟨i, h1, by omega, h3⟩

/-- Loop whose body decides a proposition. -/
theorem allUp_dec {f : Nat → Out Bool} {P : Nat → Prop} {lo hi : Nat}
    (h : ∀ i, lo ≤ i → i < hi → ∃ b, f i = .ok b ∧ (b = true ↔ P i)) :
    ∃ b, allUp lo hi f = .ok b ∧ (b = true ↔ ∀ i, lo ≤ i → i < hi → P i) := by
  classical
  obtain ⟨b, h1, h2⟩ := allUp_ok (f := f) (g := fun i => decide (P i)) (lo := lo) (hi := hi) (by
    intro i h1 h2
    obtain ⟨b, e1, e2⟩ := h i h1 h2
    rw [e1]; congr 1
    cases b with
    | true => simpa using e2
    | false => simpa using e2)
  exact ⟨b, h1, h2.trans (by simp)⟩

theorem anyUp_dec {f : Nat → Out Bool} {P : Nat → Prop} {lo hi : Nat}
    (h : ∀ i, lo ≤ i → i < hi → ∃ b, f i = .ok b ∧ (b = true ↔ P i)) :
    ∃ b, anyUp lo hi f = .ok b ∧ (b = true ↔ ∃ i, lo ≤ i ∧ i < hi ∧ P i) := by
  classical
  obtain ⟨b, h1, h2⟩ := anyUp_ok (f := f) (g := fun i => decide (P i)) (lo := lo) (hi := hi) (by
    intro i h1 h2
    obtain ⟨b, e1, e2⟩ := h i h1 h2
    rw [e1]; congr 1
    cases b with
    | true => simpa using e2
    | false => simpa using e2)
  exact ⟨b, h1, h2.trans (by simp)⟩

/-! ### Changes -/

theorem upsideDown_symm {b : Nat} {ss tt : List Nat} (h : UpsideDown b ss tt) : UpsideDown b tt ss := by
  intro p hp
  rw [h (b - 2 - p) (by omega), show b - 2 - (b - 2 - p) = p by omega]

theorem change_eq_iff {c d : Change} (hc : c.WF) (hd : d.WF) (hn : c.n = d.n) :
    Change.eq c d = true ↔ c.swaps = d.swaps := by
  rw [Change.WF.eq_iff hc hd]
  cases c; cases d; simp only [Change.mk.injEq] at *; simp [hn]

theorem change_eq_reverse_iff {b : Nat} {c d : Change} (hc : c.WF) (hd : d.WF) (hcn : c.n = b)
    (hdn : d.n = b) : Change.eq c d.reverse = true ↔ UpsideDown b c.swaps d.swaps := by
  have wr := Change.WF.reverse hd
  rw [change_eq_iff hc wr (by rw [hcn]; exact hdn.symm)]
  constructor
  · intro h p hp
    rw [h, Change.WF.mem_reverse hd, hdn]; simp [hp]
  · intro h
    apply gap_ext hc.2.1 wr.2.1
    intro p
    rw [Change.WF.mem_reverse hd, hdn]
    constructor
    · intro hp
      have := hc.2.2 p hp; rw [hcn] at this
      exact ⟨this, (h p this).1 hp⟩
    · rintro ⟨h1, h2⟩; exact (h p h1).2 h2

/-! ### The lead going round -/

theorem around_add_mul (css : List (List Nat)) (k t : Int) :
    around css (k + t * (css.length : Int)) = around css k := by
  unfold around
  rw [Int.add_mul_emod_self_right]

theorem around_add_len (css : List (List Nat)) (k : Int) :
    around css (k + (css.length : Int)) = around css k := by
  unfold around
  rw [Int.add_emod_right]

theorem around_emod (css : List (List Nat)) (k : Int) :
    around css (k % (css.length : Int)) = around css k := by
  unfold around
  rw [Int.emod_emod_of_dvd _ (dvd_refl _)]

theorem around_congr (css : List (List Nat)) {j k : Int} (t : Int)
    (h : j = k + t * (css.length : Int)) : around css j = around css k := by
  rw [h, around_add_mul]

/-- A point symmetry about a change: checking half of the lead is enough. -/
theorem about_change {css : List (List Nat)} (hn : css ≠ []) {R : List Nat → List Nat → Prop}
    (hs : ∀ a b, R a b → R b a) (i : Int) :
    (∀ j : Int, R (around css (i + j)) (around css (i - j))) ↔
      ∀ j : Nat, j < css.length / 2 + 1 → R (around css (i + j)) (around css (i - j)) := by
  have hl : 0 < css.length := List.length_pos_iff.2 hn
  refine ⟨fun h j _ => h j, fun h j => ?_⟩
  have e1 := Int.emod_nonneg j (b := (css.length : Int)) (by omega)
  have e2 := Int.emod_lt_of_pos j (b := (css.length : Int)) (by omega)
  have e3 := Int.emod_add_mul_ediv j (css.length : Int)
  generalize hq : j / (css.length : Int) = q at e3
  generalize hr : j % (css.length : Int) = r at e1 e2 e3
  obtain ⟨r, rfl⟩ := Int.eq_ofNat_of_zero_le e1
  by_cases hr : r < css.length / 2 + 1
  · have := h r hr
    rwa [around_congr css (j := i + j) (k := i + r) q (by rw [← e3]; ring),
      around_congr css (j := i - j) (k := i - r) (-q) (by rw [← e3]; ring)]
  · have := hs _ _ (h (css.length - r) (by omega))
    rw [Nat.cast_sub (by omega)] at this
    rwa [around_congr css (j := i + j) (k := i - (css.length - r)) (q + 1) (by rw [← e3]; ring),
      around_congr css (j := i - j) (k := i + (css.length - r)) (-q - 1) (by rw [← e3]; ring)]

/-- A point symmetry about a row: checking half of the lead reaches every change, except for an odd
length the one opposite to the row. -/
theorem about_row {css : List (List Nat)} (hn : css ≠ []) {R : List Nat → List Nat → Prop}
    (hs : ∀ a b, R a b → R b a) (i : Int) :
    (∀ j : Int, ¬ ((css.length : Int) ∣ 2 * j + 1) → R (around css (i + j + 1)) (around css (i - j))) ↔
      ∀ j : Nat, j < css.length / 2 → R (around css (i + j + 1)) (around css (i - j)) := by
  have hl : 0 < css.length := List.length_pos_iff.2 hn
  constructor
  · intro h j hj
    refine h j ?_
    intro hd
    have := Int.le_of_dvd (by omega) hd
    omega
  · intro h j hnd
    have e1 := Int.emod_nonneg j (b := (css.length : Int)) (by omega)
    have e2 := Int.emod_lt_of_pos j (b := (css.length : Int)) (by omega)
    have e3 := Int.emod_add_mul_ediv j (css.length : Int)
    generalize hq : j / (css.length : Int) = q at e3
    generalize hr : j % (css.length : Int) = r at e1 e2 e3
    obtain ⟨r, rfl⟩ := Int.eq_ofNat_of_zero_le e1
    by_cases hr : r < css.length / 2
    · have := h r hr
      rwa [around_congr css (j := i + j + 1) (k := i + r + 1) q (by rw [← e3]; ring),
        around_congr css (j := i - j) (k := i - r) (-q) (by rw [← e3]; ring)]
    · have hne : 2 * r + 1 ≠ css.length := by
        intro he
        apply hnd
        refine ⟨2 * q + 1, ?_⟩
        rw [← e3, ← he]; push_cast; ring
      have := hs _ _ (h (css.length - 1 - r) (by omega))
      rw [Nat.sub_sub, Nat.cast_sub (by omega)] at this
      rwa [around_congr css (j := i + j + 1) (k := i - (css.length - (1 + r : Nat))) (q + 1) (by rw [← e3]; push_cast; ring),
        around_congr css (j := i - j) (k := i + (css.length - (1 + r : Nat)) + 1) (-q - 1) (by rw [← e3]; push_cast; ring)]

/-! ### The model's accesses -/

theorem atMod_ok {m : Method} (hne : m.ch ≠ []) (a : Nat) :
    ∃ c, atMod m a = .ok c ∧ c ∈ m.ch ∧ c.swaps = around (m.ch.map Change.swaps) a := by
  have hl : 0 < m.ch.length := List.length_pos_iff.2 hne
  have hi : a % m.ch.length < m.ch.length := Nat.mod_lt _ hl
  refine ⟨m.ch[a % m.ch.length], ?_, List.getElem_mem hi, ?_⟩
  · unfold atMod
    rw [if_neg (by show ¬ m.ch.length = 0; omega)]
    exact Method.WF.at_ok hi
  · unfold around
    rw [List.length_map, ← Int.natCast_mod, Int.toNat_natCast, List.getD_eq_getElem?_getD, List.getElem?_map,
      List.getElem?_eq_getElem hi]; rfl

theorem at_around {m : Method} {i : Nat} (hi : i < m.ch.length) :
    ∃ c, m.at' i = .ok c ∧ c ∈ m.ch ∧ c.swaps = around (m.ch.map Change.swaps) i := by
  refine ⟨m.ch[i], Method.WF.at_ok hi, List.getElem_mem hi, ?_⟩
  unfold around
  rw [List.length_map, ← Int.natCast_mod, Int.toNat_natCast, Nat.mod_eq_of_lt hi, List.getD_eq_getElem?_getD, List.getElem?_map,
    List.getElem?_eq_getElem hi]; rfl

theorem around_nat_sub (css : List (List Nat)) {i j : Nat} (h : j ≤ css.length + i) :
    around css ((css.length + i - j : Nat) : Int) = around css ((i : Int) - j) := by
  apply around_congr css 1
  rw [Nat.cast_sub h]; push_cast; ring

end Ringing
