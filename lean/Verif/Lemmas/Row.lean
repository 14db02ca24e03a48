import Verif.Model.Row
import Verif.Lemmas.Out
import Mathlib.Data.List.Basic
import Mathlib.Data.List.Range
import Mathlib.Data.List.Perm.Basic
import Mathlib.Data.List.Nodup
import Mathlib.Data.List.Perm.Subperm
import Mathlib.Data.Fintype.Card
import Mathlib.Data.Finset.Card

namespace Ringing
namespace Row

theorem Valid.nodup {r : Row} (h : Valid r) : r.Nodup := h.1.nodup_iff.2 List.nodup_range

theorem Valid.mem_iff {r : Row} (h : Valid r) {b : Nat} : b ∈ r ↔ b < r.length := by
  rw [h.1.mem_iff, List.mem_range]

theorem Valid.len {r : Row} (h : Valid r) : r.length ≤ 256 := h.2

theorem Valid.getElem_lt {r : Row} (h : Valid r) {i : Nat} (hi : i < r.length) :
    r[i] < r.length := h.mem_iff.1 (List.getElem_mem hi)

theorem fn_of_lt {r : Row} {i : Nat} (h : i < r.length) : fn r i = r[i] := by
  simp [fn, h]

theorem fn_of_ge {r : Row} {i : Nat} (h : r.length ≤ i) : fn r i = i := by
  simp [fn, h]

theorem Valid.fn_lt {r : Row} (h : Valid r) {i m : Nat} (hm : r.length ≤ m) (hi : i < m) :
    fn r i < m := by
  by_cases hr : i < r.length
  · rw [fn_of_lt hr]; exact lt_of_lt_of_le (h.getElem_lt hr) hm
  · rw [fn_of_ge (by omega)]; exact hi

theorem Valid.fn_lt_len {r : Row} (h : Valid r) {i : Nat} (hi : i < r.length) :
    fn r i < r.length := h.fn_lt le_rfl hi

theorem Valid.fn_inj {r : Row} (h : Valid r) {i j : Nat} (e : fn r i = fn r j) : i = j := by
  by_cases hi : i < r.length <;> by_cases hj : j < r.length
  · rw [fn_of_lt hi, fn_of_lt hj] at e
    exact (h.nodup.getElem_inj_iff).1 e
  · have := h.fn_lt_len hi
    rw [e, fn_of_ge (by omega)] at this; omega
  · have := h.fn_lt_len hj
    rw [← e, fn_of_ge (by omega)] at this; omega
  · rw [fn_of_ge (by omega), fn_of_ge (by omega)] at e; exact e

theorem find_of_mem {r : Row} {b : Nat} (h : b ∈ r) :
    ∃ hi : find r b < r.length, r[find r b] = b := by
  unfold find
  have hs : (r.findIdx? (· == b)).isSome := by
    rw [List.findIdx?_isSome]; simpa using h
  obtain ⟨i, hi⟩ := Option.isSome_iff_exists.1 hs
  rw [hi]
  rw [List.findIdx?_eq_some_iff_getElem] at hi
  obtain ⟨h1, h2, _⟩ := hi
  exact ⟨h1, by simpa using h2⟩

theorem find_of_not_mem {r : Row} {b : Nat} (h : b ∉ r) : find r b = b := by
  unfold find
  have : r.findIdx? (· == b) = none := by
    rw [List.findIdx?_eq_none_iff]; intro x hx; simp; rintro rfl; exact h hx
  rw [this]

theorem Valid.fn_find {r : Row} (h : Valid r) (b : Nat) : fn r (find r b) = b := by
  by_cases hb : b ∈ r
  · obtain ⟨hi, e⟩ := find_of_mem hb
    rw [fn_of_lt hi, e]
  · rw [find_of_not_mem hb]
    exact fn_of_ge (by rw [h.mem_iff] at hb; omega)

theorem Valid.find_fn {r : Row} (h : Valid r) (i : Nat) : find r (fn r i) = i :=
  h.fn_inj (h.fn_find _)

theorem Valid.find_eq_iff {r : Row} (h : Valid r) {i b : Nat} : find r b = i ↔ b = fn r i :=
  ⟨fun e => by rw [← e, h.fn_find], fun e => by rw [e, h.find_fn]⟩

theorem Valid.find_lt {r : Row} (h : Valid r) {b m : Nat} (hm : r.length ≤ m) (hb : b < m) :
    find r b < m := by
  by_contra hc
  have := h.fn_find b
  rw [fn_of_ge (by omega)] at this
  omega

/-- Rows of the same length which agree at every position are equal. -/
theorem ext_fn {a b : Row} (hl : a.length = b.length)
    (h : ∀ i, i < a.length → fn a i = fn b i) : a = b := by
  apply List.ext_getElem hl
  intro i h1 h2
  have := h i h1
  rwa [fn_of_lt h1, fn_of_lt h2] at this

theorem valid_rounds {n : Nat} (h : n ≤ 256) : Valid (rounds n) := by
  simp [Valid, rounds, h]

theorem roundsC_eq {n : Nat} (h : n ≤ 256) : roundsC n = rounds n := by
  unfold roundsC rounds
  conv_rhs => rw [← List.map_id (List.range n)]
  apply List.map_congr_left
  intro a ha
  rw [List.mem_range] at ha
  exact toBell_of_lt (by omega)

@[simp] theorem length_rounds (n : Nat) : (rounds n).length = n := by simp [rounds]

@[simp] theorem fn_rounds (n i : Nat) : fn (rounds n) i = i := by
  by_cases h : i < n
  · rw [fn_of_lt (by simpa using h)]; simp [rounds]
  · rw [fn_of_ge (by simpa using h)]

theorem valid_of_inj {l : Row} (hlen : l.length ≤ 256) (hlt : ∀ x ∈ l, x < l.length)
    (hnd : l.Nodup) : Valid l := by
  refine ⟨?_, hlen⟩
  have hsub : l ⊆ List.range l.length := fun x hx => List.mem_range.2 (hlt x hx)
  have := List.subperm_of_subset hnd hsub
  exact this.perm_of_length_le (by simp)

theorem valid_map_range {m : Nat} {f : Nat → Nat} (hm : m ≤ 256)
    (hlt : ∀ i, i < m → f i < m) (hinj : ∀ i j, i < m → j < m → f i = f j → i = j) :
    Valid ((List.range m).map f) := by
  apply valid_of_inj
  · simpa using hm
  · intro x hx
    obtain ⟨i, hi, rfl⟩ := List.mem_map.1 hx
    simpa using hlt i (List.mem_range.1 hi)
  · rw [List.nodup_map_iff_inj_on List.nodup_range]
    intro i hi j hj e
    exact hinj i j (List.mem_range.1 hi) (List.mem_range.1 hj) e

theorem fn_map_range {m : Nat} {f : Nat → Nat} {i : Nat} (hi : i < m) :
    fn ((List.range m).map f) i = f i := by
  rw [fn_of_lt (by simpa using hi)]; simp

@[simp] theorem length_mul (a b : Row) : (mul a b).length = max a.length b.length := by simp [mul]
@[simp] theorem length_div (a b : Row) : (div a b).length = max a.length b.length := by simp [div]
@[simp] theorem length_inverse (a : Row) : (inverse a).length = a.length := by simp [inverse]

theorem fn_mul {a b : Row} (i : Nat) : fn (mul a b) i = fn a (fn b i) := by
  by_cases h : i < max a.length b.length
  · exact fn_map_range h
  · rw [fn_of_ge (by simpa using h), fn_of_ge (r := b) (by omega), fn_of_ge (r := a) (by omega)]

theorem find_of_ge {a : Row} (ha : Valid a) {i : Nat} (h : a.length ≤ i) : find a i = i :=
  ha.find_eq_iff.2 (fn_of_ge h).symm

theorem fn_div {a b : Row} (hb : Valid b) (i : Nat) :
    fn (div a b) i = fn a (find b i) := by
  by_cases h : i < max a.length b.length
  · exact fn_map_range h
  · rw [fn_of_ge (by simpa using h), find_of_ge hb (by omega), fn_of_ge (r := a) (by omega)]

theorem fn_inverse {a : Row} (ha : Valid a) (i : Nat) : fn (inverse a) i = find a i := by
  by_cases h : i < a.length
  · exact fn_map_range h
  · rw [fn_of_ge (by simpa using h), find_of_ge ha (by omega)]

theorem valid_mul {a b : Row} (ha : Valid a) (hb : Valid b) : Valid (mul a b) := by
  apply valid_map_range (by have := ha.2; have := hb.2; omega)
  · intro i hi
    exact ha.fn_lt (by omega) (hb.fn_lt (by omega) hi)
  · intro i j _ _ e
    exact hb.fn_inj (ha.fn_inj e)

theorem valid_inverse {a : Row} (ha : Valid a) : Valid (inverse a) := by
  apply valid_map_range ha.2
  · intro i hi; exact ha.find_lt le_rfl hi
  · intro i j _ _ e
    rw [← ha.fn_find i, e, ha.fn_find]

theorem valid_div {a b : Row} (ha : Valid a) (hb : Valid b) : Valid (div a b) := by
  apply valid_map_range (by have := ha.2; have := hb.2; omega)
  · intro i hi
    exact ha.fn_lt (by omega) (hb.find_lt (by omega) hi)
  · intro i j _ _ e
    rw [← hb.fn_find i, ha.fn_inj e, hb.fn_find]

theorem fn_inverse_fn {a : Row} (ha : Valid a) (i : Nat) : fn (inverse a) (fn a i) = i := by
  rw [fn_inverse ha, ha.find_fn]

theorem fn_fn_inverse {a : Row} (ha : Valid a) (i : Nat) : fn a (fn (inverse a) i) = i := by
  rw [fn_inverse ha, ha.fn_find]

theorem mul_assoc' (a b c : Row) : mul (mul a b) c = mul a (mul b c) := by
  apply ext_fn
  · simp [max_assoc]
  · intro i _; simp only [fn_mul]

theorem mul_rounds {a : Row} {n : Nat} (h : n ≤ a.length) : mul a (rounds n) = a := by
  apply ext_fn
  · simpa using h
  · intro i _; simp only [fn_mul, fn_rounds]

theorem rounds_mul {a : Row} {n : Nat} (h : n ≤ a.length) : mul (rounds n) a = a := by
  apply ext_fn
  · simpa using h
  · intro i _; simp only [fn_mul, fn_rounds]

theorem mul_inverse {a : Row} (ha : Valid a) : mul a (inverse a) = rounds a.length := by
  apply ext_fn
  · simp
  · intro i _; simp only [fn_mul, fn_rounds, fn_fn_inverse ha]

theorem inverse_mul {a : Row} (ha : Valid a) : mul (inverse a) a = rounds a.length := by
  apply ext_fn
  · simp
  · intro i _; simp only [fn_mul, fn_rounds, fn_inverse_fn ha]

theorem inverse_unique {a b : Row} (ha : Valid a) (hl : b.length = a.length)
    (h : mul a b = rounds a.length) : b = inverse a := by
  have := congrArg (mul (inverse a)) h
  rw [← mul_assoc', inverse_mul ha, mul_rounds (by simp), rounds_mul (by omega)] at this
  exact this

theorem inverse_inverse {a : Row} (ha : Valid a) : inverse (inverse a) = a :=
  (inverse_unique (valid_inverse ha) (by simp) (by simpa using inverse_mul ha)).symm

theorem mul_inverse_rev {a b : Row} (ha : Valid a) (hb : Valid b) :
    inverse (mul a b) = mul (inverse b) (inverse a) := by
  apply ext_fn
  · simp [max_comm]
  · intro i _
    apply (valid_mul ha hb).fn_inj
    rw [fn_fn_inverse (valid_mul ha hb)]
    simp only [fn_mul, fn_fn_inverse ha, fn_fn_inverse hb]

theorem div_eq {a b : Row} (hb : Valid b) : div a b = mul a (inverse b) := by
  apply ext_fn
  · simp
  · intro i _; rw [fn_div hb, fn_mul, fn_inverse hb]

theorem isrounds_iff {r : Row} : isrounds r = true ↔ r = rounds r.length := by
  unfold isrounds
  rw [List.all_eq_true]
  constructor
  · intro h
    apply ext_fn (by simp)
    intro i hi
    have := h i (List.mem_range.2 hi)
    simp only [List.getD_eq_getElem?_getD, hi, getElem?_pos, Option.getD_some, beq_iff_eq] at this
    rw [fn_of_lt hi, fn_rounds, this]
  · intro h i hi
    have hi' := List.mem_range.1 hi
    have : fn r i = i := by rw [h]; simp
    rw [fn_of_lt hi'] at this
    simp [hi', this]

theorem isrounds_iff_fn {r : Row} : isrounds r = true ↔ ∀ i, fn r i = i := by
  rw [isrounds_iff]
  constructor
  · intro h i; rw [h]; simp
  · intro h; exact ext_fn (by simp) (fun i _ => by rw [h, fn_rounds])

end Row
end Ringing
