import Verif.Lemmas.Spec

/-! C01, C02, C03 and the row part of C49: multiplication, inverse, division, validation. -/
namespace Ringing
open Spec

/-- C01: multiplying two rows (as the code does it, with every vector access checked) gives a row
on the larger number of bells, which sends position `i` to `a[b[i]]`. -/
theorem C01_mul {a b : Row} (ha : IsRow a) (hb : IsRow b) :
    ∃ p, Row.mulC a b = .ok p ∧ IsRow p ∧ p.length = max a.length b.length ∧
      ∀ i, bellAt p i = bellAt a (bellAt b i) := by
  rw [isRow_iff_valid] at ha hb
  refine ⟨_, Row.mulC_eq ha hb, (isRow_iff_valid _).2 (Row.valid_mul ha hb), Row.length_mul _ _, ?_⟩
  intro i
  simp only [bellAt_eq_fn, Row.fn_mul]

/-- The rows meeting these conditions are determined by them. -/
theorem C01_mul_unique {p q : Row} (hl : p.length = q.length) (h : ∀ i, bellAt p i = bellAt q i) :
    p = q := Row.ext_fn hl (fun i _ => by simpa only [bellAt_eq_fn] using h i)

/-- C01: multiplication is associative, also with rows on different numbers of bells. -/
theorem C01_assoc {a b c : Row} (ha : IsRow a) (hb : IsRow b) (hc : IsRow c) :
    (Row.mulC a b >>= fun x => Row.mulC x c) = (Row.mulC b c >>= fun y => Row.mulC a y) := by
  rw [isRow_iff_valid] at ha hb hc
  rw [Row.mulC_eq ha hb, Row.mulC_eq hb hc, Out.ok_bind, Out.ok_bind,
    Row.mulC_eq (Row.valid_mul ha hb) hc, Row.mulC_eq ha (Row.valid_mul hb hc), Row.mul_assoc']

/-- C01: rounds on no more bells is a two-sided identity. -/
theorem C01_identity {a : Row} (ha : IsRow a) {n : Nat} (hn : n ≤ a.length) :
    Row.mulC a (Row.roundsC n) = .ok a ∧ Row.mulC (Row.roundsC n) a = .ok a := by
  rw [isRow_iff_valid] at ha
  have hn' : n ≤ 256 := le_trans hn ha.2
  rw [Row.roundsC_eq hn']
  rw [Row.mulC_eq ha (Row.valid_rounds hn'), Row.mulC_eq (Row.valid_rounds hn') ha,
    Row.mul_rounds hn, Row.rounds_mul hn]
  exact ⟨rfl, rfl⟩

example : IsRow [1, 2, 0, 4, 3] ∧ IsRow [2, 0, 1] := by
  constructor <;> (rw [isRow_iff_valid]; decide)
example : Row.mulC [1, 2, 0, 4, 3] [2, 0, 1] = .ok [0, 1, 2, 4, 3] := by decide
example : Row.mulC [2, 0, 1] [1, 2, 0, 4, 3] = .ok [0, 1, 2, 4, 3] := by decide
example : Row.mulC [1, 0] [1, 2, 0] = .ok [0, 2, 1] := by decide

/-- C02: the inverse is a row on the same bells, and undoes the row on both sides. -/
theorem C02_inverse {a : Row} (ha : IsRow a) :
    ∃ i, Row.inverseC a = .ok i ∧ IsRow i ∧ i.length = a.length ∧
      (∀ k, bellAt i (bellAt a k) = k) ∧ (∀ k, bellAt a (bellAt i k) = k) ∧
      Row.mulC a i = .ok (Row.roundsC a.length) ∧ Row.mulC i a = .ok (Row.roundsC a.length) := by
  rw [isRow_iff_valid] at ha
  have hi := Row.valid_inverse ha
  refine ⟨_, Row.inverseC_eq ha, (isRow_iff_valid _).2 hi, by simp, ?_, ?_, ?_, ?_⟩
  · intro k; simp only [bellAt_eq_fn, Row.fn_inverse_fn ha]
  · intro k; simp only [bellAt_eq_fn, Row.fn_fn_inverse ha]
  · rw [Row.mulC_eq ha hi, Row.mul_inverse ha, Row.roundsC_eq ha.2]
  · rw [Row.mulC_eq hi ha, Row.inverse_mul ha, Row.roundsC_eq ha.2]

/-- C02: `(a*b).inverse() = b.inverse() * a.inverse()`. -/
theorem C02_inverse_mul {a b : Row} (ha : IsRow a) (hb : IsRow b) :
    (Row.mulC a b >>= Row.inverseC) =
      (do let x ← Row.inverseC b; let y ← Row.inverseC a; Row.mulC x y) := by
  rw [isRow_iff_valid] at ha hb
  rw [Row.mulC_eq ha hb, Row.inverseC_eq ha, Row.inverseC_eq hb]
  simp only [Out.ok_bind]
  rw [Row.inverseC_eq (Row.valid_mul ha hb), Row.mulC_eq (Row.valid_inverse hb) (Row.valid_inverse ha),
    Row.mul_inverse_rev ha hb]

/-- C02: `a/b` is a row with `(a/b)*b` equal to `a` padded to the larger stage, and
`a/b = a * b.inverse()`. -/
theorem C02_div {a b : Row} (ha : IsRow a) (hb : IsRow b) :
    ∃ q, Row.divC a b = .ok q ∧ IsRow q ∧ q.length = max a.length b.length ∧
      (∀ i, bellAt q (bellAt b i) = bellAt a i) ∧
      (∃ p, Row.mulC q b = .ok p ∧ p.length = max a.length b.length ∧ ∀ i, bellAt p i = bellAt a i) ∧
      (Row.inverseC b >>= Row.mulC a) = .ok q := by
  rw [isRow_iff_valid] at ha hb
  have hq := Row.valid_div ha hb
  have hfn : ∀ i, bellAt (Row.div a b) (bellAt b i) = bellAt a i := by
    intro i; simp only [bellAt_eq_fn]; rw [Row.fn_div hb, hb.find_fn]
  refine ⟨_, Row.divC_eq ha hb, (isRow_iff_valid _).2 hq, by simp, hfn,
    ⟨_, Row.mulC_eq hq hb, by simp, fun i => ?_⟩, ?_⟩
  · rw [bellAt_eq_fn (Row.mul _ _), Row.fn_mul, ← bellAt_eq_fn, ← bellAt_eq_fn, hfn]
  · rw [Row.inverseC_eq hb, Out.ok_bind, Row.mulC_eq ha (Row.valid_inverse hb), Row.div_eq hb]

/-- C02: `a/a` is rounds. -/
theorem C02_div_self {a : Row} (ha : IsRow a) : Row.divC a a = .ok (Row.roundsC a.length) := by
  rw [isRow_iff_valid] at ha
  rw [Row.divC_eq ha ha, Row.div_eq ha, Row.mul_inverse ha, Row.roundsC_eq ha.2]

example : Row.inverseC [1, 2, 0, 4, 3] = .ok [2, 0, 1, 4, 3] := by decide
example : Row.divC [1, 2, 0, 4, 3] [2, 0, 1] = .ok [2, 0, 1, 4, 3] := by decide
example : Row.divC [2, 0, 1] [1, 2, 0, 4, 3] = .ok [1, 2, 0, 4, 3] := by decide

/-- C03: constructing a row from a vector of bells succeeds, keeping the data, exactly when the
data is a permutation of the first bells; otherwise it throws `row::invalid`. -/
theorem C03_vector (d : List Nat) (hd : ∀ b ∈ d, b < 256) :
    (IsRow d → Row.ofVectorC d = .ok d) ∧
    (¬ IsRow d → Row.ofVectorC d = .throw .rowInvalid) := by
  have hp : d.Perm (List.range d.length) → d.length ≤ 256 := by
    intro h
    by_contra hc
    have h1 : d.length - 1 ∈ d := h.mem_iff.2 (List.mem_range.2 (by omega))
    have := hd _ h1
    omega
  unfold Row.ofVectorC
  rw [Row.validateC_spec, isRow_iff_valid]
  constructor
  · intro h; rw [if_pos h.1]; rfl
  · intro h; rw [if_neg (fun h' => h ⟨h', hp h'⟩)]; rfl

/-- C03: what is constructed is a row: no invalid row can come out of the constructor. -/
theorem C03_vector_sound {d r : List Nat} (hd : ∀ b ∈ d, b < 256) (h : Row.ofVectorC d = .ok r) :
    r = d ∧ IsRow r := by
  by_cases hr : IsRow d
  · rw [(C03_vector d hd).1 hr] at h; cases h; exact ⟨rfl, hr⟩
  · rw [(C03_vector d hd).2 hr] at h; cases h

example : Row.ofVectorC [2, 0, 1] = .ok [2, 0, 1] := by decide
example : Row.ofVectorC [2, 0, 2] = .throw .rowInvalid := by decide
example : Row.ofVectorC [1, 2, 3] = .throw .rowInvalid := by decide

/-- C03: `row(n)` is rounds, a row, for up to 256 bells... -/
theorem C03_rounds {n : Nat} (h : n ≤ 256) :
    IsRow (Row.roundsC n) ∧ (Row.roundsC n).length = n ∧ ∀ i, bellAt (Row.roundsC n) i = i := by
  rw [Row.roundsC_eq h, isRow_iff_valid]
  exact ⟨Row.valid_rounds h, by simp, fun i => by rw [bellAt_eq_fn]; simp⟩

/-- ... and for more it silently constructs something that is not a row: `row(int)` does not
validate, and bells wrap around at 256. -/
theorem C03_rounds_false {n : Nat} (h : 256 < n) :
    ¬ (Row.roundsC n).Perm (List.range (Row.roundsC n).length) := by
  intro hp
  have hl : (Row.roundsC n).length = n := by simp [Row.roundsC]
  rw [hl] at hp
  have : 256 ∈ Row.roundsC n := hp.mem_iff.2 (List.mem_range.2 h)
  obtain ⟨i, _, hi⟩ := List.mem_map.1 this
  have := toBell_lt i
  omega

/-- C03: `resize` to at least as many bells (at most 256) pads with rounds. -/
theorem C03_resize_up {r : Row} (hr : IsRow r) {n : Nat} (h : r.length ≤ n) (hn : n ≤ 256) :
    ∃ s, Row.resizeC r n = .ok s ∧ IsRow s ∧ s.length = n ∧ ∀ i, bellAt s i = bellAt r i := by
  have hv := (isRow_iff_valid r).1 hr
  have e : Row.resizeC r n = .ok (Row.mul r (Row.rounds n)) := by
    unfold Row.resizeC
    rw [if_neg (by omega)]
    congr 1
    apply List.ext_getElem
    · simp; omega
    · intro i h1 h2
      simp only [List.length_append, List.length_map, List.length_range'] at h1
      rw [← Row.fn_of_lt h2, Row.fn_mul, Row.fn_rounds]
      by_cases hi : i < r.length
      · rw [Row.fn_of_lt hi, List.getElem_append_left hi]
      · rw [Row.fn_of_ge (by omega), List.getElem_append_right (by omega)]
        simp only [List.getElem_map, List.getElem_range']
        rw [toBell_of_lt (by omega)]; omega
  refine ⟨_, e, (isRow_iff_valid _).2 (Row.valid_mul hv (Row.valid_rounds hn)), by simp [h], ?_⟩
  intro i; simp [bellAt_eq_fn, Row.fn_mul]

/-- C03: `resize` to fewer bells truncates if what is left is a row, and throws otherwise. -/
theorem C03_resize_down {r : Row} (hr : IsRow r) {n : Nat} (h : n < r.length) :
    Row.resizeC r n = if (∀ i, i < n → bellAt r i < n) then .ok (r.take n) else .throw .rowInvalid := by
  have hv := (isRow_iff_valid r).1 hr
  have hb : ∀ b ∈ r.take n, b < 256 := fun b hb => by
    have := hv.mem_iff.1 (List.mem_of_mem_take hb); have := hv.2; omega
  have hlen : (r.take n).length = n := by simp; omega
  unfold Row.resizeC
  rw [if_pos h]
  split
  · rename_i hlt
    apply (C03_vector _ hb).1
    rw [isRow_iff_valid]
    apply Row.valid_of_inj (by have := hv.2; omega)
    · intro x hx
      obtain ⟨i, hi, rfl⟩ := List.mem_iff_getElem.1 hx
      rw [hlen] at hi ⊢
      have := hlt i hi
      rw [bellAt_eq_fn, Row.fn_of_lt (by omega)] at this
      simpa using this
    · exact (List.take_sublist _ _).nodup hv.nodup
  · rename_i hlt
    apply (C03_vector _ hb).2
    intro hrow
    apply hlt
    intro i hi
    have hvt := (isRow_iff_valid _).1 hrow
    have := hvt.mem_iff.1 (List.getElem_mem (show i < (r.take n).length by omega))
    have := lt_of_lt_of_eq this hlen
    rw [bellAt_eq_fn, Row.fn_of_lt (by omega)]
    simpa using this

example : Row.resizeC [1, 0, 3, 2] 2 = .ok [1, 0] := by decide
example : Row.resizeC [1, 0, 3, 2] 3 = .throw .rowInvalid := by decide
example : Row.resizeC [1, 0] 4 = .ok [1, 0, 2, 3] := by decide

/-- C49: multiplication, division, inverse, construction and validation never index outside their
vectors: on rows they end normally, and construction from arbitrary data ends normally or throws. -/
theorem C49_core {a b : Row} (ha : IsRow a) (hb : IsRow b) (d : List Nat) :
    Row.mulC a b ≠ .ub ∧ Row.divC a b ≠ .ub ∧ Row.inverseC a ≠ .ub ∧ Row.ofVectorC d ≠ .ub := by
  rw [isRow_iff_valid] at ha hb
  rw [Row.mulC_eq ha hb, Row.divC_eq ha hb, Row.inverseC_eq ha]
  refine ⟨by simp, by simp, by simp, ?_⟩
  unfold Row.ofVectorC
  rw [Row.validateC_spec]
  split <;> simp

/-- Without the invariant the accesses do go wrong, so the hypothesis of `C49_core` matters. -/
example : Row.inverseC [5] = .ub := by decide

end Ringing
