import Verif.Lemmas.Group3
import Verif.Props.NamedRows
/- Helper lemmas: direct products. -/
namespace Ringing
open Spec
namespace Group

/-- The row used to shift a group up by `a` places. -/
theorem shift_row (a b : Nat) (h : a + b ≤ 256) :
    Row.Valid (Row.cyclicC (a + b) 0 (-(a : Int))) ∧ (Row.cyclicC (a + b) 0 (-(a : Int))).length = a + b ∧
    (∀ j, j < a → Row.fn (Row.cyclicC (a + b) 0 (-(a : Int))) j = j + b) ∧
    (∀ j, a ≤ j → j < a + b → Row.fn (Row.cyclicC (a + b) 0 (-(a : Int))) j = j - a) := by
  by_cases h0 : a + b = 0
  · have ha : a = 0 := by omega
    have hb : b = 0 := by omega
    subst ha; subst hb
    refine ⟨by decide, by decide, by omega, by omega⟩
  · obtain ⟨h1, h2, -, h4⟩ := C45_cyclic (h := 0) h (by omega : 0 < a + b) (-(a : Int))
    refine ⟨(isRow_iff_valid _).1 h1, h2, ?_, ?_⟩
    · intro j hj
      have := h4 j (by omega)
      rw [bellAt_eq_fn] at this
      simp only [Nat.zero_add, Nat.sub_zero, Nat.cast_zero, Int.zero_add] at this
      have e : ((j : Int) + -(a : Int)) % ((a + b : Nat) : Int) = j + b := by
        rw [← Int.add_emod_right]
        rw [Int.emod_eq_of_lt] <;> omega
      rw [e] at this
      omega
    · intro j hj1 hj2
      have := h4 j (by omega)
      rw [bellAt_eq_fn] at this
      simp only [Nat.zero_add, Nat.sub_zero, Nat.cast_zero, Int.zero_add] at this
      rw [Int.emod_eq_of_lt (by omega) (by omega)] at this
      omega

/-- A row moved up by `a` places. -/
def lift (a : Nat) (y : Row) : Row := List.range a ++ y.map (· + a)

theorem length_lift (a : Nat) (y : Row) : (lift a y).length = a + y.length := by simp [lift]

theorem fn_lift (a : Nat) (y : Row) (i : Nat) :
    Row.fn (lift a y) i = if i < a then i else Row.fn y (i - a) + a := by
  unfold lift Row.fn
  rw [List.getD_eq_getElem?_getD, List.getElem?_append, List.getD_eq_getElem?_getD]
  by_cases h : i < a
  · simp [h]
  · simp only [List.length_range, h, if_false, List.getElem?_map]
    by_cases h2 : i - a < y.length
    · simp [h2]
    · rw [List.getElem?_eq_none (by omega)]; simp; omega

theorem fn_append (x z : Row) (i : Nat) : Row.fn (x ++ z) i =
    if i < x.length then Row.fn x i else z.getD (i - x.length) i := by
  unfold Row.fn
  rw [List.getD_eq_getElem?_getD, List.getElem?_append]
  split_ifs with h <;> simp [List.getD_eq_getElem?_getD]

theorem mul_lift {x y : Row} : Row.mul x (lift x.length y) = x ++ y.map (· + x.length) := by
  apply Row.ext_fn
  · simp [length_lift]
  · intro i _
    rw [Row.fn_mul, fn_lift, fn_append]
    by_cases h : i < x.length
    · simp [h]
    · simp only [h, if_false]
      rw [Row.fn_of_ge (by omega)]
      unfold Row.fn
      rw [List.getD_eq_getElem?_getD, List.getD_eq_getElem?_getD, List.getElem?_map]
      by_cases h2 : i - x.length < y.length
      · simp [h2]
      · rw [List.getElem?_eq_none (by omega)]; simp; omega

theorem valid_lift {a : Nat} {y : Row} (hy : Row.Valid y) (h : a + y.length ≤ 256) : Row.Valid (lift a y) := by
  have : lift a y = (List.range (a + y.length)).map fun i => if i < a then i else Row.fn y (i - a) + a := by
    apply Row.ext_fn
    · simp [length_lift]
    · intro i hi
      rw [length_lift] at hi
      rw [fn_lift, Row.fn_map_range hi]
  rw [this]
  apply Row.valid_map_range h
  · intro i hi
    split_ifs with h1
    · omega
    · have := hy.fn_lt_len (i := i - a) (by omega); omega
  · intro i j hi hj e
    split_ifs at e with h1 h2 h2
    · exact e
    · omega
    · omega
    · have := hy.fn_inj (i := i - a) (j := j - a) (by omega); omega

theorem lift_comm {x y : Row} (hx : Row.Valid x) :
    Row.mul (lift x.length y) x = Row.mul x (lift x.length y) := by
  apply Row.ext_fn
  · simp [max_comm]
  · intro i _
    rw [Row.fn_mul, Row.fn_mul, fn_lift, fn_lift]
    by_cases h : i < x.length
    · have := hx.fn_lt_len h
      simp [h, this]
    · rw [Row.fn_of_ge (r := x) (i := i) (by omega)]
      simp only [h, if_false]
      rw [Row.fn_of_ge (r := x)]; omega

theorem mul_lift_lift (a : Nat) (y z : Row) : Row.mul (lift a y) (lift a z) = lift a (Row.mul y z) := by
  apply Row.ext_fn
  · simp only [Row.length_mul, length_lift]; omega
  · intro i _
    rw [Row.fn_mul, fn_lift, fn_lift, fn_lift, Row.fn_mul]
    by_cases h : i < a
    · simp [h]
    · simp [h]

theorem lift_rounds (a n : Nat) : lift a (Row.rounds n) = Row.rounds (a + n) := by
  apply Row.ext_fn
  · simp [length_lift]
  · intro i _
    rw [fn_lift]; simp; omega

/-- The conjugated second factor. -/
theorem shifted {a : Nat} {b : Group} (hb : IsGrp b.v b.b) (h : a + b.b ≤ 256) :
    ∃ g, conjugateC b (Row.cyclicC (a + b.b) 0 (-(a : Int))) = .ok g ∧
      ∀ s, s ∈ g.v ↔ ∃ y ∈ b.v, s = lift a y := by
  obtain ⟨h1, h2, h3, h4⟩ := shift_row a b.b h
  set r := Row.cyclicC (a + b.b) 0 (-(a : Int)) with hr
  refine ⟨_, conjugateC_eq hb h1, ?_⟩
  intro s
  simp only
  rw [(conj_grp hb h1).2]
  have hfn : ∀ y ∈ b.v, ∀ i, Row.fn r (Row.fn (lift a y) i) = Row.fn y (Row.fn r i) := by
    intro y hy i
    have hy' := hb.rows y hy
    rw [fn_lift]
    by_cases hi : i < a
    · rw [if_pos hi, h3 i hi, Row.fn_of_ge (r := y) (by omega)]
    · rw [if_neg hi]
      by_cases hi2 : i < a + b.b
      · rw [h4 i (by omega) hi2]
        have := hy'.1.fn_lt_len (i := i - a) (by omega)
        rw [h4 _ (by omega) (by omega)]; omega
      · rw [Row.fn_of_ge (r := y) (by omega), Row.fn_of_ge (r := r) (by omega), Row.fn_of_ge (r := r) (by omega),
          Row.fn_of_ge (r := y) (by omega)]; omega
  constructor
  · rintro ⟨y, hy, e1, e2⟩
    refine ⟨y, hy, ?_⟩
    apply Row.ext_fn
    · rw [e1, length_lift, (hb.rows y hy).2, h2]; omega
    · intro i _
      apply h1.fn_inj
      rw [e2, hfn y hy]
  · rintro ⟨y, hy, rfl⟩
    exact ⟨y, hy, by rw [length_lift, (hb.rows y hy).2, h2]; omega, hfn y hy⟩

theorem product_good {a b : Group} (ha : IsGrp a.v a.b) (hb : IsGrp b.v b.b) (h : a.b + b.b ≤ 256) :
    ∃ g, directProductC a b = .ok g ∧ g.b = a.b + b.b ∧ Good g ∧
      (∀ r, r ∈ g.v ↔ ∃ x ∈ a.v, ∃ y ∈ b.v, r = x ++ y.map (· + a.b)) ∧
      g.v.length = a.v.length * b.v.length := by
  obtain ⟨b2, e1, e2⟩ := shifted hb h
  have hgens : ∀ r ∈ a.v ++ b2.v, Row.Valid r ∧ r.length ≤ a.b + b.b := by
    intro r hr
    rcases List.mem_append.1 hr with hr | hr
    · have := ha.rows r hr; exact ⟨this.1, by omega⟩
    · obtain ⟨y, hy, rfl⟩ := (e2 r).1 hr
      have := hb.rows y hy
      exact ⟨valid_lift this.1 (by omega), by rw [length_lift]; omega⟩
  have hone : lift a.b (Row.rounds b.b) ∈ b2.v := (e2 _).2 ⟨_, hb.one, rfl⟩
  obtain ⟨g, f1, f2, ⟨r0, f3, f4⟩, f5, f6⟩ := ofVector_good (gens := a.v ++ b2.v) (fun r hr => (hgens r hr).1)
    (List.ne_nil_of_mem (List.mem_append.2 (Or.inl ha.one)))
  have hgb : g.b = a.b + b.b := by
    have h1 := f2 _ (List.mem_append.2 (Or.inr hone))
    rw [length_lift] at h1
    have h2 := (hgens r0 f3).2
    simp at h1
    omega
  have hva : ∀ x ∈ a.v, ∀ y ∈ b.v, Row.Valid (Row.mul x (lift a.b y)) := fun x hx y hy =>
    Row.valid_mul (ha.rows x hx).1 (valid_lift (hb.rows y hy).1 (by rw [(hb.rows y hy).2]; exact h))
  have hl : ∀ x ∈ a.v, ∀ y ∈ b.v, Row.mul x (lift a.b y) = x ++ y.map (· + a.b) := by
    intro x hx y hy
    have := mul_lift (x := x) (y := y)
    rwa [(ha.rows x hx).2] at this
  have hvl : ∀ y ∈ b.v, Row.Valid (lift a.b y) := fun y hy =>
    valid_lift (hb.rows y hy).1 (by rw [(hb.rows y hy).2]; exact h)
  have hcomm : ∀ x ∈ a.v, ∀ y ∈ b.v, permOf (lift a.b y) * permOf x = permOf x * permOf (lift a.b y) := by
    intro x hx y hy
    rw [← permOf_mul (hvl y hy) (ha.rows x hx).1, ← permOf_mul (ha.rows x hx).1 (hvl y hy)]
    have := lift_comm (y := y) (ha.rows x hx).1
    rw [(ha.rows x hx).2] at this
    rw [this]
  have hgen : ∀ p, p ∈ generated (a.v ++ b2.v) → ∃ x ∈ a.v, ∃ y ∈ b.v, p = permOf x * permOf (lift a.b y) := by
    intro p hp
    unfold generated at hp
    induction hp using Subgroup.closure_induction with
    | mem p hp =>
      obtain ⟨r, hr, rfl⟩ := hp
      rcases List.mem_append.1 hr with hr | hr
      · refine ⟨r, hr, _, hb.one, ?_⟩
        rw [lift_rounds, permOf_rounds h, mul_one]
      · obtain ⟨y, hy, rfl⟩ := (e2 r).1 hr
        exact ⟨_, ha.one, y, hy, by rw [permOf_rounds ha.le, one_mul]⟩
    | one => exact ⟨_, ha.one, _, hb.one, by rw [lift_rounds, permOf_rounds h, permOf_rounds ha.le, mul_one]⟩
    | mul p q _ _ ih1 ih2 =>
      obtain ⟨x, hx, y, hy, rfl⟩ := ih1
      obtain ⟨x', hx', y', hy', rfl⟩ := ih2
      refine ⟨_, ha.mul x hx x' hx', _, hb.mul y hy y' hy', ?_⟩
      rw [permOf_mul (ha.rows x hx).1 (ha.rows x' hx').1, ← mul_lift_lift, permOf_mul (hvl y hy) (hvl y' hy')]
      rw [mul_assoc, ← mul_assoc (permOf (lift a.b y)), hcomm x' hx' y hy]
      simp only [mul_assoc]
    | inv p _ ih =>
      obtain ⟨x, hx, y, hy, rfl⟩ := ih
      refine ⟨_, ha.inv hx, _, hb.inv hy, ?_⟩
      rw [mul_inv_rev, permOf_inverse (ha.rows x hx).1]
      have : permOf (lift a.b (Row.inverse y)) = (permOf (lift a.b y))⁻¹ := by
        rw [eq_inv_iff_mul_eq_one, ← permOf_mul (hvl _ (hb.inv hy)) (hvl y hy), mul_lift_lift,
          Row.inverse_mul (hb.rows y hy).1, lift_rounds, permOf_rounds]
        rw [(hb.rows y hy).2]; exact h
      rw [this]
      have := hcomm x hx y hy
      rw [← mul_inv_rev, ← mul_inv_rev, this]
  have hmem : ∀ r, r ∈ g.v ↔ ∃ x ∈ a.v, ∃ y ∈ b.v, r = x ++ y.map (· + a.b) := by
    intro r
    rw [f5.mem]
    constructor
    · rintro ⟨h1, h2, h3⟩
      rw [isRow_iff_valid] at h1
      obtain ⟨x, hx, y, hy, e⟩ := hgen _ h3
      refine ⟨x, hx, y, hy, ?_⟩
      rw [← hl x hx y hy]
      rw [← permOf_mul (ha.rows x hx).1 (hvl y hy)] at e
      apply permOf_inj h1 (hva x hx y hy) _ e
      rw [h2, hgb, Row.length_mul, length_lift, (ha.rows x hx).2, (hb.rows y hy).2]; omega
    · rintro ⟨x, hx, y, hy, rfl⟩
      rw [← hl x hx y hy]
      refine ⟨(isRow_iff_valid _).2 (hva x hx y hy), ?_, ?_⟩
      · rw [hgb, Row.length_mul, length_lift, (ha.rows x hx).2, (hb.rows y hy).2]; omega
      · rw [permOf_mul (ha.rows x hx).1 (hvl y hy)]
        exact Subgroup.mul_mem _ (Subgroup.subset_closure ⟨x, List.mem_append.2 (Or.inl hx), rfl⟩)
          (Subgroup.subset_closure ⟨_, List.mem_append.2 (Or.inr ((e2 _).2 ⟨y, hy, rfl⟩)), rfl⟩)
  refine ⟨g, ?_, hgb, f6, hmem, ?_⟩
  · unfold directProductC
    rw [e1, Out.ok_bind]; exact f1
  · have hnd : ((a.v ×ˢ b.v).map fun p => p.1 ++ p.2.map (· + a.b)).Nodup := by
      rw [List.nodup_map_iff_inj_on ((ha.incr.nodup rowSTO).product (hb.incr.nodup rowSTO))]
      rintro ⟨x, y⟩ hxy ⟨x', y'⟩ hxy' e
      rw [List.mem_product] at hxy hxy'
      obtain ⟨e1, e2⟩ := List.append_inj e (by rw [(ha.rows x hxy.1).2, (ha.rows x' hxy'.1).2])
      have : y = y' := List.map_injective_iff.2 (fun i j hij => by simpa using hij) e2
      exact Prod.ext e1 this
    have hp : g.v.Perm ((a.v ×ˢ b.v).map fun p => p.1 ++ p.2.map (· + a.b)) := by
      rw [List.perm_ext_iff_of_nodup (f6.grp.incr.nodup rowSTO) hnd]
      intro r
      rw [hmem, List.mem_map]
      constructor
      · rintro ⟨x, hx, y, hy, rfl⟩; exact ⟨(x, y), List.mem_product.2 ⟨hx, hy⟩, rfl⟩
      · rintro ⟨⟨x, y⟩, hxy, rfl⟩
        rw [List.mem_product] at hxy
        exact ⟨x, hxy.1, y, hxy.2, rfl⟩
    rw [hp.length_eq, List.length_map, List.length_product]

end Group
end Ringing
