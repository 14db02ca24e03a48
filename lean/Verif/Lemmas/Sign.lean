import Verif.Lemmas.Cycles2

/-! The sign of a row as a homomorphism. -/
namespace Ringing
open Spec
namespace Row

/-- Value of `row::sign` when it does not fail (row.cpp:486-491); on rows it never does. -/
def sign (r : Row) : Int := match signC r with
  | .ok s => s
  | _ => 0

/-- The permutation of the first `m` positions described by a row on at most `m` bells. -/
def permFin (r : Row) (hr : Valid r) (m : Nat) (hm : r.length ≤ m) : Equiv.Perm (Fin m) where
  toFun i := ⟨fn r i, hr.fn_lt hm i.isLt⟩
  invFun i := ⟨find r i, hr.find_lt hm i.isLt⟩
  left_inv i := by ext; exact hr.find_fn i
  right_inv i := by ext; exact hr.fn_find i

@[simp] theorem permFin_val (r : Row) (hr : Valid r) (m : Nat) (hm : r.length ≤ m) (i : Fin m) :
    (permFin r hr m hm i : Nat) = fn r i := rfl

theorem signC_eq {r : Row} (hr : Valid r) : signC r = .ok (sign r) := by
  have := signC_spec hr (permFin r hr r.length le_rfl) (fun i => rfl)
  unfold sign; rw [this]

theorem sign_eq {r : Row} (hr : Valid r) :
    sign r = ((Equiv.Perm.sign (permFin r hr r.length le_rfl) : ℤˣ) : ℤ) := by
  have := signC_spec hr (permFin r hr r.length le_rfl) (fun i => rfl)
  unfold sign; rw [this]

/-- Padding a row with fixed bells. -/
def pad (r : Row) (m : Nat) : Row := mul r (rounds m)

theorem fn_pad (r : Row) (m i : Nat) : fn (pad r m) i = fn r i := by simp [pad, fn_mul]

theorem CycleDecomp.pad {r : Row} {cs : List (List Nat)} (h : CycleDecomp r cs) {m : Nat}
    (hm : r.length ≤ m) :
    CycleDecomp (pad r m) (cs ++ (List.range' r.length (m - r.length)).map (fun x => [x])) := by
  have hfn : fn (Row.pad r m) = fn r := funext (fn_pad r m)
  constructor
  · intro c hc
    rw [hfn]
    rcases List.mem_append.1 hc with h' | h'
    · exact h.cyc c h'
    · obtain ⟨x, hx, rfl⟩ := List.mem_map.1 h'
      refine ⟨by simp, fun j hj => ?_⟩
      simp at hj; subst hj
      have := (List.mem_range'_1.1 hx).1
      simp [fn_of_ge this]
  · rw [List.flatten_append]
    have e1 : (List.map (fun x => [x]) (List.range' r.length (m - r.length))).flatten =
        List.range' r.length (m - r.length) := by
      generalize List.range' r.length (m - r.length) = l
      induction l with
      | nil => rfl
      | cons x xs ih => simp [ih]
    have e2 : List.range (Row.pad r m).length = List.range r.length ++ List.range' r.length (m - r.length) := by
      simp only [Row.pad, length_mul, length_rounds]
      rw [List.range_eq_range', List.range_eq_range', Nat.max_eq_right hm]
      conv_lhs => rw [← Nat.add_sub_cancel' hm]
      rw [← List.range'_append]
      simp
    rw [e1, e2]
    exact h.perm.append_right _

theorem sign_eq_permFin {r : Row} (hr : Valid r) {m : Nat} (hm : r.length ≤ m) (_hm' : m ≤ 256) :
    sign r = ((Equiv.Perm.sign (permFin r hr m hm) : ℤˣ) : ℤ) := by
  obtain ⟨cs, -, hcs, -⟩ := cyclesListC_spec hr
  have h1 := hcs.sign (permFin r hr r.length le_rfl) (fun i => rfl)
  have hlen : (pad r m).length = m := by simp [pad, hm]
  have h2 := (hcs.pad hm).sign ((finCongr hlen).trans ((permFin r hr m hm).trans (finCongr hlen).symm))
    (by intro i; simp [fn_pad])
  have h3 : Equiv.Perm.sign ((finCongr hlen).trans ((permFin r hr m hm).trans (finCongr hlen).symm)) =
      Equiv.Perm.sign (permFin r hr m hm) := by
    have := Equiv.Perm.sign_symm_trans_trans (permFin r hr m hm) (finCongr hlen).symm
    rw [← this]; rfl
  rw [sign_eq hr, h1, ← h3, h2, hlen]
  congr 1
  simp only [List.length_append, List.length_map, List.length_range']
  have : m + (cs.length + (m - List.length r)) = (r.length + cs.length) + 2 * (m - r.length) := by omega
  rw [this, pow_add (-1 : ℤˣ) (r.length + cs.length) _, pow_mul]; simp

theorem sign_mul {a b : Row} (ha : Valid a) (hb : Valid b) :
    sign (mul a b) = sign a * sign b := by
  have hm : max a.length b.length ≤ 256 := by have := ha.2; have := hb.2; omega
  rw [sign_eq_permFin (valid_mul ha hb) (m := max a.length b.length) (by simp) hm,
    sign_eq_permFin ha (m := max a.length b.length) (by omega) hm,
    sign_eq_permFin hb (m := max a.length b.length) (by omega) hm, ← Units.val_mul,
    ← map_mul]
  congr 2
  ext i
  simp [fn_mul]

theorem sign_rounds {n : Nat} (h : n ≤ 256) : sign (rounds n) = 1 := by
  rw [sign_eq (valid_rounds h)]
  have : permFin (rounds n) (valid_rounds h) (rounds n).length le_rfl = 1 := by ext i; simp
  rw [this]; simp

theorem sign_sq {a : Row} (ha : Valid a) : sign a = 1 ∨ sign a = -1 := by
  rw [sign_eq ha]
  rcases Int.units_eq_one_or (Equiv.Perm.sign (permFin a ha a.length le_rfl)) with h | h <;>
    rw [h] <;> simp

theorem sign_inverse {a : Row} (ha : Valid a) : sign (inverse a) = sign a := by
  have h := sign_mul ha (valid_inverse ha)
  rw [mul_inverse ha, sign_rounds ha.2] at h
  rcases sign_sq ha with h1 | h1 <;> rw [h1] at h ⊢ <;> omega

/-! ### powers -/

theorem length_npow (r : Row) (k : Nat) : (npow r k).length = r.length := by
  induction k with
  | zero => simp [npow]
  | succ k ih => simp [npow, ih]

theorem fn_npow (r : Row) (k i : Nat) : fn (npow r k) i = Spec.iter (fn r) k i := by
  induction k generalizing i with
  | zero => simp [npow, Spec.iter]
  | succ k ih => rw [npow, fn_mul, ih]; rfl

theorem valid_npow {r : Row} (hr : Valid r) (k : Nat) : Valid (npow r k) := by
  induction k with
  | zero => exact valid_rounds hr.2
  | succ k ih => exact valid_mul hr ih

theorem npow_add (r : Row) (m n : Nat) : npow r (m + n) = mul (npow r m) (npow r n) := by
  apply ext_fn
  · simp [length_npow]
  · intro i _; rw [fn_mul, fn_npow, fn_npow, fn_npow, iter_add]

theorem npow_eq_rounds_iff (r : Row) (k : Nat) :
    npow r k = rounds r.length ↔ ∀ i, Spec.iter (fn r) k i = i := by
  constructor
  · intro h i; rw [← fn_npow, h, fn_rounds]
  · intro h; apply ext_fn (by simp [length_npow]); intro i _; rw [fn_npow, h, fn_rounds]

theorem npow_mod {r : Row} {o k : Nat} (h : npow r o = rounds r.length) :
    npow r (k % o) = npow r k := by
  rw [npow_eq_rounds_iff] at h
  have hm : ∀ q i, Spec.iter (fn r) (o * q) i = i := by
    intro q
    induction q with
    | zero => intro i; rfl
    | succ q ih => intro i; rw [Nat.mul_succ, iter_add, h, ih]
  apply ext_fn (by simp [length_npow])
  intro i _
  rw [fn_npow, fn_npow]
  conv_rhs => rw [← Nat.mod_add_div k o, iter_add, hm]

/-- The order of a row: the value computed by `row::order` (row.cpp:459-483). -/
def order (r : Row) : Nat := match orderC r with
  | .ok o => o
  | _ => 0

theorem order_spec {r : Row} (hr : Valid r) (h58 : r.length ≤ 58) :
    orderC r = .ok (order r) ∧ 0 < order r ∧
      ∀ k, (∀ i, Spec.iter (fn r) k i = i) ↔ order r ∣ k := by
  obtain ⟨cs, h1, h2, -⟩ := cyclesListC_spec hr
  have h := orderC_spec hr h58 h1 h2
  have ho : order r = (cs.map List.length).foldl Nat.lcm 1 := by unfold order; rw [h]
  refine ⟨by rw [ho, h], ?_, ?_⟩
  · rw [ho]
    have : ∀ (l : List Nat) (o : Nat), 0 < o → (∀ x ∈ l, 0 < x) → 0 < l.foldl Nat.lcm o := by
      intro l
      induction l with
      | nil => intro o h _; exact h
      | cons x xs ih =>
        intro o ho hx
        exact ih _ (Nat.lcm_pos ho (hx x (by simp))) (fun y hy => hx y (by simp [hy]))
    apply this _ _ (by decide)
    intro x hx
    obtain ⟨c, hc, rfl⟩ := List.mem_map.1 hx
    exact List.length_pos_iff.2 (h2.cyc c hc).1
  · intro k
    rw [h2.iter_id_iff, ho, dvd_foldl_lcm]
    constructor
    · intro hk; exact ⟨one_dvd _, fun x hx => by
        obtain ⟨c, hc, rfl⟩ := List.mem_map.1 hx; exact hk c hc⟩
    · intro hk c hc; exact hk.2 _ (List.mem_map.2 ⟨c, hc, rfl⟩)

theorem npow_order {r : Row} (hr : Valid r) (h58 : r.length ≤ 58) :
    npow r (order r) = rounds r.length := by
  rw [npow_eq_rounds_iff, (order_spec hr h58).2.2]

/-- Exponents up to the square of the number of bells: plain square and multiply. -/
theorem powerNatC_small {r : Row} (hr : Valid r) :
    ∀ (n fuel : Nat), n < fuel → n ≤ r.length * r.length → powerNatC fuel r n = .ok (npow r n) := by
  intro n
  induction n using Nat.strong_induction_on with
  | _ n ih =>
    intro fuel hf hn
    obtain ⟨fuel, rfl⟩ : ∃ f, fuel = f + 1 := ⟨fuel - 1, by omega⟩
    unfold powerNatC
    split
    · rename_i h0; subst h0; rw [roundsC_eq hr.2]; rfl
    · rename_i h0
      rw [if_neg (by omega)]
      split
      · rename_i hodd
        rw [ih (n - 1) (by omega) fuel (by omega) (by omega), Out.ok_bind,
          mulC_eq hr (valid_npow hr _)]
        obtain ⟨k, rfl⟩ : ∃ k, n = k + 1 := ⟨n - 1, by omega⟩
        rfl
      · rename_i heven
        rw [ih (n / 2) (by omega) fuel (by omega) (by omega), Out.ok_bind,
          mulC_eq (valid_npow hr _) (valid_npow hr _), ← npow_add]
        congr 2; omega

theorem powerNatC_spec {r : Row} (hr : Valid r) (h58 : r.length ≤ 58) {n : Nat}
    (h : n ≤ r.length * r.length ∨ n % order r ≤ r.length * r.length)
    {fuel : Nat} (hf : n + 1 < fuel) : powerNatC fuel r n = .ok (npow r n) := by
  by_cases hn : n ≤ r.length * r.length
  · exact powerNatC_small hr n fuel (by omega) hn
  · have h' : n % order r ≤ r.length * r.length := by omega
    obtain ⟨fuel, rfl⟩ : ∃ f, fuel = f + 1 := ⟨fuel - 1, by omega⟩
    unfold powerNatC
    obtain ⟨h1, h2, -⟩ := order_spec hr h58
    rw [if_neg (by rintro rfl; omega), if_pos (by omega), h1, Out.ok_bind, if_neg (by omega),
      powerNatC_small hr _ fuel (by have := Nat.mod_le n (order r); omega) h', npow_mod (npow_order hr h58)]

theorem powerNatC_diverges {r : Row} (hr : Valid r) (h58 : r.length ≤ 58) {n : Nat}
    (h1 : r.length * r.length < n) (h2 : r.length * r.length < n % order r)
    (fuel : Nat) : powerNatC fuel r n = .timeout := by
  induction fuel generalizing n with
  | zero => rfl
  | succ fuel ih =>
    unfold powerNatC
    obtain ⟨e1, e2, -⟩ := order_spec hr h58
    rw [if_neg (by omega), if_pos (by omega), e1, Out.ok_bind, if_neg (by omega)]
    apply ih h2
    rw [Nat.mod_mod]; exact h2

end Row
end Ringing
