import Verif.Lemmas.Sign
import Mathlib.Data.Finset.Card
import Mathlib.Data.List.Dedup

/-! C04 (power), C05 (order), C06 (sign), C07 (cycles). -/
namespace Ringing
open Spec

theorem bellAt_funext (r : Row) : bellAt r = Row.fn r := funext (bellAt_eq_fn r)

/-! ### C07 -/

/-- C07: `cycle_size(b)` is the number of steps after which following the row from `b` first comes
back to `b`. -/
theorem C07_cycle_size {r : Row} (hr : IsRow r) {b : Nat} (hb : b < r.length) :
    ∃ k, Row.cycleSizeC r b = .ok k ∧ 0 < k ∧ iter (bellAt r) k b = b ∧
      ∀ j, 0 < j → j < k → iter (bellAt r) j b ≠ b := by
  rw [isRow_iff_valid] at hr
  rw [bellAt_funext]
  obtain ⟨cs, -, hcs, -⟩ := Row.cyclesListC_spec hr
  obtain ⟨c, hc, hbc⟩ := hcs.exists_mem hb
  have hcyc := hcs.cyc c hc
  have hself := hcyc.iter_eq_self (hcs.nodup hc) hbc
  have hpos : 0 < c.length := List.length_pos_iff.2 hcyc.1
  have hlen : c.length ≤ r.length := by
    have hsub : c ⊆ List.range r.length := fun x hx => List.mem_range.2 (hcs.lt hc hx)
    simpa using (List.subperm_of_subset (hcs.nodup hc) hsub).length_le
  have hlt : ∀ n, iter (Row.fn r) n b < r.length := by
    intro n
    induction n with
    | zero => exact hb
    | succ n ih => exact hr.fn_lt_len ih
  have key : ∀ (m n fuel : Nat), n + m = c.length → 0 < m → m ≤ fuel →
      Row.cycleSizeLoop r b fuel (iter (Row.fn r) n b) n = .ok c.length := by
    intro m
    induction m with
    | zero => intro n fuel h1 h2; omega
    | succ m ih =>
      intro n fuel h1 _ h3
      obtain ⟨fuel, rfl⟩ : ∃ f, fuel = f + 1 := ⟨fuel - 1, by omega⟩
      unfold Row.cycleSizeLoop
      rw [vget_ok (hlt n), Out.ok_bind, ← Row.fn_of_lt (hlt n)]
      have e : Row.fn r (iter (Row.fn r) n b) = iter (Row.fn r) (n + 1) b := rfl
      rw [e]
      by_cases hm : m = 0
      · have hnc : n + 1 = c.length := by omega
        rw [if_neg (by rw [not_not, hself, hnc]), hnc]; rfl
      · rw [if_pos]
        · exact ih (n + 1) fuel (by omega) (by omega) (by omega)
        · intro h
          rw [hself] at h
          have := Nat.le_of_dvd (by omega) h
          omega
  refine ⟨c.length, key c.length 0 (r.length + 1) (by omega) hpos (by omega), hpos,
    (hself _).2 dvd_rfl, ?_⟩
  intro j hj1 hj2 h
  have := Nat.le_of_dvd hj1 ((hself j).1 h)
  omega

/-- C07: asking for the cycle of a bell beyond the end of the row is undefined behaviour. -/
theorem C07_cycle_size_ub {r : Row} {b : Nat} (hb : r.length ≤ b) : Row.cycleSizeC r b = .ub := by
  unfold Row.cycleSizeC Row.cycleSizeLoop
  rw [vget_ub (by omega)]; rfl

/-- C07: the cycles found by `cycles()` list every bell exactly once; each lists a bell, the bell
in its place, and so on until the first again; the cycles start at their least bells, in order. -/
theorem C07_cycles {r : Row} (hr : IsRow r) :
    ∃ cs, Row.cyclesListC r = .ok cs ∧
      (∀ b, b < r.length → cs.flatten.count b = 1) ∧ (∀ b ∈ cs.flatten, b < r.length) ∧
      (∀ c ∈ cs, c ≠ [] ∧ (∀ (j : Nat) (h : j < c.length),
        bellAt r c[j] = c[(j + 1) % c.length]'(Nat.mod_lt _ (by omega)))) ∧
      (∀ c ∈ cs, ∀ x ∈ c, c.headD 0 ≤ x) ∧ (cs.map (fun c => c.headD 0)).Pairwise (· < ·) := by
  rw [isRow_iff_valid] at hr
  obtain ⟨cs, h1, h2, h3, h4⟩ := Row.cyclesListC_spec hr
  refine ⟨cs, h1, ?_, ?_, ?_, h3, h4⟩
  · intro b hb
    rw [h2.perm.count_eq, List.count_eq_one_of_mem List.nodup_range (List.mem_range.2 hb)]
  · intro b hb; exact List.mem_range.1 (h2.perm.mem_iff.1 hb)
  · intro c hc
    refine ⟨(h2.cyc c hc).1, fun j hj => ?_⟩
    rw [bellAt_eq_fn]; exact (h2.cyc c hc).2 j hj

/-- C07: the string written by `cycles()` is the symbols of the cycles, separated by commas. -/
theorem C07_cycles_string {r : Row} (hr : IsRow r) :
    ∃ cs, Row.cyclesListC r = .ok cs ∧
      Row.cyclesC r = .ok ([','].intercalate (cs.map fun c => c.map Bell.toChar)) := by
  rw [isRow_iff_valid] at hr
  obtain ⟨cs, h1, h2, -⟩ := Row.cyclesListC_spec hr
  refine ⟨cs, h1, ?_⟩
  unfold Row.cyclesC
  rw [h1]
  simp only [Out.ok_bind, Out.pure_eq]
  congr 1
  clear h1 h2
  induction cs with
  | nil => rfl
  | cons c cs ih =>
    by_cases h : cs = []
    · subst h; simp [Row.cyclesString_single, List.intercalate]
    · rw [Row.cyclesString_cons c h, ih]
      obtain ⟨d, ds, rfl⟩ := List.exists_cons_of_ne_nil h
      simp [List.intercalate]

/-- C07: `num_cycles()` counts the orbits: the bells that are the least of their orbit. -/
theorem C07_num_cycles {r : Row} (hr : IsRow r) :
    ∃ k, Row.numCyclesC r = .ok k ∧
      ∀ s : Finset Nat, (∀ b, b ∈ s ↔ b < r.length ∧ ∀ j, b ≤ iter (bellAt r) j b) → s.card = k := by
  rw [isRow_iff_valid] at hr
  obtain ⟨cs, h1, h2, h3, h4⟩ := Row.cyclesListC_spec hr
  refine ⟨cs.length, by unfold Row.numCyclesC; rw [h1]; rfl, ?_⟩
  intro s hs
  rw [bellAt_funext] at hs
  have hnd : (cs.map (fun c => c.headD 0)).Nodup := h4.imp (fun h => Nat.ne_of_lt h)
  have hset : s = (cs.map (fun c => c.headD 0)).toFinset := by
    ext b
    rw [hs, List.mem_toFinset, List.mem_map]
    constructor
    · rintro ⟨hb, hmin⟩
      obtain ⟨c, hc, hbc⟩ := h2.exists_mem hb
      refine ⟨c, hc, ?_⟩
      have hcyc := h2.cyc c hc
      have hpos : 0 < c.length := List.length_pos_iff.2 hcyc.1
      obtain ⟨j, hj, e⟩ := List.mem_iff_getElem.1 hbc
      have hhead : c.headD 0 = c[0] := by
        cases c with
        | nil => simp at hpos
        | cons => rfl
      -- going on to the head
      have := hmin (c.length - j)
      rw [← e, hcyc.iter _ hj] at this
      have e2 : (j + (c.length - j)) % c.length = 0 := by
        rw [Nat.add_sub_cancel' (by omega), Nat.mod_self]
      simp only [e2] at this
      have h5 := h3 c hc b hbc
      rw [hhead] at h5 ⊢
      omega
    · rintro ⟨c, hc, rfl⟩
      have hcyc := h2.cyc c hc
      have hpos : 0 < c.length := List.length_pos_iff.2 hcyc.1
      have hhead : c.headD 0 = c[0] := by
        cases c with
        | nil => simp at hpos
        | cons => rfl
      refine ⟨h2.lt hc (by rw [hhead]; exact List.getElem_mem _), fun j => ?_⟩
      apply h3 c hc
      rw [hhead, hcyc.iter _ hpos]
      exact List.getElem_mem _
  rw [hset, List.toFinset_card_of_nodup hnd, List.length_map]

example : Row.cyclesListC [1, 3, 4, 0, 2] = .ok [[0, 1, 3], [2, 4]] := by decide
example : Row.cyclesC [1, 3, 4, 0, 2] = .ok "124,35".toList := by decide
example : Row.cycleSizeC [1, 3, 4, 0, 2] 3 = .ok 3 := by decide
example : Row.numCyclesC [1, 3, 4, 0, 2] = .ok 2 := by decide

/-! ### C06 -/

/-- Every row is the row of a permutation of the positions. -/
theorem C06_perm_exists {r : Row} (hr : IsRow r) :
    ∃ σ : Equiv.Perm (Fin r.length), ∀ i, (σ i : Nat) = bellAt r i :=
  ⟨Row.permFin r ((isRow_iff_valid r).1 hr) r.length le_rfl, fun i => by rw [bellAt_eq_fn]; rfl⟩

/-- C06: `sign()` is the sign of the permutation. -/
theorem C06_sign {r : Row} (hr : IsRow r) (σ : Equiv.Perm (Fin r.length))
    (hσ : ∀ i, (σ i : Nat) = bellAt r i) :
    Row.signC r = .ok ((Equiv.Perm.sign σ : ℤˣ) : ℤ) :=
  Row.signC_spec ((isRow_iff_valid r).1 hr) σ (fun i => by rw [← bellAt_eq_fn]; exact hσ i)

/-- C06: the sign of a product is the product of the signs, also across stages. -/
theorem C06_sign_mul {a b : Row} (ha : IsRow a) (hb : IsRow b) :
    ∃ p s t, Row.mulC a b = .ok p ∧ Row.signC a = .ok s ∧ Row.signC b = .ok t ∧
      Row.signC p = .ok (s * t) := by
  rw [isRow_iff_valid] at ha hb
  refine ⟨_, _, _, Row.mulC_eq ha hb, Row.signC_eq ha, Row.signC_eq hb, ?_⟩
  rw [Row.signC_eq (Row.valid_mul ha hb), Row.sign_mul ha hb]

/-- C06: rounds is even. -/
theorem C06_sign_rounds {n : Nat} (h : n ≤ 256) : Row.signC (Row.roundsC n) = .ok 1 := by
  rw [Row.roundsC_eq h, Row.signC_eq (Row.valid_rounds h), Row.sign_rounds h]

example : Row.signC [1, 0, 2, 3] = .ok (-1) ∧ Row.signC [1, 2, 0, 3] = .ok 1 := by decide

/-! ### C05 -/

/-- C05: `order()` is positive, and a power is rounds exactly when the order divides the exponent.
No `int` overflow (which the model makes undefined behaviour) happens at up to 58 bells. -/
theorem C05_order {r : Row} (hr : IsRow r) (h58 : r.length ≤ 58) :
    ∃ o, Row.orderC r = .ok o ∧ 0 < o ∧ ∀ k, (∀ i, iter (bellAt r) k i = i) ↔ o ∣ k := by
  rw [isRow_iff_valid] at hr
  rw [bellAt_funext]
  exact ⟨_, Row.order_spec hr h58⟩

/-- C05: `order()` is the least positive number of repetitions giving rounds. -/
theorem C05_least {r : Row} (hr : IsRow r) (h58 : r.length ≤ 58) :
    ∃ o, Row.orderC r = .ok o ∧ 0 < o ∧ (∀ i, iter (bellAt r) o i = i) ∧
      ∀ k, 0 < k → (∀ i, iter (bellAt r) k i = i) → o ≤ k := by
  obtain ⟨o, h1, h2, h3⟩ := C05_order hr h58
  exact ⟨o, h1, h2, (h3 o).2 dvd_rfl, fun k hk h => Nat.le_of_dvd hk ((h3 k).1 h)⟩

example : Row.orderC [1, 3, 4, 0, 2] = .ok 6 := by decide

/-! ### C04 -/

/-- C04, non-negative exponents. `power(n)` is the `n`-fold product, whenever the exponent is at
most the square of the number of bells, or is so after reduction modulo the order. -/
theorem C04_power {r : Row} (hr : IsRow r) (h58 : r.length ≤ 58) {o : Nat} (ho : Row.orderC r = .ok o)
    (n : Nat) (h : n ≤ r.length * r.length ∨ n % o ≤ r.length * r.length) :
    ∃ p, (∀ fuel, n + 1 < fuel → Row.powerC fuel r n = .ok p) ∧ IsRow p ∧ p.length = r.length ∧
      ∀ i, bellAt p i = iter (bellAt r) n i := by
  rw [isRow_iff_valid] at hr
  have ho' : o = Row.order r := by unfold Row.order; rw [ho]
  rw [ho'] at h
  refine ⟨Row.npow r n, fun fuel hf => ?_, (isRow_iff_valid _).2 (Row.valid_npow hr n),
    Row.length_npow r n, fun i => ?_⟩
  · unfold Row.powerC
    rw [if_neg (by omega)]
    exact Row.powerNatC_spec hr h58 h hf
  · rw [bellAt_eq_fn, bellAt_funext, Row.fn_npow]

/-- C04, negative exponents: `power(-n)` undoes the `n`-fold product (under the same condition). -/
theorem C04_power_neg {r : Row} (hr : IsRow r) (h58 : r.length ≤ 58) {o : Nat}
    (ho : Row.orderC r = .ok o) (n : Nat) (hn : 0 < n)
    (h : n ≤ r.length * r.length ∨ n % o ≤ r.length * r.length) :
    ∃ p, (∀ fuel, n + 1 < fuel → Row.powerC fuel r (-(n : Int)) = .ok p) ∧ IsRow p ∧
      p.length = r.length ∧ ∀ i, bellAt p (iter (bellAt r) n i) = i := by
  rw [isRow_iff_valid] at hr
  have hi := Row.valid_inverse hr
  have hcancel : ∀ n i, iter (Row.fn (Row.inverse r)) n (iter (Row.fn r) n i) = i := by
    intro n
    induction n with
    | zero => intro i; rfl
    | succ n ih =>
      intro i
      rw [Row.iter_succ']
      show iter _ n (Row.fn (Row.inverse r) (Row.fn r (iter (Row.fn r) n i))) = i
      rw [Row.fn_inverse_fn hr, ih]
  have hcancel' : ∀ n i, iter (Row.fn r) n (iter (Row.fn (Row.inverse r)) n i) = i := by
    intro n
    induction n with
    | zero => intro i; rfl
    | succ n ih =>
      intro i
      rw [Row.iter_succ']
      show iter _ n (Row.fn r (Row.fn (Row.inverse r) (iter (Row.fn (Row.inverse r)) n i))) = i
      rw [Row.fn_fn_inverse hr, ih]
  -- the inverse has the same order
  have ho' : o = Row.order r := by unfold Row.order; rw [ho]
  have hord : Row.order (Row.inverse r) = o := by
    rw [ho']
    have h1 := (Row.order_spec hr h58).2.2
    have h2 := (Row.order_spec hi (by simpa using h58)).2.2
    apply Nat.dvd_antisymm
    · rw [← h2]
      have h3 := (h1 (Row.order r)).2 dvd_rfl
      intro i
      have := hcancel (Row.order r) i
      rwa [h3] at this
    · rw [← h1]
      have h3 := (h2 (Row.order (Row.inverse r))).2 dvd_rfl
      intro i
      have := hcancel' (Row.order (Row.inverse r)) i
      rwa [h3] at this
  refine ⟨Row.npow (Row.inverse r) n, fun fuel hf => ?_,
    (isRow_iff_valid _).2 (Row.valid_npow hi n), by simp [Row.length_npow], fun i => ?_⟩
  · unfold Row.powerC
    rw [if_pos (by omega), Row.inverseC_eq hr, Out.ok_bind]
    have : (-(n : Int)).natAbs = n := by omega
    rw [this]
    exact Row.powerNatC_spec hi (by simpa using h58) (by rw [hord]; simpa using h) hf
  · rw [bellAt_eq_fn, bellAt_funext, Row.fn_npow, hcancel]

/-- C04: exponents add. -/
theorem C04_power_add {r : Row} (hr : IsRow r) (h58 : r.length ≤ 58) (m n : Nat)
    (h : m + n ≤ r.length * r.length) (fuel : Nat) (hf : m + n + 1 < fuel) :
    ∃ p q pq, Row.powerC fuel r m = .ok p ∧ Row.powerC fuel r n = .ok q ∧
      Row.powerC fuel r (m + n : Nat) = .ok pq ∧ Row.mulC p q = .ok pq := by
  rw [isRow_iff_valid] at hr
  refine ⟨Row.npow r m, Row.npow r n, Row.npow r (m + n), ?_, ?_, ?_, ?_⟩
  · unfold Row.powerC; rw [if_neg (by omega)]
    exact Row.powerNatC_spec hr h58 (Or.inl (by omega)) (by simp; omega)
  · unfold Row.powerC; rw [if_neg (by omega)]
    exact Row.powerNatC_spec hr h58 (Or.inl (by omega)) (by simp; omega)
  · unfold Row.powerC; rw [if_neg (by omega)]
    exact Row.powerNatC_spec hr h58 (Or.inl (by omega)) (by simp; omega)
  · rw [Row.mulC_eq (Row.valid_npow hr m) (Row.valid_npow hr n), Row.npow_add]

/-- C04, refutation of the unrestricted claim: in all other cases `power` recurses for ever, since
reducing the exponent modulo the order leaves it above the square of the number of bells. -/
theorem C04_power_diverges {r : Row} (hr : IsRow r) (h58 : r.length ≤ 58) {o : Nat}
    (ho : Row.orderC r = .ok o) (n : Nat)
    (h1 : r.length * r.length < n) (h2 : r.length * r.length < n % o) (fuel : Nat) :
    Row.powerC fuel r n = .timeout := by
  rw [isRow_iff_valid] at hr
  have ho' : o = Row.order r := by unfold Row.order; rw [ho]
  rw [ho'] at h2
  unfold Row.powerC
  rw [if_neg (by omega)]
  exact Row.powerNatC_diverges hr h58 (by simpa using h1) (by simpa using h2) fuel

/-- The possible least common multiples of lists of positive numbers with sum `n`, `n-1`, ..., `0`. -/
def lcmTable : Nat → List (List Nat)
  | 0 => [[1]]
  | n + 1 =>
    ((lcmTable n).zipIdx 1 |>.flatMap fun p => p.1.map (Nat.lcm p.2)).dedup :: lcmTable n

theorem lcmTable_length (n : Nat) : (lcmTable n).length = n + 1 := by
  induction n with
  | zero => rfl
  | succ n ih => simp [lcmTable, ih]

theorem lcmTable_get (n k : Nat) : (lcmTable (n + k))[k]? = (lcmTable n)[0]? := by
  induction k with
  | zero => rfl
  | succ k ih => rw [← Nat.add_assoc]; simp only [lcmTable]; rw [List.getElem?_cons_succ, ih]

theorem mem_lcmTable : ∀ (l : List Nat), (∀ x ∈ l, 0 < x) →
    ∃ t, (lcmTable l.sum)[0]? = some t ∧ l.foldr Nat.lcm 1 ∈ t := by
  intro l
  induction l with
  | nil => intro _; exact ⟨[1], rfl, by simp⟩
  | cons x xs ih =>
    intro hpos
    obtain ⟨t, ht, hm⟩ := ih (fun y hy => hpos y (by simp [hy]))
    have hx : 0 < x := hpos x (by simp)
    obtain ⟨k, rfl⟩ : ∃ k, x = k + 1 := ⟨x - 1, by omega⟩
    have e : ((k + 1) :: xs).sum = (xs.sum + k) + 1 := by simp; omega
    rw [e]
    refine ⟨_, rfl, ?_⟩
    rw [List.mem_dedup, List.mem_flatMap]
    refine ⟨(t, k + 1), ?_, ?_⟩
    · rw [List.mem_iff_getElem?]
      refine ⟨k, ?_⟩
      rw [List.getElem?_zipIdx, lcmTable_get, ht]
      simp [Nat.add_comm]
    · exact List.mem_map.2 ⟨_, hm, rfl⟩

theorem foldl_lcm_eq (l : List Nat) (o : Nat) : l.foldl Nat.lcm o = Nat.lcm o (l.foldr Nat.lcm 1) := by
  induction l generalizing o with
  | nil => simp
  | cons x xs ih => simp [ih, Nat.lcm_assoc]

/-- On up to 18 bells the order is at most the square of the number of bells (plus one). -/
theorem order_le_sq {r : Row} (hr : Row.Valid r) (h18 : r.length ≤ 18) :
    Row.order r ≤ r.length * r.length + 1 := by
  obtain ⟨cs, h1, h2, -⟩ := Row.cyclesListC_spec hr
  have h := Row.orderC_spec hr (by omega) h1 h2
  have ho : Row.order r = (cs.map List.length).foldl Nat.lcm 1 := by unfold Row.order; rw [h]
  rw [ho, foldl_lcm_eq, Nat.lcm_one_left]
  obtain ⟨t, ht, hm⟩ := mem_lcmTable (cs.map List.length) (by
    intro x hx
    obtain ⟨c, hc, rfl⟩ := List.mem_map.1 hx
    exact List.length_pos_iff.2 (h2.cyc c hc).1)
  rw [h2.sum_length] at ht
  have key : ∀ n < 19, ∀ t ∈ (lcmTable n)[0]?, ∀ x ∈ t, x ≤ n * n + 1 := by decide +kernel
  exact key r.length (by omega) t ht _ hm

/-- C04, with no condition, on up to 18 bells: `power(n)` is the `n`-fold product for every `n`. -/
theorem C04_power_18 {r : Row} (hr : IsRow r) (h18 : r.length ≤ 18) (n : Nat) :
    ∃ p, (∀ fuel, n + 1 < fuel → Row.powerC fuel r n = .ok p) ∧ IsRow p ∧ p.length = r.length ∧
      ∀ i, bellAt p i = iter (bellAt r) n i := by
  have hv := (isRow_iff_valid r).1 hr
  obtain ⟨h1, h2, -⟩ := Row.order_spec hv (by omega)
  refine C04_power hr (by omega) h1 n (Or.inr ?_)
  have := Nat.mod_lt n h2
  have := order_le_sq hv h18
  omega

/-- C04, with no condition, on up to 18 bells, negative exponents. -/
theorem C04_power_neg_18 {r : Row} (hr : IsRow r) (h18 : r.length ≤ 18) (n : Nat) (hn : 0 < n) :
    ∃ p, (∀ fuel, n + 1 < fuel → Row.powerC fuel r (-(n : Int)) = .ok p) ∧ IsRow p ∧
      p.length = r.length ∧ ∀ i, bellAt p (iter (bellAt r) n i) = i := by
  have hv := (isRow_iff_valid r).1 hr
  obtain ⟨h1, h2, -⟩ := Row.order_spec hv (by omega)
  refine C04_power_neg hr (by omega) h1 n hn (Or.inr ?_)
  have := Nat.mod_lt n h2
  have := order_le_sq hv h18
  omega

/-- A row on 19 bells of order 420: cycles of lengths 3, 4, 5 and 7. -/
def exampleRow19 : Row := [1, 2, 0, 4, 5, 6, 3, 8, 9, 10, 11, 7, 13, 14, 15, 16, 17, 18, 12]

example : IsRow exampleRow19 := by rw [isRow_iff_valid]; decide
example : Row.orderC exampleRow19 = .ok 420 := by decide +kernel

/-- C04 fails on 19 bells: `power(400)` of this row does not return. -/
theorem C04_false : ∃ r : Row, IsRow r ∧ ∀ fuel, Row.powerC fuel r 400 = .timeout := by
  refine ⟨exampleRow19, ?_, fun fuel => ?_⟩
  · rw [isRow_iff_valid]; decide
  · refine C04_power_diverges (o := 420) ?_ (by decide) (by decide +kernel) 400 (by decide) (by decide) fuel
    rw [isRow_iff_valid]; decide

example : Row.powerC 10 [1, 2, 0] 5 = .ok [2, 0, 1] := by decide
example : Row.powerC 20 [1, 2, 0] 10 = .ok [1, 2, 0] := by decide
example : Row.powerC 10 [1, 2, 0, 4, 3] (-2) = .ok [1, 2, 0, 3, 4] := by decide

end Ringing
