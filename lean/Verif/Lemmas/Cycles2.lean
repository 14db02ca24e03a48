import Verif.Lemmas.Cycles
import Mathlib.GroupTheory.Perm.List
import Mathlib.GroupTheory.Perm.Sign
import Mathlib.Tactic.Ring
import Mathlib.Data.Nat.ModEq
import Mathlib.Data.Int.ModEq
import Mathlib.Algebra.BigOperators.Group.List.Basic

/-! Consequences of a cycle decomposition. -/
namespace Ringing
open Spec
namespace Row

theorem iter_add (f : Nat → Nat) (j k i : Nat) : iter f (j + k) i = iter f j (iter f k i) := by
  induction j with
  | zero => simp [iter]
  | succ j ih => rw [Nat.succ_add]; simp [iter, ih]

theorem iter_succ' (f : Nat → Nat) (k i : Nat) : iter f (k + 1) i = iter f k (f i) := by
  rw [iter_add]; rfl

theorem IsCycle.iter {f : Nat → Nat} {c : List Nat} (h : IsCycle f c) (k : Nat) {j : Nat}
    (hj : j < c.length) :
    Spec.iter f k c[j] = c[(j + k) % c.length]'(Nat.mod_lt _ (by omega)) := by
  induction k with
  | zero => simp [Spec.iter, Nat.mod_eq_of_lt hj]
  | succ k ih =>
    simp only [Spec.iter]
    rw [ih, h.2]
    congr 1
    rw [Nat.mod_add_mod, Nat.add_assoc]

theorem CycleDecomp.nodup_flatten {r : Row} {cs : List (List Nat)} (h : CycleDecomp r cs) :
    cs.flatten.Nodup := h.perm.nodup_iff.2 List.nodup_range

theorem CycleDecomp.nodup {r : Row} {cs : List (List Nat)} (h : CycleDecomp r cs) {c : List Nat}
    (hc : c ∈ cs) : c.Nodup := (List.nodup_flatten.1 h.nodup_flatten).1 c hc

theorem CycleDecomp.lt {r : Row} {cs : List (List Nat)} (h : CycleDecomp r cs) {c : List Nat}
    (hc : c ∈ cs) {x : Nat} (hx : x ∈ c) : x < r.length :=
  List.mem_range.1 (h.perm.mem_iff.1 (List.mem_flatten.2 ⟨c, hc, hx⟩))

theorem CycleDecomp.exists_mem {r : Row} {cs : List (List Nat)} (h : CycleDecomp r cs) {x : Nat}
    (hx : x < r.length) : ∃ c ∈ cs, x ∈ c :=
  List.mem_flatten.1 (h.perm.mem_iff.2 (List.mem_range.2 hx))

theorem CycleDecomp.sum_length {r : Row} {cs : List (List Nat)} (h : CycleDecomp r cs) :
    (cs.map List.length).sum = r.length := by
  have := h.perm.length_eq
  rwa [List.length_flatten, List.length_range] at this

/-- Going round `k` times brings `x` back iff the length of its cycle divides `k`. -/
theorem IsCycle.iter_eq_self {f : Nat → Nat} {c : List Nat} (h : IsCycle f c) (hnd : c.Nodup)
    {x : Nat} (hx : x ∈ c) (k : Nat) : Spec.iter f k x = x ↔ c.length ∣ k := by
  obtain ⟨j, hj, rfl⟩ := List.mem_iff_getElem.1 hx
  rw [h.iter k hj, hnd.getElem_inj_iff]
  constructor
  · intro e
    have : (j + k) % c.length = (j + 0) % c.length := by rw [e, Nat.add_zero, Nat.mod_eq_of_lt hj]
    have := (Nat.ModEq.add_left_cancel' j this)
    exact (Nat.modEq_zero_iff_dvd).1 this
  · rintro ⟨m, rfl⟩
    rw [Nat.add_mul_mod_self_left, Nat.mod_eq_of_lt hj]

theorem iter_fn_of_ge {r : Row} {x : Nat} (h : r.length ≤ x) (k : Nat) : Spec.iter (fn r) k x = x := by
  induction k with
  | zero => rfl
  | succ k ih => simp only [Spec.iter]; rw [ih, fn_of_ge h]

theorem CycleDecomp.iter_id_iff {r : Row} {cs : List (List Nat)} (h : CycleDecomp r cs) (k : Nat) :
    (∀ x, Spec.iter (fn r) k x = x) ↔ ∀ c ∈ cs, c.length ∣ k := by
  constructor
  · intro hk c hc
    have hcy := h.cyc c hc
    obtain ⟨x, hx⟩ := List.exists_mem_of_ne_nil c hcy.1
    exact (hcy.iter_eq_self (h.nodup hc) hx k).1 (hk x)
  · intro hk x
    by_cases hx : x < r.length
    · obtain ⟨c, hc, hxc⟩ := h.exists_mem hx
      exact ((h.cyc c hc).iter_eq_self (h.nodup hc) hxc k).2 (hk c hc)
    · exact iter_fn_of_ge (by omega) k

/-! ### hcf and lcm -/

theorem hcfLoop_spec : ∀ (fuel a b : Nat), 0 < b → b ≤ fuel → hcfLoop fuel a b = .ok (Nat.gcd a b) := by
  intro fuel
  induction fuel with
  | zero => intro a b h1 h2; omega
  | succ fuel ih =>
    intro a b h1 h2
    unfold hcfLoop
    rw [if_neg (by omega)]
    have hlt : a % b < b := Nat.mod_lt _ h1
    have hg : Nat.gcd a b = Nat.gcd b (a % b) := by
      rw [Nat.gcd_comm a b, Nat.gcd_rec b a, Nat.gcd_comm]
    simp only
    split
    · rename_i h
      rw [ih b (a % b) h (by omega), hg]
    · rename_i h
      have h0 : a % b = 0 := by omega
      rw [hg, h0, Nat.gcd_zero_right]

theorem hcfC_spec {a b : Nat} (ha : 0 < a) (hb : 0 < b) : hcfC a b = .ok (Nat.gcd a b) := by
  unfold hcfC
  by_cases h : a < b
  · simp only [h, if_true]
    rw [hcfLoop_spec _ _ _ ha (by omega), Nat.gcd_comm]
  · simp only [h, if_false]
    rw [hcfLoop_spec _ _ _ hb (by omega)]

theorem lcmC_spec {a b : Nat} (ha : 0 < a) (hb : 0 < b) (hab : a * b < 2 ^ 31) :
    lcmC a b = .ok (Nat.lcm a b) := by
  unfold lcmC
  split
  · rename_i h; rw [h, Nat.lcm_one_left]
  split
  · rename_i h; rw [h, Nat.lcm_one_right]
  rw [if_neg (by omega), hcfC_spec ha hb, Out.ok_bind, if_neg (Nat.gcd_pos_of_pos_left _ ha).ne']
  simp [Nat.lcm]

/-! ### order -/

theorem toChar_ne_comma (b : Nat) : Bell.toChar b ≠ ',' := by
  unfold Bell.toChar
  split
  · rename_i h
    have : ∀ b < 33, Bell.symbols.getD b '*' ≠ ',' := by decide
    exact this b h
  · decide

theorem cyclesString_cons (c : List Nat) {cs : List (List Nat)} (h : cs ≠ []) :
    cyclesString (c :: cs) = c.map Bell.toChar ++ ',' :: cyclesString cs := by
  unfold cyclesString
  rw [List.flatMap_cons]
  have hne : (List.flatMap (fun c => List.map Bell.toChar c ++ [',']) cs) ≠ [] := by
    cases cs with
    | nil => exact absurd rfl h
    | cons d ds => simp
  rw [List.dropLast_append_of_ne_nil hne]
  simp

theorem cyclesString_single (c : List Nat) : cyclesString [c] = c.map Bell.toChar := by
  simp [cyclesString]

theorem length_cyclesString (cs : List (List Nat)) :
    (cyclesString cs).length = (cs.map List.length).sum + cs.length - 1 := by
  unfold cyclesString
  rw [List.length_dropLast, List.length_flatMap]
  congr 1
  induction cs with
  | nil => rfl
  | cons c cs ih =>
    rw [List.map_cons, List.sum_cons, ih]
    simp only [List.map_cons, List.sum_cons, List.length_append, List.length_map,
      List.length_cons, List.length_nil]
    omega

theorem orderLoop_chars (c : List Nat) (t : List Char) (len o : Nat) :
    orderLoop (c.map Bell.toChar ++ t) len o = orderLoop t (len + c.length) o := by
  induction c generalizing len with
  | nil => rfl
  | cons x xs ih =>
    rw [List.map_cons, List.cons_append, orderLoop, if_pos (toChar_ne_comma x), ih]
    simp only [List.length_cons]
    congr 1; omega

theorem cyclesString_ne_nil {c : List Nat} {cs : List (List Nat)} (h : c ≠ []) :
    cyclesString (c :: cs) ≠ [] := by
  by_cases hcs : cs = []
  · subst hcs; rw [cyclesString_single]; simpa using h
  · rw [cyclesString_cons c hcs]; simp

theorem orderLoop_spec : ∀ (cs : List (List Nat)) (o : Nat), cs ≠ [] → 0 < o →
    (∀ c ∈ cs, c ≠ []) → o * (cs.map List.length).prod < 2 ^ 31 →
    orderLoop (cyclesString cs) 0 o = .ok ((cs.map List.length).foldl Nat.lcm o) := by
  intro cs
  induction cs with
  | nil => intro o h; exact absurd rfl h
  | cons c cs ih =>
    intro o _ ho hne hb
    have hc : 0 < c.length := List.length_pos_iff.2 (hne c (by simp))
    have hpos : ∀ cs : List (List Nat), (∀ c ∈ cs, c ≠ []) → 0 < (cs.map List.length).prod := by
      intro cs
      induction cs with
      | nil => simp
      | cons d ds ih' =>
        intro h
        rw [List.map_cons, List.prod_cons]
        exact Nat.mul_pos (List.length_pos_iff.2 (h d (by simp))) (ih' (fun x hx => h x (by simp [hx])))
    have hp := hpos cs (fun x hx => hne x (by simp [hx]))
    rw [List.map_cons, List.prod_cons] at hb
    have hb1 : o * c.length < 2 ^ 31 := by
      calc o * c.length = o * (c.length * 1) := by rw [Nat.mul_one]
        _ ≤ o * (c.length * (cs.map List.length).prod) :=
            Nat.mul_le_mul_left _ (Nat.mul_le_mul_left _ hp)
        _ < _ := hb
    by_cases hcs : cs = []
    · subst hcs
      rw [cyclesString_single]
      have := orderLoop_chars c [] 0 o
      rw [List.append_nil] at this
      rw [this, orderLoop, Nat.zero_add, lcmC_spec ho hc hb1]; rfl
    · rw [cyclesString_cons c hcs, orderLoop_chars, orderLoop, if_neg (by simp), Nat.zero_add,
        lcmC_spec ho hc hb1, Out.ok_bind]
      have hsne : (cyclesString cs).isEmpty = false := by
        cases cs with
        | nil => exact absurd rfl hcs
        | cons d ds =>
          have := cyclesString_ne_nil (c := d) (cs := ds) (hne d (by simp))
          simpa using this
      rw [hsne]
      simp only [Bool.false_eq_true, if_false]
      rw [ih _ hcs (Nat.lcm_pos ho hc) (fun x hx => hne x (by simp [hx]))]
      · rfl
      · calc o.lcm c.length * (cs.map List.length).prod
            ≤ (o * c.length) * (cs.map List.length).prod := Nat.mul_le_mul_right _
              (Nat.le_of_dvd (Nat.mul_pos ho hc) (Nat.lcm_dvd_mul _ _))
          _ < _ := by rw [Nat.mul_assoc]; exact hb

theorem cube_le_three_pow (x : Nat) : x ^ 3 ≤ 3 ^ x := by
  by_cases h : x < 3
  · have : ∀ x < 3, x ^ 3 ≤ 3 ^ x := by decide
    exact this x h
  · obtain ⟨k, rfl⟩ : ∃ k, x = k + 3 := ⟨x - 3, by omega⟩
    clear h
    induction k with
    | zero => decide
    | succ k ih =>
      have h1 : 3 ^ (k + 1 + 3) = 3 * 3 ^ (k + 3) := by ring
      rw [h1]
      have h2 : (k + 1 + 3) ^ 3 ≤ 3 * (k + 3) ^ 3 := by
        have h3 : (k + 1 + 3) ^ 3 = k^3 + 12 * k^2 + 48 * k + 64 := by ring
        have h4 : 3 * (k + 3) ^ 3 = 3 * k^3 + 27 * k^2 + 81 * k + 81 := by ring
        rw [h3, h4]; nlinarith [sq_nonneg k, Nat.zero_le k, Nat.zero_le (k^3)]
      omega

theorem prod_cube_le (l : List Nat) : l.prod ^ 3 ≤ 3 ^ l.sum := by
  induction l with
  | nil => simp
  | cons x xs ih =>
    rw [List.prod_cons, List.sum_cons, mul_pow, pow_add]
    exact Nat.mul_le_mul (cube_le_three_pow x) ih

theorem prod_lt_of_sum_le {l : List Nat} (h : l.sum ≤ 58) : l.prod < 2 ^ 31 := by
  by_contra hc
  have h1 := prod_cube_le l
  have h2 : (2 ^ 31) ^ 3 ≤ l.prod ^ 3 := Nat.pow_le_pow_left (by omega) 3
  have h3 : 3 ^ l.sum ≤ 3 ^ 58 := Nat.pow_le_pow_right (by decide) h
  have h4 : (3 : Nat) ^ 58 < (2 ^ 31) ^ 3 := by norm_num
  omega

theorem dvd_foldl_lcm {l : List Nat} {o k : Nat} :
    l.foldl Nat.lcm o ∣ k ↔ o ∣ k ∧ ∀ x ∈ l, x ∣ k := by
  induction l generalizing o with
  | nil => simp
  | cons x xs ih => simp [ih, Nat.lcm_dvd_iff, and_assoc]

theorem orderC_spec {r : Row} (hr : Valid r) (h58 : r.length ≤ 58) {cs : List (List Nat)}
    (hcs : cyclesListC r = .ok cs) (hd : CycleDecomp r cs) :
    orderC r = .ok ((cs.map List.length).foldl Nat.lcm 1) := by
  unfold orderC
  split
  · rename_i h
    simp at h; subst h
    have : cs = [] := by
      simp [cyclesListC] at hcs; exact hcs
    subst this; rfl
  · rename_i h
    unfold cyclesC
    rw [hcs, Out.ok_bind]
    simp only [Out.pure_eq, Out.ok_bind]
    have hne : cs ≠ [] := by
      rintro rfl
      have := hd.sum_length
      simp at this h
      cases r with
      | nil => exact h rfl
      | cons _ _ => simp at this
    obtain ⟨c, cs', rfl⟩ := List.exists_cons_of_ne_nil hne
    have hce : ∀ x ∈ c :: cs', x ≠ [] := fun x hx => (hd.cyc x hx).1
    have hsne : (cyclesString (c :: cs')).isEmpty = false := by
      have := cyclesString_ne_nil (cs := cs') (hce c (by simp)); simpa using this
    rw [hsne]
    simp only [Bool.false_eq_true, if_false]
    exact orderLoop_spec _ 1 hne (by decide) hce (by
      rw [Nat.one_mul]
      exact prod_lt_of_sum_le (by rw [hd.sum_length]; exact h58))

/-! ### sign -/

section sign
variable {α : Type} [DecidableEq α]

theorem sign_formPerm [Fintype α] {l : List α} (hnd : l.Nodup) (hne : l ≠ []) :
    Equiv.Perm.sign l.formPerm = (-1) ^ (l.length + 1) := by
  induction l with
  | nil => exact absurd rfl hne
  | cons x xs ih =>
    cases xs with
    | nil => simp
    | cons y ys =>
      rw [List.formPerm_cons_cons, map_mul, Equiv.Perm.sign_swap, ih hnd.of_cons (by simp)]
      · simp only [List.length_cons]
        rw [pow_succ (-1 : ℤˣ) (ys.length + 1 + 1), mul_comm]
      · rintro rfl; simp at hnd

theorem prod_formPerm_of_notMem {L : List (List α)} {x : α} (h : ∀ c ∈ L, x ∉ c) :
    (L.map List.formPerm).prod x = x := by
  induction L with
  | nil => rfl
  | cons d L ih =>
    rw [List.map_cons, List.prod_cons, Equiv.Perm.mul_apply, ih (fun c hc => h c (by simp [hc])),
      List.formPerm_apply_of_notMem (h d (by simp))]

theorem prod_formPerm_of_mem {L : List (List α)} (hd : L.flatten.Nodup) {c : List α} (hc : c ∈ L)
    {x : α} (hx : x ∈ c) : (L.map List.formPerm).prod x = c.formPerm x := by
  induction L with
  | nil => simp at hc
  | cons d L ih =>
    rw [List.flatten_cons, List.nodup_append] at hd
    rw [List.map_cons, List.prod_cons, Equiv.Perm.mul_apply]
    rcases List.mem_cons.1 hc with h | h
    · subst h
      rw [prod_formPerm_of_notMem]
      intro c' hc' hx'
      exact hd.2.2 x hx x (List.mem_flatten.2 ⟨c', hc', hx'⟩) rfl
    · rw [ih hd.2.1 h, List.formPerm_apply_of_notMem]
      intro hmem
      exact hd.2.2 _ hmem _ (List.mem_flatten.2 ⟨c, h, List.formPerm_apply_mem_of_mem hx⟩) rfl

theorem sign_prod_formPerm [Fintype α] {L : List (List α)} (hnd : ∀ c ∈ L, c.Nodup) (hne : ∀ c ∈ L, c ≠ []) :
    Equiv.Perm.sign (L.map List.formPerm).prod = (-1) ^ ((L.map List.length).sum + L.length) := by
  induction L with
  | nil => simp
  | cons d L ih =>
    rw [List.map_cons, List.prod_cons, map_mul, ih (fun c hc => hnd c (by simp [hc]))
      (fun c hc => hne c (by simp [hc])), sign_formPerm (hnd d (by simp)) (hne d (by simp)), ← pow_add]
    congr 1
    simp only [List.map_cons, List.sum_cons, List.length_cons]
    omega

end sign

/-- The sign of the permutation of a row with a cycle decomposition `cs`. -/
theorem CycleDecomp.sign {r : Row} {cs : List (List Nat)} (h : CycleDecomp r cs)
    (σ : Equiv.Perm (Fin r.length)) (hσ : ∀ i, (σ i : Nat) = fn r i) :
    Equiv.Perm.sign σ = (-1) ^ (r.length + cs.length) := by
  by_cases hn : r.length = 0
  · have hcs : cs = [] := by
      by_contra hc
      obtain ⟨c, hc⟩ := List.exists_mem_of_ne_nil cs hc
      obtain ⟨x, hx⟩ := List.exists_mem_of_ne_nil c (h.cyc c hc).1
      have := h.lt hc hx; omega
    subst hcs
    have : IsEmpty (Fin r.length) := by rw [hn]; infer_instance
    have : σ = 1 := Equiv.ext (fun x => isEmptyElim x)
    rw [this]; simp [hn]
  · have hn' : 0 < r.length := by omega
    let F : Nat → Fin r.length := fun x => ⟨x % r.length, Nat.mod_lt _ hn'⟩
    have hF : ∀ x y, x < r.length → y < r.length → F x = F y → x = y := by
      intro x y hx hy e
      have := congrArg Fin.val e
      simp only [F] at this
      rwa [Nat.mod_eq_of_lt hx, Nat.mod_eq_of_lt hy] at this
    let L := cs.map (List.map F)
    have hLf : L.flatten = cs.flatten.map F := by simp [L, List.map_flatten]
    have hLnd : L.flatten.Nodup := by
      rw [hLf]
      apply List.Nodup.map_on _ h.nodup_flatten
      intro x hx y hy e
      exact hF x y (List.mem_range.1 (h.perm.mem_iff.1 hx)) (List.mem_range.1 (h.perm.mem_iff.1 hy)) e
    have hσL : σ = (L.map List.formPerm).prod := by
      ext x
      obtain ⟨c, hc, hx⟩ := h.exists_mem x.isLt
      have hxF : x = F x := by ext; simp [F, Nat.mod_eq_of_lt]
      have hcL : c.map F ∈ L := List.mem_map.2 ⟨c, hc, rfl⟩
      rw [prod_formPerm_of_mem hLnd hcL (x := x) (by rw [hxF]; exact List.mem_map.2 ⟨_, hx, rfl⟩), hσ]
      obtain ⟨j, hj, e⟩ := List.mem_iff_getElem.1 hx
      have hndc : (c.map F).Nodup := (List.nodup_flatten.1 hLnd).1 _ hcL
      have e2 : x = (c.map F)[j]'(by simpa using hj) := by
        rw [List.getElem_map, e]; exact hxF
      have e3 := List.formPerm_apply_getElem (c.map F) hndc j (by simpa using hj)
      rw [← e2] at e3
      rw [e3, ← e, (h.cyc c hc).2 j hj]
      simp only [List.getElem_map, List.length_map, F]
      exact (Nat.mod_eq_of_lt (h.lt hc (List.getElem_mem _))).symm
    rw [hσL, sign_prod_formPerm]
    · congr 1
      have e1 : (L.map List.length).sum = r.length := by
        rw [show L.map List.length = cs.map List.length by simp [L, Function.comp_def]]
        exact h.sum_length
      rw [e1]; simp [L]
    · intro c hc; exact (List.nodup_flatten.1 hLnd).1 c hc
    · intro c hc
      obtain ⟨d, hd, rfl⟩ := List.mem_map.1 hc
      simpa using (h.cyc d hd).1

theorem signC_spec {r : Row} (hr : Valid r) (σ : Equiv.Perm (Fin r.length))
    (hσ : ∀ i, (σ i : Nat) = fn r i) : signC r = .ok ((Equiv.Perm.sign σ : ℤˣ) : ℤ) := by
  obtain ⟨cs, h1, h2, -⟩ := cyclesListC_spec hr
  rw [h2.sign σ hσ]
  unfold signC
  split
  · rename_i h
    have : cs = [] := by
      by_contra hc
      obtain ⟨c, hc⟩ := List.exists_mem_of_ne_nil cs hc
      obtain ⟨x, hx⟩ := List.exists_mem_of_ne_nil c (h2.cyc c hc).1
      have := h2.lt hc hx; omega
    subst this; simp [h]
  · rename_i h
    unfold cyclesC
    rw [h1]
    simp only [Out.pure_eq, Out.ok_bind]
    rw [length_cyclesString, h2.sum_length]
    congr 1
    rcases Nat.even_or_odd (r.length + cs.length) with he | ho
    · rw [if_pos, he.neg_one_pow]
      · rfl
      · obtain ⟨k, hk⟩ := he; omega
    · rw [if_neg, ho.neg_one_pow]
      · rfl
      · obtain ⟨k, hk⟩ := ho; omega

end Row
end Ringing
