import Verif.Model.NamedRows
import Verif.Lemmas.Change3

namespace Ringing
open Spec
namespace Row
open Change

/-- A loop of assignments to distinct elements. -/
theorem fill_spec {α : Type} {lo hi : Nat} (hle : lo ≤ hi) {r : List α} (g : Nat → Nat) (v : Nat → α)
    (hg : ∀ t, lo ≤ t → t < hi → g t < r.length)
    (hinj : ∀ s t, lo ≤ s → s < t → t < hi → g s ≠ g t) :
    ∃ r', forUp lo hi r (fun r t => vset r (g t) (v t)) = .ok r' ∧ r'.length = r.length ∧
      (∀ t, lo ≤ t → t < hi → r'[g t]? = some (v t)) ∧
      ∀ j, (∀ t, lo ≤ t → t < hi → g t ≠ j) → r'[j]? = r[j]? := by
  obtain ⟨r', h1, h2⟩ := forUp_inv (lo := lo) (hi := hi) (s := r)
    (body := fun r t => vset r (g t) (v t))
    (fun k r' => r'.length = r.length ∧ (∀ t, lo ≤ t → t < k → r'[g t]? = some (v t)) ∧
      ∀ j, (∀ t, lo ≤ t → t < k → g t ≠ j) → r'[j]? = r[j]?) hle
    ⟨rfl, fun t h1 h2 => by omega, fun j _ => rfl⟩
    (by
      rintro k s h1 h2 ⟨h3, h4, h5⟩
      refine ⟨_, vset_ok _ (by rw [h3]; exact hg k h1 h2), by simp [h3], ?_, ?_⟩
      · intro t ht1 ht2
        by_cases e : t = k
        · subst e; rw [List.getElem?_set_self (by rw [h3]; exact hg t h1 h2)]
        · rw [List.getElem?_set_ne (hinj t k ht1 (by omega) h2).symm]
          exact h4 t ht1 (by omega)
      · intro j hj
        rw [List.getElem?_set_ne (hj k h1 (by omega))]
        exact h5 j (fun t ht1 ht2 => hj t ht1 (by omega)))
  exact ⟨r', h1, h2⟩

theorem eq_map_range {r : Row} {n : Nat} {T : Nat → Nat} (hl : r.length = n)
    (h : ∀ i, i < n → r[i]? = some (T i)) : r = (List.range n).map T := by
  apply List.ext_getElem?
  intro i
  by_cases hi : i < n
  · rw [h i hi]; simp [hi]
  · rw [List.getElem?_eq_none (by omega), List.getElem?_eq_none (by simp; omega)]

theorem getElem?_roundsC {n i : Nat} (hi : i < n) (hn : n ≤ 256) : (roundsC n)[i]? = some i := by
  rw [roundsC_eq hn]; simp [rounds, hi]

theorem length_roundsC (n : Nat) : (roundsC n).length = n := by simp [roundsC]

theorem queensC_eq {n : Nat} (hn : n ≤ 256) : queensC n =
    .ok ((List.range n).map fun i => if i < (n + 1) / 2 then 2 * i else 2 * (i - (n + 1) / 2) + 1) := by
  unfold queensC
  simp only
  by_cases h2 : n ≤ 2
  · rw [if_pos h2]
    have : n = 0 ∨ n = 1 ∨ n = 2 := by omega
    rcases this with rfl | rfl | rfl <;> decide
  · rw [if_neg h2]
    have hh : (if n % 2 = 1 then (n + 1) / 2 else n / 2) = (n + 1) / 2 := by split <;> omega
    rw [hh]
    obtain ⟨r1, e1, l1, f1, g1⟩ := fill_spec (lo := 0) (hi := (n + 1) / 2 + 1) (by omega)
      (r := roundsC n) (fun i => i) (fun i => toBell (i * 2))
      (fun t _ ht => by rw [length_roundsC]; omega) (fun s t _ h _ => by omega)
    rw [e1, Out.ok_bind]
    obtain ⟨r2, e2, l2, f2, g2⟩ := fill_spec (lo := 0) (hi := n / 2) (by omega)
      (r := r1) (fun i => i + (n + 1) / 2) (fun i => toBell (i * 2 + 1))
      (fun t _ ht => by rw [l1, length_roundsC]; omega) (fun s t _ h _ => by omega)
    rw [e2]
    congr 1
    apply eq_map_range (by rw [l2, l1, length_roundsC])
    intro i hi
    by_cases h : i < (n + 1) / 2
    · rw [if_pos h, g2 i (fun t _ _ => by omega), f1 i (by omega) (by omega), toBell_of_lt (by omega)]
      congr 1; omega
    · rw [if_neg h]
      have := f2 (i - (n + 1) / 2) (by omega) (by omega)
      rw [toBell_of_lt (by omega), show i - (n + 1) / 2 + (n + 1) / 2 = i by omega] at this
      rw [this]; congr 1; omega

theorem kingsC_eq {n : Nat} (hn : n ≤ 256) : kingsC n =
    .ok ((List.range n).map fun i =>
      if i < (n + 1) / 2 then 2 * ((n + 1) / 2 - 1 - i) else 2 * (i - (n + 1) / 2) + 1) := by
  unfold kingsC
  simp only
  by_cases h2 : n ≤ 2
  · rw [if_pos h2]
    have : n = 0 ∨ n = 1 ∨ n = 2 := by omega
    rcases this with rfl | rfl | rfl <;> decide
  · rw [if_neg h2]
    have hh : (if n % 2 = 1 then (n + 1) / 2 else n / 2) = (n + 1) / 2 := by split <;> omega
    rw [hh]
    obtain ⟨r1, e1, l1, f1, g1⟩ := fill_spec (lo := 0) (hi := (n + 1) / 2 + 1) (by omega)
      (r := roundsC n) (fun i => i)
      (fun i => toBell ((((n + 1) / 2 * 2 : Nat) : Int) - ((i * 2 : Nat) : Int) - 2 + 256).toNat)
      (fun t _ ht => by rw [length_roundsC]; omega) (fun s t _ h _ => by omega)
    rw [e1, Out.ok_bind]
    obtain ⟨r2, e2, l2, f2, g2⟩ := fill_spec (lo := 0) (hi := n / 2) (by omega)
      (r := r1) (fun i => i + (n + 1) / 2) (fun i => toBell (i * 2 + 1))
      (fun t _ ht => by rw [l1, length_roundsC]; omega) (fun s t _ h _ => by omega)
    rw [e2]
    congr 1
    apply eq_map_range (by rw [l2, l1, length_roundsC])
    intro i hi
    by_cases h : i < (n + 1) / 2
    · rw [if_pos h, g2 i (fun t _ _ => by omega), f1 i (by omega) (by omega)]
      congr 1; unfold toBell; omega
    · rw [if_neg h]
      have := f2 (i - (n + 1) / 2) (by omega) (by omega)
      rw [toBell_of_lt (by omega), show i - (n + 1) / 2 + (n + 1) / 2 = i by omega] at this
      rw [this]; congr 1; omega

theorem tittumsC_eq {n : Nat} (hn : n ≤ 256) : tittumsC n =
    .ok ((List.range n).map fun i => if i % 2 = 0 then i / 2 else (n + 1) / 2 + i / 2) := by
  unfold tittumsC
  simp only
  obtain ⟨r1, e1, l1, f1, g1⟩ := fill_spec (lo := 0) (hi := (n + 1) / 2) (by omega)
    (r := roundsC n) (fun i => 2 * i) (fun i => toBell i)
    (fun t _ ht => by rw [length_roundsC]; omega) (fun s t _ h _ => by omega)
  rw [e1, Out.ok_bind]
  obtain ⟨r2, e2, l2, f2, g2⟩ := fill_spec (lo := 0) (hi := n / 2) (by omega)
    (r := r1) (fun i => 2 * i + 1) (fun i => toBell ((n + 1) / 2 + i))
    (fun t _ ht => by rw [l1, length_roundsC]; omega) (fun s t _ h _ => by omega)
  rw [e2]
  congr 1
  apply eq_map_range (by rw [l2, l1, length_roundsC])
  intro i hi
  by_cases h : i % 2 = 0
  · rw [if_pos h, g2 i (fun t _ _ => by omega)]
    have := f1 (i / 2) (by omega) (by omega)
    rw [toBell_of_lt (by omega), show 2 * (i / 2) = i by omega] at this
    rw [this]
  · rw [if_neg h]
    have := f2 (i / 2) (by omega) (by omega)
    rw [toBell_of_lt (by omega), show 2 * (i / 2) + 1 = i by omega] at this
    rw [this]

theorem reverseRoundsC_eq {n : Nat} (hn : n ≤ 256) : reverseRoundsC n =
    .ok ((List.range n).map fun i => n - 1 - i) := by
  unfold reverseRoundsC
  obtain ⟨r1, e1, l1, f1, g1⟩ := fill_spec (lo := 0) (hi := n) (by omega)
    (r := roundsC n) (fun i => i) (fun i => toBell (n - i - 1))
    (fun t _ ht => by rw [length_roundsC]; omega) (fun s t _ h _ => by omega)
  rw [e1]
  congr 1
  apply eq_map_range (by rw [l1, length_roundsC])
  intro i hi
  rw [f1 i (by omega) hi, toBell_of_lt (by omega)]; congr 1; omega

theorem reverseRounds3C_eq {nw nh nt : Nat} (hn : nh + nw ≤ nt) (ht : nt ≤ 256) (h0 : 0 < nt) :
    reverseRounds3C nw nh nt = .ok ((List.range nt).map fun i =>
      if i < nh then i else if i < nh + nw then 2 * nh + nw - i - 1 else i) := by
  unfold reverseRounds3C
  simp only
  rw [if_neg (by omega)]
  obtain ⟨r1, e1, l1, f1, g1⟩ := fill_spec (lo := 0) (hi := nh) (by omega)
    (r := roundsC nt) (fun i => i) (fun i => toBell i)
    (fun t _ ht => by rw [length_roundsC]; omega) (fun s t _ h _ => by omega)
  rw [e1, Out.ok_bind]
  obtain ⟨r2, e2, l2, f2, g2⟩ := fill_spec (lo := nh) (hi := nh + nw) (by omega)
    (r := r1) (fun i => i) (fun i => toBell (2 * nh + nw - i - 1))
    (fun t _ ht => by rw [l1, length_roundsC]; omega) (fun s t _ h _ => by omega)
  rw [e2]
  congr 1
  apply eq_map_range (by rw [l2, l1, length_roundsC])
  intro i hi
  by_cases h1 : i < nh
  · rw [if_pos h1, g2 i (fun t _ _ => by omega), f1 i (by omega) h1, toBell_of_lt (by omega)]
  · rw [if_neg h1]
    by_cases h2 : i < nh + nw
    · rw [if_pos h2, f2 i (by omega) h2, toBell_of_lt (by omega)]
    · rw [if_neg h2, g2 i (fun t _ _ => by omega), g1 i (fun t _ _ => by omega),
        getElem?_roundsC hi ht]

/-! ### Plain bob lead heads -/

theorem swappairLoop_append (w : Nat) : ∀ (ss : List Nat), (∀ s ∈ ss, s + 2 ≤ w) →
    swappairLoop w ss = .ok (true, ss ++ [w]) := by
  intro ss
  induction ss with
  | nil => intro _; rfl
  | cons s ss ih =>
    intro h
    have := h s (by simp)
    unfold swappairLoop
    rw [if_pos (by omega), if_neg (by omega), if_neg (by omega), if_neg (by omega),
      ih (fun t ht => h t (by simp [ht]))]
    rfl

theorem swapLoopC_eq {n : Nat} : ∀ (fuel i : Nat) (ss : List Nat), 0 < fuel → n < i + 2 * fuel →
    (∀ s ∈ ss, s + 2 ≤ i) →
    swapLoopC n fuel i ⟨n, ss⟩ = .ok ⟨n, ss ++ swapsBetween fuel i n⟩ := by
  intro fuel
  induction fuel with
  | zero =>
    intro i ss h _ _; omega
  | succ f ih =>
    intro i ss h0 hf hs
    unfold swapLoopC swapsBetween
    by_cases h : i + 1 < n
    · rw [if_pos h, if_pos h]
      unfold swappairC
      simp only
      rw [if_neg (by omega), swappairLoop_append i ss hs]
      simp only [Out.ok_bind, Out.pure_eq]
      rw [ih (i + 2) (ss ++ [i]) (by omega) (by omega) (by
        intro s hs'
        rcases List.mem_append.1 hs' with h' | h'
        · have := hs s h'; omega
        · simp at h'; omega)]
      simp
    · rw [if_neg h, if_neg h]; simp

/-- Where the `j`-th working bell position of the first plain bob lead head gets its bell from, among
`m` working bells. -/
def huntIndex (m j : Nat) : Nat :=
  if j = 0 then (if 1 < m then 1 else 0)
  else if j % 2 = 0 then j - 2
  else if j + 2 < m then j + 2
  else if j + 1 < m then j + 1
  else j - 1

theorem pblhC_eq {n h : Nat} (hn : n ≤ 255) :
    pblhC n h = .ok ((List.range n).map fun i => if i < h then i else h + huntIndex (n - h) (i - h)) := by
  have w1 : (⟨n, swapsBetween (n + 1) h n⟩ : Change).WF :=
    ⟨hn, (gap_swapsBetween _ _ _).1, fun s hs => ((gap_swapsBetween _ _ _).2 s hs).2⟩
  have w2 : (⟨n, swapsBetween (n + 1) (h + 1) n⟩ : Change).WF :=
    ⟨hn, (gap_swapsBetween _ _ _).1, fun s hs => ((gap_swapsBetween _ _ _).2 s hs).2⟩
  unfold pblhC
  rw [swapLoopC_eq _ _ [] (by omega) (by omega) (by simp)]
  simp only [Out.ok_bind, List.nil_append]
  rw [applyC_eq w1]
  simp only [Out.ok_bind]
  rw [swapLoopC_eq _ _ [] (by omega) (by omega) (by simp)]
  simp only [Out.ok_bind, List.nil_append]
  rw [applyC_eq w2]
  congr 1
  have hl : (apply (apply (roundsC n) ⟨n, swapsBetween (n + 1) h n⟩)
      ⟨n, swapsBetween (n + 1) (h + 1) n⟩).length = n := by simp [length_apply, length_roundsC]
  apply ext_fn
  · rw [hl]; simp
  · intro i hi
    rw [hl] at hi
    rw [fn_map_range hi, fn_apply w2, fn_apply w1, roundsC_eq (by omega), fn_rounds, w1.pos_eq, w2.pos_eq]
    simp only
    have m1 := mem_swapsBetween (fuel := n + 1) (s := h) (te := n) (by omega)
    have m2 := mem_swapsBetween (fuel := n + 1) (s := h + 1) (te := n) (by omega)
    unfold moveTo
    simp only [m1, m2]
    unfold huntIndex
    split_ifs <;> omega

theorem valid_pblh {n h : Nat} (hn : n ≤ 255) :
    Valid ((List.range n).map fun i => if i < h then i else h + huntIndex (n - h) (i - h)) := by
  apply valid_map_range (by omega)
  · intro i hi
    unfold huntIndex
    split_ifs <;> omega
  · intro i j hi hj e
    revert e
    unfold huntIndex
    split_ifs <;> omega

theorem cyclicC_eq {n h : Nat} (hn : n ≤ 256) (hh : h < n) (c : Int) :
    cyclicC n h c = (List.range n).map fun i => if i < h then i else
      h + ((((i - h : Nat) : Int) + c) % ((n - h : Nat) : Int)).toNat := by
  unfold cyclicC
  simp only
  rw [if_pos hh, roundsC_eq hn]
  have hm : (0 : Int) < ((n - h : Nat) : Int) := by omega
  have hk : (if Int.tmod c ((n - h : Nat) : Int) < 0 then Int.tmod c ((n - h : Nat) : Int) + ((n - h : Nat) : Int)
      else Int.tmod c ((n - h : Nat) : Int)) = c % ((n - h : Nat) : Int) := by
    have h1 := Int.tmod_eq_emod (a := c) (b := ((n - h : Nat) : Int))
    have h2 := Int.emod_nonneg c (ne_of_gt hm)
    have h3 := Int.emod_lt_of_pos c hm
    rw [h1]
    split_ifs <;> omega
  rw [hk]
  have h2 := Int.emod_nonneg c (ne_of_gt hm)
  have h3 := Int.emod_lt_of_pos c hm
  obtain ⟨k, hk⟩ : ∃ k : Nat, c % ((n - h : Nat) : Int) = k := ⟨_, (Int.toNat_of_nonneg h2).symm⟩
  rw [hk, Int.toNat_natCast]
  have hkm : k < n - h := by omega
  have hval : ∀ j : Nat, (((j : Nat) : Int) + c) % ((n - h : Nat) : Int) = ((j + k) % (n - h) : Nat) := by
    intro j
    rw [← Int.add_emod_emod, hk]
    push_cast; rfl
  apply eq_map_range
  · simp [rounds]; omega
  · intro i hi
    simp only [hval, Int.toNat_natCast]
    by_cases h1 : i < h
    · rw [if_pos h1, List.getElem?_append_left (by simp [rounds]; omega)]
      simp [rounds, h1, hi]
    · rw [if_neg h1, List.getElem?_append_right (by simp [rounds]; omega)]
      have e : (List.take h (rounds n)).length = h := by simp [rounds]; omega
      rw [e]
      by_cases h4 : i - h + k < n - h
      · rw [List.getElem?_append_left (by simp [rounds]; omega), Nat.mod_eq_of_lt h4]
        simp only [List.getElem?_drop, rounds]
        rw [List.getElem?_range (by omega)]; congr 1; omega
      · rw [List.getElem?_append_right (by simp [rounds]; omega)]
        have : (i - h + k) % (n - h) = i - h + k - (n - h) := by
          rw [Nat.mod_eq_sub_mod (by omega), Nat.mod_eq_of_lt (by omega)]
        rw [this]
        simp only [rounds, List.length_drop, List.length_range, List.getElem?_drop, List.getElem?_take]
        rw [if_pos (by omega), List.getElem?_range (by omega)]; congr 1; omega

/-! ### ispblh -/

theorem mul_npow_comm (l : Row) (k : Nat) : mul (npow l k) l = npow l (k + 1) := by
  have h := npow_add l k 1
  rw [h]
  congr 1
  apply ext_fn
  · simp [length_npow]
  · intro i _; rw [fn_npow]; rfl

theorem ispblhLoop_spec {this l : Row} (hl : Valid l) : ∀ (k i : Nat),
    (∃ j, i ≤ j ∧ j < i + k ∧ this = npow l j ∧ (∀ j', i ≤ j' → j' < j → this ≠ npow l j') ∧
      ispblhLoop this l k i (npow l i) = .ok j) ∨
    ((∀ j, i ≤ j → j < i + k → this ≠ npow l j) ∧ ispblhLoop this l k i (npow l i) = .ok 0) := by
  intro k
  induction k with
  | zero => intro i; exact Or.inr ⟨fun j h1 h2 => by omega, rfl⟩
  | succ k ih =>
    intro i
    unfold ispblhLoop
    by_cases h : this = npow l i
    · rw [if_pos h]
      exact Or.inl ⟨i, le_rfl, by omega, h, fun j' h1 h2 => by omega, rfl⟩
    · rw [if_neg h, mulC_eq (valid_npow hl i) hl]
      simp only [Out.ok_bind]
      rw [mul_npow_comm]
      rcases ih (i + 1) with ⟨j, h1, h2, h3, h4, h5⟩ | ⟨h1, h2⟩
      · refine Or.inl ⟨j, by omega, by omega, h3, ?_, h5⟩
        intro j' a b
        by_cases e : j' = i
        · subst e; exact h
        · exact h4 j' (by omega) b
      · refine Or.inr ⟨?_, h2⟩
        intro j a b
        by_cases e : j = i
        · subst e; exact h
        · exact h1 j (by omega) (by omega)

theorem npow_one (l : Row) : npow l 1 = l := by
  apply ext_fn
  · simp [length_npow]
  · intro i _; rw [fn_npow]; rfl

end Row

/-! ### row_block -/
namespace RowBlock
open Row

theorem applyAll_take_succ (r : Row) (cs : List Change) {i : Nat} (hi : i < cs.length) :
    applyAll r (cs.take (i + 1)) = apply (applyAll r (cs.take i)) cs[i] := by
  unfold applyAll; rw [← List.take_append_getElem hi, List.foldl_append]; rfl

theorem recalculateC_spec {rows : List Row} {ch : List Change} (hc : ∀ c ∈ ch, c.WF) {r : Row}
    {start : Nat} (hlen : rows.length ≤ ch.length + 1)
    (hrows : ∀ i, i ≤ start → i < rows.length → rows[i]? = some (applyAll r (ch.take i))) :
    ∃ rows', recalculateC ⟨rows, ch⟩ start = .ok ⟨rows', ch⟩ ∧ rows'.length = rows.length ∧
      ∀ i, i < rows.length → rows'[i]? = some (applyAll r (ch.take i)) := by
  unfold recalculateC
  simp only
  by_cases hle : start ≤ rows.length - 1
  · obtain ⟨rows', h1, h2, h3⟩ := forUp_inv (lo := start) (hi := rows.length - 1) (s := rows)
      (body := fun rows i => do
        let r ← vget rows i
        let c ← vget ch i
        let s ← Row.applyC r c
        vset rows (i + 1) s)
      (fun k rows' => rows'.length = rows.length ∧
        ∀ i, i ≤ k → i < rows.length → rows'[i]? = some (applyAll r (ch.take i))) hle
      ⟨rfl, hrows⟩
      (by
        rintro k s k1 k2 ⟨h3, h4⟩
        have hk : s[k]? = _ := h4 k le_rfl (by omega)
        have hkl : k < s.length := by omega
        have hk' : s[k] = applyAll r (ch.take k) := by
          rw [List.getElem?_eq_getElem hkl] at hk; exact Option.some.inj hk
        have hkc : k < ch.length := by omega
        refine ⟨s.set (k + 1) (apply (applyAll r (ch.take k)) ch[k]), ?_, by simp [h3], ?_⟩
        · rw [vget_ok hkl, Out.ok_bind, vget_ok hkc, Out.ok_bind, hk',
            applyC_eq (hc _ (List.getElem_mem hkc)), Out.ok_bind, vset_ok _ (by omega)]
        · intro i i1 i2
          by_cases e : i = k + 1
          · subst e
            rw [List.getElem?_set_self (by omega), applyAll_take_succ _ _ hkc]
          · rw [List.getElem?_set_ne (by omega)]
            exact h4 i (by omega) i2)
    rw [h1]
    refine ⟨rows', rfl, h2, ?_⟩
    intro i hi; exact h3 i (by omega) hi
  · refine ⟨rows, ?_, rfl, fun i hi => hrows i (by omega) hi⟩
    have : forUp start (rows.length - 1) rows (fun rows i => do
        let r ← vget rows i
        let c ← vget ch i
        let s ← Row.applyC r c
        vset rows (i + 1) s) = .ok rows := by
      unfold forUp
      rw [show rows.length - 1 - start = 0 by omega]; rfl
    rw [this]; rfl

theorem baseSize_le (c : List Change) (h f : Bool) : baseSize c h f ≤ c.length + 1 := by
  unfold baseSize; cases h <;> cases f <;> simp <;> omega

end RowBlock
end Ringing
