import Verif.Lemmas.RowOrder
import Verif.Lemmas.NamedRows
import Verif.Props.RowCycles

/-! C45 (named rows), C46 (plain bob lead heads), C47 (row_block), C48 (orderings). -/
namespace Ringing
open Spec Row

theorem bellAt_map_range {n : Nat} {T : Nat → Nat} {i : Nat} (hi : i < n) :
    bellAt ((List.range n).map T) i = T i := by rw [bellAt_eq_fn, fn_map_range hi]

theorem isRow_map_range {n : Nat} {T : Nat → Nat} (hn : n ≤ 256) (h1 : ∀ i, i < n → T i < n)
    (h2 : ∀ i j, i < n → j < n → T i = T j → i = j) : IsRow ((List.range n).map T) :=
  (isRow_iff_valid _).2 (valid_map_range hn h1 (fun i j hi hj e => h2 i j hi hj e))

/-- C45: `isrounds` recognises exactly the rows with every bell at home. -/
theorem C45_isrounds (r : Row) : isrounds r = true ↔ ∀ i, bellAt r i = i := by
  rw [isrounds_iff_fn]; simp only [bellAt_eq_fn]

/-- C45: queens: the odd bells (numbered from 1) upwards, then the even bells upwards. -/
theorem C45_queens {n : Nat} (hn : n ≤ 256) : ∃ r, queensC n = .ok r ∧ IsRow r ∧ r.length = n ∧
    (∀ i, i < (n + 1) / 2 → bellAt r i = 2 * i) ∧
    (∀ i, i < n / 2 → bellAt r ((n + 1) / 2 + i) = 2 * i + 1) := by
  refine ⟨_, queensC_eq hn, ?_, by simp, ?_, ?_⟩
  · exact isRow_map_range hn (fun i hi => by split <;> omega) (fun i j hi hj e => by
      revert e; split <;> split <;> omega)
  · intro i hi; rw [bellAt_map_range (by omega), if_pos hi]
  · intro i hi; rw [bellAt_map_range (by omega), if_neg (by omega)]; omega

/-- C45: kings: the odd bells downwards, then the even bells upwards. -/
theorem C45_kings {n : Nat} (hn : n ≤ 256) : ∃ r, kingsC n = .ok r ∧ IsRow r ∧ r.length = n ∧
    (∀ i, i < (n + 1) / 2 → bellAt r ((n + 1) / 2 - 1 - i) = 2 * i) ∧
    (∀ i, i < n / 2 → bellAt r ((n + 1) / 2 + i) = 2 * i + 1) := by
  refine ⟨_, kingsC_eq hn, ?_, by simp, ?_, ?_⟩
  · exact isRow_map_range hn (fun i hi => by split <;> omega) (fun i j hi hj e => by
      revert e; split <;> split <;> omega)
  · intro i hi; rw [bellAt_map_range (by omega), if_pos (by omega)]; omega
  · intro i hi; rw [bellAt_map_range (by omega), if_neg (by omega)]; omega

/-- C45: tittums: the lower half of the bells and the upper half alternately. -/
theorem C45_tittums {n : Nat} (hn : n ≤ 256) : ∃ r, tittumsC n = .ok r ∧ IsRow r ∧ r.length = n ∧
    (∀ i, 2 * i < n → bellAt r (2 * i) = i) ∧
    (∀ i, 2 * i + 1 < n → bellAt r (2 * i + 1) = (n + 1) / 2 + i) := by
  refine ⟨_, tittumsC_eq hn, ?_, by simp, ?_, ?_⟩
  · exact isRow_map_range hn (fun i hi => by split <;> omega) (fun i j hi hj e => by
      revert e; split <;> split <;> omega)
  · intro i hi; rw [bellAt_map_range hi, if_pos (by omega)]; omega
  · intro i hi; rw [bellAt_map_range hi, if_neg (by omega)]; omega

/-- C45: reverse rounds. -/
theorem C45_reverse_rounds {n : Nat} (hn : n ≤ 256) :
    ∃ r, reverseRoundsC n = .ok r ∧ IsRow r ∧ r.length = n ∧ ∀ i, i < n → bellAt r i + i + 1 = n := by
  refine ⟨_, reverseRoundsC_eq hn, ?_, by simp, ?_⟩
  · exact isRow_map_range hn (fun i hi => by omega) (fun i j hi hj e => by omega)
  · intro i hi; rw [bellAt_map_range hi]; omega

/-- C45: reverse rounds of `nw` working bells between `nh` fixed trebles and fixed tenors. -/
theorem C45_reverse_rounds_part {nw nh nt : Nat} (hn : nh + nw ≤ nt) (ht : nt ≤ 256) (h0 : 0 < nt) :
    ∃ r, reverseRounds3C nw nh nt = .ok r ∧ IsRow r ∧ r.length = nt ∧
      (∀ i, i < nh → bellAt r i = i) ∧ (∀ i, i < nw → bellAt r (nh + i) + i + 1 = nh + nw) ∧
      ∀ i, nh + nw ≤ i → bellAt r i = i := by
  refine ⟨_, reverseRounds3C_eq hn ht h0, ?_, by simp, ?_, ?_, ?_⟩
  · exact isRow_map_range ht (fun i hi => by split_ifs <;> omega) (fun i j hi hj e => by
      revert e; split_ifs <;> omega)
  · intro i hi; rw [bellAt_map_range (by omega), if_pos hi]
  · intro i hi; rw [bellAt_map_range (by omega), if_neg (by omega), if_pos (by omega)]; omega
  · intro i hi
    by_cases h : i < nt
    · rw [bellAt_map_range h, if_neg (by omega), if_neg (by omega)]
    · rw [bellAt_eq_fn, fn_of_ge (by simp; omega)]

/-- C45: `cyclic(n, h, c)` rotates the bells from `h` on by `c` places, for any `c`. -/
theorem C45_cyclic {n h : Nat} (hn : n ≤ 256) (hh : h < n) (c : Int) :
    IsRow (cyclicC n h c) ∧ (cyclicC n h c).length = n ∧ (∀ i, i < h → bellAt (cyclicC n h c) i = i) ∧
    ∀ j : Nat, j < n - h →
      (bellAt (cyclicC n h c) (h + j) : Int) = h + ((j : Int) + c) % ((n - h : Nat) : Int) := by
  rw [cyclicC_eq hn hh]
  have hm : (0 : Int) < ((n - h : Nat) : Int) := by omega
  have hb : ∀ x : Int, 0 ≤ x % ((n - h : Nat) : Int) ∧ x % ((n - h : Nat) : Int) < ((n - h : Nat) : Int) :=
    fun x => ⟨Int.emod_nonneg x (ne_of_gt hm), Int.emod_lt_of_pos x hm⟩
  refine ⟨?_, by simp, ?_, ?_⟩
  · apply isRow_map_range hn
    · intro i hi
      have := hb (((i - h : Nat) : Int) + c)
      split <;> omega
    · intro i j hi hj e
      have h1 := hb (((i - h : Nat) : Int) + c)
      have h2 := hb (((j - h : Nat) : Int) + c)
      revert e
      split <;> split <;> intro e
      · exact e
      · omega
      · omega
      · have e' : (((i - h : Nat) : Int) + c) % ((n - h : Nat) : Int) =
            (((j - h : Nat) : Int) + c) % ((n - h : Nat) : Int) := by omega
        have e2 := Int.emod_emod_of_dvd ((((i - h : Nat) : Int) + c) - (((j - h : Nat) : Int) + c)) (dvd_refl ((n - h : Nat) : Int))
        have e3 : ((n - h : Nat) : Int) ∣ (((i - h : Nat) : Int) + c) - (((j - h : Nat) : Int) + c) :=
          Int.dvd_of_emod_eq_zero (Int.emod_eq_emod_iff_emod_sub_eq_zero.1 e')
        obtain ⟨q, hq⟩ := e3
        have hq' : ((i - h : Nat) : Int) - ((j - h : Nat) : Int) = ((n - h : Nat) : Int) * q := by omega
        have : q = 0 := by
          by_contra hne
          rcases lt_or_gt_of_ne hne with h' | h'
          · have : ((n - h : Nat) : Int) * q ≤ ((n - h : Nat) : Int) * (-1) :=
              Int.mul_le_mul_of_nonneg_left (by omega) (by omega)
            omega
          · have : ((n - h : Nat) : Int) * 1 ≤ ((n - h : Nat) : Int) * q :=
              Int.mul_le_mul_of_nonneg_left (by omega) (by omega)
            omega
        subst this
        omega
  · intro i hi; rw [bellAt_map_range (by omega), if_pos hi]
  · intro j hj
    rw [bellAt_map_range (by omega), if_neg (by omega)]
    have e : h + j - h = j := by omega
    rw [e]
    have := hb ((j : Int) + c)
    omega

/-- C45: the first plain bob lead head: the `h` hunt bells are fixed, and each working bell hunts: it
comes from two places away, turning at the ends. -/
theorem C45_pblh {n h : Nat} (hn : n ≤ 255) : ∃ r, pblhC n h = .ok r ∧ IsRow r ∧ r.length = n ∧
    (∀ i, i < h → bellAt r i = i) ∧
    (∀ i, h ≤ i → i < n → (i - h) % 2 = 0 → 2 ≤ i - h → bellAt r i = i - 2) ∧
    (∀ i, h ≤ i → i < n → (i - h) % 2 = 1 → i + 2 < n → bellAt r i = i + 2) ∧
    (h + 1 < n → bellAt r h = h + 1) ∧
    (h + 1 < n → (n - h) % 2 = 0 → bellAt r (n - 1) = n - 2) ∧
    (h + 1 < n → (n - h) % 2 = 1 → bellAt r (n - 2) = n - 1) := by
  refine ⟨_, pblhC_eq hn, (isRow_iff_valid _).2 (valid_pblh hn), by simp, ?_, ?_, ?_, ?_, ?_, ?_⟩
  · intro i hi
    by_cases h' : i < n
    · rw [bellAt_map_range h', if_pos hi]
    · rw [bellAt_eq_fn, fn_of_ge (by simp; omega)]
  · intro i h1 h2 h3 h4; rw [bellAt_map_range h2]; unfold huntIndex; split_ifs <;> omega
  · intro i h1 h2 h3 h4; rw [bellAt_map_range h2]; unfold huntIndex; split_ifs <;> omega
  · intro h1; rw [bellAt_map_range (by omega)]; unfold huntIndex; split_ifs <;> omega
  · intro h1 h2; rw [bellAt_map_range (by omega)]; unfold huntIndex; split_ifs <;> omega
  · intro h1 h2; rw [bellAt_map_range (by omega)]; unfold huntIndex; split_ifs <;> omega

example : queensC 7 = .ok [0, 2, 4, 6, 1, 3, 5] := by decide
example : kingsC 8 = .ok [6, 4, 2, 0, 1, 3, 5, 7] := by decide
example : tittumsC 8 = .ok [0, 4, 1, 5, 2, 6, 3, 7] := by decide
example : pblhC 8 1 = .ok [0, 2, 4, 1, 6, 3, 7, 5] := by decide
example : cyclicC 6 1 (-2) = [0, 4, 5, 1, 2, 3] := by decide
example : reverseRounds3C 3 1 5 = .ok [0, 3, 2, 1, 4] := by decide

/-- C46: `ispblh(h)` is the least `k` with `1 ≤ k < n - h` such that the row is the `k`-th power of the
first plain bob lead head, and 0 if there is none. -/
theorem C46_ispblh {r l : Row} (hn : r.length ≤ 255) (h : Nat) (hl : pblhC r.length h = .ok l) :
    ∃ k, ispblhC r h = .ok k ∧
      ((1 ≤ k ∧ k + h < r.length ∧ (∀ i, bellAt r i = iter (bellAt l) k i) ∧
          ∀ j, 1 ≤ j → j < k → ∃ i, bellAt r i ≠ iter (bellAt l) j i) ∨
       (k = 0 ∧ ∀ j, 1 ≤ j → j + h < r.length → ∃ i, bellAt r i ≠ iter (bellAt l) j i)) := by
  have hl' := pblhC_eq (n := r.length) (h := h) hn
  rw [hl'] at hl
  have hv : Valid l := by cases hl; exact valid_pblh hn
  have hll : l.length = r.length := by cases hl; simp
  have hne : ∀ j, r ≠ npow l j → ∃ i, bellAt r i ≠ iter (bellAt l) j i := by
    intro j hj
    by_contra hcon
    apply hj
    apply ext_fn
    · rw [length_npow, hll]
    · intro i _
      have : ¬ (bellAt r i ≠ iter (bellAt l) j i) := fun h => hcon ⟨i, h⟩
      rw [fn_npow, ← bellAt_funext l]
      exact (bellAt_eq_fn r i) ▸ not_not.1 this
  unfold ispblhC
  rw [hl', Out.ok_bind]
  have hl'' : (List.map (fun i => if i < h then i else h + huntIndex (r.length - h) (i - h))
      (List.range r.length)) = l := by cases hl; rfl
  rw [hl'']
  have key := ispblhLoop_spec (this := r) hv (r.length - h - 1) 1
  rw [npow_one] at key
  rcases key with ⟨j, h1, h2, h3, h4, h5⟩ | ⟨h1, h2⟩
  · refine ⟨j, h5, Or.inl ⟨h1, by omega, ?_, fun j' a b => hne j' (h4 j' a b)⟩⟩
    intro i
    rw [bellAt_eq_fn, bellAt_funext, ← fn_npow, ← h3]
  · exact ⟨0, h2, Or.inr ⟨rfl, fun j a b => hne j (h1 j a (by omega))⟩⟩

theorem leadingFixedLoop_spec (r : Row) : ∀ (fuel h : Nat), r.length ≤ h + fuel → h ≤ r.length →
    (∀ i, i < h → bellAt r i = i) →
    leadingFixedLoop r fuel h ≤ r.length ∧ (∀ i, i < leadingFixedLoop r fuel h → bellAt r i = i) ∧
    (leadingFixedLoop r fuel h < r.length →
      bellAt r (leadingFixedLoop r fuel h) ≠ leadingFixedLoop r fuel h) := by
  intro fuel
  induction fuel with
  | zero => intro h h1 h2 h3; exact ⟨h2, h3, fun h4 => by simp only [leadingFixedLoop] at h4; omega⟩
  | succ f ih =>
    intro h h1 h2 h3
    unfold leadingFixedLoop
    have hb : h < r.length → bellAt r h = r.getD h 0 := by
      intro hi; unfold bellAt; rw [dif_pos hi]; simp [hi]
    by_cases h4 : h < r.length ∧ r.getD h 0 = h
    · rw [if_pos h4]
      apply ih (h + 1) (by omega) (by omega)
      intro i hi
      by_cases e : i = h
      · subst e; rw [hb h4.1, h4.2]
      · exact h3 i (by omega)
    · rw [if_neg h4]
      refine ⟨h2, h3, fun h5 h6 => h4 ⟨h5, ?_⟩⟩
      rw [← hb h5, h6]

/-- C46: `ispblh()` is 1 for the empty row and 0 if the treble is moved; otherwise it is `ispblh(h)`
where `h` is the number of bells at the front that are home. -/
theorem C46_ispblh0 (r : Row) : (r = [] → ispblh0C r = .ok 1) ∧
    (r ≠ [] → bellAt r 0 ≠ 0 → ispblh0C r = .ok 0) ∧
    (r ≠ [] → bellAt r 0 = 0 → ∃ h, 0 < h ∧ h ≤ r.length ∧ (∀ i, i < h → bellAt r i = i) ∧
      (h < r.length → bellAt r h ≠ h) ∧ ispblh0C r = ispblhC r h) := by
  obtain ⟨h1, h2, h3⟩ := leadingFixedLoop_spec r r.length 0 (by omega) (by omega) (by simp)
  unfold ispblh0C leadingFixed
  refine ⟨?_, ?_, ?_⟩
  · rintro rfl; rfl
  · intro hne h0
    rw [if_neg (by simp [hne])]
    have : leadingFixedLoop r r.length 0 = 0 := by
      by_contra hc; exact h0 (h2 0 (by omega))
    simp [this]
  · intro hne h0
    rw [if_neg (by simp [hne])]
    have hpos : 0 < r.length := List.length_pos_iff.2 hne
    have : 0 < leadingFixedLoop r r.length 0 := by
      by_contra hc
      have e : leadingFixedLoop r r.length 0 = 0 := by omega
      rw [e] at h3
      exact h3 hpos h0
    refine ⟨_, this, h1, h2, h3, ?_⟩
    simp only
    rw [if_neg (by omega)]

example : ispblhC [0, 4, 6, 2, 7, 1, 5, 3] 1 = .ok 2 := by decide
example : ispblh0C [0, 2, 1, 3] = .ok 0 := by decide

/-! ### C47 -/

/-- C47: a block starting from a given row holds the successive rows of the changes. -/
theorem C47_from_row {cs : List Change} (hc : ∀ c ∈ cs, IsChange c.n c.swaps) (r : Row)
    (halfLead noFinal : Bool) : ∃ b, RowBlock.ofRowC cs r halfLead noFinal = .ok b ∧ b.ch = cs ∧
      b.rows.length = (if halfLead then cs.length / 2 else cs.length) + (if noFinal then 0 else 1) ∧
      ∀ i, i < b.rows.length → b.rows[i]? = some ((cs.take i).foldl Row.apply r) := by
  have hbs : RowBlock.baseSize cs halfLead noFinal =
      (if halfLead then cs.length / 2 else cs.length) + (if noFinal then 0 else 1) := by
    unfold RowBlock.baseSize; cases halfLead <;> cases noFinal <;> rfl
  rw [← hbs]
  unfold RowBlock.ofRowC
  simp only [List.length_replicate]
  by_cases h0 : RowBlock.baseSize cs halfLead noFinal = 0
  · rw [if_neg (by simp [h0])]
    exact ⟨_, rfl, rfl, by simp, fun i hi => by simp [h0] at hi⟩
  · rw [if_pos h0, vset_ok _ (by simp; omega), Out.ok_bind]
    obtain ⟨rows', e1, e2, e3⟩ := RowBlock.recalculateC_spec (ch := cs) hc (r := r) (start := 0)
      (rows := (List.replicate (RowBlock.baseSize cs halfLead noFinal) ([] : Row)).set 0 r)
      (by simpa using RowBlock.baseSize_le cs halfLead noFinal)
      (by
        intro i h1 h2
        have : i = 0 := by omega
        subst this
        rw [List.getElem?_set_self (by simp; omega)]; rfl)
    exact ⟨_, e1, rfl, by simp [e2], fun i hi => e3 i (by simpa [e2] using hi)⟩

/-- C47: a block starting from rounds, unless it has no row at all. -/
theorem C47_from_rounds {c : Change} {cs : List Change} (hc : ∀ d ∈ c :: cs, IsChange d.n d.swaps)
    (halfLead noFinal : Bool) (h1 : ¬ (halfLead = true ∧ noFinal = true ∧ cs = [])) :
    RowBlock.ofChangesC (c :: cs) halfLead noFinal =
      RowBlock.ofRowC (c :: cs) (rounds c.n) halfLead noFinal := by
  have hn := (hc c (by simp)).1
  unfold RowBlock.ofChangesC RowBlock.ofRowC
  simp only [List.length_replicate]
  rw [if_pos, roundsC_eq (by omega)]
  unfold RowBlock.baseSize
  cases halfLead <;> cases noFinal <;> simp
  rcases cs with _ | ⟨d, ds⟩
  · simp at h1
  · simp

/-- C47, refutation: for a single change with both flags the constructor writes to an element of an
empty vector. -/
theorem C47_ub (c : Change) : RowBlock.ofChangesC [c] true true = .ub := by
  simp [RowBlock.ofChangesC, RowBlock.baseSize, vset]

/-- C47: `recalculate(start)` restores all rows, provided those up to `start` are right. -/
theorem C47_recalculate {b : RowBlock} (hc : ∀ c ∈ b.ch, IsChange c.n c.swaps) {r : Row} {start : Nat}
    (hlen : b.rows.length ≤ b.ch.length + 1)
    (hrows : ∀ i, i ≤ start → i < b.rows.length → b.rows[i]? = some ((b.ch.take i).foldl Row.apply r)) :
    ∃ b', RowBlock.recalculateC b start = .ok b' ∧ b'.ch = b.ch ∧ b'.rows.length = b.rows.length ∧
      ∀ i, i < b'.rows.length → b'.rows[i]? = some ((b.ch.take i).foldl Row.apply r) := by
  obtain ⟨rows', e1, e2, e3⟩ := RowBlock.recalculateC_spec (ch := b.ch) hc (r := r) hlen hrows
  exact ⟨_, e1, rfl, e2, fun i hi => e3 i (by simpa [e2] using hi)⟩

/-- C47: the rows of a block are obtained one from the other by the (checked) application of the
changes. -/
theorem C47_apply {c : Change} (hc : IsChange c.n c.swaps) (r : Row) :
    Row.applyC r c = .ok (Row.apply r c) := applyC_eq (c := c) hc r

example : RowBlock.ofChangesC [⟨4, [0, 2]⟩, ⟨4, [1]⟩] false false =
    .ok ⟨[[0, 1, 2, 3], [1, 0, 3, 2], [1, 3, 0, 2]], [⟨4, [0, 2]⟩, ⟨4, [1]⟩]⟩ := by decide

/-! ### C48 -/

/-- C48: `<` on rows is a strict total order. -/
theorem C48_row_order (a b c : Row) : Row.lt a a = false ∧
    (Row.lt a b = true → Row.lt b c = true → Row.lt a c = true) ∧
    (Row.lt a b = true ∨ Row.eq a b = true ∨ Row.lt b a = true) ∧
    ¬ (Row.lt a b = true ∧ Row.lt b a = true) ∧ ¬ (Row.lt a b = true ∧ Row.eq a b = true) := by
  refine ⟨lt_irrefl' a, lt_trans', ?_, ?_, ?_⟩
  · rcases lt_total' a b with h | h | h
    · exact Or.inl h
    · exact Or.inr (Or.inl (by simp [Row.eq, h]))
    · exact Or.inr (Or.inr h)
  · rintro ⟨h1, h2⟩; have := lt_trans' h1 h2; rw [lt_irrefl'] at this; cases this
  · rintro ⟨h1, h2⟩
    have : a = b := by simpa [Row.eq] using h2
    subst this; rw [lt_irrefl'] at h1; cases h1

/-- C48: the other comparisons of rows are the expected combinations. -/
theorem C48_row_coherent (a b : Row) : (Row.gt a b = true ↔ Row.lt b a = true) ∧
    (Row.le a b = true ↔ Row.lt a b = true ∨ Row.eq a b = true) ∧
    (Row.ge a b = true ↔ Row.gt a b = true ∨ Row.eq a b = true) ∧
    (Row.ne a b = true ↔ ¬ Row.eq a b = true) ∧ (Row.eq a b = true ↔ a = b) ∧
    (Row.eq a b = true → Row.hash a = Row.hash b) := by
  have key : ∀ a b : Row, (!Row.lt b a) = true ↔ Row.lt a b = true ∨ a = b := by
    intro a b
    rcases lt_total' a b with h | h | h
    · simp only [h, true_or, iff_true, Bool.not_eq_true']
      by_contra hc
      have := lt_trans' h (by simpa using hc); rw [lt_irrefl'] at this; cases this
    · subst h; simp [lt_irrefl']
    · simp only [h, Bool.not_true, Bool.false_eq_true, false_iff, not_or]
      refine ⟨fun h' => ?_, ?_⟩
      · have := lt_trans' h h'; rw [lt_irrefl'] at this; cases this
      · rintro rfl; rw [lt_irrefl'] at h; cases h
  refine ⟨Iff.rfl, ?_, ?_, by simp [Row.ne], by simp [Row.eq], ?_⟩
  · simp only [Row.le, Row.eq, decide_eq_true_eq]; exact key a b
  · have := key b a
    simp only [Row.ge, Row.gt, Row.eq, decide_eq_true_eq, this, eq_comm (a := b)]
  · intro h; have : a = b := by simpa [Row.eq] using h
    rw [this]

/-- C48: `<` on changes is a strict total order consistent with `==`. -/
theorem C48_change_order {a b c : Change} (ha : IsChange a.n a.swaps) (hb : IsChange b.n b.swaps) :
    Change.lt a a = false ∧
    (Change.lt a b = true → Change.lt b c = true → Change.lt a c = true) ∧
    (Change.lt a b = true ∨ Change.eq a b = true ∨ Change.lt b a = true) ∧
    (Change.eq a b = true ↔ a = b) ∧
    (Change.gt a b = true ↔ Change.lt b a = true) ∧
    (Change.le a b = true ↔ Change.lt a b = true ∨ Change.eq a b = true) ∧
    (Change.ge a b = true ↔ Change.gt a b = true ∨ Change.eq a b = true) := by
  have heq : Change.eq a b = true ↔ a = b := by
    unfold Change.eq
    simp only [Bool.and_eq_true, decide_eq_true_eq, Bool.or_eq_true]
    constructor
    · rintro ⟨h1, h2 | h2⟩
      · have s1 := Change.WF.swaps_nil (c := a) ha h2
        have s2 := Change.WF.swaps_nil (c := b) hb (by omega)
        cases a; cases b; simp_all
      · cases a; cases b; simp_all
    · rintro rfl; simp
  have hlt : ∀ a b : Change, Change.lt a b = true ↔ a.n < b.n ∨ (a.n = b.n ∧ Row.lt a.swaps b.swaps = true) := by
    intro a b; simp [Change.lt]
  have hgt : Change.gt a b = true ↔ Change.lt b a = true := by
    rw [hlt]; simp only [Change.gt, Bool.or_eq_true, decide_eq_true_eq, Bool.and_eq_true, gt_iff_lt]
    constructor
    · rintro (h | ⟨h1, h2⟩)
      · exact Or.inl h
      · exact Or.inr ⟨h1.symm, h2⟩
    · rintro (h | ⟨h1, h2⟩)
      · exact Or.inl h
      · exact Or.inr ⟨h1.symm, h2⟩
  have hirr : ∀ a : Change, Change.lt a a = false := by
    intro a; simp [Change.lt, lt_irrefl']
  have htr : ∀ a b c : Change, Change.lt a b = true → Change.lt b c = true → Change.lt a c = true := by
    intro a b c
    rw [hlt, hlt, hlt]
    rintro (h1 | ⟨h1, h1'⟩) (h2 | ⟨h2, h2'⟩)
    · left; omega
    · left; omega
    · left; omega
    · right; exact ⟨by omega, lt_trans' h1' h2'⟩
  have htot : Change.lt a b = true ∨ a = b ∨ Change.lt b a = true := by
    rw [hlt, hlt]
    rcases Nat.lt_trichotomy a.n b.n with h | h | h
    · exact Or.inl (Or.inl h)
    · rcases lt_total' a.swaps b.swaps with h' | h' | h'
      · exact Or.inl (Or.inr ⟨h, h'⟩)
      · right; left; cases a; cases b; simp_all
      · exact Or.inr (Or.inr (Or.inr ⟨h.symm, h'⟩))
    · exact Or.inr (Or.inr (Or.inl h))
  have hasymm : ¬ (Change.lt a b = true ∧ Change.lt b a = true) := by
    rintro ⟨h1, h2⟩; have := htr _ _ _ h1 h2; rw [hirr] at this; cases this
  refine ⟨hirr a, htr a b c, by rw [heq]; exact htot, heq, hgt, ?_, ?_⟩
  · rw [heq]
    simp only [Change.le, Bool.not_eq_true', ← Bool.not_eq_true, hgt]
    constructor
    · intro h; rcases htot with h' | h' | h'
      · exact Or.inl h'
      · exact Or.inr h'
      · exact absurd h' h
    · rintro (h | rfl) h'
      · exact hasymm ⟨h, h'⟩
      · rw [hirr] at h'; cases h'
  · rw [heq, hgt]
    simp only [Change.ge, Bool.not_eq_true', ← Bool.not_eq_true]
    constructor
    · intro h; rcases htot with h' | h' | h'
      · exact absurd h' h
      · exact Or.inr h'
      · exact Or.inl h'
    · rintro (h | rfl) h'
      · exact hasymm ⟨h', h⟩
      · rw [hirr] at h'; cases h'

example : Row.lt [0, 1] [0, 2, 1] = true ∧ Row.lt [0, 1] [0, 1, 2] = true := by decide

end Ringing
