import Verif.Lemmas.MethSearch3

namespace Ringing
open Spec Row MethodUtils
namespace MethSearch

theorem rowsOk_concat (T : Tests) (m cs : List Change) (c : Change) :
    rowsOk T m (cs ++ [c]) = (rowsOk T m cs && T.rowOk (m ++ (cs ++ [c]))) := by
  unfold rowsOk
  rw [List.length_append, List.length_cons, List.length_nil, Nat.zero_add, List.range_succ, List.all_append, List.all_cons,
    List.all_nil, Bool.and_true]
  congr 1
  · rw [Bool.eq_iff_iff, List.all_eq_true, List.all_eq_true]
    constructor <;> intro h k hk <;> have := h k hk <;> rw [List.mem_range] at hk
    · rwa [List.take_append_of_le_length (by omega)] at this
    · rwa [List.take_append_of_le_length (by omega)]
  · rw [List.take_of_length_le (by simp)]

/-- The second half lead of a double method. -/
def secondHalf (m : List Change) : List Change := m.map Change.reverse

theorem double_list {m : List Change} {n : Nat} (h : n = 2 * m.length) :
    ((List.range' m.length (n - 1 - m.length)).map fun k => (m.getD (k - m.length) ⟨0, []⟩).reverse)
      = (secondHalf m).dropLast := by
  apply List.ext_getElem?
  intro i
  rw [List.getElem?_map, secondHalf]
  by_cases hi : i < m.length - 1
  · have h1 : i < m.length := by omega
    rw [List.getElem?_range' (by omega), List.getElem?_dropLast, if_pos (by simpa using hi), List.getElem?_map, List.getElem?_eq_getElem h1]
    simp [List.getD, h1]
  · rw [List.getElem?_eq_none (by simp; omega), List.getElem?_eq_none (by simp; omega)]
    rfl

/-- The tests for blows in a double method. -/
def doubleOk (A : Args) (m : List Change) (back : Change) : Bool :=
  !(decide (A.maxBlows ≠ 0) && doubleBlows A m back) &&
  !(decide (A.maxBlows ≠ 0) && doubleEndBlows A (m ++ (secondHalf m).dropLast) back.reverse)

theorem double_run {A : Args} {T : Tests} {fuel : Nat} {m : List Change} {s : St} {L : List (List Change)} {back : Change}
    (hb : m.getLast? = some back) (hm : A.leadLen = 2 * m.length)
    (hs : s.startmeth = []) (hc : CountOk A s) (hf : 0 < fuel)
    (hr : rowsOk T m (secondHalf m) = true → Runs A T (m ++ secondHalf m) L) :
    doubleExisting A T (general A T fuel) (mk A m s) =
      .ok (res A (mk A m s) (if rowsOk T m (secondHalf m) && doubleOk A m back then L else [])) := by
  have hne : m ≠ [] := by rintro rfl; simp at hb
  have hlen : 0 < m.length := List.length_pos_iff.2 hne
  have em : (mk A m s).m = m := rfl
  have ehl : A.leadLen / 2 = m.length := by omega
  have hsec : secondHalf m = (secondHalf m).dropLast ++ [back.reverse] := by
    have h1 : secondHalf m ≠ [] := by simpa [secondHalf] using hne
    have h2 : (secondHalf m).getLast? = some back.reverse := by
      rw [secondHalf, List.getLast?_map, hb]; rfl
    rw [List.getLast?_eq_getLast_of_ne_nil h1] at h2
    rw [← Option.some.inj h2, List.dropLast_append_getLast h1]
  unfold doubleExisting
  rw [em, hb]
  dsimp only
  by_cases hd : A.maxBlows ≠ 0 ∧ doubleBlows A m back = true
  · rw [if_pos hd]
    have : doubleOk A m back = false := by unfold doubleOk; simp [hd.1, hd.2]
    rw [this, Bool.and_false]
    simp only [Bool.false_eq_true, if_false, res_nil]
  · rw [if_neg hd, if_neg (by omega), ehl]
    rw [doubleLoop_eq s (by omega) A.leadLen m (List.prefix_refl m) (by omega), double_list hm]
    simp only [Out.ok_bind]
    have hx : ∀ r : List Change, vget (m ++ r) (m.length - 1) = .ok back := by
      intro r
      rw [vget_ok (by rw [List.length_append]; omega), List.getElem_append_left (by omega)]
      rw [List.getLast?_eq_getElem?, List.getElem?_eq_getElem (by omega)] at hb
      exact congrArg _ (Option.some.inj hb)
    have hD1 : doubleOk A m back = !(decide (A.maxBlows ≠ 0) && doubleEndBlows A (m ++ (secondHalf m).dropLast) back.reverse) := by
      unfold doubleOk
      have : (decide (A.maxBlows ≠ 0) && doubleBlows A m back) = false := by
        rw [← Bool.not_eq_true, Bool.and_eq_true, decide_eq_true_iff]; exact hd
      rw [this]; rfl
    rw [hD1]
    rcases pushAll_mk A T s (secondHalf m).dropLast m with ⟨h1, h2⟩ | ⟨h1, pre, d, h2⟩
    · rw [h2]
      have e2 : (mk A (m ++ (secondHalf m).dropLast) s).m = m ++ (secondHalf m).dropLast := rfl
      simp only [e2, hx, Out.ok_bind, Bool.true_and]
      have hrow : rowsOk T m (secondHalf m) = T.rowOk (m ++ secondHalf m) := by
        conv_lhs => rw [hsec]
        rw [rowsOk_concat, h1, Bool.true_and, ← hsec]
      by_cases hE : (decide (A.maxBlows ≠ 0) && doubleEndBlows A (m ++ (secondHalf m).dropLast) back.reverse) = true
      · rw [hE]
        simp only [Bool.not_true, Bool.false_eq_true, if_false, Out.pure_eq, Bool.and_false, res_nil]
        rw [popTo_mk]
        show _ ≤ (m ++ (secondHalf m).dropLast).length
        rw [List.length_append]; omega
      · rw [Bool.not_eq_true] at hE
        rw [hE]
        simp only [Bool.not_false, if_true, Bool.and_true]
        rw [push_mk, List.append_assoc, ← hsec, hrow]
        by_cases hw : T.rowOk (m ++ secondHalf m) = true
        · simp only [hw, if_true]
          rw [hr (by rw [hrow, hw]) s fuel hs hc (by rw [List.length_append, secondHalf, List.length_map]; omega)]
          simp only [Out.ok_bind, Out.pure_eq, ← mk_res]
          rw [popTo_mk]
          show _ ≤ (m ++ secondHalf m).length
          rw [List.length_append]; omega
        · simp only [hw, if_false, Bool.false_eq_true, Out.ok_bind, Out.pure_eq, res_nil]
          rw [popTo_bad]
          show _ < (m ++ (secondHalf m).dropLast ++ [back.reverse]).length
          simp only [List.length_append, List.length_cons, List.length_nil]; omega
    · rw [h2]
      have e2 : (bad A (m ++ pre) d s).m = m ++ (pre ++ [d]) := List.append_assoc _ _ _
      simp only [e2, hx, Out.ok_bind, Bool.false_and, Bool.false_eq_true, if_false, Out.pure_eq]
      have hrow : rowsOk T m (secondHalf m) = false := by
        rw [hsec, rowsOk_concat, h1, Bool.false_and]
      rw [hrow, Bool.false_and]
      simp only [Bool.false_eq_true, if_false, res_nil]
      rw [popTo_bad]
      simp only [List.length_append, List.length_cons, List.length_nil]; omega

/-- The second half lead is pushed. -/
theorem done_double {A : Args} {T : Tests} {m : List Change} (hp : A.leadLen ≠ 0) (hm : A.leadLen = 2 * m.length)
    (hfl : A.floatingSym = false) (hdb : A.doubsym = true)
    (hcp : ∀ i, i < m.length → copiedA A (m.length + i) = some (i, true))
    (hg : ∀ s fuel, ¬ (A.limit ≠ 0 ∧ A.limit ≠ 2 ^ 64 - 1 ∧ s.count = A.limit) →
      general A T (fuel + 1) (mk A m s) = doubleExisting A T (general A T fuel) (mk A m s))
    (ih : Done A T (m ++ secondHalf m)) : Done A T m := by
  obtain ⟨L, h1, h2⟩ := ih
  have hlen : 0 < m.length := by omega
  have hsl : (secondHalf m).length = m.length := by simp [secondHalf]
  obtain ⟨back, hb⟩ : ∃ b, m.getLast? = some b := by
    rw [List.getLast?_eq_getElem?]; exact ⟨_, List.getElem?_eq_getElem (by omega)⟩
  have hbi : m[m.length - 1]? = some back := by rw [← List.getLast?_eq_getElem?]; exact hb
  refine ⟨if rowsOk T m (secondHalf m) && doubleOk A m back then L else [], ?_, ?_⟩
  · refine lists_fold (cs := secondHalf m) (by omega) (at_fold (D := doubleOk A m back) ?_ ?_) (fun _ => h1)
    · intro i hi
      rw [hsl] at hi
      refine ⟨i, true, m[i], hcp i hi, List.getElem?_eq_getElem hi, ?_⟩
      rw [secondHalf, List.getElem?_map, List.getElem?_eq_getElem hi]; rfl
    · intro full hpre hfull
      have e1 : full.take (A.leadLen / 2) = m := by
        rw [show A.leadLen / 2 = m.length by omega]
        exact (List.prefix_iff_eq_take.1 ((List.prefix_append _ _).trans hpre)).symm
      have hfe : full = m ++ secondHalf m := (hpre.eq_of_length (by rw [List.length_append, hsl]; omega)).symm
      have e2 : full[A.leadLen / 2 - 1]? = some back := by
        rw [hfe, List.getElem?_append_left (by omega), show A.leadLen / 2 - 1 = m.length - 1 by omega, hbi]
      have e3 : full[A.leadLen - 1]? = some back.reverse := by
        rw [hfe, List.getElem?_append_right (by omega), show A.leadLen - 1 - m.length = m.length - 1 by omega, secondHalf,
          List.getElem?_map, hbi]; rfl
      have e4 : full.take (A.leadLen - 1) = m ++ (secondHalf m).dropLast := by
        rw [hfe, List.take_append, List.take_of_length_le (by omega), List.dropLast_eq_take, hsl]
        congr 2; omega
      unfold doubleOk
      rw [Bool.and_eq_true, Bool.not_eq_true', Bool.not_eq_true']
      unfold Blows
      constructor
      · intro h
        by_cases hmb : A.maxBlows = 0
        · simp [hmb]
        · have a := (h (A.leadLen / 2) (by omega) (by omega) hfl hdb hmb).1 rfl back e2
          have b := (h (A.leadLen - 1) (by omega) (by omega) hfl hdb hmb).2 (by omega) _ e3
          rw [e1] at a; rw [e4] at b
          rw [a, b]; simp
      · rintro ⟨a, b⟩ k k1 k2 - - hmb
        constructor
        · rintro rfl c hc
          rw [e2] at hc; cases hc
          rw [e1]; simpa [hmb] using a
        · intro hk c hc
          obtain rfl : k = A.leadLen - 1 := by omega
          rw [e3] at hc; cases hc
          rw [e4]; simpa [hmb] using b
  · apply runs_of
    intro s fuel hs hcnt hf hl
    rw [hg s fuel hl]
    exact double_run hb hm hs hcnt (by omega) (fun _ => h2)

end MethSearch
end Ringing
