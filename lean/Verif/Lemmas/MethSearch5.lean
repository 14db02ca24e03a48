import Verif.Lemmas.MethSearch4

namespace Ringing
open Spec Row MethodUtils
namespace MethSearch

/-- The changes that complete a rotational symmetry. -/
def rotList (m : List Change) (c stop : Nat) : List Change :=
  (List.range' m.length (stop - m.length)).map fun k => (m.getD (c - k) ⟨0, []⟩).reverse

theorem rot_cs {A : Args} {m : List Change} {c stop : Nat} (h1 : c < 2 * m.length)
    (h : ∀ k, m.length ≤ k → k < stop → copiedA A k = some (c - k, true)) :
    ∀ i, i < (rotList m c stop).length → ∃ j r d, copiedA A (m.length + i) = some (j, r) ∧ m[j]? = some d ∧
      (rotList m c stop)[i]? = some (if r then d.reverse else d) := by
  intro i hi
  have hi' : i < stop - m.length := by simpa [rotList] using hi
  have hj : c - (m.length + i) < m.length := by omega
  refine ⟨_, _, _, h (m.length + i) (by omega) (by omega), List.getElem?_eq_getElem hj, ?_⟩
  rw [rotList, List.getElem?_map, List.getElem?_range' hi']
  simp [List.getD, List.getElem?_eq_getElem hj]

theorem rot_general {A : Args} {T : Tests} {m : List Change} {c stop fuel : Nat} {s : St} (h1 : c < 2 * m.length)
    (h2 : stop ≤ c + 1) (h3 : stop ≤ A.leadLen) :
    (do
      let (s1, ok) ← rotLoop A T c stop A.leadLen (mk A m s)
      let s2 ← if ok then general A T fuel s1 else .ok s1
      pure (popTo A m.length s2.m.length s2)) =
    (do
      let s2 ← if (pushAll A T (rotList m c stop) (mk A m s)).2 then general A T fuel (pushAll A T (rotList m c stop) (mk A m s)).1
        else .ok (pushAll A T (rotList m c stop) (mk A m s)).1
      pure (popTo A m.length s2.m.length s2)) := by
  rw [rotLoop_eq s h1 h2 A.leadLen m (List.prefix_refl m) (by omega)]
  rfl

set_option maxHeartbeats 1600000 in
/-- At every depth that is reached the recursion finds exactly the leads wanted. -/
theorem done_all {A : Args} {T : Tests} (G : Good A T) : ∀ (N : Nat) (m : List Change), A.leadLen - m.length ≤ N →
    Ok A m → Visited A m.length → Done A T m := by
  intro N
  induction N with
  | zero =>
    intro m hN _ hv
    have h : m.length = A.leadLen := by have := hv.1; omega
    exact ⟨_, lists_leaf h, leaf_runs G.offset h⟩
  | succ N ih =>
    intro m hN hok hv
    obtain ⟨hle, hv⟩ := hv
    by_cases h : m.length = A.leadLen
    · exact ⟨_, lists_leaf h, leaf_runs G.offset h⟩
    have hlt : m.length < A.leadLen := by omega
    have hoff := G.offset
    have hchild : ∀ c ∈ A.allowed.getD m.length [], Ok A (m ++ [c]) := by
      intro c hc
      apply ok_append hok
      intro d hd
      obtain rfl := List.mem_singleton.1 hd
      have hl : m.length < A.allowed.length := by rw [G.len]; exact hlt
      have hg : A.allowed.getD m.length [] = A.allowed[m.length] := by simp [List.getD, hl]
      rw [hg] at hc
      exact G.wf _ (List.getElem_mem hl) _ hc
    by_cases hf : A.floatingSym = true
    · apply done_free G hok hlt
      · simp [copiedA, hf]
      · simp [hf]
      · intro s fuel hl
        rw [general_mk hl hoff, if_neg h, if_pos hf]
      · intro c hc
        refine ih _ (by simp; omega) (hchild c hc) ⟨by simp; omega, by simp [hf]⟩
    have hff : A.floatingSym = false := by simpa using hf
    obtain ⟨v1, v2, v3, v4⟩ := hv hff
    have hcop : ∀ k, copiedA A k = copied A.sym A.skewsym A.doubsym A.leadLen k := by
      intro k; simp [copiedA, hff]
    have heven := G.even
    have htwo := G.two
    by_cases c1 : A.skewsym = true ∧ m.length = A.leadLen / 4 ∧ A.leadLen > 4
    · -- the quarter lead
      obtain ⟨c1a, c1b, c1c⟩ := c1
      have hev := heven (Or.inr (Or.inl c1a))
      have ec : 2 * (A.leadLen / 4) + (if A.leadLen % 4 = 0 then 0 else 1) - 2 = A.leadLen / 2 - 2 := by split <;> omega
      have hcl : (rotList m (A.leadLen / 2 - 2) (A.leadLen / 2 - 1)).length = A.leadLen / 2 - 1 - m.length := by simp [rotList]
      have hcs := rot_cs (A := A) (m := m) (c := A.leadLen / 2 - 2) (stop := A.leadLen / 2 - 1) (by omega) (by
        intro k k1 k2
        rw [hcop, copied, if_pos ⟨c1a, c1c, by omega, by omega⟩])
      refine done_fold (cs := rotList m (A.leadLen / 2 - 2) (A.leadLen / 2 - 1)) (by omega) (by omega) hcs ?_ ?_ ?_
      · intro full k k1 k2 _ _ _
        exact ⟨fun h => by omega, fun h => by omega⟩
      · intro s fuel hl
        rw [general_mk hl hoff, if_neg h, if_neg hf, if_pos ⟨c1a, c1b, c1c⟩, ec]
        exact rot_general (by omega) (by omega) (by omega)
      · refine ih _ (by rw [List.length_append]; omega) (ok_fold hok hcs) ?_
        rw [List.length_append, hcl]
        refine ⟨by omega, fun _ => ⟨fun _ _ => by omega, fun _ => by omega, fun _ _ _ => by omega, fun _ _ _ _ => by omega⟩⟩
    by_cases c2 : A.doubsym = true ∧ m.length = A.leadLen / 2
    · -- the half lead of a double method
      obtain ⟨c2a, c2b⟩ := c2
      have hev := heven (Or.inr (Or.inr c2a))
      apply done_double G.pos (by omega) hff c2a
      · intro i hi
        rw [hcop, copied, if_neg (by omega), if_pos c2a, if_pos (by omega)]
        congr 2; omega
      · intro s fuel hl
        rw [general_mk hl hoff, if_neg h, if_neg hf, if_neg c1, if_pos ⟨c2a, c2b⟩]
      · have hsl : (secondHalf m).length = m.length := by simp [secondHalf]
        refine ih _ (by rw [List.length_append]; omega) ?_ ?_
        · apply ok_append hok
          intro c hc
          obtain ⟨d, hd, rfl⟩ := List.mem_map.1 hc
          exact ⟨Change.WF.reverse (hok d hd).1, (hok d hd).2⟩
        · rw [List.length_append, hsl]
          exact ⟨by omega, fun _ => ⟨fun _ _ => by omega, fun _ => by omega, fun _ _ _ => by omega, fun _ _ _ _ => by omega⟩⟩
    by_cases c3 : A.sym = true ∧ m.length = A.leadLen / 2 ∧ A.leadLen > 2
    · -- the half lead of a palindromic method
      obtain ⟨c3a, c3b, c3c⟩ := c3
      have hev := heven (Or.inl c3a)
      have hsk : ¬ (A.skewsym = true ∨ A.doubsym = true) := by
        intro hh
        have := hh.elim (fun h => htwo (Or.inl ⟨c3a, h⟩)) (fun h => htwo (Or.inr (Or.inl ⟨c3a, h⟩)))
        exact c2 ⟨this.2.2, c3b⟩
      push Not at hsk
      have hcl : (m.dropLast.reverse).length = m.length - 1 := by simp
      have hcs : ∀ i, i < (m.dropLast.reverse).length → ∃ j r d, copiedA A (m.length + i) = some (j, r) ∧ m[j]? = some d ∧
          (m.dropLast.reverse)[i]? = some (if r then d.reverse else d) := by
        intro i hi
        rw [hcl] at hi
        have hj : A.leadLen - 2 - (m.length + i) < m.length := by omega
        refine ⟨A.leadLen - 2 - (m.length + i), false, _, ?_, List.getElem?_eq_getElem hj, ?_⟩
        · rw [hcop, copied, if_neg (by simp [hsk.1]), if_neg (by simp [hsk.2]), if_neg (by simp [hsk.1]),
            if_pos ⟨c3a, c3c, by omega, by omega⟩]
        · rw [List.getElem?_reverse (by simpa using hi), List.getElem?_dropLast, List.length_dropLast, if_pos (by omega)]
          simp only [Bool.false_eq_true, if_false]
          rw [← List.getElem?_eq_getElem hj]
          congr 1; omega
      refine done_fold (cs := m.dropLast.reverse) (by omega) (by omega) hcs ?_ ?_ ?_
      · intro full k k1 k2 _ hd _
        exact absurd hd hsk.2
      · intro s fuel hl
        rw [general_mk hl hoff, if_neg h, if_neg hf, if_neg c1, if_neg c2, if_pos ⟨c3a, c3b, c3c⟩,
          if_neg (fun hh => hh.elim hsk.1 hsk.2)]
      · refine ih _ (by rw [List.length_append]; omega) (ok_fold hok hcs) ?_
        rw [List.length_append, hcl]
        refine ⟨by omega, fun _ => ⟨fun hh => absurd hh hsk.1, fun hh => absurd hh hsk.2, fun hh => absurd hh hsk.1, fun _ _ _ _ => by omega⟩⟩
    by_cases c4 : A.skewsym = true ∧ m.length = 3 * A.leadLen / 4 ∧ A.leadLen > 4
    · -- the three-quarter lead
      obtain ⟨c4a, c4b, c4c⟩ := c4
      have hev := heven (Or.inr (Or.inl c4a))
      have hds : ¬ (A.doubsym = true ∨ A.sym = true) := by
        intro hh
        have := hh.elim (fun h => htwo (Or.inr (Or.inr ⟨c4a, h⟩))) (fun h => htwo (Or.inl ⟨h, c4a⟩))
        have := v2 this.2.2
        omega
      push Not at hds
      have ec : 2 * (3 * A.leadLen / 4) + (if A.leadLen % 4 = 0 then 0 else 1) - 2 = 3 * A.leadLen / 2 - 2 := by split <;> omega
      have hcl : (rotList m (3 * A.leadLen / 2 - 2) A.leadLen).length = A.leadLen - m.length := by simp [rotList]
      have hcs := rot_cs (A := A) (m := m) (c := 3 * A.leadLen / 2 - 2) (stop := A.leadLen) (by omega) (by
        intro k k1 k2
        rw [hcop, copied, if_neg (by omega), if_neg (by simp [hds.1]), if_pos c4a, if_pos ⟨c4c, by omega⟩])
      refine done_fold (cs := rotList m (3 * A.leadLen / 2 - 2) A.leadLen) (by omega) (by omega) hcs ?_ ?_ ?_
      · intro full k k1 k2 _ hd _
        exact absurd hd hds.1
      · intro s fuel hl
        rw [general_mk hl hoff, if_neg h, if_neg hf, if_neg c1, if_neg c2, if_neg c3, if_pos ⟨c4a, c4b, c4c⟩,
          if_neg (fun hh => hh.elim hds.1 hds.2), ec]
        exact rot_general (by omega) (by omega) (by omega)
      · refine ih _ (by rw [List.length_append]; omega) (ok_fold hok hcs) ?_
        rw [List.length_append, hcl]
        refine ⟨by omega, fun _ => ⟨fun _ _ => by omega, fun hh => absurd hh hds.1, fun _ _ _ => by omega, fun hh => absurd hh hds.2⟩⟩
    -- a change is chosen
    apply done_free G hok hlt
    · rw [hcop, copied]
      split
      · rename_i hh; have := v1 hh.1 hh.2.1; have := hh.2.2; exact absurd ⟨hh.1, by omega, hh.2.1⟩ c1
      · split
        · rename_i hd
          rw [if_neg]
          have := v2 hd
          intro hh
          exact c2 ⟨hd, by omega⟩
        · rename_i hd
          split
          · rename_i hs
            rw [if_neg]
            rintro ⟨h1, h2⟩
            have := v3 hs (by simpa using hd) h1
            exact c4 ⟨hs, by omega, h1⟩
          · rename_i hs
            rw [if_neg]
            rintro ⟨h1, h2, h3, h4⟩
            have := v4 h1 (by simpa using hs) (by simpa using hd) h2
            exact c3 ⟨h1, by omega, h2⟩
    · intro _ hd
      have := v2 hd
      have : m.length ≠ A.leadLen / 2 := fun hh => c2 ⟨hd, hh⟩
      omega
    · intro s fuel hl
      rw [general_mk hl hoff, if_neg h, if_neg hf, if_neg c1, if_neg c2, if_neg c3, if_neg c4]
    · intro c hc
      refine ih _ (by simp; omega) (hchild c hc) ?_
      rw [List.length_append, List.length_singleton]
      refine ⟨by omega, fun _ => ⟨fun hh h4 => ?_, fun hh => ?_, fun hh hd h4 => ?_, fun hh hs hd h2 => ?_⟩⟩
      · have := v1 hh h4
        have : m.length ≠ A.leadLen / 4 := fun he => c1 ⟨hh, he, h4⟩
        omega
      · have := v2 hh
        have : m.length ≠ A.leadLen / 2 := fun he => c2 ⟨hh, he⟩
        omega
      · have := v3 hh hd h4
        have : m.length ≠ 3 * A.leadLen / 4 := fun he => c4 ⟨hh, he, h4⟩
        omega
      · have := v4 hh hs hd h2
        have : m.length ≠ A.leadLen / 2 := fun he => c3 ⟨hh, he, h2⟩
        omega

end MethSearch
end Ringing
