import Verif.Lemmas.MethSearch2

namespace Ringing
open Spec Row MethodUtils
namespace MethSearch

/-- The depths that are reached with the recursion. -/
def Visited (A : Args) (d : Nat) : Prop :=
  d ≤ A.leadLen ∧ (A.floatingSym = false →
    (A.skewsym = true → A.leadLen > 4 → d ≤ A.leadLen / 4 ∨ A.leadLen / 2 - 1 ≤ d) ∧
    (A.doubsym = true → d ≤ A.leadLen / 2 ∨ d = A.leadLen) ∧
    (A.skewsym = true → A.doubsym = false → A.leadLen > 4 → d ≤ 3 * A.leadLen / 4 ∨ d = A.leadLen) ∧
    (A.sym = true → A.skewsym = false → A.doubsym = false → A.leadLen > 2 → d ≤ A.leadLen / 2 ∨ A.leadLen - 1 ≤ d))

theorem ok_append {A : Args} {m cs : List Change} (h : Ok A m) (h2 : Ok A cs) : Ok A (m ++ cs) := by
  intro c hc
  rcases List.mem_append.1 hc with hc | hc
  · exact h c hc
  · exact h2 c hc

theorem ok_fold {A : Args} {m cs : List Change} (h : Ok A m)
    (hcs : ∀ i, i < cs.length → ∃ (j : Nat) (r : Bool) (d : Change), copiedA A (m.length + i) = some (j, r) ∧ m[j]? = some d ∧
      cs[i]? = some (if r then d.reverse else d)) : Ok A (m ++ cs) := by
  apply ok_append h
  intro c hc
  obtain ⟨i, hi, rfl⟩ := List.getElem_of_mem hc
  obtain ⟨j, r, d, -, h2, h3⟩ := hcs i hi
  rw [List.getElem?_eq_getElem hi] at h3
  have h3 := Option.some.inj h3
  have hd := h d (List.mem_of_getElem? h2)
  rw [h3]
  cases r with
  | false => exact hd
  | true => exact ⟨Change.WF.reverse hd.1, hd.2⟩

/-- The result of `general_recurse` after the assertion and the limit. -/
theorem runs_of {A : Args} {T : Tests} {m : List Change} {L : List (List Change)}
    (h : ∀ s fuel, s.startmeth = [] → CountOk A s → A.leadLen - m.length < fuel + 1 →
      ¬ (A.limit ≠ 0 ∧ A.limit ≠ 2 ^ 64 - 1 ∧ s.count = A.limit) →
      general A T (fuel + 1) (mk A m s) = .ok (res A (mk A m s) L)) : Runs A T m L := by
  intro s fuel hs hc hf
  obtain ⟨f, rfl⟩ : ∃ f, fuel = f + 1 := ⟨fuel - 1, by omega⟩
  by_cases hl : A.limit ≠ 0 ∧ A.limit ≠ 2 ^ 64 - 1 ∧ s.count = A.limit
  · rw [general]
    dsimp only
    have e1 : (mk A m s).divStart + (mk A m s).m.length % divLen A = (mk A m s).m.length := by
      show m.length / divLen A * divLen A + m.length % divLen A = m.length
      rw [Nat.mul_comm]; exact Nat.div_add_mod _ _
    rw [if_neg (by rw [e1]; simp), if_pos (show _ ∧ _ ∧ (mk A m s).count = A.limit from hl),
      res_full (s := mk A m s) ⟨hl.1, hl.2.1⟩ hl.2.2]
  · exact h s f hs hc hf hl

theorem general_mk {A : Args} {T : Tests} {m : List Change} {fuel : Nat} {s : St}
    (hl : ¬ (A.limit ≠ 0 ∧ A.limit ≠ 2 ^ 64 - 1 ∧ s.count = A.limit)) (ho : symOffset A = 0) :
    general A T (fuel + 1) (mk A m s) =
      if m.length = A.leadLen then
        .ok (if T.accept m then { mk A m s with out := s.out ++ [m], count := s.count + 1 } else mk A m s)
      else if A.floatingSym then newMidlead A T (general A T fuel) (mk A m s)
      else if A.skewsym ∧ m.length = A.leadLen / 4 ∧ A.leadLen > 4 then do
        let (s1, ok) ← rotLoop A T (2 * (A.leadLen / 4) + (if A.leadLen % 4 = 0 then 0 else 1) - 2) (A.leadLen / 2 - 1) A.leadLen (mk A m s)
        let s2 ← if ok then general A T fuel s1 else .ok s1
        pure (popTo A m.length s2.m.length s2)
      else if A.doubsym ∧ m.length = A.leadLen / 2 then doubleExisting A T (general A T fuel) (mk A m s)
      else if A.sym ∧ m.length = A.leadLen / 2 ∧ A.leadLen > 2 then
        if A.skewsym ∨ A.doubsym then .ub
        else do
          let (s1, ok) := pushAll A T (m.dropLast.reverse) (mk A m s)
          let s2 ← if ok then general A T fuel s1 else .ok s1
          pure (popTo A m.length s2.m.length s2)
      else if A.skewsym ∧ m.length = 3 * A.leadLen / 4 ∧ A.leadLen > 4 then
        if A.doubsym ∨ A.sym then .ub
        else do
          let (s1, ok) ← rotLoop A T (2 * (3 * A.leadLen / 4) + (if A.leadLen % 4 = 0 then 0 else 1) - 2) A.leadLen A.leadLen (mk A m s)
          let s2 ← if ok then general A T fuel s1 else .ok s1
          pure (popTo A m.length s2.m.length s2)
      else newMidlead A T (general A T fuel) (mk A m s) := by
  rw [general]
  dsimp only
  have e1 : (mk A m s).divStart + (mk A m s).m.length % divLen A = (mk A m s).m.length := by
    show m.length / divLen A * divLen A + m.length % divLen A = m.length
    rw [Nat.mul_comm]; exact Nat.div_add_mod _ _
  rw [if_neg (by rw [e1]; simp), if_neg (show ¬ (_ ∧ _ ∧ (mk A m s).count = A.limit) from hl), ho]
  simp only [Nat.add_zero, ne_eq, not_true_eq_false, and_false, if_false, List.drop_zero, Nat.not_lt_zero, false_and,
    gt_iff_lt]
  rfl

theorem leaf_runs {A : Args} {T : Tests} {m : List Change} (ho : symOffset A = 0) (h : m.length = A.leadLen) :
    Runs A T m (if T.accept m then [m] else []) := by
  apply runs_of
  intro s fuel hs hc hf hl
  rw [general_mk hl ho, if_pos h]
  split
  · unfold res cut
    split
    · rename_i hlim
      have h1 := hc hlim
      have h2 : s.count ≠ A.limit := fun h => hl ⟨hlim.1, hlim.2, h⟩
      have : List.take (A.limit - (mk A m s).count) [m] = [m] := by
        apply List.take_of_length_le
        show 1 ≤ A.limit - s.count
        omega
      rw [this]; rfl
    · rfl
  · rw [res_nil]

/-- The recursion finds exactly the leads that begin with the changes rung. -/
def Done (A : Args) (T : Tests) (m : List Change) : Prop := ∃ L, Lists A T m L ∧ Runs A T m L

/-- A change is chosen. -/
theorem done_free {A : Args} {T : Tests} (G : Good A T) {m : List Change} (hok : Ok A m) (hm : m.length < A.leadLen)
    (hc : copiedA A m.length = none) (hd : A.floatingSym = false → A.doubsym = true → m.length < A.leadLen / 2)
    (hg : ∀ s fuel, ¬ (A.limit ≠ 0 ∧ A.limit ≠ 2 ^ 64 - 1 ∧ s.count = A.limit) →
      general A T (fuel + 1) (mk A m s) = newMidlead A T (general A T fuel) (mk A m s))
    (ih : ∀ c ∈ A.allowed.getD m.length [], Done A T (m ++ [c])) : Done A T m := by
  classical
  let Lf : Change → List (List Change) := fun c => if h : c ∈ A.allowed.getD m.length [] then (ih c h).choose else []
  have hLf : ∀ c ∈ A.allowed.getD m.length [], Lists A T (m ++ [c]) (Lf c) ∧ Runs A T (m ++ [c]) (Lf c) := by
    intro c hc
    have : Lf c = (ih c hc).choose := dif_pos hc
    rw [this]
    exact (ih c hc).choose_spec
  refine ⟨_, lists_free hm hc hd (chosen A T m) (fun c _ => chosen_iff) (fun c hc _ => (hLf c hc).1), ?_⟩
  apply runs_of
  intro s fuel hs hcnt hf hl
  rw [hg s fuel hl]
  exact new_mk G hm hok (by omega) hs hcnt (fun c hc _ => (hLf c hc).2)

/-- Determined changes are pushed. -/
theorem done_fold {A : Args} {T : Tests} {m cs : List Change} (hcl : 0 < cs.length) (hn : m.length + cs.length ≤ A.leadLen)
    (hcs : ∀ i, i < cs.length → ∃ j r d, copiedA A (m.length + i) = some (j, r) ∧ m[j]? = some d ∧
      cs[i]? = some (if r then d.reverse else d))
    (hb : ∀ full k, m.length ≤ k → k < m.length + cs.length → Blows A full k)
    (hg : ∀ s fuel, ¬ (A.limit ≠ 0 ∧ A.limit ≠ 2 ^ 64 - 1 ∧ s.count = A.limit) →
      general A T (fuel + 1) (mk A m s) = (do
        let s2 ← if (pushAll A T cs (mk A m s)).2 then general A T fuel (pushAll A T cs (mk A m s)).1
          else .ok (pushAll A T cs (mk A m s)).1
        pure (popTo A m.length s2.m.length s2)))
    (ih : Done A T (m ++ cs)) : Done A T m := by
  obtain ⟨L, h1, h2⟩ := ih
  refine ⟨if rowsOk T m cs then L else [], ?_, ?_⟩
  · have := lists_fold (ok := rowsOk T m cs && true) hn (at_fold (D := true) hcs (fun full _ _ => by simpa using hb full)) (fun _ => h1)
    rwa [Bool.and_true] at this
  · apply runs_of
    intro s fuel hs hcnt hf hl
    rw [hg s fuel hl]
    exact fold_run hs hcnt (by rw [List.length_append]; omega) (fun _ => h2)

end MethSearch
end Ringing
