import Verif.Lemmas.MethSearch

namespace Ringing
open Spec Row MethodUtils
namespace MethSearch

/-! ### Choosing a change -/

/-- A change is tried: it passes the tests and its row is accepted. -/
def chosen (A : Args) (T : Tests) (m : List Change) (c : Change) : Bool :=
  !offPrefix A m c && (match testsC A T m c with | .ok b => b | _ => false) && T.rowOk (m ++ [c])

theorem chosen_iff {A : Args} {T : Tests} {m : List Change} {c : Change} :
    chosen A T m c = true ↔ (offPrefix A m c = false ∧ testsC A T m c = .ok true) ∧ T.rowOk (m ++ [c]) = true := by
  unfold chosen
  cases h : testsC A T m c with
  | ok b => cases b <;> cases offPrefix A m c <;> cases T.rowOk (m ++ [c]) <;> simp
  | _ => simp

theorem call_mk {A : Args} {T : Tests} {rec : St → Out St} {m : List Change} {c : Change} {s : St} {L : List (List Change)}
    (hr : T.rowOk (m ++ [c]) = true → rec (mk A (m ++ [c]) s) = .ok (res A (mk A (m ++ [c]) s) L)) :
    callRecurse A T rec c (mk A m s) = .ok (res A (mk A m s) (if T.rowOk (m ++ [c]) then L else [])) := by
  unfold callRecurse
  rw [push_mk]
  by_cases h : T.rowOk (m ++ [c]) = true
  · simp only [if_pos h, hr h, Out.ok_bind, Out.pure_eq, ← mk_res, pop_mk, if_true]
  · simp only [if_neg h, Out.ok_bind, Out.pure_eq, pop_bad, res_nil]
    rfl

theorem tryAll_mk {A : Args} {T : Tests} {fuel : Nat} {m : List Change} {Lf : Change → List (List Change)}
    (hf : A.leadLen - (m.length + 1) < fuel) :
    ∀ (cs : List Change) (s : St), s.startmeth = [] → CountOk A s →
    (∀ c ∈ cs, ∃ b, testsC A T m c = .ok b) →
    (∀ c ∈ cs, chosen A T m c = true → Runs A T (m ++ [c]) (Lf c)) →
    tryAll A T (general A T fuel) none cs (mk A m s) = .ok (res A (mk A m s) ((cs.filter (chosen A T m)).flatMap Lf)) := by
  intro cs
  induction cs with
  | nil => intro s _ _ _ _; rw [tryAll]; simp [res_nil]
  | cons c cs ih =>
    intro s hs hc ht hr
    have ih' := fun s hs hc => ih s hs hc (fun c hc => ht c (by simp [hc])) (fun c hc => hr c (by simp [hc]))
    rw [tryAll]
    simp only [beforeStart, Out.ok_bind, Bool.false_eq_true, if_false]
    have em : (mk A m s).m = m := rfl
    rw [em]
    by_cases ho : offPrefix A m c = true
    · rw [if_pos ho, ih' s hs hc, List.filter_cons_of_neg]
      rw [chosen_iff]; simp [ho]
    · rw [if_neg ho]
      obtain ⟨b, hb⟩ := ht c (by simp)
      rw [hb]
      simp only [Out.ok_bind]
      cases b with
      | false =>
        simp only [Bool.false_eq_true, if_false]
        rw [ih' s hs hc, List.filter_cons_of_neg]
        rw [chosen_iff]; simp [hb]
      | true =>
        simp only [if_true]
        by_cases hrow : T.rowOk (m ++ [c]) = true
        · have hch : chosen A T m c = true := chosen_iff.2 ⟨⟨by simpa using ho, hb⟩, hrow⟩
          rw [call_mk (L := Lf c) (fun _ => hr c (by simp) hch s fuel hs hc (by simpa using hf)), if_pos hrow,
            List.filter_cons_of_pos hch, List.flatMap_cons]
          simp only [Out.ok_bind]
          rw [← mk_res, ih' (res A s (Lf c)) hs (res_countOk hc _), mk_res, res_res]
        · rw [call_mk (L := []) (fun h => absurd h hrow), if_neg hrow, res_nil]
          simp only [Out.ok_bind]
          rw [ih' s hs hc, List.filter_cons_of_neg]
          rw [chosen_iff]; simp [hrow]

theorem new_mk {A : Args} {T : Tests} (G : Good A T) {fuel : Nat} {m : List Change} {Lf : Change → List (List Change)} {s : St}
    (hm : m.length < A.leadLen) (hok : Ok A m) (hf : A.leadLen - (m.length + 1) < fuel) (hs : s.startmeth = []) (hc : CountOk A s)
    (hr : ∀ c ∈ A.allowed.getD m.length [], chosen A T m c = true → Runs A T (m ++ [c]) (Lf c)) :
    newMidlead A T (general A T fuel) (mk A m s) =
      .ok (res A (mk A m s) (((A.allowed.getD m.length []).filter (chosen A T m)).flatMap Lf)) := by
  have hl : m.length < A.allowed.length := by rw [G.len]; exact hm
  unfold newMidlead
  have em : (mk A m s).m = m := rfl
  have es : (mk A m s).startmeth = [] := hs
  simp only [em, es]
  rw [if_pos (Or.inr G.pos), List.getElem?_eq_getElem hl]
  have hg : A.allowed.getD m.length [] = A.allowed[m.length] := by simp [List.getD, hl]
  rw [hg] at hr ⊢
  have hne := G.nonempty _ (List.getElem_mem hl)
  have hwf := G.wf _ (List.getElem_mem hl)
  revert hr hne hwf
  generalize A.allowed[m.length] = cs
  intro hr hne hwf
  cases cs with
  | nil => exact absurd rfl hne
  | cons c cs => exact tryAll_mk hf _ s hs hc (fun c hc => G.total m c hok (hwf c hc).1 (hwf c hc).2) hr

/-! ### Changes that are determined -/

/-- All the rows are accepted while the changes are pushed. -/
def rowsOk (T : Tests) (m cs : List Change) : Bool := (List.range cs.length).all fun k => T.rowOk (m ++ cs.take (k + 1))

theorem rowsOk_cons (T : Tests) (m : List Change) (c : Change) (cs : List Change) :
    rowsOk T m (c :: cs) = (T.rowOk (m ++ [c]) && rowsOk T (m ++ [c]) cs) := by
  unfold rowsOk
  rw [List.length_cons, List.range_succ_eq_map, List.all_cons, List.all_map]
  congr 1
  apply List.all_congr rfl
  intro k
  simp

theorem pushAll_mk (A : Args) (T : Tests) (s : St) : ∀ (cs m : List Change),
    (rowsOk T m cs = true ∧ pushAll A T cs (mk A m s) = (mk A (m ++ cs) s, true)) ∨
    (rowsOk T m cs = false ∧ ∃ pre c, pushAll A T cs (mk A m s) = (bad A (m ++ pre) c s, false)) := by
  intro cs
  induction cs with
  | nil => intro m; left; exact ⟨by simp [rowsOk], by simp [pushAll]⟩
  | cons c cs ih =>
    intro m
    rw [rowsOk_cons, pushAll]
    simp only [push_mk]
    by_cases h : T.rowOk (m ++ [c]) = true
    · simp only [h, if_true, Bool.true_and]
      rcases ih (m ++ [c]) with ⟨h1, h2⟩ | ⟨h1, pre, d, h2⟩
      · left; exact ⟨h1, by rw [h2, List.append_assoc]; rfl⟩
      · right; exact ⟨h1, c :: pre, d, by rw [h2, List.append_assoc]; rfl⟩
    · right
      simp only [h, if_false, Bool.false_and, Bool.false_eq_true]
      exact ⟨trivial, [], c, by simp⟩

/-- After determined changes: the recursion, and all of them are taken off again. -/
theorem fold_run {A : Args} {T : Tests} {fuel : Nat} {m cs : List Change} {s : St} {L : List (List Change)}
    (hs : s.startmeth = []) (hc : CountOk A s) (hf : A.leadLen - (m ++ cs).length < fuel)
    (hr : rowsOk T m cs = true → Runs A T (m ++ cs) L) :
    (do
      let s2 ← if (pushAll A T cs (mk A m s)).2 then general A T fuel (pushAll A T cs (mk A m s)).1
        else .ok (pushAll A T cs (mk A m s)).1
      pure (popTo A m.length s2.m.length s2)) = .ok (res A (mk A m s) (if rowsOk T m cs then L else [])) := by
  rcases pushAll_mk A T s cs m with ⟨h1, h2⟩ | ⟨h1, pre, d, h2⟩
  · rw [h2, h1]
    simp only [if_true]
    rw [hr h1 s fuel hs hc hf]
    simp only [Out.ok_bind, Out.pure_eq, ← mk_res]
    rw [popTo_mk]
    show cs.length ≤ (m ++ cs).length
    simp
  · rw [h2, h1]
    simp only [Bool.false_eq_true, if_false, Out.ok_bind, Out.pure_eq]
    rw [popTo_bad, res_nil]
    show pre.length < (m ++ pre ++ [d]).length
    simp; omega

theorem rotLoop_eq {A : Args} {T : Tests} {c stop : Nat} {m0 : List Change} (s : St)
    (h1 : c < 2 * m0.length) (h2 : stop ≤ c + 1) :
    ∀ (fuel : Nat) (m : List Change), m0 <+: m → stop - m.length ≤ fuel →
      rotLoop A T c stop fuel (mk A m s) =
        .ok (pushAll A T ((List.range' m.length (stop - m.length)).map fun k => (m0.getD (c - k) ⟨0, []⟩).reverse) (mk A m s)) := by
  intro fuel
  induction fuel with
  | zero =>
    intro m hm hf
    rw [rotLoop, if_neg (by show ¬ m.length < stop; omega), show stop - m.length = 0 by omega]
    rfl
  | succ f ih =>
    intro m hm hf
    rw [rotLoop]
    by_cases h : m.length < stop
    · have hl := hm.length_le
      rw [if_pos (show (mk A m s).m.length < stop from h), if_neg (by show ¬ c < m.length; omega)]
      have hg : vget m (c - m.length) = .ok (m0.getD (c - m.length) ⟨0, []⟩) := by
        obtain ⟨r, rfl⟩ := hm
        have hi : c - (m0 ++ r).length < m0.length := by omega
        rw [vget_ok (by rw [List.length_append] at *; omega)]
        simp only [List.getElem_append_left hi, List.getD, List.getElem?_eq_getElem hi, Option.getD_some]
      have hg' : vget (mk A m s).m (c - (mk A m s).m.length) = .ok (m0.getD (c - m.length) ⟨0, []⟩) := hg
      rw [hg']
      simp only [Out.ok_bind]
      rw [show stop - m.length = (stop - (m.length + 1)) + 1 by omega, List.range'_succ, List.map_cons, pushAll]
      simp only [push_mk]
      by_cases hr : T.rowOk (m ++ [(m0.getD (c - m.length) ⟨0, []⟩).reverse]) = true
      · simp only [hr, if_true]
        rw [ih _ (hm.trans (List.prefix_append _ _)) (by simp; omega)]
        simp
      · simp only [hr, if_false, Bool.false_eq_true, Out.pure_eq]
    · rw [if_neg (show ¬ (mk A m s).m.length < stop from h), show stop - m.length = 0 by omega]
      rfl

theorem doubleLoop_eq {A : Args} {T : Tests} {m0 : List Change} (s : St) (h1 : A.leadLen ≤ 2 * m0.length) :
    ∀ (fuel : Nat) (m : List Change), m0 <+: m → A.leadLen - 1 - m.length ≤ fuel →
      doubleLoop A T m0.length fuel (mk A m s) =
        .ok (pushAll A T ((List.range' m.length (A.leadLen - 1 - m.length)).map
          fun k => (m0.getD (k - m0.length) ⟨0, []⟩).reverse) (mk A m s)) := by
  intro fuel
  induction fuel with
  | zero =>
    intro m hm hf
    rw [doubleLoop, if_neg (by show ¬ m.length + 1 < A.leadLen; omega), show A.leadLen - 1 - m.length = 0 by omega]
    rfl
  | succ f ih =>
    intro m hm hf
    rw [doubleLoop]
    by_cases h : m.length + 1 < A.leadLen
    · have hl := hm.length_le
      rw [if_pos (show (mk A m s).m.length + 1 < A.leadLen from h)]
      have hg : vget m (m.length - m0.length) = .ok (m0.getD (m.length - m0.length) ⟨0, []⟩) := by
        obtain ⟨r, rfl⟩ := hm
        have hi : (m0 ++ r).length - m0.length < m0.length := by omega
        rw [vget_ok (by rw [List.length_append] at *; omega)]
        simp only [List.getElem_append_left hi, List.getD, List.getElem?_eq_getElem hi, Option.getD_some]
      have hg' : vget (mk A m s).m ((mk A m s).m.length - m0.length) = .ok (m0.getD (m.length - m0.length) ⟨0, []⟩) := hg
      rw [hg']
      simp only [Out.ok_bind]
      rw [show A.leadLen - 1 - m.length = (A.leadLen - 1 - (m.length + 1)) + 1 by omega, List.range'_succ, List.map_cons, pushAll]
      simp only [push_mk]
      by_cases hr : T.rowOk (m ++ [(m0.getD (m.length - m0.length) ⟨0, []⟩).reverse]) = true
      · simp only [hr, if_true]
        rw [ih _ (hm.trans (List.prefix_append _ _)) (by simp; omega)]
        simp
      · simp only [hr, if_false, Bool.false_eq_true, Out.pure_eq]
    · rw [if_neg (show ¬ (mk A m s).m.length + 1 < A.leadLen from h), show A.leadLen - 1 - m.length = 0 by omega]
      rfl

/-- The part of `At` about the blows in double methods. -/
def Blows (A : Args) (full : List Change) (k : Nat) : Prop :=
  A.floatingSym = false → A.doubsym = true → A.maxBlows ≠ 0 →
    (k = A.leadLen / 2 → ∀ b, full[A.leadLen / 2 - 1]? = some b → doubleBlows A (full.take (A.leadLen / 2)) b = false) ∧
    (k + 1 = A.leadLen → ∀ c, full[k]? = some c → doubleEndBlows A (full.take k) c = false)

theorem at_fold {A : Args} {T : Tests} {m cs : List Change} {D : Bool}
    (hcs : ∀ i, i < cs.length → ∃ j r d, copiedA A (m.length + i) = some (j, r) ∧ m[j]? = some d ∧
      cs[i]? = some (if r then d.reverse else d))
    (hD : ∀ full, (m ++ cs) <+: full → full.length = A.leadLen →
      ((∀ k, m.length ≤ k → k < m.length + cs.length → Blows A full k) ↔ D = true)) :
    ∀ full, m <+: full → full.length = A.leadLen →
      ((∀ k, m.length ≤ k → k < m.length + cs.length → At A T full k) ↔
        (m ++ cs) <+: full ∧ (rowsOk T m cs && D) = true) := by
  intro full h1 h2
  have hold : ∀ {j : Nat} {d : Change}, m[j]? = some d → full[j]? = some d := by
    intro j d h
    obtain ⟨r, rfl⟩ := h1
    have : j < m.length := by
      by_contra hc
      rw [List.getElem?_eq_none (by omega)] at h; cases h
    rw [List.getElem?_append_left this, h]
  constructor
  · intro h
    have hp : (m ++ cs) <+: full := by
      obtain ⟨r, rfl⟩ := h1
      rw [List.prefix_append_right_inj]
      rw [List.prefix_iff_getElem?]
      intro i hi
      obtain ⟨j, ro, d, c1, c2, c3⟩ := hcs i hi
      have h3 := (h (m.length + i) (by omega) (by omega)).2.2
      rw [c1] at h3
      obtain ⟨e, e1, e2⟩ := h3
      rw [hold c2] at e1
      cases e1
      rw [List.getElem?_append_right (by omega), show m.length + i - m.length = i by omega] at e2
      rw [e2, ← c3, List.getElem?_eq_getElem hi]
    refine ⟨hp, ?_⟩
    rw [Bool.and_eq_true]
    constructor
    · unfold rowsOk
      rw [List.all_eq_true]
      intro i hi
      rw [List.mem_range] at hi
      have h3 := (h (m.length + i) (by omega) (by omega)).1
      obtain ⟨r, rfl⟩ := hp
      rw [Nat.add_assoc, List.append_assoc, List.take_length_add_append, List.take_append_of_le_length (by omega)] at h3
      exact h3
    · exact (hD full hp h2).1 fun k k1 k2 => (h k k1 k2).2.1
  · rintro ⟨hp, h3⟩ k k1 k2
    rw [Bool.and_eq_true] at h3
    obtain ⟨i, rfl⟩ : ∃ i, k = m.length + i := ⟨k - m.length, by omega⟩
    have hi : i < cs.length := by omega
    refine ⟨?_, (hD full hp h2).2 h3.2 _ k1 k2, ?_⟩
    · have := h3.1
      unfold rowsOk at this
      rw [List.all_eq_true] at this
      have := this i (List.mem_range.2 hi)
      obtain ⟨r, rfl⟩ := hp
      rw [Nat.add_assoc, List.append_assoc, List.take_length_add_append, List.take_append_of_le_length (by omega)]
      exact this
    · obtain ⟨j, ro, d, c1, c2, c3⟩ := hcs i hi
      rw [c1]
      refine ⟨d, hold c2, ?_⟩
      obtain ⟨r, rfl⟩ := hp
      rw [List.append_assoc, List.getElem?_append_right (by omega), show m.length + i - m.length = i by omega,
        List.getElem?_append_left hi, c3]

end MethSearch
end Ringing
