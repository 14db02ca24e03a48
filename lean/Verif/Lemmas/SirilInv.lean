import Verif.Lemmas.Siril
import Verif.Spec.Siril
/-
The invariant of a proof: what the prover and the current row have to do with the rows rung.
-/
namespace Ringing.Siril
open Prover Spec Spec.Siril

theorem lastOf_snoc (r0 : List Nat) (rows : List (List Nat)) (r : List Nat) : lastOf r0 (rows ++ [r]) = r := by
  simp [lastOf]

theorem linked_snoc {r : List Nat} : ∀ {rows : List (List Nat)} {r0 : List Nat}, Linked r0 rows →
    ((∃ ch, Row.applyC (lastOf r0 rows) ch = .ok r) ∨ ∃ t, Row.mulC (lastOf r0 rows) t = .ok r) →
    Linked r0 (rows ++ [r])
  | [], _, _, h => ⟨h, trivial⟩
  | a :: rows, r0, h, h2 => by
    refine ⟨h.1, linked_snoc h.2 ?_⟩
    have : lastOf r0 (a :: rows) = lastOf a rows := by
      unfold lastOf
      cases hl : rows.getLast? with
      | none => rw [List.getLast?_eq_none_iff] at hl; subst hl; rfl
      | some x => rw [List.getLast?_cons, hl]; rfl
    rwa [← this]

/-- The invariant of a `proof_context` that started at the row `r0`. -/
structure Inv (v : Env) (r0 : Row) (s : St) : Prop where
  rep : Rep ⟨v.extents, s.proved.reverse, [], true⟩ s.p
  cur : s.r = lastOf r0 s.rung
  on : s.proving = true → s.ended = none
  off : s.proving = false → ∃ k, s.ended = some k ∧ k ≤ s.rung.length ∧ s.lastRow = lastOf r0 (s.rung.take k)
  linked : Linked r0 s.rung

theorem inv_reach {v : Env} {r0 : Row} {s s' : St} (h : Reach v s s') : Inv v r0 s → Inv v r0 s' := by
  induction h with
  | refl s => exact id
  | trans _ _ h1 h2 => exact fun h => h2 (h1 h)
  | tick s => exact fun h => ⟨h.rep, h.cur, h.on, h.off, h.linked⟩
  | out s t _ => exact fun h => ⟨h.rep, h.cur, h.on, h.off, h.linked⟩
  | dsyms s d => exact fun h => ⟨h.rep, h.cur, h.on, h.off, h.linked⟩
  | syms s t _ => exact fun h => ⟨h.rep, h.cur, h.on, h.off, h.linked⟩
  | silent s b => exact fun h => ⟨h.rep, h.cur, h.on, h.off, h.linked⟩
  | mus s m => exact fun h => ⟨h.rep, h.cur, h.on, h.off, h.linked⟩
  | clone s s2 _ _ => exact fun h => ⟨h.rep, h.cur, h.on, h.off, h.linked⟩
  | endproof s =>
    intro h
    rcases Bool.eq_false_or_eq_true s.proving with hp | hp
    · have he := h.on hp
      refine ⟨?_, h.cur, fun hh => (by cases hh), ?_, h.linked⟩
      · have : St.proved { s with
            lastRow := if s.proving then s.r else s.lastRow, proving := false,
            ended := if s.ended.isNone then some s.rung.length else s.ended } = s.proved := by
          simp [St.proved, he]
        rw [this]; exact h.rep
      · intro _
        refine ⟨s.rung.length, by simp [he], le_refl _, ?_⟩
        simp only [hp, if_true, List.take_length]
        exact h.cur
    · obtain ⟨k, he, hk, hl⟩ := h.off hp
      refine ⟨?_, h.cur, fun hh => (by cases hh), ?_, h.linked⟩
      · have : St.proved { s with
            lastRow := if s.proving then s.r else s.lastRow, proving := false,
            ended := if s.ended.isNone then some s.rung.length else s.ended } = s.proved := by
          simp [St.proved, he]
        rw [this]; exact h.rep
      · intro _
        refine ⟨k, by simp [he], hk, ?_⟩
        simp only [hp]
        exact hl
  | ring s r' hp hs =>
    intro h
    obtain ⟨k, he, hk, hl⟩ := h.off hp
    have htake : (s.rung ++ [r']).take k = s.rung.take k := by
      rw [List.take_append_of_le_length hk]
    refine ⟨?_, (lastOf_snoc _ _ _).symm, fun hh => ?_, ?_, ?_⟩
    · have : St.proved { s with r := r', rung := s.rung ++ [r'] } = s.proved := by
        simp only [St.proved, he, htake]
      rw [this]; exact h.rep
    · have : s.proving = true := hh
      rw [hp] at this; cases this
    · intro _
      exact ⟨k, he, by simp; omega, by simp only [htake]; exact hl⟩
    · exact linked_snoc h.linked (by rw [← h.cur]; exact hs)
  | prove s r' k b p' hp hs ha =>
    intro h
    have he := h.on hp
    refine ⟨?_, (lastOf_snoc _ _ _).symm, fun _ => he, fun hh => ?_, ?_⟩
    · have h1 : St.proved { s with r := r', rung := s.rung ++ [r'], p := p' } = s.rung ++ [r'] := by
        simp only [St.proved, he]
      have h2 : s.proved = s.rung := by simp only [St.proved, he]
      have h3 := h.rep
      rw [h2] at h3
      obtain ⟨b', p2, e2, hrep, -⟩ := Proof.rep_addRow h3 r' k
      rw [ha] at e2
      injection e2 with e2
      injection e2 with _ e2
      rw [h1]
      subst e2
      exact hrep
    · have : s.proving = false := hh
      rw [hp] at this; cases this
    · exact linked_snoc h.linked (by rw [← h.cur]; exact hs)

theorem inv_start {v : Env} {e : ECtx} {s0 st : St} (h : startC v e s0 = .ok () st) : Inv v st.r st ∧
    st.rung = [] ∧ st.ended = none ∧ st.proving = true ∧ st.e = e ∧ st.parent = none := by
  unfold startC at h
  split at h
  · cases h
  · split at h <;> try cases h
    refine ⟨⟨?_, rfl, fun _ => rfl, fun hh => (by cases hh), trivial⟩, rfl, rfl, rfl, rfl, rfl⟩
    exact rep_make _ _ (Or.inl rfl)

theorem Inv.size {v : Env} {r0 : Row} {s : St} (h : Inv v r0 s) : s.p.size = s.proved.length := by
  rw [h.rep.size]; simp [Bag.all]

theorem Inv.count {v : Env} {r0 : Row} {s : St} (h : Inv v r0 s) (r : Row) : s.p.countRow r = s.proved.count r := by
  rw [h.rep.count]; simp [Bag.all]

theorem Inv.truth {v : Env} {r0 : Row} {s : St} (h : Inv v r0 s) :
    s.p.truth = true ↔ NoRowTooOften v.extents s.proved := by
  rw [h.rep.truth]
  unfold Bag.TrueTouch NoRowTooOften
  by_cases hm : v.extents = -1
  · simp [hm]
  · simp only [hm, if_false, false_or]
    simp [Bag.all]

theorem Inv.final {v : Env} {r0 : Row} {s : St} (h : Inv v r0 s) :
    (if s.proving then s.r else s.lastRow) = lastOf r0 s.proved := by
  rcases Bool.eq_false_or_eq_true s.proving with hp | hp
  · rw [hp, if_pos rfl, h.cur]; simp only [St.proved, h.on hp]
  · obtain ⟨k, he, hk, hl⟩ := h.off hp
    rw [hp, if_neg (by simp), hl]; simp only [St.proved, he]

theorem good_body (v : Env) (n : Nat) (x : Expr) : Good v (proofBody (calls v n) x) :=
  good_bind (good_execSymbol (good_calls v n) _ _) fun _ => good_bind ((good_calls v n).exec _ _) fun _ =>
    good_execSymbol (good_calls v n) _ _

end Ringing.Siril
