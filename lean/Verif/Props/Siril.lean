import Verif.Lemmas.SirilInv
/-
C57, C58: the verdict of a `prove` statement of gsiril, for every script; conditions have no effects.
-/
namespace Ringing.Siril
open Prover Spec Spec.Siril

/-- The verdict of a touch of the rows `rows` rung after the row `r0`. -/
noncomputable def verdictOf (extents : Int) (rounds r0 : Row) (minLength : Nat) (rows : List Row) : Verdict :=
  open Classical in
  if ¬ NoRowTooOften extents rows then .false
  else if lastOf r0 rows ≠ rounds then .notround
  else if rows.length < minLength then .tooshort
  else .true

theorem bind_final {c : Calls} {nm : Str} {w w' : Verdict} {s s' : St}
    (h : M.bind (execFinal c nm) (fun _ => M.pure w') s = .ok w s') : w = w' := by
  unfold M.bind at h
  split at h <;> try cases h
  rfl

/-- **C57**: the verdict, whatever the script does.  `st` is the state in which the proof starts and `s1` the one
after the script; `s1.proved` are the rows rung before `endproof`. -/
theorem C57_verdict {v : Env} {mn n : Nat} {x : Expr} {e : ECtx} {s0 st s1 s' : St} {w : Verdict}
    (h0 : startC v e s0 = .ok () st) (h1 : proofBody (calls v n) x st = .ok () s1)
    (h2 : proveC v mn n x e s0 = .ok w s') : w = verdictOf v.extents v.rounds st.r mn s1.proved := by
  have hi : Inv v st.r s1 := by
    have := good_body v n x st
    rw [h1] at this
    exact inv_reach this (inv_start h0).1
  have e2 : proveC v mn n x e s0 = (fun s => match proofBody (calls v n) x s with
    | .ok _ s =>
      match s.state v with
      | .rounds =>
        if mn ≠ 0 ∧ s.p.size < mn then
          M.bind (execFinal (calls v n) "tooshort".toList) (fun _ => M.pure .tooshort) s
        else
          let s := if v.quiet ≠ 0 then { s with silent := true } else s
          M.bind (execFinal (calls v n) "true".toList) (fun _ => M.pure .true) s
      | .notround => M.bind (execFinal (calls v n) "notround".toList) (fun _ => M.pure .notround) s
      | .isfalse => M.bind (execFinal (calls v n) "false".toList) (fun _ => M.pure .false) s
    | .abort s => M.bind (execFinal (calls v n) "abort".toList) (fun _ => M.pure .aborted) s
    | .brk s => .ok .broken s
    | .err s => .err s
    | .ub => .ub
    | .fuel => .fuel : M Verdict) st := by
    show M.bind _ _ s0 = _
    unfold M.bind
    rw [h0]
    rfl
  rw [e2] at h2
  simp only [h1] at h2
  unfold verdictOf
  by_cases ht : NoRowTooOften v.extents s1.proved
  · rw [if_neg (not_not.2 ht)]
    have htt := hi.truth.2 ht
    by_cases hr : lastOf st.r s1.proved = v.rounds
    · have hs : s1.state v = .rounds := by
        unfold St.state
        rw [if_pos htt, hi.final, if_pos hr]
      rw [if_neg (not_not.2 hr)]
      simp only [hs] at h2
      by_cases hl : s1.proved.length < mn
      · rw [if_pos hl]
        have hc : mn ≠ 0 ∧ s1.p.size < mn := by rw [hi.size]; exact ⟨by omega, hl⟩
        rw [if_pos hc] at h2
        exact bind_final h2
      · rw [if_neg hl]
        have hc : ¬ (mn ≠ 0 ∧ s1.p.size < mn) := by rw [hi.size]; exact fun h => hl h.2
        rw [if_neg hc] at h2
        exact bind_final h2
    · have hs : s1.state v = .notround := by
        unfold St.state
        rw [if_pos htt, hi.final, if_neg hr]
      rw [if_pos hr]
      simp only [hs] at h2
      exact bind_final h2
  · have hs : s1.state v = .isfalse := by
      unfold St.state
      rw [if_neg (fun h => ht (hi.truth.1 h))]
    rw [if_pos ht]
    simp only [hs] at h2
    exact bind_final h2

/-- **C57**: a script that ends by `break` or by an abort gets no verdict about its rows. -/
theorem C57_exception {v : Env} {mn n : Nat} {x : Expr} {e : ECtx} {s0 st s' : St} {w : Verdict}
    (h0 : startC v e s0 = .ok () st) (h2 : proveC v mn n x e s0 = .ok w s') :
    ((∃ s1, proofBody (calls v n) x st = .brk s1) ↔ w = .broken) ∧
    ((∃ s1, proofBody (calls v n) x st = .abort s1) ↔ w = .aborted) := by
  cases h1 : proofBody (calls v n) x st with
  | ok a s1 =>
    have := C57_verdict h0 h1 h2
    have hn : w ≠ .broken ∧ w ≠ .aborted := by
      rw [this]; unfold verdictOf; split_ifs <;> simp
    simp [hn.1, hn.2]
  | brk s1 =>
    have e2 : proveC v mn n x e s0 = .ok .broken s1 := by
      show M.bind _ _ s0 = _
      unfold M.bind
      rw [h0]; simp only [h1]
    rw [e2] at h2
    injection h2 with h2 _
    subst h2
    simp
  | abort s1 =>
    have e2 : proveC v mn n x e s0 = M.bind (execFinal (calls v n) "abort".toList) (fun _ => M.pure .aborted) s1 := by
      show M.bind _ _ s0 = _
      unfold M.bind
      rw [h0]; simp only [h1]
    rw [e2] at h2
    have := bind_final h2
    subst this
    simp
  | err s1 =>
    have e2 : proveC v mn n x e s0 = .err s1 := by
      show M.bind _ _ s0 = _
      unfold M.bind
      rw [h0]; simp only [h1]
    rw [e2] at h2; cases h2
  | ub =>
    have e2 : proveC v mn n x e s0 = .ub := by
      show M.bind _ _ s0 = _
      unfold M.bind
      rw [h0]; simp only [h1]
    rw [e2] at h2; cases h2
  | fuel =>
    have e2 : proveC v mn n x e s0 = .fuel := by
      show M.bind _ _ s0 = _
      unfold M.bind
      rw [h0]; simp only [h1]
    rw [e2] at h2; cases h2

/-- **C57**: the rows.  The proof starts at `rounds` on the number of bells, every row comes from the one
before by a change or a transposition, and the rows that count are the first of those rung: all of them unless the
script executed `endproof`. -/
theorem C57_rows {v : Env} {n : Nat} {x : Expr} {e : ECtx} {s0 st s1 : St}
    (h0 : startC v e s0 = .ok () st)
    (h1 : proofBody (calls v n) x st = .ok () s1 ∨ proofBody (calls v n) x st = .brk s1 ∨
      proofBody (calls v n) x st = .abort s1) :
    Row.mulC (Row.roundsC v.bells.toNat) v.rounds = .ok st.r ∧ Linked st.r s1.rung ∧ s1.proved <+: s1.rung ∧
      s1.r = lastOf st.r s1.rung ∧ (s1.ended = none → s1.proved = s1.rung) := by
  have hi : Inv v st.r s1 := by
    have := good_body v n x st
    rcases h1 with h1 | h1 | h1 <;> rw [h1] at this <;> exact inv_reach this (inv_start h0).1
  refine ⟨?_, hi.linked, ?_, hi.cur, ?_⟩
  · unfold startC at h0
    split at h0
    · cases h0
    · split at h0 <;> try cases h0
      assumption
  · unfold St.proved
    split
    · exact List.prefix_refl _
    · exact List.take_prefix _ _
  · intro he; simp only [St.proved, he]

/-- **C57**: after any script `rowno()` is the number of rows that count, `isrounds` says whether the current row is
rounds and has occurred as often as there are extents. -/
theorem C57_queries {v : Env} {n k : Nat} {x : Expr} {e : ECtx} {s0 st s1 : St}
    (h0 : startC v e s0 = .ok () st) (h1 : proofBody (calls v n) x st = .ok () s1) :
    (fnCall v (calls v k) .rowno [] s1 = .ok (.int s1.proved.length) s1) ∧
    (s1.isrounds v = true ↔ s1.r = v.rounds ∧ ((s1.proved.count s1.r : Nat) : Int) = v.extents) ∧
    s1.p.duplicates + s1.proved.dedup.length = s1.proved.length := by
  have hi : Inv v st.r s1 := by
    have := good_body v n x st
    rw [h1] at this
    exact inv_reach this (inv_start h0).1
  refine ⟨?_, ?_, ?_⟩
  · show Res.ok (Expr.int s1.p.size) s1 = _
    rw [hi.size]
  · unfold St.isrounds
    rw [hi.count]; simp
  · have h := hi.rep.dups
    have h2 := over_one (Bag.all ⟨v.extents, s1.proved.reverse, [], true⟩)
    unfold Prover.duplicates
    rw [h]
    have h3 : (Bag.all ⟨v.extents, s1.proved.reverse, [], true⟩).dedup.length = s1.proved.dedup.length := by
      have : (Bag.all ⟨v.extents, s1.proved.reverse, [], true⟩) = s1.proved.reverse := by simp [Bag.all]
      rw [this]
      exact ((List.reverse_perm _).dedup).length_eq
    have h4 : (Bag.all ⟨v.extents, s1.proved.reverse, [], true⟩).length = s1.proved.length := by simp [Bag.all]
    rw [h3, h4] at h2
    exact h2

/-! ## C58 -/

/-- `s'` is `s` except for the count of nodes and for output, and there is no output if `s` does not print. -/
def Unmoved (s s' : St) : Prop :=
  ∃ k t, s' = { s with e := { s.e with nodes := k, out := s.e.out ++ t } } ∧ (s.silent = true ∨ s.live = false → t = [])

theorem Unmoved.refl (s : St) : Unmoved s s := ⟨s.e.nodes, [], by simp, fun _ => rfl⟩

theorem Unmoved.trans {a b c : St} (h1 : Unmoved a b) (h2 : Unmoved b c) : Unmoved a c := by
  obtain ⟨k, t, rfl, ht⟩ := h1
  obtain ⟨k', t', rfl, ht'⟩ := h2
  refine ⟨k', t ++ t', by simp, fun h => ?_⟩
  rw [ht h, ht' h]; rfl

/-- What a context with a parent can do to the `execution_context`. -/
theorem reach_child {v : Env} {s s' : St} (h : Reach v s s') : ∀ b, s.parent = some b → s.live = false →
    s'.parent = some b ∧ s'.live = false ∧ s'.e.syms = s.e.syms ∧ ∃ t, s'.e.out = s.e.out ++ t ∧ (b = false → t = []) := by
  induction h with
  | refl s => exact fun b h1 h2 => ⟨h1, h2, rfl, [], by simp, fun _ => rfl⟩
  | trans _ _ i1 i2 =>
    intro b h1 h2
    obtain ⟨a1, a2, a3, t, a4, a5⟩ := i1 b h1 h2
    obtain ⟨b1, b2, b3, t', b4, b5⟩ := i2 b a1 a2
    exact ⟨b1, b2, b3.trans a3, t ++ t', by rw [b4, a4, List.append_assoc], fun h => by rw [a5 h, b5 h]; rfl⟩
  | tick s => exact fun b h1 h2 => ⟨h1, h2, rfl, [], by simp, fun _ => rfl⟩
  | out s t hq =>
    intro b h1 h2
    refine ⟨h1, h2, rfl, t, rfl, fun hb => ?_⟩
    subst hb
    rcases hq with hq | hq
    · rw [h2] at hq; exact absurd hq.2 (by simp)
    · rw [h1] at hq; simp at hq
  | dsyms s d => exact fun b h1 h2 => ⟨h1, h2, rfl, [], by simp, fun _ => rfl⟩
  | syms s t hp => intro b h1; rw [h1] at hp; cases hp
  | silent s b => exact fun b h1 h2 => ⟨h1, h2, rfl, [], by simp, fun _ => rfl⟩
  | mus s m => exact fun b h1 h2 => ⟨h1, h2, rfl, [], by simp, fun _ => rfl⟩
  | endproof s => exact fun b h1 h2 => ⟨h1, h2, rfl, [], by simp, fun _ => rfl⟩
  | ring s r' _ _ => exact fun b h1 h2 => ⟨h1, h2, rfl, [], by simp, fun _ => rfl⟩
  | prove s r' k b p' _ _ _ => exact fun b h1 h2 => ⟨h1, h2, rfl, [], by simp, fun _ => rfl⟩
  | clone s s2 _ ih =>
    intro b h1 h2
    obtain ⟨_, _, a3, t, a4, a5⟩ := ih (!s.silent && s.live) rfl rfl
    have ht : t = [] := a5 (by rw [h2]; simp)
    subst ht
    exact ⟨h1, h2, a3, [], by simpa [St.clone] using a4, fun _ => rfl⟩

theorem unmoved_clone {v : Env} {s c : St} (h : Reach v s.clone c) : Unmoved s { s with e := c.e } := by
  obtain ⟨_, _, a3, t, a4, a5⟩ := reach_child h (!s.silent && s.live) rfl rfl
  refine ⟨c.e.nodes, t, ?_, fun hh => a5 ?_⟩
  · have : c.e = { s.e with nodes := c.e.nodes, out := s.e.out ++ t } := by
      cases hce : c.e
      rw [hce] at a3 a4
      simp only at a3 a4
      subst a3 a4
      rfl
    rw [this]
  · rcases hh with hh | hh <;> simp [hh]

/-- Every way in which the call ends with a value or a script exception leaves the state unmoved. -/
def Calm {α : Type} (m : M α) : Prop := ∀ s,
  match m s with
  | .ok _ s' => Unmoved s s'
  | .brk s' => Unmoved s s'
  | .abort s' => Unmoved s s'
  | _ => True

theorem calm_pure {α : Type} (a : α) : Calm (Pure.pure a : M α) := fun s => Unmoved.refl s

theorem calm_inClone {v : Env} {α : Type} {m : M α} (h : Good v m) : Calm (inClone m) := by
  intro s
  have := h s.clone
  unfold inClone
  cases hm : m s.clone <;> rw [hm] at this <;> first | exact unmoved_clone this | exact True.intro

theorem calm_bind {α β : Type} {m : M α} {f : α → M β} (h : Calm m) (hf : ∀ a, Calm (f a)) : Calm (m >>= f) := by
  intro s
  have h1 := h s
  show match M.bind m f s with | .ok _ s' => _ | .brk s' => _ | .abort s' => _ | _ => _
  unfold M.bind
  cases hm : m s with
  | ok a s' =>
    rw [hm] at h1
    have h2 := hf a s'
    simp only at h1 h2 ⊢
    cases hf' : f a s' with
    | ok b s'' => rw [hf'] at h2; exact h1.trans h2
    | brk s'' => rw [hf'] at h2; exact h1.trans h2
    | abort s'' => rw [hf'] at h2; exact h1.trans h2
    | err _ => trivial
    | ub => trivial
    | fuel => trivial
  | brk s' => rw [hm] at h1; exact h1
  | abort s' => rw [hm] at h1; exact h1
  | err _ => trivial
  | ub => trivial
  | fuel => trivial

theorem calm_get : Calm M.get := fun s => Unmoved.refl s
theorem calm_lift {α : Type} (x : Out α) : Calm (M.lift x) := by
  cases x <;> first | exact fun s => Unmoved.refl s | exact fun _ => True.intro
theorem calm_lookup (nm : Str) : Calm (lookup nm) := by
  intro s
  unfold lookup
  cases s.dsyms nm with
  | some x => exact Unmoved.refl s
  | none =>
    cases s.e.syms nm with
    | some x => exact Unmoved.refl s
    | none => trivial
theorem calm_tick (v : Env) : Calm (tick v) := by
  intro s
  unfold tick
  simp only
  by_cases h : s.e.nodes + 1 + 1 = v.nodeLimit
  · rw [if_pos h]; trivial
  · rw [if_neg h]; exact ⟨s.e.nodes + 1 + 1, [], by simp, fun _ => rfl⟩

theorem calm_subst {v : Env} {c : Calls} (hc : GoodCalls v c) : ∀ (t : Str) (k : Nat) (a : Subst), Calm (subst v c t k a) := by
  intro t
  induction t with
  | nil => intro k a; cases k <;> exact calm_pure _
  | cons ch cs ih =>
    intro k a
    cases k with
    | succ k => exact ih k a
    | zero =>
      unfold subst
      split
      · refine calm_bind calm_get fun s => calm_bind (calm_lift _) fun x => ?_
        split
        split
        · split
          · exact fun _ => True.intro
          · exact ih _ _
        · exact calm_pure _
      · split
        · split
          · split
            · exact calm_bind (calm_lookup _) fun x => calm_bind (calm_inClone (hc.str x)) fun t => ih _ _
            · exact fun _ => True.intro
          · split
            · exact ih _ _
            · exact calm_bind calm_get fun s => ih _ _
        · split
          · exact calm_bind calm_get fun s => ih _ _
          · split
            · split
              · exact calm_pure _
              · exact ih _ _
            · exact ih _ _

theorem calm_evalStr {v : Env} {c : Calls} (hc : GoodCalls v c) (t : Str) (f : SFlags) : Calm (evalStr v c t f) := by
  unfold evalStr
  split
  · exact calm_bind (calm_subst hc _ _ _) fun a => calm_pure _
  · exact calm_pure _

theorem calm_strNl_lit (v : Env) (n : Nat) (t : Str) (f : SFlags) (hf : f.interpolate = false) :
    Calm ((calls v n).strNl (.str t f)) := by
  cases n with
  | zero => exact fun _ => True.intro
  | succ n =>
    refine calm_bind (calm_tick v) fun _ => ?_
    simp only [strNlN, hf]
    exact calm_pure _

theorem evalStr_flag {v : Env} {c : Calls} {t t' : Str} {f f' : SFlags} {s s' : St}
    (h : evalStr v c t f s = .ok (t', f') s') : f'.interpolate = false := by
  unfold evalStr at h
  by_cases hi : f.interpolate = true
  · rw [if_pos hi] at h
    have h : M.bind (subst v c t 0 ⟨[], false, false⟩) _ s = _ := h
    unfold M.bind at h
    split at h <;> try cases h
    rfl
  · rw [if_neg hi] at h
    cases h
    simpa using hi

/-- **C58**: evaluating a condition `{ test: ... }` changes nothing of the proof and of the symbols, whatever the
test does (ringing changes, `endproof`, assignments, `save`), and it never ends with `break` or an abort.  Only `echo`
in it can print, and only if the proof prints. -/
theorem C58_condition (v : Env) (n : Nat) (test : Expr) (s : St) :
    (∀ b s', condition (calls v n) test s = .ok b s' → Unmoved s s') ∧
    (∀ s', condition (calls v n) test s ≠ .brk s') ∧ ∀ s', condition (calls v n) test s ≠ .abort s' := by
  have h := calm_inClone (good_catchAll (a := Bool.false) ((good_calls v n).bool test)) s
  have hx : ∀ s', condition (calls v n) test s ≠ .brk s' ∧ condition (calls v n) test s ≠ .abort s' := by
    intro s'
    unfold condition inClone M.catchAll
    cases (calls v n).bool test s.clone <;> simp
  refine ⟨fun b s' hb => ?_, fun s' => (hx s').1, fun s' => (hx s').2⟩
  change inClone (M.catchAll Bool.false ((calls v n).bool test)) s = _ at hb
  rw [hb] at h
  exact h

/-- **C58**: neither does evaluating a string, whatever is interpolated into it. -/
theorem C58_string (v : Env) (n : Nat) (t : Str) (f : SFlags) (s s' : St) (a : Str)
    (h : (calls v n).str (.str t f) s = .ok a s') : Unmoved s s' := by
  cases n with
  | zero => cases h
  | succ n =>
    have h : M.bind (tick v) (fun _ => strN v (calls v n) (.str t f)) s = _ := h
    have hk := calm_tick v s
    unfold M.bind at h
    cases ht : tick v s with
    | ok _ s1 =>
      rw [ht] at h hk
      simp only [strN] at h hk
      refine hk.trans ?_
      by_cases hi : f.interpolate = true
      · rw [if_pos hi] at h
        have h : M.bind (evalStr v (calls v n) t f) (fun x => _) s1 = _ := h
        have he := calm_evalStr (good_calls v n) t f s1
        unfold M.bind at h
        cases hev : evalStr v (calls v n) t f s1 with
        | ok y s2 =>
          obtain ⟨t', f'⟩ := y
          rw [hev] at h he
          simp only at h he
          refine he.trans ?_
          have hl := calm_strNl_lit v n t' f' (evalStr_flag hev) s2
          have h : M.bind ((calls v n).strNl (.str t' f')) (fun x => _) s2 = _ := h
          unfold M.bind at h
          cases hnl : (calls v n).strNl (.str t' f') s2 with
          | ok z s3 =>
            rw [hnl] at h hl
            simp only at h hl
            cases h
            exact hl
          | _ => rw [hnl] at h; cases h
        | _ => rw [hev] at h; cases h
      · rw [if_neg hi] at h
        cases h
        exact Unmoved.refl _
    | _ => rw [ht] at h; cases h

end Ringing.Siril
