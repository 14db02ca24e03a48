import Verif.Props.Siril
import Verif.Lemmas.SirilMono
import Verif.Lemmas.SirilStatic
import Verif.Lemmas.Row
/-
C59: what gsiril says of a touch written with place notation, lists, repetitions, reversals and symbols.
-/
namespace Ringing.Siril
open Prover Spec Spec.Siril

/-- Executing the expression in the middle of a touch ends, with or without an exception of the script. -/
def Ends (v : Env) (t : Table) (x : Expr) : Prop := ∀ r0 s, Ready v t r0 s →
  ∃ s', Runs (fun n => (calls v n).exec x 1) s (.ok () s') ∨ Runs (fun n => (calls v n).exec x 1) s (.abort s') ∨
    Runs (fun n => (calls v n).exec x 1) s (.brk s')

def EndsSym (v : Env) (t : Table) (n : Str) : Prop := ∃ x, t n = some x ∧ Ends v t x

/-- The settings in which a touch is proved: no node limit, no music, no maximal length; rounds is a row on the
number of bells; the event symbols print only, or nothing if `q`, except that `conflict` aborts if `stop`; the final
symbols end. -/
structure Setting (v : Env) (t : Table) (stop q : Prop) : Prop where
  events : Events v t stop q
  music : v.music = Music.new v.music.b
  max : v.maxLength = 0
  row : IsRow v.rounds
  bells : (v.rounds.length : Int) = v.bells
  start : HarmlessSym v t q "start".toList
  finish : HarmlessSym v t q "finish".toList
  final : ∀ n ∈ ["true", "notround", "false", "abort"], EndsSym v t n.toList

theorem start_row {v : Env} {t : Table} {stop q : Prop} (h : Setting v t stop q) (e : ECtx) (he : e.syms = t) (s0 : St) :
    ∃ st, startC v e s0 = .ok () st ∧ st.r = v.rounds ∧ Ready v t v.rounds st ∧ st.rung = [] := by
  have hv := (isRow_iff_valid _).1 h.row
  have hb := h.bells
  have hm : Row.mulC (Row.roundsC v.bells.toNat) v.rounds = .ok v.rounds := by
    rw [← hb, Int.toNat_natCast, Row.roundsC_eq (by have := h.row.1; omega), Row.mulC_eq (Row.valid_rounds (by have := h.row.1; omega)) hv, Row.rounds_mul (le_refl _)]
  obtain ⟨st, hst⟩ : ∃ st, startC v e s0 = .ok () st ∧ st.r = v.rounds ∧ st.e = e ∧ st.dsyms = (fun _ => none) ∧ st.mus = v.music ∧
      st.maxLength = v.maxLength := by
    unfold startC
    rw [if_neg (by omega), hm]
    exact ⟨_, rfl, rfl, rfl, rfl, rfl, rfl⟩
  obtain ⟨h1, h2, h3, h4, h5, h6⟩ := hst
  have hi := inv_start h1
  refine ⟨st, h1, h2, ⟨by rw [h3, he], fun n _ => by rw [h4], by rw [h5]; exact h.music, by rw [h6]; exact h.max, hi.2.2.2.1, ?_⟩, hi.2.1⟩
  rw [← h2]; exact hi.1

theorem runs_final {v : Env} {t : Table} {r0 : Row} {s : St} {nm : Str} (h : EndsSym v t nm) (hn : nm ≠ "loop_counter".toList)
    (hs : Ready v t r0 s) (w : Verdict) :
    ∃ s', Runs (fun n => M.bind (execFinal (calls v n) nm) (fun _ => M.pure w)) s (.ok w s') := by
  obtain ⟨x, hx, he⟩ := h
  obtain ⟨s', h1 | h1 | h1⟩ := he r0 s hs
  all_goals
    obtain ⟨N, h1⟩ := runs_symbol hs hn hx h1
    refine ⟨s', N, fun n hn => ?_⟩
    have h2 : execSymbol (calls v n) nm 1 s = _ := h1 n hn
    show M.bind _ _ s = _
    unfold M.bind execFinal M.catchAll
    rw [h2]
    rfl

/-- **C59**: `prove x`, where `x` stands for the changes `cs`.  Let `rows` be the rows of `cs` from rounds.  If
`conflict` does not abort, the verdict is that of `rows`; if it does, the proof is aborted exactly if some row occurs
more often than there are extents, and otherwise the verdict is that of `rows`. -/
theorem C59_prove {v : Env} {t : Table} {stop star q : Prop} (h : Setting v t stop q) {b : Nat} {x : Expr} {cs : List Change}
    (hx : Expands b t star x cs) (hb : b ≤ v.rounds.length) (mn : Nat)
    (hmn : mn ≠ 0 → EndsSym v t "tooshort".toList) (e : ECtx) (he : e.syms = t) (s0 : St) :
    ∃ N, ∀ n, N ≤ n → ∃ w s', proveC v mn n x e s0 = .ok w s' ∧
      (stop ∧ ¬ NoRowTooOften v.extents (rowsFrom v.rounds (cs.map (·.swaps))) → w = .aborted) ∧
      (¬ (stop ∧ ¬ NoRowTooOften v.extents (rowsFrom v.rounds (cs.map (·.swaps)))) →
        w = verdictOf v.extents v.rounds v.rounds mn (rowsFrom v.rounds (cs.map (·.swaps)))) := by
  obtain ⟨st, h0, hr0, hst, hrg⟩ := start_row h e he s0
  obtain ⟨s1, hr1, hs1⟩ := runs_harmless h.start (ne_counter (by decide)) hst
  have r1 := hst.same hs1
  have e1 : s1.rung = [] ∧ s1.r = v.rounds := by
    obtain ⟨k, o, _, rfl⟩ := hs1; exact ⟨hrg, hr0⟩
  have hno : stop → NoRowTooOften v.extents s1.rung := by
    intro _; right; rw [e1.1]; intro r hr; cases hr
  obtain ⟨res, hr2, ho⟩ := runs_expands h.events hx 1 (Or.inl rfl) s1 r1 (by rw [e1.2]; exact hb) hno
  have hd : dirs 1 cs = cs := by simp [dirs]
  unfold Outcome at ho
  have hno3 : ∀ s', Stopped v t v.rounds q (dirs 1 cs) s1 s' → ¬ NoRowTooOften v.extents (rowsFrom v.rounds (cs.map (·.swaps))) := by
    intro s' hs'
    have := hs'.no
    rwa [hd, e1.1, e1.2, List.nil_append] at this
  rw [hd, e1.1, e1.2, List.nil_append] at ho
  generalize hrows : rowsFrom v.rounds (cs.map (·.swaps)) = rows at ho ⊢
  rcases ho with ⟨s2, rfl, ha, hno2⟩ | ⟨hsp, s2, rfl, hi⟩
  · obtain ⟨s3, hr3, hs3⟩ := runs_harmless h.finish (ne_counter (by decide)) ha.ready
    have r3 := ha.ready.same hs3
    have hbody : Runs (fun n => proofBody (calls v n) x) st (.ok () s3) :=
      runs_bind hr1 (runs_bind hr2 hr3)
    have hp3 : s3.proved = rows := by
      rw [r3.proved]
      have : s3.rung = s2.rung := by obtain ⟨k, o, _, rfl⟩ := hs3; rfl
      rw [this, ha.rung, e1.1, e1.2, hrows]; rfl
    -- a verdict is reached
    have hfin : ∃ w s', Runs (fun n => proveC v mn n x e) s0 (.ok w s') := by
      obtain ⟨N, hbody⟩ := hbody
      have key : ∀ n, N ≤ n → proveC v mn n x e s0 = (match s3.state v with
          | .rounds =>
            if mn ≠ 0 ∧ s3.p.size < mn then
              M.bind (execFinal (calls v n) "tooshort".toList) (fun _ => M.pure .tooshort) s3
            else
              M.bind (execFinal (calls v n) "true".toList) (fun _ => M.pure .true) (if v.quiet ≠ 0 then { s3 with silent := true } else s3)
          | .notround => M.bind (execFinal (calls v n) "notround".toList) (fun _ => M.pure .notround) s3
          | .isfalse => M.bind (execFinal (calls v n) "false".toList) (fun _ => M.pure .false) s3) := by
        intro n hn
        have hb' : proofBody (calls v n) x st = .ok () s3 := hbody n hn
        show M.bind _ _ s0 = _
        unfold M.bind
        rw [h0]
        simp only [hb']
        rfl
      have fin : ∀ (f : Nat → Res Verdict), (∀ n, N ≤ n → proveC v mn n x e s0 = f n) → ∀ {s : St} {nm : String} {w : Verdict}, Ready v t v.rounds s →
          EndsSym v t nm.toList → nm.toList.head? ≠ some 'l' →
          (∀ n, f n = M.bind (execFinal (calls v n) nm.toList) (fun _ => M.pure w) s) →
          ∃ w s', Runs (fun n => proveC v mn n x e) s0 (.ok w s') := by
        intro f hf s nm w hs hm hl hfe
        obtain ⟨s', N2, h2⟩ := runs_final hm (ne_counter hl) hs w
        refine ⟨w, s', max N N2, fun n hn => ?_⟩
        have h2' : M.bind (execFinal (calls v n) nm.toList) (fun _ => M.pure w) s = _ := h2 n (by omega)
        show proveC v mn n x e s0 = _
        rw [hf n (by omega), hfe n, h2']
      cases hstt : s3.state v with
      | rounds =>
        simp only [hstt] at key
        by_cases hm : mn ≠ 0 ∧ s3.p.size < mn
        · simp only [if_pos hm] at key
          exact fin _ key r3 (hmn hm.1) (by decide) (fun n => rfl)
        · simp only [if_neg hm] at key
          have : Ready v t v.rounds (if v.quiet ≠ 0 then { s3 with silent := true } else s3) := by
            split
            · exact r3.silent _
            · exact r3
          exact fin _ key this (nm := "true") (h.final _ (by simp)) (by decide) (fun n => rfl)
      | notround => simp only [hstt] at key; exact fin _ key r3 (nm := "notround") (h.final _ (by simp)) (by decide) (fun n => rfl)
      | isfalse => simp only [hstt] at key; exact fin _ key r3 (nm := "false") (h.final _ (by simp)) (by decide) (fun n => rfl)
    obtain ⟨w, s', N, hw⟩ := hfin
    obtain ⟨N2, hbody⟩ := hbody
    refine ⟨max N N2, fun n hn => ⟨w, s', hw n (by omega), fun hh => absurd (hno2 hh.1) hh.2, fun _ => ?_⟩⟩
    have := C57_verdict h0 (hbody n (by omega)) (hw n (by omega))
    rw [this, hp3, hr0]
  · have hno2 := hno3 s2 (by rw [hd]; exact hi)
    rw [hrows] at hno2
    have hbody : Runs (fun n => proofBody (calls v n) x) st (.abort s2) :=
      runs_bind hr1 (runs_bind_abort hr2)
    obtain ⟨s', N2, h2⟩ := runs_final (h.final "abort" (by simp)) (ne_counter (by decide)) hi.ready .aborted
    obtain ⟨N, hbody⟩ := hbody
    refine ⟨max N N2, fun n hn => ⟨.aborted, s', ?_, fun _ => rfl, fun hh => absurd ⟨hsp, hno2⟩ hh⟩⟩
    have hb' : proofBody (calls v n) x st = .abort s2 := hbody n (by omega)
    have h2' : M.bind (execFinal (calls v n) "abort".toList) (fun _ => M.pure Verdict.aborted) s2 = _ := h2 n (by omega)
    show M.bind _ _ s0 = _
    unfold M.bind
    rw [h0]
    simp only [hb']
    exact h2'

/-- **C59**: the same expression as place notation has the value `cs`, in every state in the middle of a touch. -/
theorem C59_notation {v : Env} {t : Table} {r0 : Row} {b : Nat} {x : Expr} {cs : List Change} (hl : v.nodeLimit = 0)
    (hx : Expands b t False x cs) (s : St) (hs : Ready v t r0 s) :
    ∃ N, ∀ n, N ≤ n → ∃ s', (calls v n).pn x s = .ok cs s' ∧ s'.rung = s.rung ∧ s'.r = s.r := by
  obtain ⟨s', ⟨N, hr⟩, hs', e⟩ := runs_pn_expands hl hx s hs
  exact ⟨N, fun n hn => ⟨s', hr n hn, e, by rw [hs'.inv.cur, hs.inv.cur, e]⟩⟩

/-- **C57**: the budget of the model does not matter: a proof that ends has the same result with every larger budget. -/
theorem C57_budget (v : Env) (mn : Nat) {n n' : Nat} (h : n ≤ n') (x : Expr) (e : ECtx) (s0 : St)
    (hf : proveC v mn n x e s0 ≠ .fuel) : proveC v mn n' x e s0 = proveC v mn n x e s0 :=
  (le_proveC v mn h x e s0).resolve_left hf

/-! A concrete case: plain hunting on three bells, `3 (a, b)`, with every event symbol empty and `conflict` aborting. -/

/-- Definitions `a`, `b` and the event symbols. -/
def huntTable : Table := fun n =>
  if n = "a".toList then some (.pn [⟨3, [0]⟩] [])
  else if n = "b".toList then some (.pn [⟨3, [1]⟩] [])
  else if n = "conflict".toList then some (.exc .abort)
  else some .nop

def huntEnv : Env := { bells := 3, extents := 1, rounds := [0, 1, 2] }

theorem ends_nop {v : Env} {t : Table} (hl : v.nodeLimit = 0) : Ends v t .nop := fun r0 s hs => by
  obtain ⟨s', h, _⟩ := harmless_nop (q := True) hl r0 s hs
  exact ⟨s', Or.inl h⟩

theorem huntSetting : Setting huntEnv huntTable True True where
  events := ⟨rfl, ⟨_, rfl, harmless_nop rfl⟩, ⟨_, rfl, harmless_nop rfl⟩, fun h => absurd trivial h, fun _ => ⟨_, rfl, stops_abort rfl⟩⟩
  music := rfl
  max := rfl
  row := by
    refine ⟨by decide, ?_⟩
    intro b hb
    have : b < 3 := hb
    have : b = 0 ∨ b = 1 ∨ b = 2 := by omega
    rcases this with rfl | rfl | rfl <;> decide
  bells := rfl
  start := ⟨_, rfl, harmless_nop rfl⟩
  finish := ⟨_, rfl, harmless_nop rfl⟩
  final := by
    intro n hn
    simp only [List.mem_cons, List.not_mem_nil, or_false] at hn
    rcases hn with rfl | rfl | rfl | rfl <;> exact ⟨_, rfl, ends_nop rfl⟩

theorem huntExpands : Expands 3 huntTable False (.rep 3 (.list (.sym "a".toList) (.sym "b".toList)))
    (List.replicate 3 [⟨3, [0]⟩, ⟨3, [1]⟩]).flatten := by
  have h : ∀ k, k = 0 ∨ k = 1 → ∀ c ∈ [(⟨3, [k]⟩ : Change)], IsChange c.n c.swaps ∧ c.n ≤ 3 := by
    rintro k (rfl | rfl) c hc <;>
    · simp only [List.mem_cons, List.not_mem_nil, or_false] at hc
      subst hc
      refine ⟨⟨by decide, by simp, by simp⟩, le_refl _⟩
  exact Expands.rep 3 (Expands.list (Expands.sym _ (by decide) rfl (Expands.pn _ [] (h 0 (Or.inl rfl))))
    (Expands.sym _ (by decide) rfl (Expands.pn _ [] (h 1 (Or.inr rfl)))))

/-- The touch `3 (a, b)` is proved true. -/
example (e : ECtx) (he : e.syms = huntTable) (s0 : St) : ∃ N, ∀ n, N ≤ n → ∃ s',
    proveC huntEnv 0 n (.rep 3 (.list (.sym "a".toList) (.sym "b".toList))) e s0 = .ok .true s' := by
  obtain ⟨N, h⟩ := C59_prove huntSetting huntExpands (le_refl _) 0 (fun h => absurd rfl h) e he s0
  have hrows : NoRowTooOften huntEnv.extents (rowsFrom huntEnv.rounds
      ((List.replicate 3 [(⟨3, [0]⟩ : Change), ⟨3, [1]⟩]).flatten.map (·.swaps))) := by
    right; decide
  refine ⟨N, fun n hn => ?_⟩
  obtain ⟨w, s', h1, _, h3⟩ := h n hn
  refine ⟨s', ?_⟩
  rw [h1, h3 (fun hh => hh.2 hrows)]
  unfold verdictOf
  rw [if_neg (not_not.2 hrows), if_neg (not_not.2 (by decide)), if_neg (by omega)]

end Ringing.Siril
