import Verif.Lemmas.SirilStatic
/-
Printing with the default definitions of gsiril.
-/
namespace Ringing.Siril
open Prover Spec Spec.Siril

/-- `subst` for a string without `${` and without backslashes. -/
def substP (row num dup : Str) : Str → (skip : Nat) → Subst → Subst
  | [], _, a => a
  | _ :: cs, k + 1, a => substP row num dup cs k a
  | ch :: cs, 0, a =>
    if ch = '@' then substP row num dup cs 0 { a with text := a.text ++ row }
    else if ch = '$' then
      if cs.head? = some '$' then substP row num dup cs 1 { a with exit := true }
      else substP row num dup cs 0 { a with text := a.text ++ dup }
    else if ch = '#' then substP row num dup cs 0 { a with text := a.text ++ num }
    else substP row num dup cs 0 { a with text := a.text ++ [ch] }

/-- The mask that shows all of a row. -/
def ShowsRow (v : Env) : Prop := (MusicDetails.newC ['*'] 1 1 >>= Music.newWithC v.bells.toNat) = .ok v.mask

theorem showsRow_mask {v : Env} (h : ShowsRow v) : ∃ d, v.mask = ⟨[d], .node [] [0], v.bells.toNat⟩ := by
  unfold ShowsRow at h
  have e1 : MusicDetails.newC ['*'] 1 1 = .ok ⟨⟨['*'], 0⟩, 0, 0, 1, 1, []⟩ := by decide
  rw [e1, Out.ok_bind] at h
  unfold Music.newWithC Music.pushBackC at h
  have e2 : ∀ b, MNode.addC b (b + 2) ['*'] 0 0 MNode.new = .ok (.node [] [0]) := by
    intro b
    simp [MNode.addC, MNode.addGo, MNode.new, MNode.pushKey, show Bell.isSymbol '*' = false by decide]
  by_cases hb : v.bells.toNat = 0
  · have : (Music.new v.bells.toNat).b = 0 := hb
    rw [if_neg (by simp [this]), Out.ok_bind] at h
    have e3 := e2 v.bells.toNat
    change (MNode.addC v.bells.toNat (v.bells.toNat + 2) ['*'] 0 0 MNode.new >>= _) = _ at h
    rw [e3, Out.ok_bind] at h
    injection h with h
    exact ⟨_, h.symm⟩
  · have : (Music.new v.bells.toNat).b ≠ 0 := hb
    rw [if_pos this] at h
    have e4 : MusicDetails.checkBellsC ⟨⟨['*'], 0⟩, 0, 0, 1, 1, []⟩ v.bells.toNat = .ok ⟨⟨['*'], v.bells.toNat⟩, 0, 0, 1, 1, []⟩ := by
      unfold MusicDetails.checkBellsC Wildcard.setBellsC
      rw [if_neg hb]
      simp [Wildcard.bellsLoop, show Bell.isSymbol '*' = false by decide, Out.ok_bind]
    change (MusicDetails.checkBellsC _ v.bells.toNat >>= _) = _ at h
    rw [e4, Out.ok_bind] at h
    change (MNode.addC v.bells.toNat (v.bells.toNat + 2) ['*'] 0 0 MNode.new >>= _) = _ at h
    rw [e2, Out.ok_bind] at h
    injection h with h
    exact ⟨_, h.symm⟩

theorem mask_hits {v : Env} (h : ShowsRow v) (r : Row) : ∃ m d ds, v.mask.processC (readBell v r) r false = .ok (m, true) ∧
    m.info = d :: ds ∧ d.wilds = r := by
  obtain ⟨d, hm⟩ := showsRow_mask h
  refine ⟨⟨[{ ({ d with wilds := [] } : MusicDetails).increment false with wilds := r }], .node [] [0], v.bells.toNat⟩, _, [], ?_, rfl, rfl⟩
  rw [hm]
  simp [Music.processC, MNode.matchC, MNode.dmLoop, MNode.hasKey, MNode.matchSub, readBell, Out.ok_bind, vget, vset]

/-- Interpolation without conditions. -/
theorem subst_pure {v : Env} (hm : ShowsRow v) (c : Calls) (s : St) : ∀ (t : Str) (k : Nat) (a : Subst), '\\' ∉ t → '{' ∉ t →
    subst v c t k a s = .ok (substP (s.r.flatMap v.bellText) (decimal s.p.size) (decimal s.p.duplicates) t k a) s
  | [], _, a, _, _ => rfl
  | _ :: cs, k + 1, a, h1, h2 => by
    rw [subst, substP]
    exact subst_pure hm c s cs k a (fun h => h1 (List.mem_cons_of_mem _ h)) (fun h => h2 (List.mem_cons_of_mem _ h))
  | ch :: cs, 0, a, h1, h2 => by
    have h1' : '\\' ∉ cs := fun h => h1 (List.mem_cons_of_mem _ h)
    have h2' : '{' ∉ cs := fun h => h2 (List.mem_cons_of_mem _ h)
    rw [subst.eq_def, substP]
    dsimp only
    by_cases hat : ch = '@'
    · rw [if_pos hat, if_pos hat]
      obtain ⟨m, d, ds, hp, hi, hw⟩ := mask_hits hm s.r
      show M.bind M.get _ s = _
      unfold M.bind M.get
      simp only
      show M.bind (M.lift _) _ s = _
      rw [hp]
      unfold M.bind M.lift M.pure
      simp only [if_true, hi, hw]
      exact subst_pure hm c s cs 0 _ h1' h2'
    rw [if_neg hat, if_neg hat]
    by_cases hd : ch = '$'
    · rw [if_pos hd, if_pos hd]
      have hh : ¬ (cs.head? = some '{' ∧ v.msiril = false) := by
        rintro ⟨h, -⟩
        exact h2' (List.mem_of_mem_head? h)
      rw [if_neg hh]
      by_cases hdd : cs.head? = some '$'
      · rw [if_pos hdd, if_pos hdd]
        exact subst_pure hm c s cs 1 _ h1' h2'
      · rw [if_neg hdd, if_neg hdd]
        exact subst_pure hm c s cs 0 _ h1' h2'
    rw [if_neg hd, if_neg hd]
    by_cases hn : ch = '#'
    · rw [if_pos hn, if_pos hn]
      exact subst_pure hm c s cs 0 _ h1' h2'
    rw [if_neg hn, if_neg hn]
    have hb : ch ≠ '\\' := by rintro rfl; exact h1 (List.mem_cons_self)
    rw [if_neg hb]
    exact subst_pure hm c s cs 0 _ h1' h2'

theorem escapes_pure : ∀ (t : Str), '\\' ∉ t → escapes t 0 = some t
  | [], _ => rfl
  | ch :: cs, h => by
    have hb : ch ≠ '\\' := by rintro rfl; exact h (List.mem_cons_self)
    rw [escapes.eq_def]
    simp only [if_neg hb]
    rw [escapes_pure cs (fun h' => h (List.mem_cons_of_mem _ h'))]
    rfl

theorem digitChar_ne : ∀ d < 10, Nat.digitChar d ≠ '\\' := by decide

theorem decimal_plain (n : Nat) : '\\' ∉ decimal n := by
  unfold decimal
  split
  · decide
  · intro h
    rw [List.mem_reverse, List.mem_map] at h
    obtain ⟨d, h1, hd⟩ := h
    exact digitChar_ne d (Nat.digits_lt_base (by omega) h1) hd

/-- The state after a line was printed. -/
def St.said (s : St) (t : Str) (k : Nat) : St :=
  { s with e := { s.e with nodes := k, out := if !s.silent && s.live then s.e.out ++ t else s.e.out } }

/-- Executing a string. -/
theorem runs_text {v : Env} (hl : v.nodeLimit = 0) (hm : ShowsRow v) (s : St) (t : Str) (h1 : '\\' ∉ t) (h2 : '{' ∉ t)
    {a : Subst} (ha : substP (s.r.flatMap v.bellText) (decimal s.p.size) (decimal s.p.duplicates) t 0 ⟨[], false, false⟩ = a)
    (hp : '\\' ∉ a.text) (hn : a.noNl = false) :
    ∃ k, Runs (fun n => (calls v n).exec (.str t { interpolate := true }) 1) s
      (if a.exit then .abort (s.said (a.text ++ ['\n']) k) else .ok () (s.said (a.text ++ ['\n']) k)) := by
  refine ⟨s.ticked.ticked.e.nodes, runs_exec hl ?_⟩
  have h3 : ∀ n, evalStr v (calls v n) t { interpolate := true } s.ticked =
      .ok (a.text, { toParent := false, suppressNl := a.noNl, abort := a.exit }) s.ticked := by
    intro n
    unfold evalStr
    rw [if_pos rfl]
    show M.bind _ _ _ = _
    unfold M.bind
    rw [subst_pure hm _ _ _ _ _ h1 h2]
    have : substP (s.ticked.r.flatMap v.bellText) (decimal s.ticked.p.size) (decimal s.ticked.p.duplicates) t 0 ⟨[], false, false⟩ = a := ha
    rw [this]
    rfl
  have h4 : Runs (fun n => (calls v n).exec (.str a.text { toParent := false, suppressNl := a.noNl, abort := a.exit }) 1) s.ticked
      (if a.exit then .abort (s.said (a.text ++ ['\n']) s.ticked.ticked.e.nodes)
        else .ok () (s.said (a.text ++ ['\n']) s.ticked.ticked.e.nodes)) := by
    refine runs_exec hl (runs_of fun n => ?_)
    show execN v (calls v n) n (.str a.text { toParent := false, suppressNl := a.noNl, abort := a.exit }) 1 s.ticked.ticked = _
    unfold execN
    simp only [if_false, Bool.false_eq_true]
    rw [escapes_pure _ hp]
    simp only [hn]
    show M.bind _ _ _ = _
    unfold M.bind output M.cond
    simp only [if_false, Bool.false_eq_true, Bool.not_false, if_true]
    have e : s.ticked.ticked.silent = s.silent ∧ s.ticked.ticked.live = s.live := ⟨rfl, rfl⟩
    cases hx : a.exit <;> cases hs : s.silent <;> cases hv : s.live <;>
      simp [St.said, St.ticked, hs, hv, M.exc, bind, M.bind, output, M.pure, pure]
  obtain ⟨N, h4⟩ := h4
  refine ⟨N, fun n hn' => ?_⟩
  show M.bind _ _ s.ticked = _
  unfold M.bind
  rw [h3]
  exact h4 n hn'

end Ringing.Siril
