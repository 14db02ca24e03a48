import Verif.Lemmas.OldCodes
import Verif.Props.OverUnder

/-! C79: the old lead head codes. -/
namespace Ringing
open Spec Row MethodUtils

theorem lookup_spec {t : List (List Nat × List Nat × String)} (lh : Row) (ss : List Nat) :
    (lh.map (· + 1), ss, lookup t lh ss) ∈ t ∨
      (lookup t lh ss = "?" ∧ ∀ s, (lh.map (· + 1), ss, s) ∉ t) := by
  unfold lookup
  cases h : t.find? (fun e => decide (e.1 = lh.map (· + 1) ∧ e.2.1 = ss)) with
  | some e =>
    left
    have h1 := List.mem_of_find?_eq_some h
    have h2 := List.find?_some h
    simp only [decide_eq_true_eq] at h2
    obtain ⟨a, b, c⟩ := e
    simp only at h2 ⊢
    rw [← h2.1, ← h2.2]; exact h1
  | none =>
    right
    refine ⟨rfl, fun s hs => ?_⟩
    have := List.find?_eq_none.1 h _ hs
    simp at this

theorem map_succ_inj {a b : Row} (h : a.map (· + 1) = b.map (· + 1)) : a = b :=
  List.map_injective_iff.2 (fun _ _ e => Nat.succ.inj e) h

/-- C79: `old_lhcode` is the code the table has for the lead head and the change at the lead end, and
`?` exactly when there is none; it has codes for five and six bells only. -/
theorem C79_old_lhcode {m : Method} (hb : m.b ≤ 255) (hm : ∀ c ∈ m.ch, IsChange c.n c.swaps ∧ c.n = m.b)
    {d : Change} (hd : m.ch.getLast? = some d) {lh : Row} (hlh : m.lhC = .ok lh) (u : Bool) :
    ∃ s, oldLhcodeC u m = .ok s ∧
      ((lh.map (· + 1), d.swaps, s) ∈ oldCodes u m.b ∨
        (s = "?" ∧ ∀ t, (lh.map (· + 1), d.swaps, t) ∉ oldCodes u m.b)) := by
  obtain ⟨r, h1, h2, h3, -⟩ := C19_lead_head hb hm
  rw [hlh] at h1
  obtain rfl := Out.ok.inj h1
  have hdm := hm d (List.mem_of_getLast? hd)
  have hback : backC m = .ok d := by unfold backC; rw [hd]
  have ceq : ∀ ss, Change.eq d ⟨m.b, ss⟩ = (decide (m.b = 0) || decide (d.swaps = ss)) := by
    intro ss; unfold Change.eq; rw [hdm.2]; simp
  by_cases h6 : m.b = 6
  · have e12 : Change.ofStringC m.b "12".toList = .ok ⟨m.b, [2, 4]⟩ := by rw [h6]; decide +kernel
    have e1 : Change.ofStringC m.b "1".toList = .ok ⟨m.b, [1, 3]⟩ := by rw [h6]; decide +kernel
    have e14 : Change.ofStringC m.b "14".toList = .ok ⟨m.b, [1, 4]⟩ := by rw [h6]; decide +kernel
    have hm0 : decide (m.b = 0) = false := by rw [h6]; rfl
    have e : oldLhcodeC u m = lhcode6 u lh (decide (d.swaps = [2, 4])) (decide (d.swaps = [1, 3])) (decide (d.swaps = [1, 4])) := by
      unfold oldLhcodeC oldLhcode6C
      rw [if_pos h6, hlh]
      simp only [Out.ok_bind, e12, e1, e14, hback, ceq, hm0, Bool.false_or]
    have hbad : (¬ d.swaps = [2, 4] → ¬ d.swaps = [1, 3] → ¬ d.swaps = [1, 4] → ∀ t, (lh.map (· + 1), d.swaps, t) ∉ oldCodes u m.b) := by
      intro a b c t ht
      rw [h6] at ht
      rcases (oldCodes_known u).2.2.1 _ ht with h | h | h
      · exact a h
      · exact b h
      · exact c h
    by_cases hk : lh ∈ known6
    · obtain ⟨k1, k2, k3, k4⟩ := lhcode6_known u lh hk
      rw [← h6] at k1 k2 k3
      by_cases a : d.swaps = [2, 4]
      · refine ⟨_, by rw [e, a]; exact k1, ?_⟩
        rw [a]; exact lookup_spec _ _
      by_cases b : d.swaps = [1, 3]
      · refine ⟨_, by rw [e, b]; exact k2, ?_⟩
        rw [b]; exact lookup_spec _ _
      by_cases c : d.swaps = [1, 4]
      · refine ⟨_, by rw [e, c]; exact k3, ?_⟩
        rw [c]; exact lookup_spec _ _
      · exact ⟨"?", by rw [e, decide_eq_false a, decide_eq_false b, decide_eq_false c]; exact k4,
          Or.inr ⟨rfl, hbad a b c⟩⟩
    · refine ⟨"?", by rw [e, lhcode6_unknown (by omega) hk], Or.inr ⟨rfl, fun t ht => ?_⟩⟩
      rw [h6] at ht
      obtain ⟨r, hr, he⟩ := (oldCodes_known u).1 _ ht
      exact hk (map_succ_inj he ▸ hr)
  by_cases h5 : m.b = 5
  · have e1 : Change.ofStringC m.b "1".toList = .ok ⟨m.b, [1, 3]⟩ := by rw [h5]; decide +kernel
    have e12 : Change.ofStringC m.b "12".toList = .ok ⟨m.b, [2]⟩ := by rw [h5]; decide +kernel
    have e123 : Change.ofStringC m.b "123".toList = .ok ⟨m.b, [3]⟩ := by rw [h5]; decide +kernel
    have e14 : Change.ofStringC m.b "14".toList = .ok ⟨m.b, [1]⟩ := by rw [h5]; decide +kernel
    have hm0 : decide (m.b = 0) = false := by rw [h5]; rfl
    have e : oldLhcodeC u m = lhcode5 lh (decide (d.swaps = [1, 3])) (decide (d.swaps = [2])) (decide (d.swaps = [3]))
        (decide (d.swaps = [1])) := by
      unfold oldLhcodeC oldLhcode5C
      rw [if_neg h6, if_pos h5, hlh]
      simp only [Out.ok_bind, e12, e1, e14, e123, hback, ceq, hm0, Bool.false_or]
    have hbad : (¬ d.swaps = [1, 3] → ¬ d.swaps = [2] → ¬ d.swaps = [3] → ¬ d.swaps = [1] →
        ∀ t, (lh.map (· + 1), d.swaps, t) ∉ oldCodes u m.b) := by
      intro a b c f t ht
      rw [h5] at ht
      rcases (oldCodes_known u).2.2.2 _ ht with h | h | h | h
      · exact a h
      · exact b h
      · exact c h
      · exact f h
    by_cases hk : lh ∈ known5
    · obtain ⟨k1, k2, k3, k4, k5⟩ := lhcode5_known u lh hk
      rw [← h5] at k1 k2 k3 k4
      by_cases a : d.swaps = [1, 3]
      · refine ⟨_, by rw [e, a]; exact k1, ?_⟩
        rw [a]; exact lookup_spec _ _
      by_cases b : d.swaps = [2]
      · refine ⟨_, by rw [e, b]; exact k2, ?_⟩
        rw [b]; exact lookup_spec _ _
      by_cases c : d.swaps = [3]
      · refine ⟨_, by rw [e, c]; exact k3, ?_⟩
        rw [c]; exact lookup_spec _ _
      by_cases f : d.swaps = [1]
      · refine ⟨_, by rw [e, f]; exact k4, ?_⟩
        rw [f]; exact lookup_spec _ _
      · exact ⟨"?", by rw [e, decide_eq_false a, decide_eq_false b, decide_eq_false c, decide_eq_false f]; exact k5,
          Or.inr ⟨rfl, hbad a b c f⟩⟩
    · refine ⟨"?", by rw [e, lhcode5_unknown (by omega) hk], Or.inr ⟨rfl, fun t ht => ?_⟩⟩
      rw [h5] at ht
      obtain ⟨r, hr, he⟩ := (oldCodes_known u).2.1 _ ht
      exact hk (map_succ_inj he ▸ hr)
  · refine ⟨"?", by unfold oldLhcodeC; rw [if_neg h6, if_neg h5], Or.inr ⟨rfl, fun t ht => ?_⟩⟩
    unfold oldCodes at ht
    rw [if_neg h6, if_neg h5] at ht
    cases ht

/-- C79: a code other than `?` tells the lead head and the change at the lead end: two methods on the
same number of bells with this code have the same. -/
theorem C79_old_lhcode_determines {m m' : Method} (hb : m.b ≤ 255) (hbb : m'.b = m.b)
    (hm : ∀ c ∈ m.ch, IsChange c.n c.swaps ∧ c.n = m.b) (hm' : ∀ c ∈ m'.ch, IsChange c.n c.swaps ∧ c.n = m'.b)
    {d d' : Change} (hd : m.ch.getLast? = some d) (hd' : m'.ch.getLast? = some d') {u u' : Bool} {s : String}
    (h : oldLhcodeC u m = .ok s) (h' : oldLhcodeC u' m' = .ok s) (hs : s ≠ "?") :
    SameAfter m.b (m.ch.map Change.swaps) (m'.ch.map Change.swaps) ∧ d = d' := by
  obtain ⟨lh, e1, -⟩ := C19_lead_head hb hm
  obtain ⟨lh', e1', -⟩ := C19_lead_head (m := m') (by omega) hm'
  obtain ⟨t, f1, f2⟩ := C79_old_lhcode hb hm hd e1 u
  obtain ⟨t', f1', f2'⟩ := C79_old_lhcode (by omega) hm' hd' e1' u'
  rw [h] at f1
  rw [h'] at f1'
  obtain rfl := Out.ok.inj f1
  obtain rfl := Out.ok.inj f1'
  have g := f2.resolve_right (fun h => hs h.1)
  have g' := f2'.resolve_right (fun h => hs h.1)
  rw [hbb] at g'
  have mono : ∀ (n : Nat) (v : Bool) e, e ∈ oldCodes v n → e ∈ oldCodes true n := by
    intro n v e he
    unfold oldCodes at he ⊢
    by_cases h6 : n = 6
    · rw [if_pos h6] at he ⊢
      cases v
      · rw [List.mem_append] at he
        refine List.mem_append_left _ (he.resolve_right ?_)
        intro h; cases h
      · exact he
    · rw [if_neg h6] at he ⊢; exact he
  replace g := mono _ _ _ g
  replace g' := mono _ _ _ g'
  have pw : (oldCodes true m.b).Pairwise (fun e f => e.2.2 ≠ f.2.2 ∧ (e.1, e.2.1) ≠ (f.1, f.2.1)) := by
    by_cases h6 : m.b = 6
    · rw [h6]; exact (oldCodes_distinct true).1
    by_cases h5 : m.b = 5
    · rw [h5]; exact (oldCodes_distinct true).2.1
    · unfold oldCodes; rw [if_neg h6, if_neg h5]; exact List.Pairwise.nil
  have same : (lh.map (· + 1), d.swaps, s) = (lh'.map (· + 1), d'.swaps, s) := by
    have nd : ((oldCodes true m.b).map fun e => e.2.2).Nodup := List.pairwise_map.2 (pw.imp fun h => h.1)
    exact List.inj_on_of_nodup_map nd g g' rfl
  rw [Prod.mk.injEq, Prod.mk.injEq] at same
  have wf : Method.WF m := ⟨hb, hm⟩
  have wf' : Method.WF m' := ⟨by omega, hm'⟩
  rw [wf.lhC_eq] at e1
  rw [wf'.lhC_eq] at e1'
  obtain rfl := Out.ok.inj e1
  obtain rfl := Out.ok.inj e1'
  refine ⟨(applyAll_eq_iff hb hm (fun c hc => by rw [← hbb]; exact hm' c hc)).1 ?_, ?_⟩
  · have := map_succ_inj same.1
    unfold Method.lh at this
    rw [hbb] at this
    exact this
  · have a := (hm d (List.mem_of_getLast? hd)).2
    have b := (hm' d' (List.mem_of_getLast? hd')).2
    cases d; cases d'
    simp only at a b same
    rw [same.2.1, a, b, hbb]

/-- A Minor method with the lead head 135264 and a second's place lead end has the code G. -/
example : oldLhcodeC false ⟨6, [⟨6, [0, 2, 4]⟩, ⟨6, [1, 3]⟩, ⟨6, [0, 2, 4]⟩, ⟨6, [1, 3]⟩, ⟨6, [0, 2, 4]⟩, ⟨6, [1, 3]⟩,
    ⟨6, [0, 2, 4]⟩, ⟨6, [1, 3]⟩, ⟨6, [0, 2, 4]⟩, ⟨6, [1, 3]⟩, ⟨6, [0, 2, 4]⟩, ⟨6, [2, 4]⟩]⟩ = .ok "G" := by
  decide +kernel

/-- C79, a finding: without changes `old_lhcode` reads the last change of an empty method, on five and
six bells only. -/
theorem C79_old_lhcode_empty (u : Bool) (b : Nat) :
    oldLhcodeC u ⟨b, []⟩ = if b = 5 ∨ b = 6 then .ub else .ok "?" := by
  by_cases h6 : b = 6
  · subst h6; cases u <;> decide +kernel
  by_cases h5 : b = 5
  · subst h5; cases u <;> decide +kernel
  · unfold oldLhcodeC
    rw [if_neg h6, if_neg h5, if_neg (by omega)]

end Ringing
