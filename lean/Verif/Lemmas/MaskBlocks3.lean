import Verif.Lemmas.MaskBlocks2

/-! Lemmas on the expansion of masks: the whole mask. -/
namespace Ringing
namespace Mask
open MethodUtils

theorem up_down_length {ws : List (Block × Option Block)} {ls : List (LL × LL)} (h : List.Forall₂ FillsPair ws ls) : (up ls).length = (down ls).length := by
  induction h with
  | nil => rfl
  | cons h _ ih =>
    unfold up down at *
    rw [List.flatMap_cons, List.flatMap_cons, List.length_append, List.length_append, ih, h.1]

theorem forall2_split {α β : Type} {R : α → β → Prop} {x y : List α} {l : List β} (h : List.Forall₂ R (x ++ y) l) :
    ∃ l1 l2, l = l1 ++ l2 ∧ List.Forall₂ R x l1 ∧ List.Forall₂ R y l2 := by
  induction x generalizing l with
  | nil => exact ⟨[], l, rfl, .nil, h⟩
  | cons a x ih =>
    cases h with
    | cons h1 h2 =>
      obtain ⟨l1, l2, rfl, h3, h4⟩ := ih h2
      exact ⟨_ :: l1, l2, rfl, .cons h1 h3, h4⟩

theorem forall2_join {α β : Type} {R : α → β → Prop} {x y : List α} {l1 l2 : List β} (h1 : List.Forall₂ R x l1) (h2 : List.Forall₂ R y l2) :
    List.Forall₂ R (x ++ y) (l1 ++ l2) := by
  induction h1 with
  | nil => exact h2
  | cons h _ ih => exact .cons h ih

/-- What is claimed of the expansion. -/
def ExpandPost (leadLen : Nat) (ws : List (Block × Option Block)) (r : Out (LL × LL)) : Prop :=
  (∃ x, r = .ok x ∧ Expansion leadLen ws x ∧ ∀ y, Expansion leadLen ws y → y = x) ∨ (Bad r ∧ ∀ y, ¬Expansion leadLen ws y)

theorem expand_known {hunts leadLen : Nat} {ws : List (Block × Option Block)} (hw : ∀ w ∈ ws, WrittenPair w) (hh : ∀ w ∈ ws, w.2 ≠ none → hunts ≠ 0)
    (hk : ∀ w ∈ ws, ¬Unknown w) (hsz : (ws.map weight).sum < 2 ^ 40) : ExpandPost leadLen ws (expandC hunts leadLen ws) := by
  unfold expandC
  rcases known_loop {} hw hh hk hsz with ⟨ls, hF, hU, -, hR⟩ | ⟨hb, hno⟩
  · rw [hR, Out.ok_bind]
    have hud := up_down_length hF
    unfold finishBlocksC appendBlock
    simp only [Bool.false_eq_true, if_false, List.nil_append, if_true]
    rw [if_neg (by simp [hud]), if_neg (by simp), List.length_nil, Nat.add_zero, List.append_nil, List.append_nil, List.append_nil, List.append_nil]
    by_cases hl : (up ls).length = leadLen
    · rw [if_neg (by rw [not_not]; exact hl)]
      refine .inl ⟨_, rfl, ⟨hl, ls, hF, rfl, rfl⟩, fun y ⟨_, l, h1, h2, h3⟩ => ?_⟩
      rw [hU l h1] at h2 h3
      exact Prod.ext h2 h3
    · rw [if_pos hl]
      refine .inr ⟨.inl rfl, fun y ⟨h0, l, h1, h2, h3⟩ => hl ?_⟩
      rw [hU l h1] at h2
      rw [← h0, h2]
  · refine .inr ⟨hb.bind _, fun y ⟨_, l, h1, _⟩ => hno l h1⟩

theorem expand_unknown {hunts leadLen : Nat} {ws0 ws2 : List (Block × Option Block)} {w : Block × Option Block}
    (hw : ∀ x ∈ ws0 ++ w :: ws2, WrittenPair x) (hh : ∀ x ∈ ws0 ++ w :: ws2, x.2 ≠ none → hunts ≠ 0)
    (hk0 : ∀ x ∈ ws0, ¬Unknown x) (hu : Unknown w) (hk2 : ∀ x ∈ ws2, ¬Unknown x) (hsz : ((ws0 ++ w :: ws2).map weight).sum < 2 ^ 40) (hL : leadLen < 2 ^ 40) :
    ExpandPost leadLen (ws0 ++ w :: ws2) (expandC hunts leadLen (ws0 ++ w :: ws2)) := by
  rw [List.map_append, List.sum_append, List.map_cons, List.sum_cons] at hsz
  have hnoexp : ∀ {y}, Expansion leadLen (ws0 ++ w :: ws2) y → ∃ l0 l l2, List.Forall₂ FillsPair ws0 l0 ∧ FillsPair w l ∧ List.Forall₂ FillsPair ws2 l2 ∧
      y.1 = up l0 ++ l.1 ++ up l2 ∧ y.2 = down l0 ++ l.2 ++ down l2 ∧ y.1.length = leadLen := by
    rintro y ⟨h0, ls, hF, h1, h2⟩
    obtain ⟨l0, l', rfl, hF0, hF'⟩ := forall2_split hF
    cases hF' with
    | @cons _ l _ l2 hF1 hF2 =>
      refine ⟨l0, l, l2, hF0, hF1, hF2, ?_, ?_, h0⟩
      · rw [h1]; simp [up]
      · rw [h2]; simp [down]
  unfold expandC
  rw [addBlocksC_append]
  rcases known_loop {} (fun x hx => hw x (by simp [hx])) (fun x hx => hh x (by simp [hx])) hk0 (by omega) with ⟨ls0, hF0, hU0, hL0, hR0⟩ | ⟨hb, hno⟩
  swap
  · refine .inr ⟨(hb.bind _).bind _, fun y hy => ?_⟩
    obtain ⟨l0, _, _, h, _⟩ := hnoexp hy
    exact hno _ h
  rw [hR0, Out.ok_bind]
  unfold addBlocksC
  obtain ⟨ia, ib, hia, hib, hstep⟩ := unknown_step (hunts := hunts) (appendBlock {} false (up ls0) (down ls0)) (hw w (by simp)) (hh w (by simp)) hu
  have ha : Written w.1 := (hw w (by simp)).1
  have hb : Written (w.2.getD w.1) := by
    cases h : w.2 with
    | none => exact ha
    | some b => exact (hw w (by simp)).2 b h
  have hwt : weight w = (reflected w.1.isSym w.1.data).length + (reflected (w.2.getD w.1).isSym (w.2.getD w.1).data).length := rfl
  have hpa := pos_of_star ha hia
  have hpb := pos_of_star hb hib
  rw [hstep, if_neg (by simp [appendBlock]), Out.ok_bind]
  rcases known_loop (ws := ws2) (appendBlock { appendBlock {} false (up ls0) (down ls0) with starA := ia, symA := w.1.isSym, starB := ib, symB := (w.2.getD w.1).isSym } true
      (reflected w.1.isSym w.1.data) (reflected (w.2.getD w.1).isSym (w.2.getD w.1).data)) (fun x hx => hw x (by simp [hx])) (fun x hx => hh x (by simp [hx])) hk2 (by omega) with
    ⟨ls2, hF2, hU2, hL2, hR2⟩ | ⟨hb, hno⟩
  swap
  · refine .inr ⟨hb.bind _, fun y hy => ?_⟩
    obtain ⟨_, _, l2, _, _, h, _⟩ := hnoexp hy
    exact hno _ h
  rw [hR2, Out.ok_bind]
  have hud0 := up_down_length hF0
  have hud2 := up_down_length hF2
  unfold finishBlocksC appendBlock
  simp only [Bool.false_eq_true, if_false, List.nil_append, if_true, if_neg hpa, if_neg hpb]
  rw [if_neg (by simp [hud0, hud2, hpa, hpb]), if_pos ⟨hpa, hpb⟩]
  have hsub : ∀ n : Nat, n < 2 ^ 40 → ((subSize (subSize (subSize leadLen (up ls0).length) n) (up ls2).length : Nat) : Int) =
      (((leadLen : Int) - (up ls0).length - (up ls2).length) - n) % 2 ^ 64 := by
    intro n hn; unfold subSize; omega
  have ga := expand_spec ha hia (hsub (reflected w.1.isSym w.1.data).length (by omega)) (by omega) (by omega) (by omega)
  have gb := expand_spec hb hib (by have := hsub (reflected (w.2.getD w.1).isSym (w.2.getD w.1).data).length (by omega); exact this) (by omega) (by omega) (by omega)
  rw [hud0, hud2] at gb
  rcases ga with ⟨la, hla, hfa, hna⟩ | ⟨hbad, hno⟩
  swap
  · refine .inr ⟨Bad.bind hbad _, fun y hy => ?_⟩
    obtain ⟨l0, l, l2, h0, h1, h2, e1, _, e3⟩ := hnoexp hy
    rw [hU0 _ h0, hU2 _ h2] at e1
    refine hno _ h1.2.1 ?_
    rw [← e3, e1, List.length_append, List.length_append]
    push_cast; omega
  rw [hla, Out.ok_bind]
  rcases gb with ⟨lb, hlb, hfb, hnb⟩ | ⟨hbad, hno⟩
  swap
  · refine .inr ⟨Bad.bind hbad _, fun y hy => ?_⟩
    obtain ⟨l0, l, l2, h0, h1, h2, e1, _, e3⟩ := hnoexp hy
    rw [hU0 _ h0, hU2 _ h2] at e1
    refine hno _ h1.2.2 ?_
    have := h1.1
    rw [← e3, e1, List.length_append, List.length_append]
    push_cast; omega
  rw [hlb, Out.ok_bind, if_neg (by omega)]
  refine .inl ⟨_, rfl, ⟨by simp only [List.length_append]; omega, ls0 ++ (la, lb) :: ls2, forall2_join hF0 (.cons ⟨by show la.length = lb.length; omega, hfa, hfb⟩ hF2), by simp [up], by simp [down]⟩, fun y hy => ?_⟩
  obtain ⟨l0, l, l2, h0, h1, h2, e1, e2, e3⟩ := hnoexp hy
  rw [hU0 _ h0, hU2 _ h2] at e1 e2
  have hl := h1.1
  rw [e1, List.length_append, List.length_append] at e3
  refine Prod.ext ?_ ?_
  · rw [e1, fills_unique ha h1.2.1 hfa (by omega)]
  · rw [e2, fills_unique hb h1.2.2 hfb (by omega)]

/-- A turn never leaves the model. -/
theorem step_total {hunts : Nat} (s : Blocks) {w : Block × Option Block} (hw : WrittenPair w) (hsz : weight w < 2 ^ 40) :
    Bad (turnC hunts s w) ∨ (∃ s', turnC hunts s w = .ok s' ∧ (s.a1 ≠ [] → s'.a1 ≠ []) ∧ (Unknown w → s.a1 = [] ∧ s'.a1 ≠ []) ∧ (w.2 ≠ none → hunts ≠ 0)) := by
  by_cases hh : w.2 ≠ none → hunts ≠ 0
  · by_cases hu : Unknown w
    · obtain ⟨ia, ib, hia, -, hstep⟩ := unknown_step s hw hh hu
      rw [hstep]
      by_cases h : s.a1 = []
      · rw [if_neg (by rw [not_not]; exact h)]
        refine .inr ⟨_, rfl, fun h' => absurd h h', fun _ => ⟨h, ?_⟩, hh⟩
        unfold appendBlock
        simpa using fun _ => pos_of_star hw.1 hia
      · rw [if_pos h]; exact .inl (.inl rfl)
    · rcases known_step s hw hh hu hsz with ⟨la, lb, _, _, _, hr⟩ | ⟨hb, _⟩
      · refine .inr ⟨_, hr, fun h => ?_, fun h => absurd h hu, hh⟩
        unfold appendBlock
        by_cases hb1 : s.b1 = [] <;> simp [h, hb1]
      · exact .inl hb
  · push Not at hh
    left
    rw [turnC_eq _ _ hw]
    obtain ⟨a, b⟩ := w
    cases b with
    | none => exact absurd rfl hh.1
    | some b => unfold addBlockC; simp only [Option.map_some]; rw [if_pos hh.2]; exact .inl rfl

theorem loop_total {hunts : Nat} {ws : List (Block × Option Block)} (s : Blocks) (hw : ∀ w ∈ ws, WrittenPair w) (hsz : (ws.map weight).sum < 2 ^ 40) :
    Bad (addBlocksC hunts ws s) ∨ ((∀ w ∈ ws, w.2 ≠ none → hunts ≠ 0) ∧ (s.a1 ≠ [] → ∀ w ∈ ws, ¬Unknown w) ∧ ws.Pairwise fun a b => ¬(Unknown a ∧ Unknown b)) := by
  induction ws generalizing s with
  | nil => exact .inr ⟨by simp, by simp, .nil⟩
  | cons w ws ih =>
    rw [List.map_cons, List.sum_cons] at hsz
    unfold addBlocksC
    rcases step_total (hunts := hunts) s (hw w (by simp)) (by omega) with hb | ⟨s', hr, h1, h2, h3⟩
    · exact .inl (hb.bind _)
    · rw [hr, Out.ok_bind]
      rcases ih s' (fun w h => hw w (by simp [h])) (by omega) with hb | ⟨g1, g2, g3⟩
      · exact .inl hb
      · refine .inr ⟨?_, ?_, ?_⟩
        · rintro x hx; rcases List.mem_cons.1 hx with rfl | hx
          · exact h3
          · exact g1 x hx
        · intro hs x hx; rcases List.mem_cons.1 hx with rfl | hx
          · exact fun hu => hs (h2 hu).1
          · exact g2 (h1 hs) x hx
        · exact List.pairwise_cons.2 ⟨fun b hb hu => g2 (h2 hu.1).2 b hb hu.2, g3⟩

theorem pairwise_split {ws : List (Block × Option Block)} (h : ws.Pairwise fun a b => ¬(Unknown a ∧ Unknown b)) :
    (∀ w ∈ ws, ¬Unknown w) ∨ ∃ ws0 w ws2, ws = ws0 ++ w :: ws2 ∧ (∀ x ∈ ws0, ¬Unknown x) ∧ Unknown w ∧ ∀ x ∈ ws2, ¬Unknown x := by
  induction ws with
  | nil => exact .inl (by simp)
  | cons w ws ih =>
    obtain ⟨h1, h2⟩ := List.pairwise_cons.1 h
    by_cases hu : Unknown w
    · exact .inr ⟨[], w, ws, rfl, by simp, hu, fun x hx hx' => h1 x hx ⟨hu, hx'⟩⟩
    · rcases ih h2 with h3 | ⟨ws0, w', ws2, rfl, h3, h4, h5⟩
      · left; rintro x hx; rcases List.mem_cons.1 hx with rfl | hx
        · exact hu
        · exact h3 x hx
      · refine .inr ⟨w :: ws0, w', ws2, rfl, ?_, h4, h5⟩
        rintro x hx; rcases List.mem_cons.1 hx with rfl | hx
        · exact hu
        · exact h3 x hx

end Mask
end Ringing
