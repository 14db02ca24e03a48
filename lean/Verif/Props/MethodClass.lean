import Verif.Lemmas.MethodClass3

/-! C22: classification of methods. -/
namespace Ringing
open Spec Row

theorem class_or (d l : Bool) {k : Nat} (hk : k < 16) :
    let v := (if l = true then (if d then Method.M_DIFFERENTIAL else 0) ||| Method.M_LITTLE
      else (if d then Method.M_DIFFERENTIAL else 0)) ||| k
    v % 16 = k ∧ (v &&& 16 ≠ 0 ↔ d = true) ∧ (v &&& 128 ≠ 0 ↔ l = true) := by
  revert d l
  revert hk
  revert k
  decide

namespace Method

theorem WF.dodgingClass_spec {m : Method} (h : m.WF) (hn : 0 < m.length) {hb lo hi : Nat}
    (hp : follow m.css hb = hb) (hr : PathRange m.css hb lo hi) :
    ∃ c, dodgingClass m lo hi = .ok c ∧ c < 16 ∧
      (c = if hi - lo = 1 then 4
        else
          let ends := fun ss => ∃ e, SectionEnd m.css.length (m.css.length / (hi - lo + 1)) e ∧ m.css[e]? = some ss
          open Classical in
          if (∃ ss, ends ss) ∧ ∀ ss, ends ss → ¬ HasInternal m.b ss then 4
          else if (∃ ss, ends ss) ∧ ∀ ss, ends ss → HasInternal m.b ss then 5
          else 6) := by
  obtain ⟨hlh, h2⟩ := h.range_le hp hr
  unfold dodgingClass
  by_cases h1 : hi - lo = 1
  · rw [if_pos h1, if_pos h1]; exact ⟨4, rfl, by omega, rfl⟩
  · rw [if_neg h1, if_neg h1]
    simp only
    set step := m.length / (hi - lo + 1) with hstep
    have hs : 0 < step := by
      rw [hstep]; apply Nat.div_pos <;> omega
    rw [if_neg (by omega)]
    obtain ⟨y, n, e1, e2, e3⟩ := sectionLoop_spec (m := m) hs (m.length + 1) (step - 1) false false
      (by omega) (by omega)
    rw [e1, Out.ok_bind]
    rw [show m.css.length = m.length from css_length m, ← hstep]
    have ends : ∀ ss, (∃ e, SectionEnd m.length step e ∧ m.css[e]? = some ss) ↔
        ∃ t c, (m.ch[step - 1 + t * step]? = some c ∨ m.ch[m.length - (step - 1 + t * step) - 2]? = some c) ∧
        step - 1 + t * step + 1 < m.length / 2 ∧ c.swaps = ss := by
      intro ss
      constructor
      · rintro ⟨e, (⟨t, rfl, b⟩ | ⟨t, j, rfl, b, rfl⟩), g⟩
        · rw [List.getElem?_map, Option.map_eq_some_iff] at g
          obtain ⟨c, g1, g2⟩ := g
          exact ⟨t, c, .inl (by rw [Nat.add_comm]; exact g1), by omega, g2⟩
        · rw [List.getElem?_map, Option.map_eq_some_iff] at g
          obtain ⟨c, g1, g2⟩ := g
          exact ⟨t, c, .inr (by rw [Nat.add_comm (step - 1)]; exact g1), by omega, g2⟩
      · rintro ⟨t, c, a, b, rfl⟩
        rcases a with a | a
        · exact ⟨_, .inl ⟨t, Nat.add_comm _ _, by omega⟩, by rw [List.getElem?_map, a]; rfl⟩
        · exact ⟨_, .inr ⟨t, _, Nat.add_comm _ _, by omega, rfl⟩, by rw [List.getElem?_map, a]; rfl⟩
    have wf : ∀ {x : Nat} {c : Change}, m.ch[x]? = some c → (c.internal = true ↔ HasInternal m.b c.swaps) := by
      intro x c hc
      obtain ⟨w1, w2⟩ := h.2 c (List.mem_of_getElem? hc)
      rw [C15_internal w1, w2]; rfl
    have hy : y = true ↔ ∃ ss, (∃ e, SectionEnd m.length step e ∧ m.css[e]? = some ss) ∧ HasInternal m.b ss := by
      rw [e2]
      simp only [Bool.false_eq_true, false_or]
      constructor
      · rintro ⟨t, c, a, b, d⟩
        refine ⟨c.swaps, (ends _).2 ⟨t, c, a, b, rfl⟩, ?_⟩
        rcases a with a | a <;> exact (wf a).1 d
      · rintro ⟨ss, hss, hi⟩
        obtain ⟨t, c, a, b, rfl⟩ := (ends _).1 hss
        refine ⟨t, c, a, b, ?_⟩
        rcases a with a | a <;> exact (wf a).2 hi
    have hnn : n = true ↔ ∃ ss, (∃ e, SectionEnd m.length step e ∧ m.css[e]? = some ss) ∧ ¬ HasInternal m.b ss := by
      rw [e3]
      simp only [Bool.false_eq_true, false_or]
      constructor
      · rintro ⟨t, c, a, b, d⟩
        refine ⟨c.swaps, (ends _).2 ⟨t, c, a, b, rfl⟩, ?_⟩
        rcases a with a | a <;> · rw [← wf a]; simp [d]
      · rintro ⟨ss, hss, hi⟩
        obtain ⟨t, c, a, b, rfl⟩ := (ends _).1 hss
        refine ⟨t, c, a, b, ?_⟩
        rcases a with a | a <;> · rw [← wf a] at hi; simpa using hi
    have ha : (∃ ss, ∃ e, SectionEnd m.length step e ∧ m.css[e]? = some ss) ↔ y = true ∨ n = true := by
      rw [hy, hnn]
      constructor
      · rintro ⟨ss, h⟩
        by_cases hi : HasInternal m.b ss
        · left; exact ⟨ss, h, hi⟩
        · right; exact ⟨ss, h, hi⟩
      · rintro (⟨ss, h, -⟩ | ⟨ss, h, -⟩) <;> exact ⟨ss, h⟩
    have hb : (∀ ss, (∃ e, SectionEnd m.length step e ∧ m.css[e]? = some ss) → ¬ HasInternal m.b ss) ↔ y = false := by
      rw [Bool.eq_false_iff, ne_eq, hy]
      push Not
      rfl
    have hc : (∀ ss, (∃ e, SectionEnd m.length step e ∧ m.css[e]? = some ss) → HasInternal m.b ss) ↔ n = false := by
      rw [Bool.eq_false_iff, ne_eq, hnn]
      push Not
      rfl
    simp only [ha, hb, hc]
    cases y <;> cases n <;> simp [M_TREBLE_BOB, M_SURPRISE, M_DELIGHT]

theorem firstHunt_unique {css : List (List Nat)} {b x y : Nat} (h1 : FirstHunt css b x)
    (h2 : FirstHunt css b y) : x = y := by
  rcases Nat.lt_trichotomy x y with h | h | h
  · exact absurd h1.1 (h2.2 x h)
  · exact h
  · exact absurd h2.1 (h1.2 y h)

theorem symPoint_unique {css : List (List Nat)} {b x y : Nat} (h1 : SymPoint css b x)
    (h2 : SymPoint css b y) : x = y := by
  rcases Nat.lt_trichotomy x y with h | h | h
  · exact absurd h1.2.1 (h2.2.2 x h)
  · exact h
  · exact absurd h2.2.1 (h1.2.2 y h)

/-- Every method has at most one class. -/
theorem classified_unique {b : Nat} {css : List (List Nat)} {year : Int} {k l : Nat}
    (h1 : Classified b css year k) (h2 : Classified b css year l) : k = l := by
  cases h1 with
  | principle a =>
    cases h2 with
    | principle _ => rfl
    | hybrid c _ => exact absurd c.1 (a _)
    | slow c _ _ _ _ => exact absurd c.1 (a _)
    | bob c _ _ _ _ _ => exact absurd c.1 (a _)
    | place c _ _ _ _ _ => exact absurd c.1 (a _)
    | alliance c _ _ _ _ _ => exact absurd c.1 (a _)
    | treblePlace c _ _ _ _ _ _ => exact absurd c.1 (a _)
    | dodging c _ _ _ _ _ _ _ => exact absurd c.1 (a _)
  | hybrid a1 a2 =>
    have contra : ∀ {hb i}, FirstHunt css b hb → css.length % 2 = 0 → SymPoint css hb i → False := by
      intro hb i c1 c2 c3
      have := firstHunt_unique a1 c1
      subst this
      rcases a2 with a2 | a2
      · omega
      · exact a2 _ c3.1 c3.2.1
    cases h2 with
    | principle c => exact absurd a1.1 (c _)
    | hybrid _ _ => rfl
    | slow c1 c2 c3 _ _ => exact (contra c1 c2 c3).elim
    | bob c1 c2 c3 _ _ _ => exact (contra c1 c2 c3).elim
    | place c1 c2 c3 _ _ _ => exact (contra c1 c2 c3).elim
    | alliance c1 c2 c3 _ _ _ => exact (contra c1 c2 c3).elim
    | treblePlace c1 c2 c3 _ _ _ _ => exact (contra c1 c2 c3).elim
    | dodging c1 c2 c3 _ _ _ _ _ => exact (contra c1 c2 c3).elim
  | slow a1 a2 a3 a4 a5 =>
    cases h2 with
    | principle c => exact absurd a1.1 (c _)
    | hybrid c1 c2 =>
      have := firstHunt_unique a1 c1; subst this
      rcases c2 with c2 | c2
      · omega
      · exact absurd a3.2.1 (c2 _ a3.1)
    | slow c1 c2 c3 c4 c5 => rfl
    | bob c1 c2 c3 c4 c5 c6 => have := firstHunt_unique a1 c1; subst this; exact absurd a5 c5
    | place c1 c2 c3 c4 c5 c6 => have := firstHunt_unique a1 c1; subst this; exact absurd a5 c5
    | alliance c1 c2 c3 c4 _ _ => have := firstHunt_unique a1 c1; subst this; exact absurd a4 c4
    | treblePlace c1 c2 c3 c4 _ _ _ => have := firstHunt_unique a1 c1; subst this; exact absurd a4 c4
    | dodging c1 c2 c3 c4 _ _ _ _ => have := firstHunt_unique a1 c1; subst this; exact absurd a4 c4
  | bob a1 a2 a3 a4 a5 a6 =>
    cases h2 with
    | principle c => exact absurd a1.1 (c _)
    | hybrid c1 c2 =>
      have := firstHunt_unique a1 c1; subst this
      rcases c2 with c2 | c2
      · omega
      · exact absurd a3.2.1 (c2 _ a3.1)
    | slow c1 c2 c3 c4 c5 => have := firstHunt_unique a1 c1; subst this; exact absurd c5 a5
    | bob c1 c2 c3 c4 c5 c6 => rfl
    | place c1 c2 c3 c4 c5 c6 => exact absurd a6 c6
    | alliance c1 c2 c3 c4 _ _ => have := firstHunt_unique a1 c1; subst this; exact absurd a4 c4
    | treblePlace c1 c2 c3 c4 _ _ _ => have := firstHunt_unique a1 c1; subst this; exact absurd a4 c4
    | dodging c1 c2 c3 c4 _ _ _ _ => have := firstHunt_unique a1 c1; subst this; exact absurd a4 c4
  | place a1 a2 a3 a4 a5 a6 =>
    cases h2 with
    | principle c => exact absurd a1.1 (c _)
    | hybrid c1 c2 =>
      have := firstHunt_unique a1 c1; subst this
      rcases c2 with c2 | c2
      · omega
      · exact absurd a3.2.1 (c2 _ a3.1)
    | slow c1 c2 c3 c4 c5 => have := firstHunt_unique a1 c1; subst this; exact absurd c5 a5
    | bob c1 c2 c3 c4 c5 c6 => exact absurd c6 a6
    | place c1 c2 c3 c4 c5 c6 => rfl
    | alliance c1 c2 c3 c4 _ _ => have := firstHunt_unique a1 c1; subst this; exact absurd a4 c4
    | treblePlace c1 c2 c3 c4 _ _ _ => have := firstHunt_unique a1 c1; subst this; exact absurd a4 c4
    | dodging c1 c2 c3 c4 _ _ _ _ => have := firstHunt_unique a1 c1; subst this; exact absurd a4 c4
  | alliance a1 a2 a3 a4 a5 a6 =>
    cases h2 with
    | principle c => exact absurd a1.1 (c _)
    | hybrid c1 c2 =>
      have := firstHunt_unique a1 c1; subst this
      rcases c2 with c2 | c2
      · omega
      · exact absurd a3.2.1 (c2 _ a3.1)
    | slow c1 c2 c3 c4 c5 => have := firstHunt_unique a1 c1; subst this; exact absurd c4 a4
    | bob c1 c2 c3 c4 c5 c6 => have := firstHunt_unique a1 c1; subst this; exact absurd c4 a4
    | place c1 c2 c3 c4 c5 c6 => have := firstHunt_unique a1 c1; subst this; exact absurd c4 a4
    | alliance c1 c2 c3 c4 _ _ => rfl
    | treblePlace c1 c2 c3 c4 c5 c6 _ =>
      have := firstHunt_unique a1 c1; subst this
      have := symPoint_unique a3 c3; subst this
      obtain ⟨rfl, rfl⟩ := pathRange_unique a5 c5
      exact absurd c6 a6
    | dodging c1 c2 c3 c4 c5 c6 _ _ =>
      have := firstHunt_unique a1 c1; subst this
      have := symPoint_unique a3 c3; subst this
      obtain ⟨rfl, rfl⟩ := pathRange_unique a5 c5
      exact absurd c6 a6
  | treblePlace a1 a2 a3 a4 a5 a6 a7 =>
    cases h2 with
    | principle c => exact absurd a1.1 (c _)
    | hybrid c1 c2 =>
      have := firstHunt_unique a1 c1; subst this
      rcases c2 with c2 | c2
      · omega
      · exact absurd a3.2.1 (c2 _ a3.1)
    | slow c1 c2 c3 c4 c5 => have := firstHunt_unique a1 c1; subst this; exact absurd c4 a4
    | bob c1 c2 c3 c4 c5 c6 => have := firstHunt_unique a1 c1; subst this; exact absurd c4 a4
    | place c1 c2 c3 c4 c5 c6 => have := firstHunt_unique a1 c1; subst this; exact absurd c4 a4
    | alliance c1 c2 c3 c4 c5 c6 =>
      have := firstHunt_unique a1 c1; subst this
      have := symPoint_unique a3 c3; subst this
      obtain ⟨rfl, rfl⟩ := pathRange_unique a5 c5
      exact absurd a6 c6
    | treblePlace c1 c2 c3 c4 c5 c6 _ => rfl
    | dodging c1 c2 c3 c4 c5 c6 c7 _ =>
      have := firstHunt_unique a1 c1; subst this
      have := symPoint_unique a3 c3; subst this
      exact absurd a7 c7
  | dodging a1 a2 a3 a4 a5 a6 a7 a8 =>
    cases h2 with
    | principle c => exact absurd a1.1 (c _)
    | hybrid c1 c2 =>
      have := firstHunt_unique a1 c1; subst this
      rcases c2 with c2 | c2
      · omega
      · exact absurd a3.2.1 (c2 _ a3.1)
    | slow c1 c2 c3 c4 c5 => have := firstHunt_unique a1 c1; subst this; exact absurd c4 a4
    | bob c1 c2 c3 c4 c5 c6 => have := firstHunt_unique a1 c1; subst this; exact absurd c4 a4
    | place c1 c2 c3 c4 c5 c6 => have := firstHunt_unique a1 c1; subst this; exact absurd c4 a4
    | alliance c1 c2 c3 c4 c5 c6 =>
      have := firstHunt_unique a1 c1; subst this
      have := symPoint_unique a3 c3; subst this
      obtain ⟨rfl, rfl⟩ := pathRange_unique a5 c5
      exact absurd a6 c6
    | treblePlace c1 c2 c3 c4 c5 c6 c7 =>
      have := firstHunt_unique a1 c1; subst this
      have := symPoint_unique a3 c3; subst this
      exact absurd c7 a7
    | dodging c1 c2 c3 c4 c5 c6 c7 c8 =>
      have := firstHunt_unique a1 c1; subst this
      obtain ⟨rfl, rfl⟩ := pathRange_unique a5 c5
      rw [a8, c8]

theorem WF.trebleClass_spec {m : Method} (h : m.WF) {hb i lo hi : Nat} (hn : 0 < m.length)
    (h1 : FirstHunt m.css m.b hb) (h2 : m.length % 2 = 0) (h3 : SymPoint m.css hb i)
    (h4 : ¬ PlainHunts m.css hb) (h5 : PathRange m.css hb lo hi) (year : Int) :
    ∃ k, k < 16 ∧ trebleClass m hb lo hi i = .ok k ∧ Classified m.b m.css year k := by
  have hp := h1.1.2
  have hi2 : i < m.length / 2 := by have := h3.1; rwa [css_length] at this
  unfold trebleClass
  rw [h.traceC_eq (by omega), Out.ok_bind]
  have e0 : path m hb (i + 1) = posAt m.css hb (i + 1 + 0) := by
    rw [Nat.add_zero, posAt_succ_mod hp (by omega)]
  have c0 : List.replicate (hi - lo + 1) 0 = counts m hb i lo hi 0 := by
    unfold counts cnt
    simp
  obtain ⟨pl, e1, e2⟩ := h.countLoop_spec hn hp h5 i (m.length / 2 - 1) 0 false (by simp)
  rw [Nat.add_zero] at e1
  rw [e0, c0, Nat.add_zero, e1, Out.ok_bind]
  simp only [Nat.zero_add]
  obtain ⟨r1, r2⟩ := posAt_range hn h5 (i + 1 + (m.length / 2 - 1))
  rw [bump_counts r1 r2, Out.ok_bind, show m.length / 2 - 1 + 1 = m.length / 2 by omega]
  have hle := (h.range_le hp h5).1
  have ev : EvenBlows m.css hb i lo hi ↔ allEqual (counts m hb i lo hi (m.length / 2)) (hi - lo) = true := by
    rw [allEqual_counts hle]
    unfold EvenBlows halfBlows cnt
    rw [show m.css.length = m.length from css_length m]
  have pv : pl = true ↔ HalfPlace m.css hb i := by
    rw [e2]
    unfold HalfPlace
    rw [show m.css.length = m.length from css_length m]
    refine exists_congr fun t => and_congr_left fun _ => ?_
    omega
  have h2' : m.css.length % 2 = 0 := by rw [css_length]; exact h2
  by_cases ha : allEqual (counts m hb i lo hi (m.length / 2)) (hi - lo) = true
  · rw [if_pos ha]
    cases pl with
    | true => exact ⟨7, by omega, rfl, .treblePlace h1 h2' h3 h4 h5 (ev.2 ha) (pv.1 rfl)⟩
    | false =>
      obtain ⟨c, d1, d2, d3⟩ := h.dodgingClass_spec hn hp h5
      exact ⟨c, d2, d1, .dodging h1 h2' h3 h4 h5 (ev.2 ha) (fun h => by simpa using pv.2 h) d3⟩
  · rw [if_neg ha]
    exact ⟨8, by omega, rfl, .alliance h1 h2' h3 h4 h5 (fun h => ha (ev.1 h))⟩

theorem WF.plainClass_spec {m : Method} (h : m.WF) {hb i : Nat}
    (h1 : FirstHunt m.css m.b hb) (h2 : m.length % 2 = 0) (h3 : SymPoint m.css hb i)
    (h4 : PlainHunts m.css hb) (year : Int) (hb1 : m.b ≠ 1 ∨ year ≥ 2019) (j : Nat) :
    ∃ k, k < 16 ∧ plainClass m (lh m) (.ok j) hb year = .ok k ∧ Classified m.b m.css year k := by
  have hi2 : i < m.length / 2 := by have := h3.1; rwa [css_length] at this
  have h2' : m.css.length % 2 = 0 := by rw [css_length]; exact h2
  have slow : ∃ s, (if year < 2019 ∧ hb = 0 then rdPast (lh m) (.ok j) 1 >>= fun x =>
      if x = 1 then issymBellC m 1 else .ok false else .ok false) = .ok s ∧
      (s = true ↔ SlowCourse m.css m.b hb year) := by
    unfold SlowCourse
    by_cases hc : year < 2019 ∧ hb = 0
    · rw [if_pos hc]
      have hb0 := h1.1.1
      have h1b : 1 < m.b := by omega
      rw [rdPast_lt (by rw [h.lh_length]; exact h1b), Out.ok_bind]
      by_cases hf : fn (lh m) 1 = 1
      · rw [if_pos hf]
        unfold issymBellC
        rw [if_neg (by omega)]
        have hf' := (h.lh_fix 1).1 hf
        obtain ⟨s, e1, e2⟩ := h.isPalindromicAboutBell hf' h2 (i := m.length / 2 - 1) (by omega)
        refine ⟨s, e1, e2.trans ?_⟩
        rw [show m.css.length = m.length from css_length m]
        exact ⟨fun a => ⟨hc.1, hc.2, ⟨h1b, hf'⟩, a⟩, fun a => a.2.2.2⟩
      · rw [if_neg hf]
        refine ⟨false, rfl, ?_⟩
        simp only [Bool.false_eq_true, false_iff]
        rintro ⟨-, -, a, -⟩
        exact hf ((h.lh_fix 1).2 a.2)
    · rw [if_neg hc]
      refine ⟨false, rfl, ?_⟩
      simp only [Bool.false_eq_true, false_iff]
      rintro ⟨a, b, -⟩; exact hc ⟨a, b⟩
  obtain ⟨s, s1, s2⟩ := slow
  unfold plainClass
  rw [s1, Out.ok_bind]
  cases s with
  | true => exact ⟨10, by omega, rfl, .slow h1 h2' h3 h4 (s2.1 rfl)⟩
  | false =>
    have ns : ¬ SlowCourse m.css m.b hb year := fun a => by simpa using s2.2 a
    have := h.1
    have := h1.1.1
    obtain ⟨d, d1, d2⟩ := h.anyDodges_spec (by omega) (m.b - 1) 1 (by omega)
    rw [if_neg (by simp), d1, Out.ok_bind]
    rw [show 1 + (m.b - 1) = m.b by omega] at d2
    cases d with
    | true => exact ⟨2, by omega, rfl, .bob h1 h2' h3 h4 ns (d2.1 rfl)⟩
    | false => exact ⟨3, by omega, rfl, .place h1 h2' h3 h4 ns (fun a => by simpa using d2.2 a)⟩

/-- The whole classification, with all the flags. -/
theorem WF.methclass_spec {m : Method} (h : m.WF) (year : Int) (hb1 : m.b ≠ 1 ∨ year ≥ 2019) (j : Nat) :
    ∃ (d l : Bool) (k : Nat), k < 16 ∧ methclassC (.ok j) m year =
      .ok ((if l = true then (if d then M_DIFFERENTIAL else 0) ||| M_LITTLE
        else (if d then M_DIFFERENTIAL else 0)) ||| k) ∧ Classified m.b m.css year k ∧
      (d = true ↔ if year ≥ 2019 then UnequalCycles m.css m.b else SeveralCycles m.css m.b) ∧
      (l = true ↔ ∃ hb, FirstHunt m.css m.b hb ∧ ∃ x, (x = 0 ∨ x + 1 = m.b) ∧
        ∀ k, k ≤ m.css.length → follow (m.css.take k) hb ≠ x) := by
  obtain ⟨hb, e1, -, e3, e4, e5⟩ := huntLoop_spec (j := j) h.lh_length (m.b + 1) 0 (by omega) (by omega)
  obtain ⟨wb, d, e6, e7, e8⟩ := h.differential_spec j year
  unfold methclassC
  rw [h.lhC_eq, Out.ok_bind, e1, Out.ok_bind, e6, Out.ok_bind, e7, Out.ok_bind]
  by_cases hp : hb = m.b
  · simp only [if_pos hp]
    have nh : ∀ p, ¬ IsHunt m.css m.b p := by
      rintro p ⟨a, b⟩
      exact e4 p (by omega) (by omega) ((h.lh_fix p).2 b)
    refine ⟨d, false, 1, by omega, ?_, .principle nh, e8, ?_⟩
    · rfl
    · simp only [Bool.false_eq_true, false_iff]
      rintro ⟨x, a, -⟩; exact nh x a.1
  · simp only [if_neg hp]
    have fh : FirstHunt m.css m.b hb := ⟨⟨by omega, (h.lh_fix _).1 (e5 (by omega))⟩, fun p hp' a =>
      e4 p (by omega) hp' ((h.lh_fix p).2 a.2)⟩
    obtain ⟨lo, hi, t1, t2⟩ := h.trebleRange_full hb
    have hlo : ∀ k, k ≤ m.css.length → follow (m.css.take k) hb < m.b := by
      intro k hk; rw [css_length] at hk; exact h.path_lt fh.1.1 k hk
    have little : (decide (hi + 1 < m.b ∨ lo > 0) = true) ↔ ∃ hb, FirstHunt m.css m.b hb ∧ ∃ x, (x = 0 ∨ x + 1 = m.b) ∧
        ∀ k, k ≤ m.css.length → follow (m.css.take k) hb ≠ x := by
      obtain ⟨⟨a, ha, ha'⟩, ⟨b, hb', hb''⟩, hc⟩ := t2
      rw [decide_eq_true_eq]
      constructor
      · rintro (c | c)
        · exact ⟨hb, fh, m.b - 1, .inr (by omega), fun k hk e => by have := hc k hk; omega⟩
        · exact ⟨hb, fh, 0, .inl rfl, fun k hk e => by have := hc k hk; omega⟩
      · rintro ⟨y, fy, x, (hx | hx), hk⟩
        · have := firstHunt_unique fh fy; subst this
          right
          have := hk a ha; omega
        · have := firstHunt_unique fh fy; subst this
          left
          have := hk b hb'
          have := hlo b hb'
          omega
    have hcl : (if hi + 1 < m.b ∨ lo > 0 then (if d = true then M_DIFFERENTIAL else 0) ||| M_LITTLE
        else (if d = true then M_DIFFERENTIAL else 0)) =
        (if decide (hi + 1 < m.b ∨ lo > 0) = true then (if d = true then M_DIFFERENTIAL else 0) ||| M_LITTLE
        else (if d = true then M_DIFFERENTIAL else 0)) := by
      simp only [decide_eq_true_eq]
    rw [t1]
    simp only [hcl]
    suffices H : ∃ k, k < 16 ∧ Classified m.b m.css year k ∧ ∀ cl, (if m.length % 2 = 1 then Out.ok (cl ||| M_HYBRID)
        else symmetryPointBellC m hb >>= fun sym =>
          if sym = -1 then .ok (cl ||| M_HYBRID)
          else if isplain m hb then plainClass m (lh m) (.ok j) hb year >>= fun k => .ok (cl ||| k)
          else trebleClass m hb lo hi sym.toNat >>= fun k => .ok (cl ||| k)) = .ok (cl ||| k) by
      obtain ⟨k, k1, k2, k3⟩ := H
      exact ⟨d, _, k, k1, k3 _, k2, e8, little⟩
    by_cases ho : m.length % 2 = 1
    · exact ⟨9, by omega, .hybrid fh (.inl (by rw [css_length]; exact ho)), fun cl => by rw [if_pos ho]; rfl⟩
    · have he : m.length % 2 = 0 := by omega
      rcases h.symmetryPointBell fh.1.2 he with ⟨s1, s2⟩ | ⟨i, s1, s2, s3, s4⟩
      · refine ⟨9, by omega, .hybrid fh (.inr (by rw [show m.css.length = m.length from css_length m]; exact s2)), fun cl => ?_⟩
        rw [if_neg ho, s1, Out.ok_bind]; rfl
      · have sp : SymPoint m.css hb i := ⟨by rw [css_length]; exact s2, s3, s4⟩
        have hlt : hb < 256 := by have := h.1; omega
        have ip := C21_isplain h.1 h.2 hlt
        by_cases hpl : isplain m hb = true
        · obtain ⟨k, k1, k2, k3⟩ := h.plainClass_spec fh he sp (ip.1 hpl) year hb1 j
          refine ⟨k, k1, k3, fun cl => ?_⟩
          rw [if_neg ho, s1, Out.ok_bind, if_neg (by omega), if_pos hpl, k2, Out.ok_bind]
        · obtain ⟨k, k1, k2, k3⟩ := h.trebleClass_spec (by omega) fh he sp (fun a => hpl (ip.2 a)) t2 year
          refine ⟨k, k1, k3, fun cl => ?_⟩
          rw [if_neg ho, s1, Out.ok_bind, if_neg (by omega), if_neg hpl, Int.toNat_natCast, k2, Out.ok_bind]

end Method

/-- C22: `methclass` is defined, and does not depend on the memory it reads beyond the lead head, for
every method (before 2019: on any number of bells but one); the class and the flags are the specified
ones. -/
theorem C22_methclass {m : Method} (hb : m.b ≤ 255) (hm : ∀ c ∈ m.ch, IsChange c.n c.swaps ∧ c.n = m.b)
    (year : Int) (hb1 : m.b ≠ 1 ∨ year ≥ 2019) :
    ∃ v, (∀ j, Method.methclassC (.ok j) m year = .ok v) ∧
      Classified m.b (m.ch.map Change.swaps) year (v % 16) ∧
      (v &&& 16 ≠ 0 ↔ if year ≥ 2019 then UnequalCycles (m.ch.map Change.swaps) m.b
        else SeveralCycles (m.ch.map Change.swaps) m.b) ∧
      (v &&& 128 ≠ 0 ↔ ∃ hb, FirstHunt (m.ch.map Change.swaps) m.b hb ∧ ∃ x, (x = 0 ∨ x + 1 = m.b) ∧
        ∀ k, k ≤ m.ch.length → follow ((m.ch.map Change.swaps).take k) hb ≠ x) := by
  have h : m.WF := ⟨hb, hm⟩
  obtain ⟨d, l, k, a1, a2, a3, a4, a5⟩ := h.methclass_spec year hb1 0
  obtain ⟨c1, c2, c3⟩ := class_or d l a1
  refine ⟨_, fun j => ?_, c1.symm ▸ a3, c2.trans a4, c3.trans ?_⟩
  · obtain ⟨d', l', k', b1, b2, b3, b4, b5⟩ := h.methclass_spec year hb1 j
    rw [b2]
    have e1 : d' = d := by rw [Bool.eq_iff_iff, b4, a4]
    have e2 : l' = l := by rw [Bool.eq_iff_iff, b5, a5]
    have e3 := Method.classified_unique b3 a3
    rw [e1, e2, e3]
  · rw [a5]; simp [Method.css]

/-- C22: every method has exactly one class. -/
theorem C22_class_unique {b : Nat} {css : List (List Nat)} {year : Int} {k l : Nat}
    (h1 : Classified b css year k) (h2 : Classified b css year l) : k = l := Method.classified_unique h1 h2

/-- C22: a method is a principle exactly when no bell is fixed by the lead head. -/
theorem C22_principle {m : Method} (hb : m.b ≤ 255) (hm : ∀ c ∈ m.ch, IsChange c.n c.swaps ∧ c.n = m.b)
    (year : Int) (j : Nat) (hb1 : m.b ≠ 1 ∨ year ≥ 2019) {v : Nat}
    (hv : Method.methclassC (.ok j) m year = .ok v) :
    v % 16 = Method.M_PRINCIPLE ↔ ∀ p, p < m.b → follow (m.ch.map Change.swaps) p ≠ p := by
  obtain ⟨w, a1, a2, -⟩ := C22_methclass hb hm year hb1
  have : v = w := by have := (hv.symm.trans (a1 j)); injection this
  subst this
  constructor
  · intro e p hp hf
    rw [e] at a2
    have key : ∀ k, Classified m.b (m.ch.map Change.swaps) year k → k = 1 →
        ∀ p, ¬ IsHunt (m.ch.map Change.swaps) m.b p := by
      intro k hk ek
      cases hk with
      | principle c => exact c
      | dodging _ _ _ _ _ _ _ c =>
        exfalso
        rw [ek] at c
        simp only at c
        split_ifs at c <;> omega
      | _ => omega
    exact key _ a2 rfl p ⟨hp, hf⟩
  · intro e
    exact C22_class_unique a2 (.principle fun p hp => e p hp.1 hp.2)

/-- C22, refutation in the strict reading: `methclass` reads one element beyond the end of the lead
head of every principle and of every method whose lead head is rounds. -/
theorem C22_strict_ub {m : Method} (hb : m.b ≤ 255) (hm : ∀ c ∈ m.ch, IsChange c.n c.swaps ∧ c.n = m.b)
    (year : Int) (h : (∀ p, p < m.b → follow (m.ch.map Change.swaps) p ≠ p) ∨
      ∀ p, p < m.b → follow (m.ch.map Change.swaps) p = p) :
    Method.methclassC .ub m year = .ub := by
  have hw : m.WF := ⟨hb, hm⟩
  unfold Method.methclassC
  rw [hw.lhC_eq, Out.ok_bind]
  by_cases h0 : ∀ p, p < m.b → follow (m.ch.map Change.swaps) p ≠ p
  · have : ∀ fuel i, i ≤ m.b → m.b < fuel + i → Method.huntLoop (Method.lh m) .ub m.b fuel i = .ub := by
      intro fuel
      induction fuel with
      | zero => intro i h1 h2; omega
      | succ fuel ih =>
        intro i h1 h2
        rw [Method.huntLoop]
        by_cases hi : i < m.b
        · rw [Method.rdPast_lt (by rw [hw.lh_length]; exact hi), Out.ok_bind, if_pos, ih _ (by omega) (by omega)]
          exact ⟨fun e => h0 i hi ((hw.lh_fix i).1 e), hi⟩
        · unfold Method.rdPast
          rw [if_pos (by rw [hw.lh_length]; omega)]; rfl
    rw [this _ _ (by omega) (by omega)]; rfl
  · have h1 : ∀ p, p < m.b → follow (m.ch.map Change.swaps) p = p := h.resolve_left h0
    have hb0 : 0 < m.b := by
      by_contra hb0
      exact h0 fun p hp => by omega
    have e1 : Method.huntLoop (Method.lh m) .ub m.b (m.b + 1) 0 = .ok 0 := by
      rw [Method.huntLoop, Method.rdPast_lt (by rw [hw.lh_length]; exact hb0), Out.ok_bind, if_neg]
      rintro ⟨a, -⟩; exact a ((hw.lh_fix 0).2 (h1 0 hb0))
    have : ∀ fuel i, i ≤ m.b → m.b < fuel + i → Method.workLoop (Method.lh m) .ub m.b fuel i = .ub := by
      intro fuel
      induction fuel with
      | zero => intro i h1 h2; omega
      | succ fuel ih =>
        intro i h2 h3
        rw [Method.workLoop]
        by_cases hi : i < m.b
        · rw [Method.rdPast_lt (by rw [hw.lh_length]; exact hi), Out.ok_bind, if_pos, ih _ (by omega) (by omega)]
          exact ⟨(hw.lh_fix i).2 (h1 i hi), hi⟩
        · unfold Method.rdPast
          rw [if_pos (by rw [hw.lh_length]; omega)]; rfl
    rw [e1, Out.ok_bind]
    unfold Method.wbC
    rw [this _ _ (by omega) (by omega)]; rfl

/-- C22, refutation at the excluded point: before 2019, on one bell, the class depends on the memory
beyond the end of the lead head. -/
theorem C22_one_bell : Method.methclassC (.ok 1) ⟨1, [⟨1, []⟩, ⟨1, []⟩]⟩ 2018 = .ok 10 ∧
    Method.methclassC (.ok 0) ⟨1, [⟨1, []⟩, ⟨1, []⟩]⟩ 2018 = .ok 3 := by decide +kernel

/-- C22: `hasdodges` is defined on every non-empty method and recognises dodges. -/
theorem C22_hasdodges {m : Method} (hb : m.b ≤ 255) (hm : ∀ c ∈ m.ch, IsChange c.n c.swaps ∧ c.n = m.b)
    (hn : m.ch ≠ []) {p : Nat} (hp : p < 256) :
    ∃ b, Method.hasdodgesC m p = .ok b ∧ (b = true ↔ Dodges (m.ch.map Change.swaps) p) :=
  Method.WF.hasdodges_spec (m := m) ⟨hb, hm⟩ (List.length_pos_iff.2 hn) hp

/-- C22, refutation: `hasdodges` divides by zero on an empty method. -/
theorem C22_hasdodges_empty (b p : Nat) : Method.hasdodgesC ⟨b, []⟩ p = .ub := rfl

/-- C22: `symmetry_point(bell)` of a hunt bell in a method of even length. -/
theorem C22_bell_symmetry {m : Method} (hb : m.b ≤ 255) (hm : ∀ c ∈ m.ch, IsChange c.n c.swaps ∧ c.n = m.b)
    {p : Nat} (hp : follow (m.ch.map Change.swaps) p = p) (he : m.ch.length % 2 = 0) :
    (Method.symmetryPointBellC m p = .ok (-1) ∧
      ∀ i, i < m.ch.length / 2 → ¬ PathMirror (m.ch.map Change.swaps) p i) ∨
    ∃ i : Nat, Method.symmetryPointBellC m p = .ok (i : Int) ∧ SymPoint (m.ch.map Change.swaps) p i := by
  rcases Method.WF.symmetryPointBell (m := m) ⟨hb, hm⟩ hp he with ⟨a, b⟩ | ⟨i, a, b, c, d⟩
  · left; exact ⟨a, b⟩
  · right; exact ⟨i, a, by rw [List.length_map]; exact b, c, d⟩

example : Method.methclassC (.ok 7) plainBob4 2024 = .ok Method.M_BOB := by decide +kernel
example : Method.methclassC (.ok 7) ⟨3, [⟨3, [0]⟩, ⟨3, [1]⟩]⟩ 2024 = .ok Method.M_PRINCIPLE := by decide +kernel

end Ringing
