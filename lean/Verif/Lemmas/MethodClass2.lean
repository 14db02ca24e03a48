import Verif.Lemmas.MethodClass
/-! Lemmas for `methclass`: the path of the treble. -/
namespace Ringing
open Spec Row
namespace Method

/-- The position of the bell starting in `p` after `k` changes. -/
abbrev path (m : Method) (p k : Nat) : Nat := follow (m.css.take k) p

theorem path_zero (m : Method) (p : Nat) : path m p 0 = p := rfl

theorem path_length (m : Method) (p : Nat) : path m p m.length = follow m.css p := by
  unfold path; rw [List.take_of_length_le (by simp)]

theorem WF.path_succ {m : Method} (h : m.WF) {k : Nat} (hk : k < m.length) (p : Nat) :
    (m.ch[k]).pos (path m p k) = path m p (k + 1) := by
  have hk' : k < m.css.length := by simpa using hk
  unfold path
  rw [follow_take_succ hk', (h.wf _ (List.getElem_mem hk)).pos_eq]
  simp [css]

theorem WF.path_back {m : Method} (h : m.WF) {k : Nat} (hk : k < m.length) (p : Nat) :
    (m.ch[k]).pos (path m p (k + 1)) = path m p k := by
  rw [← h.path_succ hk, (h.wf _ (List.getElem_mem hk)).pos_pos]

theorem WF.path_lt {m : Method} (h : m.WF) {p : Nat} (hp : p < m.b) : ∀ k, k ≤ m.length → path m p k < m.b := by
  intro k
  induction k with
  | zero => intro _; exact hp
  | succ k ih =>
    intro hk
    have hk' : k < m.length := by omega
    rw [← h.path_succ hk']
    obtain ⟨h1, h2⟩ := h.2 _ (List.getElem_mem hk')
    exact h1.pos_lt (by omega) (ih (by omega))

theorem WF.path_step {m : Method} (h : m.WF) {k : Nat} (hk : k < m.length) (p : Nat) :
    path m p (k + 1) ≤ path m p k + 1 ∧ path m p k ≤ path m p (k + 1) + 1 := by
  rw [← h.path_succ hk, (h.wf _ (List.getElem_mem hk)).pos_eq]
  unfold moveTo
  split_ifs <;> omega

theorem WF.traceC_eq {m : Method} (h : m.WF) {k : Nat} (hk : k ≤ m.length) (p : Nat) :
    traceC m p k = .ok (path m p k) := by
  obtain ⟨s, h1, h2⟩ := forUp_inv (lo := 0) (hi := k) (s := p)
    (body := fun b j => do let c ← at' m j; pure (c.pos b))
    (fun j s => s = path m p j) (by omega) rfl (by
      intro i s _ hi hs
      have hi' : i < m.length := by omega
      refine ⟨_, by simp only [WF.at_ok hi', Out.ok_bind, Out.pure_eq]; rfl, ?_⟩
      rw [hs, h.path_succ hi'])
  unfold traceC
  rw [h1, h2]

/-- For a hunt bell the path closes up. -/
theorem posAt_succ_mod {m : Method} {p : Nat} (hp : follow m.css p = p) {k : Nat}
    (hk : k < m.length) : posAt m.css p (k + 1) = path m p (k + 1) := by
  unfold posAt
  rw [css_length]
  by_cases h1 : k + 1 < m.length
  · rw [Nat.mod_eq_of_lt h1]
  · have e : k + 1 = m.length := by omega
    rw [e, Nat.mod_self]
    show p = _
    rw [path_length, hp]

theorem posAt_lt {m : Method} (p : Nat) {k : Nat} (hk : k < m.length) : posAt m.css p k = path m p k := by
  unfold posAt
  rw [css_length, Nat.mod_eq_of_lt hk]

theorem posAt_mod {m : Method} (p k : Nat) : posAt m.css p (k % m.length) = posAt m.css p k := by
  unfold posAt; rw [css_length, Nat.mod_mod]

theorem WF.posAt_succ {m : Method} (h : m.WF) {p : Nat} (hp : follow m.css p = p) {k : Nat}
    (hk : k < m.length) : (m.ch[k]).pos (posAt m.css p k) = posAt m.css p (k + 1) := by
  rw [posAt_succ_mod hp hk, posAt_lt p hk, h.path_succ]

theorem WF.posAt_back {m : Method} (h : m.WF) {p : Nat} (hp : follow m.css p = p) {k : Nat}
    (hk : k < m.length) : (m.ch[k]).pos (posAt m.css p (k + 1)) = posAt m.css p k := by
  rw [← h.posAt_succ hp hk, (h.wf _ (List.getElem_mem hk)).pos_pos]

/-- The loop of `is_palindromic_about(bell, int)`. -/
theorem WF.palLoop_spec {m : Method} (h : m.WF) {p : Nat} (hp : follow m.css p = p) {i : Nat}
    (hi : i < m.length) : ∀ (k j : Nat), 0 < j → j + k ≤ m.length →
    posAt m.css p (i + j) = posAt m.css p (i + m.length + 1 - j) →
    (palLoop m i k j (posAt m.css p (i + j)) = .ok (some (posAt m.css p (i + j + k))) ∧
      ∀ t, j ≤ t → t < j + k → posAt m.css p (i + 1 + t) = posAt m.css p (i + m.length - t)) ∨
    (palLoop m i k j (posAt m.css p (i + j)) = .ok none ∧
      ∃ t, j ≤ t ∧ t < j + k ∧ posAt m.css p (i + 1 + t) ≠ posAt m.css p (i + m.length - t)) := by
  intro k
  induction k with
  | zero => intro j _ _ _; left; exact ⟨rfl, fun t a b => by omega⟩
  | succ k ih =>
    intro j h0 hj hs
    have hn : 0 < m.length := by omega
    have l1 : (i + j) % m.length < m.length := Nat.mod_lt _ hn
    have l2 : (i + m.length - j) % m.length < m.length := Nat.mod_lt _ hn
    rw [palLoop, WF.at_ok l1, Out.ok_bind, WF.at_ok l2, Out.ok_bind]
    have e1 : (m.ch[(i + j) % m.length]).pos (posAt m.css p (i + j)) = posAt m.css p (i + j + 1) := by
      rw [← posAt_mod p (i + j), h.posAt_succ hp l1, ← posAt_mod p ((i + j) % m.length + 1),
        ← posAt_mod p (i + j + 1), Nat.mod_add_mod]
    have e2 : (m.ch[(i + m.length - j) % m.length]).pos (posAt m.css p (i + j)) =
        posAt m.css p (i + m.length - j) := by
      rw [hs, ← posAt_mod p (i + m.length - j), ← h.posAt_back hp l2,
        ← posAt_mod p ((i + m.length - j) % m.length + 1), Nat.mod_add_mod, posAt_mod]
      congr 2; omega
    rw [e1, e2]
    by_cases hx : posAt m.css p (i + j + 1) = posAt m.css p (i + m.length - j)
    · rw [if_neg (by simpa using hx)]
      have := ih (j + 1) (by omega) (by omega) (by
        rw [← Nat.add_assoc, hx]; congr 1; omega)
      rw [← Nat.add_assoc] at this
      rcases this with ⟨a, b⟩ | ⟨a, t, b, c, d⟩
      · left
        refine ⟨by rw [a]; congr 3; omega, fun t ht ht' => ?_⟩
        by_cases e : t = j
        · subst e; rw [← hx]; congr 1; omega
        · exact b t (by omega) (by omega)
      · right
        exact ⟨a, t, by omega, by omega, d⟩
    · rw [if_pos hx]
      right
      exact ⟨rfl, j, le_rfl, by omega, by rw [show i + 1 + j = i + j + 1 by omega]; exact hx⟩

theorem WF.isPalindromicAboutBell {m : Method} (h : m.WF) {p : Nat} (hp : follow m.css p = p) {i : Nat}
    (he : m.length % 2 = 0) (hi : i < m.length / 2) :
    ∃ b, isPalindromicAboutBellC m p i = .ok b ∧ (b = true ↔ PathMirror m.css p i) := by
  have hn : 0 < m.length := by omega
  have hi' : i < m.length := by omega
  have mirror : PathMirror m.css p i ↔ ∀ t, t ≤ m.length / 2 →
      posAt m.css p (i + 1 + t) = posAt m.css p (i + m.length - t) := by
    unfold PathMirror
    rw [css_length]
    constructor
    · intro hm t ht
      rw [← posAt_mod, ← posAt_mod p (i + m.length - t)]
      have l1 := Nat.mod_lt (i + 1 + t) hn
      have l2 := Nat.mod_lt (i + m.length - t) hn
      apply hm _ _ l1 l2
      rw [mod_two (by omega), mod_two (by omega)]
      split_ifs <;> omega
    · intro hm s t hs ht hst
      have key : ∀ s t, s < m.length → t < m.length → (s + t = 2 * i + 1 ∨ s + t = 2 * i + 1 + m.length) →
          i + 1 ≤ s → s ≤ i + 1 + m.length / 2 → posAt m.css p s = posAt m.css p t := by
        intro s t hs ht hst h1 h2
        have := hm (s - (i + 1)) (by omega)
        rw [show i + 1 + (s - (i + 1)) = s by omega] at this
        rw [this, ← posAt_mod]
        congr 1
        rw [mod_two (by omega)]
        split_ifs <;> omega
      by_cases h1 : i + 1 ≤ s ∧ s ≤ i + 1 + m.length / 2
      · exact key s t hs ht (by omega) h1.1 h1.2
      · exact (key t s ht hs (by omega) (by omega) (by omega)).symm
  unfold isPalindromicAboutBellC
  simp only
  rw [if_neg (by omega), h.traceC_eq (Nat.mod_lt _ hn).le]
  simp only [Out.ok_bind, WF.at_ok hi']
  have hb : path m p ((i + 1) % m.length) = posAt m.css p (i + 1) := by
    rw [← posAt_mod, posAt_lt p (Nat.mod_lt _ hn)]
  rw [hb, h.posAt_back hp hi', if_pos he]
  have hfin : i + m.length / 2 < m.length := by omega
  by_cases h0 : posAt m.css p i = posAt m.css p (i + 1)
  · rw [if_neg (by simpa using h0)]
    have hs : posAt m.css p (i + 1) = posAt m.css p (i + m.length + 1 - 1) := by
      rw [← h0, ← posAt_mod p (i + m.length + 1 - 1)]
      congr 1
      rw [show i + m.length + 1 - 1 = i + m.length by omega, Nat.add_mod_right, Nat.mod_eq_of_lt hi']
    rcases h.palLoop_spec hp hi' (m.length / 2 - 1) 1 (by omega) (by omega) hs with ⟨a, b⟩ | ⟨a, t, b, c, d⟩
    · rw [a]
      simp only [Out.ok_bind, WF.at_ok hfin, Out.pure_eq]
      refine ⟨_, rfl, ?_⟩
      rw [show i + 1 + (m.length / 2 - 1) = i + m.length / 2 by omega, h.posAt_succ hp hfin,
        decide_eq_true_eq, mirror]
      constructor
      · intro e t ht
        rcases Nat.eq_zero_or_pos t with rfl | h1
        · rw [Nat.add_zero, hs]; congr 1
        · by_cases h2 : t = m.length / 2
          · subst h2
            rw [show i + 1 + m.length / 2 = i + m.length / 2 + 1 by omega, e]
            congr 1; omega
          · exact b t (by omega) (by omega)
      · intro hm
        have := hm (m.length / 2) le_rfl
        rw [show i + 1 + m.length / 2 = i + m.length / 2 + 1 by omega] at this
        rw [this]; congr 1; omega
    · rw [a]
      refine ⟨false, rfl, ?_⟩
      simp only [Bool.false_eq_true, false_iff, mirror]
      intro hm
      exact d (hm t (by omega))
  · rw [if_pos h0]
    refine ⟨false, rfl, ?_⟩
    simp only [Bool.false_eq_true, false_iff, mirror]
    intro hm
    apply h0
    have := hm 0 (by omega)
    rw [Nat.add_zero] at this
    rw [this, ← posAt_mod p (i + m.length - 0)]
    congr 1
    rw [Nat.sub_zero, Nat.add_mod_right, Nat.mod_eq_of_lt hi']

theorem WF.symmetryPointBell {m : Method} (h : m.WF) {p : Nat} (hp : follow m.css p = p)
    (he : m.length % 2 = 0) :
    (symmetryPointBellC m p = .ok (-1) ∧ ∀ i, i < m.length / 2 → ¬ PathMirror m.css p i) ∨
    ∃ i : Nat, symmetryPointBellC m p = .ok (i : Int) ∧ i < m.length / 2 ∧ PathMirror m.css p i ∧
      ∀ j, j < i → ¬ PathMirror m.css p j := by
  unfold symmetryPointBellC
  rw [if_neg (by omega)]
  classical
  have := findN_ok (f := isPalindromicAboutBellC m p) (g := fun i => decide (PathMirror m.css p i))
    (k := m.length / 2) (lo := 0) (by
      intro i _ hi
      obtain ⟨b, h1, h2⟩ := h.isPalindromicAboutBell hp he (i := i) (by omega)
      rw [h1]; congr 1
      rw [Bool.eq_iff_iff, h2]; simp)
  rcases this with ⟨a, b⟩ | ⟨i, a, -, c, d, e⟩
  · left; exact ⟨a, fun i hi => by simpa using b i (by omega) (by omega)⟩
  · right
    exact ⟨i, a, by omega, by simpa using d, fun j hj => by simpa using e j (by omega) hj⟩

/-! ### Dodges -/

theorem take_css_append {m : Method} {k : Nat} (hk : k ≤ m.length) :
    (m.css ++ m.css.take 1).take k = m.css.take k := by
  rw [List.take_append_of_le_length (by simpa using hk)]

theorem WF.dodgeLoop_spec {m : Method} (h : m.WF) (hn : 0 < m.length) {p : Nat} (hp : p < 256) :
    ∀ (k i : Nat), i + k = m.length + 1 → ∀ j1, (i = 0 → j1 = 255) →
      (0 < i → j1 = follow ((m.css ++ m.css.take 1).take (i - 1)) p) →
    ∃ b, dodgeLoop m k i (follow ((m.css ++ m.css.take 1).take i) p) j1 = .ok b ∧ (b = true ↔
      ∃ t, i ≤ t + 1 ∧ t < m.length ∧
        follow ((m.css ++ m.css.take 1).take (t + 2)) p = follow ((m.css ++ m.css.take 1).take t) p ∧
        follow ((m.css ++ m.css.take 1).take (t + 1)) p ≠ follow ((m.css ++ m.css.take 1).take t) p) := by
  set q := m.css ++ m.css.take 1 with hq
  have hql : q.length = m.length + 1 := by
    rw [hq, List.length_append, List.length_take, css_length]; omega
  have lt : ∀ i, follow (q.take i) p < 256 := by
    have : ∀ (l : List (List Nat)), (∀ ss ∈ l, ss ∈ m.css) → ∀ p, p < 256 → follow l p < 256 := by
      intro l
      induction l with
      | nil => intro _ p hp; exact hp
      | cons ss l ih =>
        intro hl p hp
        obtain ⟨c, hc, rfl⟩ := List.mem_map.1 (hl ss (by simp))
        exact ih (fun d hd => hl d (by simp [hd])) _ (moveTo_lt_256 (h.wf c hc) hp)
    intro i
    apply this _ _ p hp
    intro ss hs
    have := List.mem_of_mem_take hs
    rcases List.mem_append.1 this with h1 | h1
    · exact h1
    · exact List.mem_of_mem_take h1
  intro k
  induction k with
  | zero =>
    intro i hi j1 _ _
    refine ⟨false, rfl, ?_⟩
    simp only [Bool.false_eq_true, false_iff]
    rintro ⟨t, a, b, -⟩; omega
  | succ k ih =>
    intro i hi j1 hj0 hj1
    have hil : i % m.length < m.length := Nat.mod_lt _ hn
    have hc : (m.ch[i % m.length]).pos (follow (q.take i) p) = follow (q.take (i + 1)) p := by
      have hi2 : i < q.length := by omega
      rw [follow_take_succ hi2, (h.wf _ (List.getElem_mem hil)).pos_eq]
      have e : q[i] = (m.ch[i % m.length]).swaps := by
        by_cases h1 : i < m.length
        · have e2 : i % m.length = i := Nat.mod_eq_of_lt h1
          simp only [hq, e2]
          rw [List.getElem_append_left (by simpa using h1)]
          simp [css]
        · have e1 : i = m.length := by omega
          have e2 : i % m.length = 0 := by rw [e1, Nat.mod_self]
          simp only [hq, e2]
          rw [List.getElem_append_right (by rw [css_length]; omega)]
          simp [css, e1]
      rw [e]
    rw [dodgeLoop, if_neg (by omega), WF.at_ok hil]
    simp only [Out.ok_bind, hc]
    by_cases hx : follow (q.take (i + 1)) p = j1 ∧ follow (q.take (i + 1)) p ≠ follow (q.take i) p
    · rw [if_pos hx]
      refine ⟨true, rfl, ?_⟩
      simp only [true_iff]
      rcases Nat.eq_zero_or_pos i with h0 | h0
      · exfalso
        have h1 := hj0 h0
        have h2 := hx.1
        rw [h1] at h2
        apply hx.2
        subst h0
        -- a bell in position 255 does not move
        have hc' := hc
        rw [h2] at hc'
        have hcw := h.wf _ (List.getElem_mem hil)
        have h3 : (m.ch[0 % m.length]).pos 255 = follow (q.take 0) p := by
          rw [← hc', hcw.pos_pos]
        rw [hcw.pos_of_ge hcw.1] at h3
        rw [h2, h3]
      · obtain ⟨i, rfl⟩ : ∃ i', i = i' + 1 := ⟨i - 1, by omega⟩
        refine ⟨i, by omega, by omega, ?_, ?_⟩
        · rw [hx.1, hj1 h0]; congr 2
        · intro e
          apply hx.2
          rw [hx.1, hj1 h0, e]; congr 2
    · rw [if_neg hx]
      obtain ⟨b, h1, h2⟩ := ih (i + 1) (by omega) (follow (q.take i) p) (by omega) (by intro; rfl)
      refine ⟨b, h1, h2.trans ⟨?_, ?_⟩⟩
      · rintro ⟨t, a, b⟩; exact ⟨t, by omega, b⟩
      · rintro ⟨t, a, b, c, d⟩
        by_cases e : i = t + 1
        · exfalso; apply hx
          subst e
          have h3 := hj1 (by omega)
          rw [h3]
          refine ⟨by rw [c]; congr 2, ?_⟩
          intro e2; apply d; rw [← e2, c]
        · exact ⟨t, by omega, b, c, d⟩

theorem WF.hasdodges_spec {m : Method} (h : m.WF) (hn : 0 < m.length) {p : Nat} (hp : p < 256) :
    ∃ b, hasdodgesC m p = .ok b ∧ (b = true ↔ Dodges m.css p) := by
  obtain ⟨b, h1, h2⟩ := h.dodgeLoop_spec hn hp (m.length + 1) 0 (by omega) 255 (fun _ => rfl) (by omega)
  refine ⟨b, h1, h2.trans ?_⟩
  unfold Dodges
  rw [css_length]
  refine exists_congr fun t => ?_
  constructor
  · rintro ⟨-, a, b, c⟩
    rw [take_css_append (k := t) (by omega)] at b c
    rw [take_css_append (k := t + 1) (by omega)] at c
    exact ⟨a, b, c⟩
  · rintro ⟨a, b, c⟩
    rw [take_css_append (k := t) (by omega), take_css_append (k := t + 1) (by omega)]
    exact ⟨by omega, a, b, c⟩

theorem WF.anyDodges_spec {m : Method} (h : m.WF) (hn : 0 < m.length) : ∀ (k i : Nat), i + k ≤ 256 →
    ∃ b, anyDodges m k i = .ok b ∧ (b = true ↔ ∃ p, i ≤ p ∧ p < i + k ∧ Dodges m.css p) := by
  intro k
  induction k with
  | zero => intro i _; exact ⟨false, rfl, by simp; intro x a b; omega⟩
  | succ k ih =>
    intro i hi
    obtain ⟨d, h1, h2⟩ := h.hasdodges_spec hn (show i < 256 by omega)
    rw [anyDodges, h1, Out.ok_bind]
    cases d with
    | true => exact ⟨true, rfl, by simp only [true_iff]; exact ⟨i, le_rfl, by omega, h2.1 rfl⟩⟩
    | false =>
      obtain ⟨b, h3, h4⟩ := ih (i + 1) (by omega)
      refine ⟨b, h3, h4.trans ⟨?_, ?_⟩⟩
      · rintro ⟨p, a, b, c⟩; exact ⟨p, by omega, by omega, c⟩
      · rintro ⟨p, a, b, c⟩
        refine ⟨p, ?_, by omega, c⟩
        by_cases e : p = i
        · subst e; exact absurd (h2.2 c) (by simp)
        · omega

end Method
end Ringing
