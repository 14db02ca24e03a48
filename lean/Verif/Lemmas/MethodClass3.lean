import Verif.Lemmas.MethodClass2
/-! Lemmas for `methclass`: the range of the treble, its blows, the section ends. -/
namespace Ringing
open Spec Row
namespace Method

theorem WF.trebleRange_spec {m : Method} (h : m.WF) (p : Nat) : ∀ k, k ≤ m.length →
    ∃ lo hi, trebleRange (m.ch.take k) p = (path m p k, lo, hi) ∧
      (∃ j, j ≤ k ∧ path m p j = lo) ∧ (∃ j, j ≤ k ∧ path m p j = hi) ∧
      ∀ j, j ≤ k → lo ≤ path m p j ∧ path m p j ≤ hi := by
  intro k
  induction k with
  | zero =>
    intro _
    exact ⟨p, p, rfl, ⟨0, le_rfl, rfl⟩, ⟨0, le_rfl, rfl⟩, fun j hj => by
      have : j = 0 := by omega
      subst this; exact ⟨le_rfl, le_rfl⟩⟩
  | succ k ih =>
    intro hk
    obtain ⟨lo, hi, h1, ⟨a, ha, ha'⟩, ⟨b, hb, hb'⟩, h4⟩ := ih (by omega)
    have hk' : k < m.ch.length := by show k < m.length; omega
    have e : trebleRange (m.ch.take (k + 1)) p =
        (path m p (k + 1), if path m p (k + 1) < lo then path m p (k + 1) else lo,
          if path m p (k + 1) > hi then path m p (k + 1) else hi) := by
      unfold trebleRange at h1 ⊢
      rw [← List.take_append_getElem hk', List.foldl_append, h1]
      simp only [List.foldl_cons, List.foldl_nil]
      rw [h.path_succ (by omega)]
    refine ⟨_, _, e, ?_, ?_, ?_⟩
    · split_ifs
      · exact ⟨k + 1, le_rfl, rfl⟩
      · exact ⟨a, by omega, ha'⟩
    · split_ifs
      · exact ⟨k + 1, le_rfl, rfl⟩
      · exact ⟨b, by omega, hb'⟩
    · intro j hj
      by_cases e : j = k + 1
      · subst e
        constructor <;> split_ifs <;> omega
      · have := h4 j (by omega)
        constructor <;> split_ifs <;> omega

theorem WF.trebleRange_full {m : Method} (h : m.WF) (p : Nat) :
    ∃ lo hi, trebleRange m.ch p = (follow m.css p, lo, hi) ∧ PathRange m.css p lo hi := by
  obtain ⟨lo, hi, h1, h2, h3, h4⟩ := h.trebleRange_spec p m.length le_rfl
  rw [path_length, show m.ch.take m.length = m.ch from List.take_of_length_le le_rfl] at h1
  refine ⟨lo, hi, h1, ?_⟩
  unfold PathRange
  rw [css_length]
  exact ⟨h2, h3, h4⟩

theorem pathRange_unique {css : List (List Nat)} {p lo hi lo' hi' : Nat} (h : PathRange css p lo hi)
    (h' : PathRange css p lo' hi') : lo = lo' ∧ hi = hi' := by
  obtain ⟨⟨a, ha, ha'⟩, ⟨b, hb, hb'⟩, hc⟩ := h
  obtain ⟨⟨a2, ha2, ha2'⟩, ⟨b2, hb2, hb2'⟩, hc2⟩ := h'
  have := hc a2 ha2; have := hc b2 hb2; have := hc2 a ha; have := hc2 b hb
  omega

theorem WF.path_lip {m : Method} (h : m.WF) (p a : Nat) : ∀ d, a + d ≤ m.length →
    path m p (a + d) ≤ path m p a + d ∧ path m p a ≤ path m p (a + d) + d := by
  intro d
  induction d with
  | zero => intro _; exact ⟨le_rfl, le_rfl⟩
  | succ d ih =>
    intro hd
    have h1 := ih (by omega)
    have h2 := h.path_step (k := a + d) (by omega) p
    rw [show a + (d + 1) = a + d + 1 by omega]
    omega

theorem WF.range_le {m : Method} (h : m.WF) {p : Nat} (hp : follow m.css p = p) {lo hi : Nat}
    (hr : PathRange m.css p lo hi) : lo ≤ hi ∧ 2 * (hi - lo) ≤ m.length := by
  obtain ⟨⟨a, ha, ha'⟩, ⟨b, hb, hb'⟩, hc⟩ := hr
  rw [css_length] at ha hb hc
  have h0 : path m p m.length = path m p 0 := by rw [path_length, hp]; rfl
  have e1 := h.path_lip p 0 a (by omega)
  have e2 := h.path_lip p 0 b (by omega)
  have e3 := h.path_lip p a (m.length - a) (by omega)
  have e4 := h.path_lip p b (m.length - b) (by omega)
  rw [Nat.zero_add] at e1 e2
  rw [show a + (m.length - a) = m.length by omega] at e3
  rw [show b + (m.length - b) = m.length by omega] at e4
  have hla := hc b hb
  change path m p a = lo at ha'
  change path m p b = hi at hb'
  rcases Nat.le_total a b with hab | hab
  · have e5 := h.path_lip p a (b - a) (by omega)
    rw [show a + (b - a) = b by omega] at e5
    have := hc a ha
    omega
  · have e5 := h.path_lip p b (a - b) (by omega)
    rw [show b + (a - b) = a by omega] at e5
    have := hc a ha
    omega

/-! ### Counting blows -/

/-- The number of blows in `x` in the first `t` rows after change `i`. -/
def cnt (m : Method) (p i t x : Nat) : Nat :=
  ((List.range t).filter fun s => posAt m.css p (i + 1 + s) = x).length

theorem cnt_succ (m : Method) (p i t x : Nat) :
    cnt m p i (t + 1) x = cnt m p i t x + if posAt m.css p (i + 1 + t) = x then 1 else 0 := by
  unfold cnt
  rw [List.range_succ, List.filter_append, List.length_append]
  by_cases h : posAt m.css p (i + 1 + t) = x <;> simp [h]

/-- The counts after `t` rows. -/
def counts (m : Method) (p i lo hi t : Nat) : List Nat :=
  (List.range (hi - lo + 1)).map fun x => cnt m p i t (lo + x) % 256

theorem bump_counts {m : Method} {p i lo hi t : Nat} (h1 : lo ≤ posAt m.css p (i + 1 + t))
    (h2 : posAt m.css p (i + 1 + t) ≤ hi) :
    bump (counts m p i lo hi t) (posAt m.css p (i + 1 + t) - lo) = .ok (counts m p i lo hi (t + 1)) := by
  unfold bump
  set x := posAt m.css p (i + 1 + t) with hx
  have hl : x - lo < (counts m p i lo hi t).length := by simp [counts]; omega
  rw [vget_ok hl, Out.ok_bind, vset_ok _ hl]
  congr 1
  apply List.ext_getElem
  · simp [counts]
  · intro y hy1 hy2
    rw [List.getElem_set]
    simp only [counts, List.getElem_map, List.getElem_range]
    rw [cnt_succ, ← hx]
    by_cases e : x - lo = y
    · rw [if_pos e, if_pos (by omega), show lo + (x - lo) = lo + y by omega]
      omega
    · rw [if_neg e, if_neg (by omega), Nat.add_zero]

theorem posAt_range {m : Method} (hn : 0 < m.length) {p lo hi : Nat} (hr : PathRange m.css p lo hi) (k : Nat) :
    lo ≤ posAt m.css p k ∧ posAt m.css p k ≤ hi := by
  rw [← posAt_mod, posAt_lt p (Nat.mod_lt _ hn)]
  exact hr.2.2 _ (by rw [css_length]; exact (Nat.mod_lt _ hn).le)

theorem WF.countLoop_spec {m : Method} (h : m.WF) (hn : 0 < m.length) {p lo hi : Nat}
    (hp : follow m.css p = p) (hr : PathRange m.css p lo hi) (i : Nat) : ∀ (k t : Nat) (pl : Bool),
    (pl = true ↔ ∃ s, s < t ∧ posAt m.css p (i + 1 + s) = posAt m.css p (i + 2 + s)) →
    ∃ pl', countLoop m lo k (i + 1 + t) (counts m p i lo hi t) (posAt m.css p (i + 1 + t)) pl =
      .ok (counts m p i lo hi (t + k), posAt m.css p (i + 1 + t + k), pl') ∧
      (pl' = true ↔ ∃ s, s < t + k ∧ posAt m.css p (i + 1 + s) = posAt m.css p (i + 2 + s)) := by
  intro k
  induction k with
  | zero => intro t pl hpl; exact ⟨pl, rfl, hpl⟩
  | succ k ih =>
    intro t pl hpl
    have hl : (i + 1 + t) % m.length < m.length := Nat.mod_lt _ hn
    obtain ⟨a, b⟩ := posAt_range hn hr (i + 1 + t)
    rw [countLoop, bump_counts a b, Out.ok_bind, WF.at_ok hl, Out.ok_bind]
    have e1 : (m.ch[(i + 1 + t) % m.length]).pos (posAt m.css p (i + 1 + t)) =
        posAt m.css p (i + 1 + (t + 1)) := by
      rw [← posAt_mod p (i + 1 + t), h.posAt_succ hp hl, ← posAt_mod p ((i + 1 + t) % m.length + 1),
        Nat.mod_add_mod, posAt_mod]; congr 1
    rw [e1]
    obtain ⟨pl', h1, h2⟩ := ih (t + 1) (if posAt m.css p (i + 1 + (t + 1)) = posAt m.css p (i + 1 + t) then true else pl) (by
      have e : i + 1 + (t + 1) = i + 2 + t := by omega
      rw [e]
      by_cases hx : posAt m.css p (i + 2 + t) = posAt m.css p (i + 1 + t)
      · rw [if_pos hx]; simp only [true_iff]; exact ⟨t, by omega, hx.symm⟩
      · rw [if_neg hx, hpl]
        constructor
        · rintro ⟨s, c, d⟩; exact ⟨s, by omega, d⟩
        · rintro ⟨s, c, d⟩
          refine ⟨s, ?_, d⟩
          by_cases es : s = t
          · subst es; exact absurd d.symm hx
          · omega)
    refine ⟨pl', ?_, ?_⟩
    · rw [show i + 1 + t + 1 = i + 1 + (t + 1) by omega, h1]
      congr 2
      · congr 1; omega
      · congr 2; omega
    · rw [h2]
      refine exists_congr fun s => ?_
      rw [show t + 1 + k = t + (k + 1) by omega]

theorem allEqual_counts {m : Method} {p i lo hi t : Nat} (hlh : lo ≤ hi) :
    allEqual (counts m p i lo hi t) (hi - lo) = true ↔
      ∀ x y, lo ≤ x → x ≤ hi → lo ≤ y → y ≤ hi → cnt m p i t x % 256 = cnt m p i t y % 256 := by
  have get : ∀ x, x ≤ hi - lo → (counts m p i lo hi t).getD x 0 = cnt m p i t (lo + x) % 256 := by
    intro x hx
    have hl : x < (counts m p i lo hi t).length := by simp [counts]; omega
    rw [List.getD_eq_getElem?_getD, List.getElem?_eq_getElem hl]
    simp [counts]
  unfold allEqual
  rw [List.all_eq_true]
  constructor
  · intro h
    have key : ∀ d, d ≤ hi - lo → cnt m p i t (lo + d) % 256 = cnt m p i t lo % 256 := by
      intro d
      induction d with
      | zero => intro _; rfl
      | succ d ih =>
        intro hd
        have := h d (List.mem_range.2 (by omega))
        rw [decide_eq_true_eq, get _ (by omega), get _ (by omega)] at this
        rw [this, ih (by omega)]
    intro x y h1 h2 h3 h4
    have a := key (x - lo) (by omega)
    have b := key (y - lo) (by omega)
    rw [show lo + (x - lo) = x by omega] at a
    rw [show lo + (y - lo) = y by omega] at b
    rw [a, b]
  · intro h x hx
    have := List.mem_range.1 hx
    rw [decide_eq_true_eq, get _ (by omega), get _ (by omega)]
    exact h _ _ (by omega) (by omega) (by omega) (by omega)

/-! ### Section ends -/

theorem sectionLoop_spec {m : Method} {step : Nat} (hs : 0 < step) : ∀ (fuel i : Nat) (y n : Bool),
    0 < fuel → m.length / 2 < fuel + i → ∃ y' n', sectionLoop m step fuel i y n = .ok (y', n') ∧
      (y' = true ↔ y = true ∨ ∃ t c, (m.ch[i + t * step]? = some c ∨ m.ch[m.length - (i + t * step) - 2]? = some c) ∧
        i + t * step + 1 < m.length / 2 ∧ c.internal = true) ∧
      (n' = true ↔ n = true ∨ ∃ t c, (m.ch[i + t * step]? = some c ∨ m.ch[m.length - (i + t * step) - 2]? = some c) ∧
        i + t * step + 1 < m.length / 2 ∧ c.internal = false) := by
  intro fuel
  induction fuel with
  | zero =>
    intro i y n hi
    exact absurd hi (by omega)
  | succ fuel ih =>
    intro i y n _ hi
    rw [sectionLoop]
    by_cases hlt : i + 1 < m.length / 2
    · have l1 : i < m.length := by omega
      have l2 : m.length - i - 2 < m.length := by omega
      have g1 : m.ch[i]? = some m.ch[i] := List.getElem?_eq_getElem l1
      have g2 : m.ch[m.length - i - 2]? = some m.ch[m.length - i - 2] := List.getElem?_eq_getElem l2
      rw [if_pos hlt, WF.at_ok l1, Out.ok_bind, WF.at_ok l2, Out.ok_bind]
      obtain ⟨y', n', h1, h2, h3⟩ := ih (i + step) (y || (m.ch[i]).internal || (m.ch[m.length - i - 2]).internal)
        (n || !(m.ch[i]).internal || !(m.ch[m.length - i - 2]).internal) (by omega) (by omega)
      refine ⟨y', n', h1, h2.trans ?_, h3.trans ?_⟩
      · simp only [Bool.or_eq_true]
        constructor
        · rintro (((a | a) | a) | ⟨t, c, a, b, d⟩)
          · left; exact a
          · right; exact ⟨0, _, .inl (by rw [Nat.zero_mul, Nat.add_zero]; exact g1), by omega, a⟩
          · right; exact ⟨0, _, .inr (by rw [Nat.zero_mul, Nat.add_zero]; exact g2), by omega, a⟩
          · right
            refine ⟨t + 1, c, ?_, by rw [Nat.succ_mul]; omega, d⟩
            rw [Nat.succ_mul, show i + (t * step + step) = i + step + t * step by omega]; exact a
        · rintro (a | ⟨t, c, a, b, d⟩)
          · left; left; left; exact a
          · cases t with
            | zero =>
              rw [Nat.zero_mul, Nat.add_zero, g1, g2] at a
              rcases a with a | a
              · cases a; left; left; right; exact d
              · cases a; left; right; exact d
            | succ t =>
              right
              rw [Nat.succ_mul, show i + (t * step + step) = i + step + t * step by omega] at a b
              exact ⟨t, c, a, b, d⟩
      · simp only [Bool.or_eq_true, Bool.not_eq_true']
        constructor
        · rintro (((a | a) | a) | ⟨t, c, a, b, d⟩)
          · left; exact a
          · right; exact ⟨0, _, .inl (by rw [Nat.zero_mul, Nat.add_zero]; exact g1), by omega, a⟩
          · right; exact ⟨0, _, .inr (by rw [Nat.zero_mul, Nat.add_zero]; exact g2), by omega, a⟩
          · right
            refine ⟨t + 1, c, ?_, by rw [Nat.succ_mul]; omega, d⟩
            rw [Nat.succ_mul, show i + (t * step + step) = i + step + t * step by omega]; exact a
        · rintro (a | ⟨t, c, a, b, d⟩)
          · left; left; left; exact a
          · cases t with
            | zero =>
              rw [Nat.zero_mul, Nat.add_zero, g1, g2] at a
              rcases a with a | a
              · cases a; left; left; right; exact d
              · cases a; left; right; exact d
            | succ t =>
              right
              rw [Nat.succ_mul, show i + (t * step + step) = i + step + t * step by omega] at a b
              exact ⟨t, c, a, b, d⟩
    · rw [if_neg hlt]
      refine ⟨y, n, rfl, ?_, ?_⟩
      · constructor
        · intro a; left; exact a
        · rintro (a | ⟨t, c, a, b, d⟩)
          · exact a
          · omega
      · constructor
        · intro a; left; exact a
        · rintro (a | ⟨t, c, a, b, d⟩)
          · exact a
          · omega

end Method
end Ringing
