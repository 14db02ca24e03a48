import Verif.Lemmas.MethodUtils

/-! C76: the symmetries of a method reported by methsearch. -/
namespace Ringing
open Spec Row MethodUtils

/-- A method for examples: Plain Bob Minimus, x14x14x14x12. -/
def exBob : Method :=
  ⟨4, [⟨4, [0, 2]⟩, ⟨4, [1]⟩, ⟨4, [0, 2]⟩, ⟨4, [1]⟩, ⟨4, [0, 2]⟩, ⟨4, [1]⟩, ⟨4, [0, 2]⟩, ⟨4, [2]⟩]⟩

theorem exBob_ok : exBob.b ≤ 255 ∧ ∀ c ∈ exBob.ch, IsChange c.n c.swaps ∧ c.n = exBob.b := by
  have : exBob.WF := by decide +kernel
  exact this

/-- C76: `has_conventional_symmetry` holds exactly when the method has changes and, rung round and
round, reads the same forwards and backwards from some change. -/
theorem C76_conventional {m : Method} (hm : ∀ c ∈ m.ch, IsChange c.n c.swaps ∧ c.n = m.b) :
    ∃ r, hasConventionalC m = .ok r ∧
      (r = true ↔ m.ch ≠ [] ∧ Palindromic (m.ch.map Change.swaps)) := by
  by_cases hne : m.ch = []
  · refine ⟨false, ?_, by simp [hne]⟩
    unfold hasConventionalC Method.length
    rw [hne]; rfl
  have hl : 0 < m.ch.length := List.length_pos_iff.2 hne
  set css := m.ch.map Change.swaps with hcss
  have hlen : css.length = m.ch.length := by rw [hcss, List.length_map]
  have hcne : css ≠ [] := by rw [hcss]; simpa using hne
  obtain ⟨b, h1, h2⟩ := anyUp_dec (lo := 0) (hi := if m.length % 2 = 0 then m.length / 2 else m.length)
    (f := fun i => allUp 1 (if m.length % 2 = 0 then m.length / 2 else m.length / 2 + 1) fun j => do
      let c ← atMod m (i + j)
      let d ← atMod m (i + m.length - j)
      pure (Change.eq c d))
    (P := fun i => ∀ j : Int, around css ((i : Int) + j) = around css (i - j))
    (by
      intro i _ hi
      obtain ⟨b, e1, e2⟩ := allUp_dec (lo := 1)
        (hi := if m.length % 2 = 0 then m.length / 2 else m.length / 2 + 1)
        (f := fun j => do
          let c ← atMod m (i + j)
          let d ← atMod m (i + m.length - j)
          pure (Change.eq c d))
        (P := fun j => around css ((i : Int) + (j : Int)) = around css ((i : Int) - (j : Int)))
        (by
          intro j _ hj
          have hj' : j ≤ m.ch.length := by
            have : m.length = m.ch.length := rfl
            split at hj <;> omega
          obtain ⟨c, a1, a2, a3⟩ := atMod_ok hne (i + j)
          obtain ⟨d, b1, b2, b3⟩ := atMod_ok hne (i + m.length - j)
          refine ⟨Change.eq c d, by rw [a1, b1]; rfl, ?_⟩
          rw [change_eq_iff (hm c a2).1 (hm d b2).1 ((hm c a2).2.trans (hm d b2).2.symm), a3, b3, ← hcss]
          have hx : i + m.length - j = css.length + i - j := by
            rw [hlen]; show i + m.ch.length - j = _; omega
          rw [hx, around_nat_sub css (by omega), Nat.cast_add])
      refine ⟨b, e1, e2.trans ?_⟩
      rw [about_change hcne (R := fun a b => a = b) (fun a b h => h.symm) (i : Int)]
      have hml : m.length = css.length := hlen.symm
      constructor
      · intro h j hj
        by_cases h0 : j = 0
        · subst h0; simp
        by_cases hlast : css.length % 2 = 0 ∧ j = css.length / 2
        · apply around_congr css 1
          have : css.length = 2 * j := by omega
          rw [this]; push_cast; ring
        · apply h j (by omega)
          rw [hml]; split
          · have : j ≠ css.length / 2 := fun h => hlast ⟨by assumption, h⟩
            omega
          · omega
      · intro h j h3 h4
        refine h j ?_
        rw [hml] at h4
        split at h4 <;> omega)
  refine ⟨b, h1, h2.trans ?_⟩
  constructor
  · rintro ⟨i, -, -, h⟩; exact ⟨hne, i, h⟩
  · rintro ⟨-, i, h⟩
    have hml : m.length = css.length := hlen.symm
    -- a symmetry point in `[0, n)`
    have e1 := Int.emod_nonneg i (b := (css.length : Int)) (by omega)
    have e2 := Int.emod_lt_of_pos i (b := (css.length : Int)) (by omega)
    have e3 := Int.emod_add_mul_ediv i (css.length : Int)
    generalize i / (css.length : Int) = q at e3
    generalize i % (css.length : Int) = k at e1 e2 e3
    obtain ⟨k, rfl⟩ := Int.eq_ofNat_of_zero_le e1
    have hk : ∀ j : Int, around css ((k : Int) + j) = around css (k - j) := by
      intro j
      have := h j
      rwa [around_congr css (j := i + j) (k := k + j) q (by rw [← e3]; ring),
        around_congr css (j := i - j) (k := k - j) q (by rw [← e3]; ring)] at this
    by_cases hin : k < (if m.length % 2 = 0 then m.length / 2 else m.length)
    · exact ⟨k, by omega, hin, hk⟩
    · rw [hml] at hin ⊢
      have hev : css.length % 2 = 0 := by
        by_contra hc
        rw [if_neg hc] at hin; omega
      rw [if_pos hev] at hin ⊢
      refine ⟨k - css.length / 2, by omega, by omega, fun j => ?_⟩
      have := hk (j - (css.length / 2 : Nat))
      rw [show ((k - css.length / 2 : Nat) : Int) + j = k + (j - (css.length / 2 : Nat)) by
        rw [Nat.cast_sub (by omega)]; ring, this]
      apply around_congr css 1
      rw [Nat.cast_sub (by omega)]
      have : (css.length : Int) = 2 * (css.length / 2 : Nat) := by omega
      generalize (css.length / 2 : Nat) = h at *
      rw [this]; ring

/-- The hypotheses are met by Plain Bob Minimus, which is palindromic. -/
example : hasConventionalC exBob = .ok true := by decide +kernel

/-- C76: `has_mirror_symmetry` holds exactly when the method reads the same upside down. -/
theorem C76_mirror {m : Method} (hm : ∀ c ∈ m.ch, IsChange c.n c.swaps ∧ c.n = m.b) :
    ∃ r, hasMirrorC m = .ok r ∧
      (r = true ↔ m.ch = [] ∨ MirrorSym m.b (m.ch.map Change.swaps)) := by
  have hlen : (m.ch.map Change.swaps).length = m.ch.length := List.length_map ..
  obtain ⟨b, h1, h2⟩ := allUp_dec (lo := 0) (hi := m.length)
    (f := fun i => do
      let c ← m.at' i
      pure (Change.eq c c.reverse))
    (P := fun i => UpsideDown m.b (around (m.ch.map Change.swaps) i) (around (m.ch.map Change.swaps) i))
    (by
      intro i _ hi
      obtain ⟨c, a1, a2, a3⟩ := at_around (m := m) hi
      refine ⟨Change.eq c c.reverse, by rw [a1]; rfl, ?_⟩
      rw [change_eq_reverse_iff (hm c a2).1 (hm c a2).1 (hm c a2).2 (hm c a2).2, a3])
  refine ⟨b, h1, h2.trans ?_⟩
  constructor
  · intro h
    by_cases hne : m.ch = []
    · exact Or.inl hne
    · right
      have hl : 0 < m.ch.length := List.length_pos_iff.2 hne
      intro j
      have e1 := Int.emod_nonneg j (b := (m.ch.length : Int)) (by omega)
      have e2 := Int.emod_lt_of_pos j (b := (m.ch.length : Int)) (by omega)
      have := h (j % (m.ch.length : Int)).toNat (by omega) (by show _ < m.ch.length; omega)
      rwa [Int.toNat_of_nonneg e1, ← hlen, around_emod] at this
  · rintro (h | h) i _ hi
    · exact absurd hi (by show ¬ i < m.ch.length; rw [h]; simp)
    · exact h i

example : hasMirrorC ⟨4, [⟨4, [0, 2]⟩, ⟨4, [1]⟩]⟩ = .ok true ∧ hasMirrorC exBob = .ok false := by
  decide +kernel

/-- C76: `has_glide_symmetry` holds exactly when the length is even and the second half of the lead
is the first half upside down. -/
theorem C76_glide {m : Method} (hm : ∀ c ∈ m.ch, IsChange c.n c.swaps ∧ c.n = m.b) :
    ∃ r, hasGlideC m = .ok r ∧
      (r = true ↔ m.ch = [] ∨ GlideSym m.b (m.ch.map Change.swaps)) := by
  have hlen : (m.ch.map Change.swaps).length = m.ch.length := List.length_map ..
  have hml : m.length = m.ch.length := rfl
  set css := m.ch.map Change.swaps with hcss
  unfold hasGlideC
  by_cases ho : m.length % 2 = 1
  · simp only [if_pos ho]
    refine ⟨false, rfl, ?_⟩
    simp only [Bool.false_eq_true, false_iff, not_or]
    refine ⟨?_, ?_⟩
    · intro h; rw [hml, h] at ho; cases ho
    · rintro ⟨h, -⟩; omega
  simp only [if_neg ho]
  obtain ⟨b, h1, h2⟩ := allUp_dec (lo := 0) (hi := m.length / 2)
    (f := fun i => do
      let c ← m.at' i
      let d ← atMod m (i + m.length / 2)
      pure (Change.eq c d.reverse))
    (P := fun i => UpsideDown m.b (around css i) (around css (i + (css.length / 2 : Nat))))
    (by
      intro i _ hi
      obtain ⟨c, a1, a2, a3⟩ := at_around (m := m) (i := i) (by omega)
      obtain ⟨d, b1, b2, b3⟩ := atMod_ok (m := m) (by intro h; rw [hml, h] at hi; simp at hi) (i + m.length / 2)
      refine ⟨Change.eq c d.reverse, by rw [a1, b1]; rfl, ?_⟩
      rw [change_eq_reverse_iff (hm c a2).1 (hm d b2).1 (hm c a2).2 (hm d b2).2, a3, b3, ← hcss, hml, ← hlen,
        Nat.cast_add])
  refine ⟨b, h1, h2.trans ?_⟩
  constructor
  · intro h
    by_cases hne : m.ch = []
    · exact Or.inl hne
    · right
      have hl : 0 < m.ch.length := List.length_pos_iff.2 hne
      refine ⟨by omega, fun j => ?_⟩
      have e1 := Int.emod_nonneg j (b := (css.length : Int)) (by omega)
      have e2 := Int.emod_lt_of_pos j (b := (css.length : Int)) (by omega)
      have e3 := Int.emod_add_mul_ediv j (css.length : Int)
      generalize j / (css.length : Int) = q at e3
      generalize j % (css.length : Int) = k at e1 e2 e3
      obtain ⟨k, rfl⟩ := Int.eq_ofNat_of_zero_le e1
      have hev : (css.length : Int) = 2 * (css.length / 2 : Nat) := by omega
      by_cases hk : k < css.length / 2
      · have := h k (by omega) (by omega)
        rwa [around_congr css (j := j) (k := k) q (by rw [← e3]; ring),
          around_congr css (j := j + (css.length / 2 : Nat)) (k := k + (css.length / 2 : Nat)) q (by rw [← e3]; ring)]
      · have := upsideDown_symm (h (k - css.length / 2) (by omega) (by omega))
        rw [Nat.cast_sub (by omega)] at this
        rw [around_congr css (j := j) (k := k - (css.length / 2 : Nat) + (css.length / 2 : Nat)) q (by rw [← e3]; ring),
          around_congr css (j := j + (css.length / 2 : Nat)) (k := k - (css.length / 2 : Nat)) (q + 1) ?_]
        · exact this
        · rw [← e3]
          generalize (css.length / 2 : Nat) = t at *
          rw [hev]; ring
  · rintro (h | ⟨-, h⟩) i _ hi
    · exact absurd hi (by rw [hml, h]; simp)
    · exact h i

/-- Double Bob Minimus has glide symmetry, Plain Bob has not. -/
example : hasGlideC ⟨4, [⟨4, [0, 2]⟩, ⟨4, [1]⟩, ⟨4, [0, 2]⟩, ⟨4, [0]⟩, ⟨4, [0, 2]⟩, ⟨4, [1]⟩, ⟨4, [0, 2]⟩, ⟨4, [2]⟩]⟩
    = .ok true ∧ hasGlideC exBob = .ok false := by decide +kernel

/-- The two searches of `has_rotational_symmetry`. -/
theorem hasRotational_spec {m : Method} (hm : ∀ c ∈ m.ch, IsChange c.n c.swaps ∧ c.n = m.b)
    (hne : m.ch ≠ []) :
    ∃ r, hasRotationalC m = .ok r ∧
      (r = true ↔ (∃ i : Nat, i < m.ch.length / 2 + 1 ∧ ∀ j : Int, UpsideDown m.b
          (around (m.ch.map Change.swaps) (i + j)) (around (m.ch.map Change.swaps) (i - j))) ∨
        ∃ i : Nat, i < m.ch.length / 2 + 1 ∧ ∀ j : Int, ¬ ((m.ch.length : Int) ∣ 2 * j + 1) → UpsideDown m.b
          (around (m.ch.map Change.swaps) (i + j + 1)) (around (m.ch.map Change.swaps) (i - j))) := by
  have hlen : (m.ch.map Change.swaps).length = m.ch.length := List.length_map ..
  have hml : m.length = m.ch.length := rfl
  set css := m.ch.map Change.swaps with hcss
  have hcne : css ≠ [] := by rw [hcss]; simpa using hne
  have rot : ∀ d hi i, hi ≤ m.ch.length / 2 + 1 → ∃ b, rotAbout m d hi i = .ok b ∧
      (b = true ↔ ∀ j : Nat, j < hi → UpsideDown m.b (around css (i + j + d)) (around css (i - j))) := by
    intro d hi i hle
    obtain ⟨b, e1, e2⟩ := allUp_dec (lo := 0) (hi := hi)
      (f := fun j => do
        let c ← atMod m (i + j + d)
        let e ← atMod m (m.length + i - j)
        pure (Change.eq c e.reverse))
      (P := fun j => UpsideDown m.b (around css (i + j + d)) (around css (i - j)))
      (by
        intro j _ hj
        obtain ⟨c, a1, a2, a3⟩ := atMod_ok hne (i + j + d)
        obtain ⟨e, b1, b2, b3⟩ := atMod_ok hne (m.length + i - j)
        refine ⟨Change.eq c e.reverse, by rw [a1, b1]; rfl, ?_⟩
        rw [change_eq_reverse_iff (hm c a2).1 (hm e b2).1 (hm c a2).2 (hm e b2).2, a3, b3, ← hcss]
        have hx : m.length + i - j = css.length + i - j := by rw [hml, hlen]
        have hl : 0 < m.ch.length := List.length_pos_iff.2 hne
        rw [hx, around_nat_sub css (by omega)]
        push_cast; rfl)
    exact ⟨b, e1, e2.trans ⟨fun h j hj => h j (by omega) hj, fun h j _ hj => h j hj⟩⟩
  obtain ⟨a, a1, a2⟩ := anyUp_dec (lo := 0) (hi := m.length / 2 + 1) (f := rotAbout m 0 (m.length / 2 + 1))
    (P := fun i => ∀ j : Int, UpsideDown m.b (around css (i + j)) (around css (i - j)))
    (by
      intro i _ _
      obtain ⟨b, e1, e2⟩ := rot 0 (m.length / 2 + 1) i (by rw [hml])
      refine ⟨b, e1, e2.trans ?_⟩
      rw [about_change hcne (R := UpsideDown m.b) (fun _ _ => upsideDown_symm) (i : Int), hlen, hml]
      simp)
  obtain ⟨b, b1, b2⟩ := anyUp_dec (lo := 0) (hi := m.length / 2 + 1) (f := rotAbout m 1 (m.length / 2))
    (P := fun i => ∀ j : Int, ¬ ((css.length : Int) ∣ 2 * j + 1) →
      UpsideDown m.b (around css (i + j + 1)) (around css (i - j)))
    (by
      intro i _ _
      obtain ⟨b, e1, e2⟩ := rot 1 (m.length / 2) i (by rw [hml]; omega)
      refine ⟨b, e1, e2.trans ?_⟩
      rw [about_row hcne (R := UpsideDown m.b) (fun _ _ => upsideDown_symm) (i : Int), hlen, hml]
      simp)
  rw [← hlen]
  unfold hasRotationalC
  simp only [a1, Out.ok_bind]
  cases a with
  | true =>
    refine ⟨true, rfl, ?_⟩
    obtain ⟨i, -, h1, h2⟩ := a2.1 rfl
    rw [hml, ← hlen] at h1
    exact ⟨fun _ => Or.inl ⟨i, h1, h2⟩, fun _ => rfl⟩
  | false =>
    refine ⟨b, by simpa using b1, b2.trans ?_⟩
    rw [hml, ← hlen]
    rw [hml, ← hlen] at a2
    constructor
    · rintro ⟨i, -, h1, h2⟩; exact Or.inr ⟨i, h1, h2⟩
    · rintro (⟨i, h1, h2⟩ | ⟨i, h1, h2⟩)
      · exact absurd (a2.2 ⟨i, by omega, h1, h2⟩) (by simp)
      · exact ⟨i, by omega, h1, h2⟩

/-- A rotational symmetry gives a centre tried by one of the two searches. -/
theorem rotational_centre {b : Nat} {css : List (List Nat)} (hne : css ≠ []) (h : RotationalSym b css) :
    (∃ i : Nat, i < css.length / 2 + 1 ∧ ∀ j : Int, UpsideDown b (around css (i + j)) (around css (i - j))) ∨
    ∃ i : Nat, i < css.length / 2 + 1 ∧ ∀ j : Int, UpsideDown b (around css (i + j + 1)) (around css (i - j)) := by
  have hl : 0 < css.length := List.length_pos_iff.2 hne
  obtain ⟨s, h⟩ := h
  have e1 := Int.emod_nonneg s (b := (css.length : Int)) (by omega)
  have e2 := Int.emod_lt_of_pos s (b := (css.length : Int)) (by omega)
  have e3 := Int.emod_add_mul_ediv s (css.length : Int)
  generalize s / (css.length : Int) = q at e3
  generalize s % (css.length : Int) = k at e1 e2 e3
  obtain ⟨k, rfl⟩ := Int.eq_ofNat_of_zero_le e1
  rcases Nat.even_or_odd' k with ⟨i, rfl | rfl⟩
  · left
    refine ⟨i, by omega, fun j => ?_⟩
    have := h (i + j)
    rwa [around_congr css (j := s - (i + j)) (k := i - j) q (by rw [← e3]; push_cast; ring)] at this
  · right
    refine ⟨i, by omega, fun j => ?_⟩
    have := h (i + j + 1)
    rwa [around_congr css (j := s - (i + j + 1)) (k := i - j) q (by rw [← e3]; push_cast; ring)] at this

/-- C76: for a method of even length, `has_rotational_symmetry` holds exactly when the lead read
backwards and upside down is the same lead from some starting point. -/
theorem C76_rotational {m : Method} (hm : ∀ c ∈ m.ch, IsChange c.n c.swaps ∧ c.n = m.b) (hne : m.ch ≠ []) (hev : m.ch.length % 2 = 0) :
    ∃ r, hasRotationalC m = .ok r ∧ (r = true ↔ RotationalSym m.b (m.ch.map Change.swaps)) := by
  obtain ⟨r, h1, h2⟩ := hasRotational_spec hm hne
  have hlen : (m.ch.map Change.swaps).length = m.ch.length := List.length_map ..
  refine ⟨r, h1, h2.trans ?_⟩
  constructor
  · rintro (⟨i, -, h⟩ | ⟨i, -, h⟩)
    · refine ⟨2 * i, fun j => ?_⟩
      have := h (j - i)
      rwa [show (i : Int) + (j - i) = j by ring, show (i : Int) - (j - i) = 2 * i - j by ring] at this
    · refine ⟨2 * i + 1, fun j => ?_⟩
      have := h (j - i - 1) (by
        rintro ⟨t, ht⟩
        obtain ⟨u, hu⟩ : ∃ u, m.ch.length = 2 * u := ⟨m.ch.length / 2, by omega⟩
        rw [hu] at ht
        have : (2 * (j - i - 1) + 1) % 2 = 0 := by
          rw [ht]; push_cast; rw [mul_assoc]; exact Int.mul_emod_right ..
        omega)
      rwa [show (i : Int) + (j - i - 1) + 1 = j by ring, show (i : Int) - (j - i - 1) = 2 * i + 1 - j by ring] at this
  · intro h
    rcases rotational_centre (by simpa using hne) h with ⟨i, hi, h⟩ | ⟨i, hi, h⟩
    · exact Or.inl ⟨i, by omega, h⟩
    · exact Or.inr ⟨i, by omega, fun j _ => h j⟩

example : hasRotationalC ⟨4, [⟨4, [0, 2]⟩, ⟨4, [1]⟩, ⟨4, [0, 2]⟩, ⟨4, [0]⟩, ⟨4, [0, 2]⟩, ⟨4, [1]⟩, ⟨4, [0, 2]⟩, ⟨4, [2]⟩]⟩
    = .ok true ∧ hasRotationalC exBob = .ok false := by decide +kernel

/-- C76: for a method of odd length, a rotational symmetry is always found; and when the answer is
yes, the lead is symmetric in this sense except perhaps for one change that should be its own
reflection. -/
theorem C76_rotational_odd {m : Method} (hm : ∀ c ∈ m.ch, IsChange c.n c.swaps ∧ c.n = m.b) (hodd : m.ch.length % 2 = 1) :
    ∃ r, hasRotationalC m = .ok r ∧
      (RotationalSym m.b (m.ch.map Change.swaps) → r = true) ∧
      (r = true → ∃ s : Int, ∀ j : Int, ¬ ((m.ch.length : Int) ∣ 2 * j - s) → UpsideDown m.b
          (around (m.ch.map Change.swaps) j) (around (m.ch.map Change.swaps) (s - j))) := by
  have hne : m.ch ≠ [] := by intro h; rw [h] at hodd; cases hodd
  obtain ⟨r, h1, h2⟩ := hasRotational_spec hm hne
  have hlen : (m.ch.map Change.swaps).length = m.ch.length := List.length_map ..
  refine ⟨r, h1, fun h => ?_, fun h => ?_⟩
  · rw [h2]
    rcases rotational_centre (by simpa using hne) h with ⟨i, hi, h⟩ | ⟨i, hi, h⟩
    · exact Or.inl ⟨i, by omega, h⟩
    · exact Or.inr ⟨i, by omega, fun j _ => h j⟩
  · rcases h2.1 h with ⟨i, -, h⟩ | ⟨i, -, h⟩
    · refine ⟨2 * i, fun j _ => ?_⟩
      have := h (j - i)
      rwa [show (i : Int) + (j - i) = j by ring, show (i : Int) - (j - i) = 2 * i - j by ring] at this
    · refine ⟨2 * i + 1, fun j hj => ?_⟩
      have := h (j - i - 1) (by
        intro hd; apply hj
        rwa [show 2 * j - (2 * (i : Int) + 1) = 2 * (j - i - 1) + 1 by ring])
      rwa [show (i : Int) + (j - i - 1) + 1 = j by ring, show (i : Int) - (j - i - 1) = 2 * i + 1 - j by ring] at this

/-- C76, a finding: the one change 34 on four bells is not symmetric under rotation, but
`has_rotational_symmetry` says it is, as about a row the opposite change is not looked at.  Without
any change the remainder by zero is undefined. -/
theorem C76_rotational_wrong :
    hasRotationalC ⟨4, [⟨4, [0]⟩]⟩ = .ok true ∧ ¬ RotationalSym 4 [[0]] ∧
    hasRotationalC ⟨4, []⟩ = .ub ∧ symmetryStringC ⟨4, []⟩ = .ub := by
  refine ⟨by decide +kernel, ?_, by decide +kernel, by decide +kernel⟩
  rintro ⟨s, h⟩
  have := (h 0 0 (by omega)).1
  have e : ∀ k, around [[0]] k = [0] := by
    intro k; unfold around
    simp
  rw [e, e] at this
  simp at this

/-- C76: the symmetry string lists, in the order P, M, G, R, the symmetries that the four functions
report. -/
theorem C76_symmetry_string {m : Method} (hm : ∀ c ∈ m.ch, IsChange c.n c.swaps ∧ c.n = m.b) (hne : m.ch ≠ []) :
    ∃ s, symmetryStringC m = .ok s ∧ List.Sublist s ['P', 'M', 'G', 'R'] ∧
      ('P' ∈ s ↔ Palindromic (m.ch.map Change.swaps)) ∧
      ('M' ∈ s ↔ MirrorSym m.b (m.ch.map Change.swaps)) ∧
      ('G' ∈ s ↔ GlideSym m.b (m.ch.map Change.swaps)) ∧
      ('R' ∈ s ↔ hasRotationalC m = .ok true) := by
  obtain ⟨p, p1, p2⟩ := C76_conventional hm
  obtain ⟨i, i1, i2⟩ := C76_mirror hm
  obtain ⟨g, g1, g2⟩ := C76_glide hm
  obtain ⟨r, r1, -⟩ := hasRotational_spec hm hne
  refine ⟨(if p then ['P'] else []) ++ (if i then ['M'] else []) ++ (if g then ['G'] else []) ++
    (if r then ['R'] else []), ?_, ?_, ?_, ?_, ?_, ?_⟩
  · unfold symmetryStringC
    rw [p1, i1, g1, r1]
    simp only [Out.ok_bind, Out.pure_eq]
    cases p <;> cases i <;> cases g <;> cases r <;> rfl
  · cases p <;> cases i <;> cases g <;> cases r <;> decide
  · have := p2
    simp only [ne_eq, hne, not_false_eq_true, true_and] at this
    rw [← this]
    cases p <;> cases i <;> cases g <;> cases r <;> decide
  · simp only [hne, false_or] at i2
    rw [← i2]
    cases p <;> cases i <;> cases g <;> cases r <;> decide
  · simp only [hne, false_or] at g2
    rw [← g2]
    cases p <;> cases i <;> cases g <;> cases r <;> decide
  · rw [r1]
    cases p <;> cases i <;> cases g <;> cases r <;> decide

example : symmetryStringC exBob = .ok ['P'] := by decide +kernel
example : symmetryStringC
    ⟨4, [⟨4, [0, 2]⟩, ⟨4, [1]⟩, ⟨4, [0, 2]⟩, ⟨4, [0]⟩, ⟨4, [0, 2]⟩, ⟨4, [1]⟩, ⟨4, [0, 2]⟩, ⟨4, [2]⟩]⟩
    = .ok ['P', 'G', 'R'] := by decide +kernel

end Ringing
