import Verif.Lemmas.FalseTable2
/-
The named course heads and the groups they are in.
-/
namespace Ringing
namespace Falseness
open Spec

/-! ### Same group is an equivalence -/

theorem _root_.Spec.SameGroup.refl {b : Nat} (x : Row) : SameGroup b x x :=
  ⟨1, Subgroup.one_mem _, 1, Subgroup.one_mem _, Or.inl (by simp)⟩

theorem _root_.Spec.SameGroup.symm {b : Nat} {x y : Row} (h : SameGroup b x y) : SameGroup b y x := by
  obtain ⟨d, hd, e, he, h | h⟩ := h
  · exact ⟨d⁻¹, Subgroup.inv_mem _ hd, e⁻¹, Subgroup.inv_mem _ he, Or.inl (by rw [h]; group)⟩
  · exact ⟨e, he, d, hd, Or.inr (by rw [h]; group)⟩

theorem _root_.Spec.SameGroup.trans {b : Nat} {x y z : Row} (h : SameGroup b x y) (h' : SameGroup b y z) : SameGroup b x z := by
  obtain ⟨d, hd, e, he, h⟩ := h
  obtain ⟨d', hd', e', he', h'⟩ := h'
  rcases h with h | h <;> rcases h' with h' | h'
  · exact ⟨d' * d, Subgroup.mul_mem _ hd' hd, e * e', Subgroup.mul_mem _ he he', Or.inl (by rw [h', h]; group)⟩
  · exact ⟨d' * e⁻¹, Subgroup.mul_mem _ hd' (Subgroup.inv_mem _ he), d⁻¹ * e',
      Subgroup.mul_mem _ (Subgroup.inv_mem _ hd) he', Or.inr (by rw [h', h]; group)⟩
  · exact ⟨d' * d, Subgroup.mul_mem _ hd' hd, e * e', Subgroup.mul_mem _ he he', Or.inr (by rw [h', h]; group)⟩
  · exact ⟨d' * e⁻¹, Subgroup.mul_mem _ hd' (Subgroup.inv_mem _ he), d⁻¹ * e',
      Subgroup.mul_mem _ (Subgroup.inv_mem _ hd) he', Or.inl (by rw [h', h]; group)⟩

/-! ### Rows given by digits -/

theorem fn_decode {b c i : Nat} (h : i < b) : Row.fn (decode b c) i = dig c i := Row.fn_map_range h

theorem length_decode (b c : Nat) : (decode b c).length = b := by simp [decode]

theorem length_ext (b c : Nat) : (ext b c).length = b := by simp [ext]

theorem fn_ext {b c : Nat} (hb : 6 ≤ b) (i : Nat) : Row.fn (ext b c) i = if i < 6 then dig c i else i := by
  by_cases h : i < b
  · rw [ext, Row.fn_map_range h]
  · rw [Row.fn_of_ge (by rw [length_ext]; omega), if_neg (by omega)]

theorem beq_iff {a b : Nat} : Nat.beq a b = true ↔ a = b :=
  ⟨Nat.eq_of_beq_eq_true, fun h => by rw [h]; exact Nat.beq_refl b⟩

theorem beq_false_iff {a b : Nat} : Nat.beq a b = false ↔ a ≠ b := by
  rw [← Bool.not_eq_true, beq_iff]

/-- What `checkKnown` says. -/
theorem known_spec {b t c : Nat} {kn src : List (Nat × Nat)} (h : checkKnown b t c kn src = true) {x : Nat × Nat}
    (hx : x ∈ kn) : dig x.1 0 = 0 ∧ dig x.1 t = t ∧ dig x.1 c = c ∧ encode (dig x.1) b = x.1 ∧ lookB x.1 kn = x.2 ∧
      x.2 ≠ 0 ∧ ∃ y ∈ src, y.2 = x.2 ∧ ∀ i, i < b → dig y.1 (dig x.1 i) = i := by
  have := allB_iff.1 h x hx
  simp only [Bool.and_eq_true, beq_iff, Bool.not_eq_true', beq_false_iff] at this
  obtain ⟨h1, h2, h3, h4, h5, h6, h7⟩ := this
  refine ⟨h1, h2, h3, h4, h5, h6, ?_⟩
  by_contra h8
  push Not at h8
  rw [← Bool.not_eq_true, allB_iff] at h7
  apply h7
  intro y hy
  rw [Bool.not_eq_true', Bool.and_eq_false_iff]
  by_cases c1 : y.2 = x.2
  · right
    obtain ⟨i, hi, hne⟩ := h8 y hy c1
    rw [← Bool.not_eq_true, allN_iff]
    intro h9
    exact hne (beq_iff.1 (h9 i hi))
  · left; exact beq_false_iff.2 c1

theorem head_lt {h : Nat × Nat} (hh : h ∈ heads) {i : Nat} (hi : i < 6) : dig h.1 i < 6 := by
  have := allN_iff.1 (allB_iff.1 heads_lt h hh) i hi
  exact Nat.le_of_ble_eq_true this

theorem head_inj {h : Nat × Nat} (hh : h ∈ heads) {i j : Nat} (hi : i < 6) (hj : j < 6) (e : dig h.1 i = dig h.1 j) :
    i = j := by
  obtain ⟨-, -, -, -, -, -, y, -, -, hy⟩ := known_spec heads_ok hh
  rw [← hy i hi, e, hy j hj]

theorem valid_ext {b : Nat} (hb : 6 ≤ b) (hb' : b ≤ 256) {h : Nat × Nat} (hh : h ∈ heads) : Row.Valid (ext b h.1) := by
  apply Row.valid_map_range hb'
  · intro i hi
    split
    · rename_i c; have := head_lt hh c; omega
    · exact hi
  · intro i j hi hj e
    split at e <;> split at e
    · rename_i c1 c2; exact head_inj hh c1 c2 e
    · rename_i c1 c2; have := head_lt hh c1; omega
    · rename_i c1 c2; have := head_lt hh c2; omega
    · exact e

theorem perm_ext {b : Nat} (hb : 6 ≤ b) (hb' : b ≤ 256) {h : Nat × Nat} (hh : h ∈ heads) (i : Nat) :
    permOf (ext b h.1) i = if i < 6 then dig h.1 i else i := by
  rw [permOf_apply (valid_ext hb hb' hh), fn_ext hb]

theorem inner_ext {b : Nat} (hb : 6 ≤ b) (hb' : b ≤ 256) {h : Nat × Nat} (hh : h ∈ heads) : Inner (permOf (ext b h.1)) := by
  obtain ⟨h1, -⟩ := known_spec heads_ok hh
  refine ⟨?_, fun v hv => ?_⟩
  · rw [perm_ext hb hb' hh, if_pos (by omega), h1]
  · rw [perm_ext hb hb' hh, if_neg (by omega)]

/-- The inverse of a course head in the table has the same name. -/
theorem head_inverse {b : Nat} (hb : 6 ≤ b) (hb' : b ≤ 256) {h : Nat × Nat} (hh : h ∈ heads) :
    ∃ y ∈ heads, y.2 = h.2 ∧ permOf (ext b y.1) = (permOf (ext b h.1))⁻¹ := by
  obtain ⟨-, -, -, -, -, -, y, hy, hn, hi⟩ := known_spec heads_ok hh
  refine ⟨y, hy, hn, ?_⟩
  rw [eq_inv_iff_mul_eq_one]
  ext i
  rw [Equiv.Perm.mul_apply, perm_ext hb hb' hh, perm_ext hb hb' hy]
  by_cases c : i < 6
  · rw [if_pos c, if_pos (head_lt hh c), hi i c]; rfl
  · rw [if_neg c, if_neg c]; rfl

/-! ### Fourteen bells or more -/

theorem turn_all {s k : Int} (hs : s = 1 ∨ s = -1) (h1 : -4 ≤ k) (h2 : k ≤ 4) : checkTurn s k = true := by
  have h := turn_ok
  simp only [Bool.and_eq_true] at h
  obtain ⟨a1, a2, a3, a4, a5, a6, a7, a8, a9, b1, b2, b3, b4, b5, b6, b7, b8, b9⟩ := h
  have hk : k = -4 ∨ k = -3 ∨ k = -2 ∨ k = -1 ∨ k = 0 ∨ k = 1 ∨ k = 2 ∨ k = 3 ∨ k = 4 := by omega
  rcases hs with rfl | rfl
  · rcases hk with rfl | rfl | rfl | rfl | rfl | rfl | rfl | rfl | rfl
    exacts [a1, a2, a3, a4, a5, a6, a7, a8, a9]
  · rcases hk with rfl | rfl | rfl | rfl | rfl | rfl | rfl | rfl | rfl
    exacts [b1, b2, b3, b4, b5, b6, b7, b8, b9]

theorem unlab_labZ {v : Nat} (h : 1 ≤ v) : unlab (labZ v) = v := by
  unfold unlab labZ
  split <;> split <;> omega

theorem canTurn_iff {s k : Int} {x v : Nat} : canTurn s k x v = true ↔
    (¬ (-2 ≤ s * labZ v + k ∧ s * labZ v + k ≤ 2) → dig x v = v) := by
  unfold canTurn
  rw [Bool.or_eq_true, decide_eq_true_eq, beq_iff]
  constructor
  · rintro (h | h) hn
    · exact absurd h hn
    · exact h
  · intro h
    by_cases c : -2 ≤ s * labZ v + k ∧ s * labZ v + k ≤ 2
    · exact Or.inl c
    · exact Or.inr (h c)

theorem conjF_congr {s k : Int} {f g : Nat → Nat} (h : ∀ v, 1 ≤ v → v ≤ 5 → f v = g v) (v : Nat) :
    conjF s k f v = conjF s k g v := by
  unfold conjF
  split
  · rename_i c
    have r := unlab_range c.1 c.2
    rw [h _ r.1 r.2]
  · rfl

theorem same_name_big {b : Nat} (he : b % 2 = 0) (hb : 14 ≤ b) (hb' : b ≤ 256) {h h' : Nat × Nat} (hh : h ∈ heads)
    (hh' : h' ∈ heads) {d e : Equiv.Perm Nat} (hd : d ∈ PlainBob b) (hee : e ∈ PlainBob b)
    (heq : permOf (ext b h'.1) = d * permOf (ext b h.1) * e) : h.2 = h'.2 := by
  obtain ⟨s, k, Dd⟩ := (plainBob_dih he (by omega) hb').1 hd
  obtain ⟨t, l, De⟩ := (plainBob_dih he (by omega) hb').1 hee
  have iX := inner_ext (b := b) (by omega) hb' hh
  have iY := inner_ext (b := b) (by omega) hb' hh'
  obtain ⟨s, k, hs, k1, k2, hv, hf⟩ := moved_conj (by omega) (by omega) iX iY Dd De heq
  obtain ⟨z0, -, -, en, lk, nz, -⟩ := known_spec heads_ok hh'
  have ck := allB_iff.1 (turn_all hs k1 k2) h hh
  have fX : ∀ v, 1 ≤ v → v ≤ 5 → permOf (ext b h.1) v = dig h.1 v := fun v _ h5 => by
    rw [perm_ext (by omega) hb' hh, if_pos (by omega)]
  have can : ∀ v, 1 ≤ v → v ≤ 5 → canTurn s k h.1 v = true := fun v h1 h5 => by
    rw [canTurn_iff]; intro c; rw [← fX v h1 h5]; exact hf v h1 h5 c
  have code : encode (turned s k h.1) 6 = h'.1 := by
    rw [← en]
    refine encode_congr (g := dig h'.1) fun i hi => ?_
    unfold turned
    by_cases c : i = 0
    · rw [if_pos c, c, z0]
    · rw [if_neg c, ← conjF_congr fX, ← hv i (by omega) (by omega), perm_ext (by omega) hb' hh', if_pos hi]
      have := iY.range (v := i) (by omega) (by omega)
      rw [perm_ext (by omega) hb' hh', if_pos hi] at this
      exact unlab_labZ this.1
  rw [can 1 (by omega) (by omega), can 2 (by omega) (by omega), can 3 (by omega) (by omega), can 4 (by omega) (by omega),
    can 5 (by omega) (by omega), code, lk] at ck
  by_contra hne
  rw [show Nat.beq h'.2 h.2 = false from beq_false_iff.2 (Ne.symm hne), show Nat.beq h'.2 0 = false from beq_false_iff.2 nz] at ck
  exact absurd ck (by decide)

/-- On ten bells or more a course head is in the group of the representative of its name. -/
theorem same_rep_big {b : Nat} (he : b % 2 = 0) (hb : 10 ≤ b) (hb' : b ≤ 256) {h : Nat × Nat} (hh : h ∈ heads) :
    (lookB h.2 reps, h.2) ∈ heads ∧ SameGroup b (ext b (lookB h.2 reps)) (ext b h.1) := by
  have ck := allB_iff.1 turns_ok h hh
  unfold checkTurns at ck
  rw [Bool.not_eq_true', ← Bool.not_eq_true, allB_iff] at ck
  push Not at ck
  obtain ⟨⟨x, r, t, s, k⟩, -, ck⟩ := ck
  simp only [ne_eq, Bool.not_eq_true', Bool.not_eq_false, Bool.and_eq_true, beq_iff, beq_false_iff, Bool.or_eq_true,
    allN_iff, Nat.ble_eq] at ck
  obtain ⟨hx, hr, ht, hrn, hrt, hk, hv, hc⟩ := ck
  rw [hx] at hv
  obtain ⟨-, -, -, -, -, nz, -⟩ := known_spec heads_ok hh
  have mr : (r, h.2) ∈ heads := by
    have := lookB_mem (key := r) (l := heads) (by rw [hrn]; exact nz)
    rwa [hrn] at this
  have mt : (t, lookB t heads) ∈ heads := lookB_mem ht
  rw [← hr]
  refine ⟨mr, ?_⟩
  set s' : Int := if s = 1 then 1 else -1 with hs'
  have hsg : s' = 1 ∨ s' = -1 := by rw [hs']; split <;> simp
  have iT := inner_ext (b := b) (by omega) hb' mt
  have iY := inner_ext (b := b) (by omega) hb' hh
  have hn : (b - 1) % 2 = 1 := by omega
  obtain ⟨d, hd⟩ := exists_dih he (by omega) hb' hsg ((((k : Int) - 4 : Int)) : ZMod (b - 1))
  have fT : ∀ v, 1 ≤ v → v ≤ 5 → permOf (ext b t) v = dig t v := fun v _ h5 => by
    rw [perm_ext (h := (t, lookB t heads)) (by omega) hb' mt, if_pos (by omega)]
  have cm : permOf (ext b h.1) = d * permOf (ext b t) * d⁻¹ := by
    refine conj_moved hn (by omega) iT iY hd (by omega) (by omega) (fun w w1 w5 => ?_) (fun v v1 v5 hc' => ?_)
    · have e := hv w (by omega)
      unfold turned at e
      rw [if_neg (by omega)] at e
      rw [perm_ext (by omega) hb' hh, if_pos (by omega), e, labZ_unlab]
      exact (conjF_congr fT w).symm
    · rw [fT v v1 v5]
      exact canTurn_iff.1 (hc v (by omega)) hc'
  have hdm : d ∈ PlainBob b := (plainBob_dih he (by omega) hb').2 ⟨_, _, hd⟩
  refine ⟨d, hdm, d⁻¹, Subgroup.inv_mem _ hdm, ?_⟩
  rcases hrt with hrt | hrt
  · left; rw [hrt]; exact cm
  · right
    have : permOf (ext b t) = (permOf (ext b r))⁻¹ := by
      rw [eq_inv_iff_mul_eq_one, mul_eq_one_iff_eq_inv, eq_comm, inv_eq_iff_mul_eq_one]
      ext i
      rw [Equiv.Perm.mul_apply, perm_ext (h := (t, lookB t heads)) (by omega) hb' mt, perm_ext (h := (r, h.2)) (by omega) hb' mr]
      by_cases c : i < 6
      · rw [if_pos c, if_pos (head_lt mt c), hrt i c]; rfl
      · rw [if_neg c, if_neg c]; rfl
    rw [← this]; exact cm

end Falseness
end Ringing
