import Verif.Props.MethSearch

namespace Ringing
open Spec Row MethodUtils
namespace MethSearch

/-- What is known about the changes of a lead that is found. -/
structure Facts (A : Args) (full : List Change) (g : Nat → Change) : Prop where
  len : full.length = A.leadLen
  get : ∀ k, k < A.leadLen → full[k]? = some (g k)
  ok : ∀ k, k < A.leadLen → (g k).WF ∧ (g k).n = A.bells
  rev : ∀ k j, k < A.leadLen → copiedA A k = some (j, true) → g k = (g j).reverse
  same : ∀ k j, k < A.leadLen → copiedA A k = some (j, false) → g k = g j
  quarter : ∀ k, k < A.leadLen → copiedA A k = none → A.huntBells ≠ 0 → A.skewsym = true → A.leadLen % 4 = 0 →
    k % (A.leadLen / 2) = A.leadLen / 4 - A.huntBells % 2 → g k = (g k).reverse

theorem copied_lt {sym skew doub : Bool} {n k j : Nat} {r : Bool} (hn : n % 2 = 0 ∨ (skew = false ∧ doub = false ∧ sym = false)) (hk : k < n)
    (h : copied sym skew doub n k = some (j, r)) : j < k := by
  unfold copied at h
  split at h
  · rename_i hh; cases h
    obtain ⟨h0, h1, h2, h3⟩ := hh
    rcases hn with hn | hn
    · omega
    · simp [hn.1] at h0
  · split at h
    · rename_i hd
      split at h
      · cases h
        rcases hn with hn | hn
        · omega
        · simp [hn.2.1] at hd
      · cases h
    · split at h
      · rename_i hs
        split at h
        · cases h
          rcases hn with hn | hn
          · omega
          · simp [hn.1] at hs
        · cases h
      · split at h
        · rename_i hh; cases h
          rcases hn with hn | hn
          · omega
          · simp [hn.2.2] at hh
        · cases h

theorem facts_of {A : Args} {T : Tests} (S : Searchable A) {full : List Change} (h : Found A T [] full) :
    ∃ g, Facts A full g := by
  obtain ⟨-, hlen, hat, -⟩ := h
  have hat := fun k hk => hat k (Nat.zero_le _) hk
  let g : Nat → Change := fun k => full.getD k ⟨0, []⟩
  have hget : ∀ k, k < A.leadLen → full[k]? = some (g k) := by
    intro k hk
    have : k < full.length := by omega
    simp [g, List.getD, List.getElem?_eq_getElem this]
  have hlt : ∀ k j r, k < A.leadLen → copiedA A k = some (j, r) → j < k := by
    intro k j r hk hc
    unfold copiedA at hc
    split at hc
    · cases hc
    · refine copied_lt ?_ hk hc
      by_cases hs : A.sym = true ∨ A.skewsym = true ∨ A.doubsym = true
      · exact Or.inl (S.even hs)
      · right; push Not at hs
        exact ⟨by simpa using hs.2.1, by simpa using hs.2.2, by simpa using hs.1⟩
  have hrev : ∀ k j, k < A.leadLen → copiedA A k = some (j, true) → g k = (g j).reverse := by
    intro k j hk hc
    have := (hat k hk).2.2
    rw [hc] at this
    obtain ⟨d, h1, h2⟩ := this
    rw [hget k hk] at h2
    rw [hget j (by have := hlt k j true hk hc; omega)] at h1
    cases h1; exact Option.some.inj h2
  have hsame : ∀ k j, k < A.leadLen → copiedA A k = some (j, false) → g k = g j := by
    intro k j hk hc
    have := (hat k hk).2.2
    rw [hc] at this
    obtain ⟨d, h1, h2⟩ := this
    rw [hget k hk] at h2
    rw [hget j (by have := hlt k j false hk hc; omega)] at h1
    cases h1; exact Option.some.inj h2
  have hfree : ∀ k, k < A.leadLen → copiedA A k = none → Free A T (full.take k) (g k) := by
    intro k hk hc
    have := (hat k hk).2.2
    rw [hc] at this
    obtain ⟨c, h1, h2⟩ := this
    rw [hget k hk] at h1
    cases h1; exact h2
  have htl : ∀ k, k < A.leadLen → (full.take k).length = k := by
    intro k hk; rw [List.length_take]; omega
  have hok : ∀ k, k < A.leadLen → (g k).WF ∧ (g k).n = A.bells := by
    intro k
    induction k using Nat.strong_induction_on with
    | _ k ih =>
      intro hk
      cases hc : copiedA A k with
      | none =>
        have := (hfree k hk hc).1
        rw [htl k hk] at this
        have hl : k < A.allowed.length := by rw [S.len]; exact hk
        have hg : A.allowed.getD k [] = A.allowed[k] := by simp [List.getD, hl]
        rw [hg] at this
        exact S.wf _ (List.getElem_mem hl) _ this
      | some p =>
        obtain ⟨j, r⟩ := p
        have hj := hlt k j r hk hc
        have := ih j hj (by omega)
        cases r with
        | false => rw [hsame k j hk hc]; exact this
        | true => rw [hrev k j hk hc]; exact ⟨Change.WF.reverse this.1, this.2⟩
  refine ⟨g, hlen, hget, hok, hrev, hsame, ?_⟩
  intro k hk hc h1 h2 h3 h4
  have ht := (testsC_iff.1 (hfree k hk hc).2.2).2.1 h1 h2 h3 (by rw [htl k hk]; exact h4)
  unfold tryQuarterlead at ht
  rw [Bool.and_eq_true] at ht
  have hw := hok k hk
  exact (Change.WF.eq_iff hw.1 (Change.WF.reverse hw.1)).1 ht.1

theorem Facts.around {A : Args} {full : List Change} {g : Nat → Change} (F : Facts A full g) {k : Nat} (hk : k < A.leadLen) (i : Int)
    (hi : ∃ t : Int, i = k + t * (A.leadLen : Int)) : Spec.around (full.map Change.swaps) i = (g k).swaps := by
  obtain ⟨t, rfl⟩ := hi
  have hl : (full.map Change.swaps).length = A.leadLen := by rw [List.length_map, F.len]
  rw [around_congr _ (k := (k : Int)) t (by rw [hl])]
  unfold Spec.around
  rw [hl, Int.emod_eq_of_lt (by omega) (by omega), Int.toNat_natCast, List.getD, List.getElem?_map, F.get k hk]
  rfl

/-- The first half lead is symmetric about its quarter lead. -/
theorem Facts.rot1 {A : Args} {full : List Change} {g : Nat → Change} (F : Facts A full g) (hf : A.floatingSym = false)
    (hs : A.skewsym = true) (hev : A.leadLen % 2 = 0) (hq : A.huntBells % 2 = 1 ∨ A.leadLen % 4 = 2) {i : Nat} (hi : i + 2 ≤ A.leadLen / 2) :
    g (A.leadLen / 2 - 2 - i) = (g i).reverse := by
  have hcop : ∀ k, copiedA A k = copied A.sym A.skewsym A.doubsym A.leadLen k := by intro k; simp [copiedA, hf]
  by_cases h1 : A.leadLen / 4 ≤ i ∧ A.leadLen > 4
  · have := F.rev i (A.leadLen / 2 - 2 - i) (by omega) (by rw [hcop, copied, if_pos ⟨hs, h1.2, h1.1, by omega⟩])
    rw [this, Change.WF.reverse_reverse (F.ok _ (by omega)).1]
  · by_cases h2 : A.leadLen / 4 ≤ A.leadLen / 2 - 2 - i ∧ A.leadLen > 4
    · rw [F.rev (A.leadLen / 2 - 2 - i) i (by omega) (by
        rw [hcop, copied, if_pos ⟨hs, h2.2, h2.1, by omega⟩]; congr 2; omega)]
    · have e : A.leadLen / 2 - 2 - i = i := by omega
      rw [e]
      refine F.quarter i (by omega) ?_ (by omega) hs (by omega) ?_
      · rw [hcop, copied, if_neg (by omega)]
        split
        · rw [if_neg (by omega)]
        · rw [if_neg (by omega)]
      · rw [Nat.mod_eq_of_lt (by omega)]; omega

/-- So is the second half lead. -/
theorem Facts.rot2 {A : Args} {full : List Change} {g : Nat → Change} (F : Facts A full g) (hf : A.floatingSym = false)
    (hs : A.skewsym = true) (hev : A.leadLen % 2 = 0) (hq : A.huntBells % 2 = 1 ∨ A.leadLen % 4 = 2)
    (hn : A.leadLen > 4 ∨ A.doubsym = true) {k : Nat} (h1 : A.leadLen / 2 ≤ k) (h2 : k + 2 ≤ A.leadLen) :
    g (3 * A.leadLen / 2 - 2 - k) = (g k).reverse := by
  have hcop : ∀ k, copiedA A k = copied A.sym A.skewsym A.doubsym A.leadLen k := by intro k; simp [copiedA, hf]
  by_cases hd : A.doubsym = true
  · rw [F.rev k (k - A.leadLen / 2) (by omega) (by rw [hcop, copied, if_neg (by omega), if_pos hd, if_pos h1]),
      F.rev (3 * A.leadLen / 2 - 2 - k) (A.leadLen - 2 - k) (by omega) (by
        rw [hcop, copied, if_neg (by omega), if_pos hd, if_pos (by omega)]; congr 2; omega)]
    have := F.rot1 hf hs hev hq (i := k - A.leadLen / 2) (by omega)
    rw [show A.leadLen / 2 - 2 - (k - A.leadLen / 2) = A.leadLen - 2 - k by omega] at this
    rw [this]
  · have hn : A.leadLen > 4 := hn.resolve_right hd
    by_cases h3 : 3 * A.leadLen / 4 ≤ k
    · rw [F.rev k (3 * A.leadLen / 2 - 2 - k) (by omega) (by
        rw [hcop, copied, if_neg (by omega), if_neg hd, if_pos hs, if_pos ⟨hn, h3⟩]),
        Change.WF.reverse_reverse (F.ok _ (by omega)).1]
    · by_cases h4 : 3 * A.leadLen / 4 ≤ 3 * A.leadLen / 2 - 2 - k
      · rw [F.rev (3 * A.leadLen / 2 - 2 - k) k (by omega) (by
          rw [hcop, copied, if_neg (by omega), if_neg hd, if_pos hs, if_pos ⟨hn, h4⟩]; congr 2; omega)]
      · have e : 3 * A.leadLen / 2 - 2 - k = k := by omega
        rw [e]
        refine F.quarter k (by omega) ?_ (by omega) hs (by omega) ?_
        · rw [hcop, copied, if_neg (by omega), if_neg hd, if_pos hs, if_neg (by omega)]
        · have : k = (k - A.leadLen / 2) + A.leadLen / 2 := by omega
          rw [this, Nat.add_mod_right, Nat.mod_eq_of_lt (by omega)]; omega

theorem ud {b : Nat} {c : Change} (h : c.WF ∧ c.n = b) : UpsideDown b c.swaps c.reverse.swaps := by
  intro p hp
  rw [Change.WF.mem_reverse h.1, h.2, show b - 2 - (b - 2 - p) = p by omega]
  have : b - 2 - p + 2 ≤ b := by omega
  simp [this]

theorem Facts.glide {A : Args} {full : List Change} {g : Nat → Change} (F : Facts A full g) (hf : A.floatingSym = false)
    (hev : A.leadLen % 2 = 0) (hd : A.doubsym = true) {k : Nat} (hk : k < A.leadLen / 2) :
    g (A.leadLen / 2 + k) = (g k).reverse := by
  have hcop : ∀ k, copiedA A k = copied A.sym A.skewsym A.doubsym A.leadLen k := by intro k; simp [copiedA, hf]
  rw [F.rev (A.leadLen / 2 + k) k (by omega) (by rw [hcop, copied, if_neg (by omega), if_pos hd, if_pos (by omega)]; congr 2; omega)]

theorem reduce_int {n : Nat} (hn : 0 < n) (j : Int) : ∃ (k : Nat) (t : Int), k < n ∧ j = k + t * (n : Int) := by
  have e1 := Int.emod_nonneg j (b := (n : Int)) (by omega)
  have e2 := Int.emod_lt_of_pos j (b := (n : Int)) (by omega)
  have e3 := Int.emod_add_mul_ediv j (n : Int)
  refine ⟨(j % (n : Int)).toNat, j / (n : Int), by omega, ?_⟩
  rw [Int.toNat_of_nonneg e1]
  rw [Int.mul_comm]; omega

end MethSearch
end Ringing
