import Verif.Lemmas.MethSearch7

/-! C81: the symmetry of the methods found. -/
namespace Ringing
open Spec Row MethodUtils MethSearch

theorem MethSearch.found_of_mem {A : Args} {T : Tests} (S : Searchable A) {L : List (List Change)} (h : searchC A T = .ok L)
    {full : List Change} (hm : full ∈ L) : Found A T [] full := by
  obtain ⟨L', ⟨h1, -⟩, h2⟩ := search_all (S.good T) S.start
  rw [h] at h2
  cases h2
  rw [← h1]
  unfold cut at hm
  split at hm
  · exact List.mem_of_mem_take hm
  · exact hm

/-- C81: with --symmetric every method found is the same read backwards from the half lead (also when it
is combined with the other symmetries, if the lead has a quarter lead change or no change there). -/
theorem C81_palindromic {A : Args} (S : Searchable A) (T : Tests) (hf : A.floatingSym = false) (hs : A.sym = true)
    (hq : A.skewsym = true → A.huntBells % 2 = 1 ∨ A.leadLen % 4 = 2)
    {L : List (List Change)} (h : searchC A T = .ok L) : ∀ full ∈ L, Palindromic (full.map Change.swaps) := by
  intro full hm
  obtain ⟨g, F⟩ := facts_of S (found_of_mem S h hm)
  have hev := S.even (Or.inl hs)
  have hpos := S.pos
  have hl : (full.map Change.swaps).length = A.leadLen := by rw [List.length_map, F.len]
  have hcop : ∀ k, copiedA A k = copied A.sym A.skewsym A.doubsym A.leadLen k := by intro k; simp [copiedA, hf]
  refine ⟨(A.leadLen / 2 - 1 : Nat), ?_⟩
  rw [about_change (by intro h0; rw [h0] at hl; simp at hl; omega) (R := Eq) (fun a b h => h.symm)]
  intro j hj
  rw [hl] at hj
  by_cases hj2 : j < A.leadLen / 2
  · rw [F.around (k := A.leadLen / 2 - 1 + j) (by omega) _ ⟨0, by omega⟩,
      F.around (k := A.leadLen / 2 - 1 - j) (by omega) _ ⟨0, by omega⟩]
    congr 1
    by_cases hj0 : j = 0
    · subst hj0; rfl
    by_cases hsd : A.skewsym = true ∨ A.doubsym = true
    · have h3 := S.two (by tauto)
      have e1 := F.glide hf hev h3.2.2 (k := j - 1) (by omega)
      have e2 := F.rot1 hf h3.2.1 hev (hq h3.2.1) (i := j - 1) (by omega)
      rw [show A.leadLen / 2 - 1 + j = A.leadLen / 2 + (j - 1) by omega, e1,
        show A.leadLen / 2 - 1 - j = A.leadLen / 2 - 2 - (j - 1) by omega, e2]
    · push Not at hsd
      rw [F.same (A.leadLen / 2 - 1 + j) (A.leadLen / 2 - 1 - j) (by omega) (by
        rw [hcop, copied, if_neg (by simp [hsd.1]), if_neg hsd.2, if_neg hsd.1, if_pos ⟨hs, by omega, by omega, by omega⟩]
        congr 2; omega)]
  · rw [F.around (k := A.leadLen - 1) (by omega) _ ⟨0, by omega⟩, F.around (k := A.leadLen - 1) (by omega) _ ⟨-1, by omega⟩]

/-- C81: with --double the second half of every method found is the first half upside down. -/
theorem C81_glide {A : Args} (S : Searchable A) (T : Tests) (hf : A.floatingSym = false) (hs : A.doubsym = true)
    {L : List (List Change)} (h : searchC A T = .ok L) : ∀ full ∈ L, GlideSym A.bells (full.map Change.swaps) := by
  intro full hm
  obtain ⟨g, F⟩ := facts_of S (found_of_mem S h hm)
  have hev := S.even (Or.inr (Or.inr hs))
  have hl : (full.map Change.swaps).length = A.leadLen := by rw [List.length_map, F.len]
  have hpos := S.pos
  refine ⟨by rw [hl]; exact hev, fun j => ?_⟩
  rw [hl]
  obtain ⟨k, t, hk, rfl⟩ := reduce_int (n := A.leadLen) (by omega) j
  by_cases h2 : k < A.leadLen / 2
  · rw [F.around hk _ ⟨t, rfl⟩, F.around (k := A.leadLen / 2 + k) (by omega) _ ⟨t, by push_cast; ring⟩, F.glide hf hev hs h2]
    exact ud (F.ok k hk)
  · have hg := F.glide hf hev hs (k := k - A.leadLen / 2) (by omega)
    rw [show A.leadLen / 2 + (k - A.leadLen / 2) = k by omega] at hg
    rw [F.around hk _ ⟨t, rfl⟩, F.around (k := k - A.leadLen / 2) (by omega) _ ⟨t + 1, by
      rw [Nat.cast_sub (by omega)]
      have : ((A.leadLen / 2 : Nat) : Int) + ((A.leadLen / 2 : Nat) : Int) = (A.leadLen : Int) := by omega
      rw [Int.add_mul, Int.one_mul]; omega⟩, hg]
    exact upsideDown_symm (ud (F.ok _ (by omega)))

/-- C81: with --rotational every method found, of more than four changes or with the other symmetries
too, is the same read backwards and upside down. -/
theorem C81_rotational {A : Args} (S : Searchable A) (T : Tests) (hf : A.floatingSym = false) (hs : A.skewsym = true)
    (hq : A.huntBells % 2 = 1 ∨ A.leadLen % 4 = 2) (hn : A.leadLen > 4 ∨ A.doubsym = true)
    {L : List (List Change)} (h : searchC A T = .ok L) : ∀ full ∈ L, RotationalSym A.bells (full.map Change.swaps) := by
  intro full hm
  obtain ⟨g, F⟩ := facts_of S (found_of_mem S h hm)
  have hev := S.even (Or.inr (Or.inl hs))
  have hl : (full.map Change.swaps).length = A.leadLen := by rw [List.length_map, F.len]
  have hpos := S.pos
  have hcop : ∀ k, copiedA A k = copied A.sym A.skewsym A.doubsym A.leadLen k := by intro k; simp [copiedA, hf]
  have hle : g (A.leadLen - 1) = (g (A.leadLen / 2 - 1)).reverse := by
    by_cases hd : A.doubsym = true
    · have := F.glide hf hev hd (k := A.leadLen / 2 - 1) (by omega)
      rwa [show A.leadLen / 2 + (A.leadLen / 2 - 1) = A.leadLen - 1 by omega] at this
    · have hn := hn.resolve_right hd
      rw [F.rev (A.leadLen - 1) (A.leadLen / 2 - 1) (by omega) (by
        rw [hcop, copied, if_neg (by omega), if_neg hd, if_pos hs, if_pos ⟨hn, by omega⟩]; congr 2; omega)]
  refine ⟨(A.leadLen / 2 : Nat) - 2, fun j => ?_⟩
  obtain ⟨k, t, hk, rfl⟩ := reduce_int (n := A.leadLen) (by omega) j
  have hmul : ∀ u : Int, -u * (A.leadLen : Int) = -(u * (A.leadLen : Int)) := fun u => Int.neg_mul _ _
  rw [F.around hk _ ⟨t, rfl⟩]
  rcases Nat.lt_trichotomy (k + 1) (A.leadLen / 2) with h1 | h1 | h1
  · rw [F.around (k := A.leadLen / 2 - 2 - k) (by omega) _ ⟨-t, by rw [hmul]; generalize t * (A.leadLen : Int) = z; omega⟩,
      F.rot1 hf hs hev hq (by omega)]
    exact ud (F.ok k hk)
  · rw [F.around (k := A.leadLen - 1) (by omega) _ ⟨-t - 1, by
      rw [Int.sub_mul, hmul, Int.one_mul]; generalize t * (A.leadLen : Int) = z; omega⟩, hle,
      show A.leadLen / 2 - 1 = k by omega]
    exact ud (F.ok k hk)
  · by_cases h2 : k = A.leadLen - 1
    · rw [F.around (k := A.leadLen / 2 - 1) (by omega) _ ⟨-t - 1, by
        rw [Int.sub_mul, hmul, Int.one_mul]; generalize t * (A.leadLen : Int) = z; omega⟩, h2, hle]
      exact upsideDown_symm (ud (F.ok _ (by omega)))
    · rw [F.around (k := 3 * A.leadLen / 2 - 2 - k) (by omega) _ ⟨-t - 1, by
        rw [Int.sub_mul, hmul, Int.one_mul]; generalize t * (A.leadLen : Int) = z; omega⟩,
        F.rot2 hf hs hev hq hn (by omega) (by omega)]
      exact ud (F.ok k hk)

end Ringing
