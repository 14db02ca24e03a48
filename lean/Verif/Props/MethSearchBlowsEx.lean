import Verif.Props.MethSearchBlows

/-! C82: an example and findings. -/
namespace Ringing
open Spec Row MethodUtils MethSearch

theorem MethSearch.long_dec {b k : Nat} {css : List (List Nat)} {i : Nat}
    (h : ∃ p, ∀ j, j < k → p < b ∧ moveTo (around css ((i : Int) + (j : Int))) p = p) : LongPlace b k css := by
  obtain ⟨p, h⟩ := h
  exact ⟨p, i, h⟩

theorem MethSearch.not_long_dec {b k : Nat} {css : List (List Nat)} (hne : 0 < css.length) (hk : 0 < k)
    (h : ∀ i, i < css.length → ∀ p, p < b → ∃ j, j < k ∧ moveTo (around css ((i : Int) + (j : Int))) p ≠ p) : ¬ LongPlace b k css := by
  rintro ⟨p, i, hl⟩
  obtain ⟨i', t, h1, rfl⟩ := reduce_int hne i
  obtain ⟨j, hj, h2⟩ := h i' h1 p (hl 0 hk).1
  have := (hl j hj).2
  rw [around_congr _ (k := (i' : Int) + j) t (by ring)] at this
  exact h2 this

/-- C82: the hypotheses are met: with at most three blows in one place three of the four methods of `exArgs`
remain. -/
theorem MethSearch.exTwo_ok : Searchable { exArgs with maxBlows := 3 } :=
  ⟨exArgs_ok.pos, exArgs_ok.len, exArgs_ok.nonempty, exArgs_ok.wf, exArgs_ok.even, exArgs_ok.two, exArgs_ok.hunts,
    exArgs_ok.start, exArgs_ok.limited⟩

example : searchC { exArgs with maxBlows := 3 } noTests =
    .ok [[cX, c12, cX, c12], [cX, c12, cX, c14], [c34, c12, c34, c12]] := by decide +kernel

example : ¬ LongPlace 4 3 ([cX, c12, cX, c14].map Change.swaps) :=
  C82_blows exTwo_ok noTests (by decide) rfl (by decide) (by decide) ⟨rfl, rfl, fun _ => ⟨rfl, by decide⟩⟩
    (L := [[cX, c12, cX, c12], [cX, c12, cX, c14], [c34, c12, c34, c12]]) (by decide +kernel) _ (by decide)

/-- Seven bells, the hunt bell hunts between the third and the fifth place. -/
def MethSearch.exRot : Args :=
  { exArgs with bells := 7, leadLen := 6, sym := false, skewsym := true, limitedLe := false, maxBlows := 2, allowed := [[⟨7, [2, 4]⟩], [⟨7, [1, 3]⟩], [⟨7, [0, 2, 5]⟩], [⟨7, [1, 3, 5]⟩], [⟨7, [0, 2, 4]⟩], [⟨7, [0, 3, 5]⟩]] }

/-- C82, a finding: with --rotational, in a lead without a quarter lead change, the blows across the quarter
lead are not counted: a method with three blows is found although two are allowed. -/
theorem C82_quarter_lead :
    searchC exRot noTests = .ok [[⟨7, [2, 4]⟩, ⟨7, [1, 3]⟩, ⟨7, [0, 2, 5]⟩, ⟨7, [1, 3, 5]⟩, ⟨7, [0, 2, 4]⟩, ⟨7, [0, 3, 5]⟩]] ∧
    LongPlace 7 2 [[2, 4], [1, 3], [0, 2, 5], [1, 3, 5], [0, 2, 4], [0, 3, 5]] :=
  ⟨by decide +kernel, long_dec (i := 0) ⟨0, by decide⟩⟩

/-- C82, a finding: without a hunt bell the blows across the half lead of a palindromic method are not
counted. -/
theorem C82_half_lead :
    searchC { exArgs with huntBells := 0, maxBlows := 3, allowed := [[c12], [c14], [c12], [cX]], limitedLe := false } noTests =
      .ok [[c12, c14, c12, cX]] ∧
    LongPlace 4 3 ([c12, c14, c12, cX].map Change.swaps) :=
  ⟨by decide +kernel, long_dec (i := 0) ⟨0, by decide⟩⟩

/-- No hunt bells and floating symmetry. -/
def MethSearch.exFloat : Args :=
  { exArgs with leadLen := 6, huntBells := 0, floatingSym := true, maxBlows := 3, limitedLe := false, allowed := [[cX], [c14], [c12], [c34], [c12], [c14]] }

/-- C82, a finding: with --floating-sym and --symmetric the lead end is tested as if the method were
symmetric about it, and methods that meet the limit on blows are lost. -/
theorem C82_floating_lost :
    searchC { exFloat with maxBlows := 0 } noTests = .ok [[cX, c14, c12, c34, c12, c14]] ∧
    searchC exFloat noTests = .ok [] ∧
    Palindromic ([cX, c14, c12, c34, c12, c14].map Change.swaps) ∧
    ¬ LongPlace 4 3 ([cX, c14, c12, c34, c12, c14].map Change.swaps) := by
  refine ⟨by decide +kernel, by decide +kernel, ⟨0, ?_⟩, not_long_dec (by decide) (by decide) (by decide)⟩
  rw [about_change (by decide) (R := Eq) (fun a b h => h.symm)]
  decide

end Ringing
