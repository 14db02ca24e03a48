import Verif.Props.MethSearchSym

/-! C80-C81: examples and findings. -/
namespace Ringing
open Spec Row MethodUtils MethSearch

/-- No test besides those of the model. -/
def MethSearch.noTests : Tests := ⟨fun _ => true, fun _ _ => true, fun _ => true⟩

/-- The change `X` on four bells. -/
def MethSearch.cX : Change := ⟨4, [0, 2]⟩
def MethSearch.c34 : Change := ⟨4, [0]⟩
def MethSearch.c12 : Change := ⟨4, [2]⟩
def MethSearch.c14 : Change := ⟨4, [1]⟩

/-- Four bells, the first is the only hunt bell and hunts between the first two places. -/
def MethSearch.exArgs : Args where
  bells := 4
  leadLen := 4
  huntBells := 1
  trebleDodges := 0
  sym := true
  skewsym := false
  doubsym := false
  floatingSym := false
  maxBlows := 4
  longLe := false
  trueTrivial := true
  limitedLe := true
  no78 := false
  allowed := [[cX, c34], [c12], [cX, c34], [c12, c14]]
  prefixCh := []
  start := []
  limit := 0

theorem MethSearch.exArgs_ok : Searchable exArgs where
  pos := by decide
  len := by decide
  nonempty := by decide +kernel
  wf := fun cs h c hc => by
    have : ∀ cs ∈ exArgs.allowed, ∀ c ∈ cs, c.WF ∧ c.n = exArgs.bells := by decide +kernel
    exact this cs h c hc
  even := by decide
  two := by decide
  hunts := Or.inr (by decide)
  start := rfl
  limited := fun _ => ⟨⟨⟨4, [1]⟩, by decide +kernel⟩, ⟨⟨4, [2]⟩, by decide +kernel⟩⟩

/-- C80: the hypotheses are met by a search that finds four symmetric methods. -/
example : searchC exArgs noTests = .ok [[cX, c12, cX, c12], [cX, c12, cX, c14], [c34, c12, c34, c12], [c34, c12, c34, c14]] := by
  decide +kernel

example : Palindromic ([c34, c12, c34, c14].map Change.swaps) :=
  C81_palindromic exArgs_ok noTests rfl rfl (by decide) (L := [[cX, c12, cX, c12], [cX, c12, cX, c14], [c34, c12, c34, c12], [c34, c12, c34, c14]])
    (by decide +kernel) _ (by decide)

/-- C80: a limit of three. -/
example : searchC { exArgs with limit := 3 } noTests = .ok [[cX, c12, cX, c12], [cX, c12, cX, c14], [c34, c12, c34, c12]] := by
  decide +kernel

/-- C80, a finding: with --symmetric, --start-at loses methods, even the one given: the changes that are
determined by the symmetry do not use up the changes of that method, so that its half lead is compared with
the lead end. -/
theorem C80_start_lost :
    (∃ L, searchC exArgs noTests = .ok L ∧ [c34, c12, c34, c12] ∈ L) ∧
    searchC { exArgs with start := [c34, c12, c34, c12] } noTests = .ok [] :=
  ⟨⟨[[cX, c12, cX, c12], [cX, c12, cX, c14], [c34, c12, c34, c12], [c34, c12, c34, c14]], by decide +kernel, by decide⟩,
    by decide +kernel⟩

/-- C80, a finding: with two hunt bells --limited-le needs the change 13, which is no change. -/
theorem C80_limited_twin :
    tryLeadendSymC { exArgs with bells := 6, huntBells := 2 } [] ⟨6, [0, 2, 4]⟩ = .throw .changeInvalid := by
  decide +kernel

/-- Six bells, the hunt bell hunts between the third and the fourth place, rotational symmetry. -/
def MethSearch.exShort : Args :=
  { exArgs with bells := 6, sym := false, skewsym := true, limitedLe := false, allowed := [[⟨6, [0, 2, 4]⟩], [⟨6, [1, 4]⟩], [⟨6, [0, 2, 4]⟩], [⟨6, [0, 4]⟩]] }

/-- C81, a finding: leads of four changes are not made symmetric with --rotational. -/
theorem C81_rotational_short :
    searchC exShort noTests = .ok [[⟨6, [0, 2, 4]⟩, ⟨6, [1, 4]⟩, ⟨6, [0, 2, 4]⟩, ⟨6, [0, 4]⟩]] ∧
    ¬ RotationalSym 6 [[0, 2, 4], [1, 4], [0, 2, 4], [0, 4]] := by
  constructor
  · decide +kernel
  · intro h
    have hm : ∀ c ∈ ([⟨6, [0, 2, 4]⟩, ⟨6, [1, 4]⟩, ⟨6, [0, 2, 4]⟩, ⟨6, [0, 4]⟩] : List Change), c.WF ∧ c.n = 6 := by decide +kernel
    obtain ⟨r, h1, h2⟩ := C76_rotational (m := ⟨6, [⟨6, [0, 2, 4]⟩, ⟨6, [1, 4]⟩, ⟨6, [0, 2, 4]⟩, ⟨6, [0, 4]⟩]⟩)
      hm (by simp) (by decide)
    have h3 := h2.2 h
    subst h3
    exact absurd h1 (by decide +kernel)

end Ringing
