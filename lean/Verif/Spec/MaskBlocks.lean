import Verif.Model.MaskBlocks
import Mathlib.Data.List.Forall2
/-
What expanding a mask means.  A written block is the block before it is reflected.
-/
namespace Ringing
namespace Mask

/-- A block as written: the `*`, if any, is one of its entries, and a symmetric block has at least one. -/
structure Written (w : Block) : Prop where
  star : ∀ i, w.star = some i → w.data[i]? = some []
  sym : w.isSym = true → w.data ≠ []

/-- A symmetric block is reflected in its last change. -/
def reflected (sym : Bool) (h : List (List Change)) : List (List Change) := if sym then h ++ h.reverse.drop 1 else h

/-- The block with its `*` replaced by any number of `?`, at least one if it is where the block is reflected. -/
def Fills (w : Block) (l : List (List Change)) : Prop :=
  match w.star with
  | none => l = reflected w.isSym w.data
  | some i => ∃ k, (w.isSym = true → i + 1 = w.data.length → 0 < k) ∧
      l = reflected w.isSym (w.data.take i ++ List.replicate k [] ++ w.data.drop (i + 1))

/-- The same for a block above and, after `/`, one below. -/
def FillsPair (w : Block × Option Block) (l : List (List Change) × List (List Change)) : Prop :=
  l.1.length = l.2.length ∧ Fills w.1 l.1 ∧ Fills (w.2.getD w.1) l.2

/-- The mask expanded: its blocks, each expanded, one after the other, with as many positions as the lead. -/
def Expansion (leadLen : Nat) (ws : List (Block × Option Block)) (x : List (List Change) × List (List Change)) : Prop :=
  x.1.length = leadLen ∧ ∃ ls : List (List (List Change) × List (List Change)), List.Forall₂ FillsPair ws ls ∧ x.1 = ls.flatMap (·.1) ∧ x.2 = ls.flatMap (·.2)

/-- A part of unknown length. -/
def Unknown (w : Block × Option Block) : Prop := w.1.star ≠ none ∧ (w.2.getD w.1).star ≠ none

/-- The blocks of a mask as written. -/
def WrittenPair (w : Block × Option Block) : Prop := Written w.1 ∧ ∀ b, w.2 = some b → Written b

/-- The positions written, above and below. -/
def weight (w : Block × Option Block) : Nat :=
  (reflected w.1.isSym w.1.data).length + (reflected (w.2.getD w.1).isSym (w.2.getD w.1).data).length

/-! ### Symmetries -/

/-- Where both name changes they name the same. -/
def Agree (x y : List Change) : Prop := x = [] ∨ y = [] ∨ ∀ c, c ∈ x ↔ c ∈ y

/-- What the mask above the treble says at one position is what the mask below says, reversed, at another. -/
def Crossed (above below : List (List Change)) (d d2 : Nat) : Prop := Agree (above.getD d []) ((below.getD d2 []).map Change.reverse)

/-- The symmetry --doubsym with `hl` changes in the half lead. -/
def Rotational (hl : Nat) (above below : List (List Change)) : Prop := ∀ d < 2 * hl, Crossed above below d ((d + hl) % (2 * hl))

/-- The symmetry --sym: about the change `c` of the half lead. -/
def Palindromic (hl c : Nat) (above below : List (List Change)) : Prop :=
  ∀ d d2, d < 2 * hl → d2 < 2 * hl → d + d2 = 2 * c →
    Agree (above.getD d []) (above.getD d2 []) ∧ Agree (below.getD d []) (below.getD d2 [])

/-- The symmetry --skewsym for an even number of hunt bells: about the quarter leads, whose own changes are not looked at. -/
def Skew (hl : Nat) (above below : List (List Change)) : Prop :=
  ∀ d d2, d < 2 * hl → d2 < 2 * hl → d ≠ d2 → (d + d2 = hl ∨ d + d2 = 3 * hl) → Crossed above below d d2

end Mask
end Ringing
