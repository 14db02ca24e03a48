import Verif.Spec.Method
import Verif.Spec.Row
/-
Specification vocabulary for the classification of methods.  A method is given by the number of bells
and the list of the swaps of its changes.
-/
namespace Spec

/-- The bell starting in position `p` is a hunt bell: the lead brings it back to its place. -/
def IsHunt (css : List (List Nat)) (b p : Nat) : Prop := p < b ∧ follow css p = p

/-- The bell starting in position `p` is a working bell. -/
def IsWorking (css : List (List Nat)) (b p : Nat) : Prop := p < b ∧ follow css p ≠ p

/-- There are working bells in cycles of different lengths: after some number of leads one is back
home and another one is not. -/
def UnequalCycles (css : List (List Nat)) (b : Nat) : Prop :=
  ∃ p q k, IsWorking css b p ∧ IsWorking css b q ∧ iter (follow css) k p = p ∧ iter (follow css) k q ≠ q

/-- The working bells do not all belong to one cycle. -/
def SeveralCycles (css : List (List Nat)) (b : Nat) : Prop :=
  ∃ p q, IsWorking css b p ∧ IsWorking css b q ∧ ∀ k, iter (follow css) k p ≠ q

/-- The position of the bell starting in `p` after `k` changes, read round the lead. -/
def posAt (css : List (List Nat)) (p k : Nat) : Nat := follow (css.take (k % css.length)) p

/-- The path of the bell starting in `p` is, round the lead, its own mirror image about change number
`i`: the positions an equal number of changes before and after it agree. -/
def PathMirror (css : List (List Nat)) (p i : Nat) : Prop :=
  ∀ s t, s < css.length → t < css.length →
    (s + t = 2 * i + 1 ∨ s + t = 2 * i + 1 + css.length ∨ s + t + css.length = 2 * i + 1) →
    posAt css p s = posAt css p t

/-- The bell starting in `p` steps forward and back, at some point of the lead or at its end. -/
def Dodges (css : List (List Nat)) (p : Nat) : Prop :=
  ∃ k, k < css.length ∧ follow ((css ++ css.take 1).take (k + 2)) p = follow (css.take k) p ∧
    follow (css.take (k + 1)) p ≠ follow (css.take k) p

/-- `lo` and `hi` are the lowest and highest positions of the bell starting in `p`. -/
def PathRange (css : List (List Nat)) (p lo hi : Nat) : Prop :=
  (∃ k, k ≤ css.length ∧ follow (css.take k) p = lo) ∧ (∃ k, k ≤ css.length ∧ follow (css.take k) p = hi) ∧
  ∀ k, k ≤ css.length → lo ≤ follow (css.take k) p ∧ follow (css.take k) p ≤ hi

/-- The number of blows struck in position `x` in the half lead after change number `i`. -/
def halfBlows (css : List (List Nat)) (p i x : Nat) : Nat :=
  ((List.range (css.length / 2)).filter fun t => posAt css p (i + 1 + t) = x).length

/-- A place is made in the half lead after change number `i`. -/
def HalfPlace (css : List (List Nat)) (p i : Nat) : Prop :=
  ∃ t, t + 1 < css.length / 2 ∧ posAt css p (i + 1 + t) = posAt css p (i + 2 + t)

/-- A change on `b` bells makes a place other than lead and back. -/
def HasInternal (b : Nat) (ss : List Nat) : Prop := ∃ i, IsPlace b ss i ∧ i ≠ 0 ∧ i + 1 ≠ b

/-- The changes examined by the treble dodging classes: those at the ends of sections of `step` changes
in the first half lead, and their mirror images in the second half. -/
def SectionEnd (n step i : Nat) : Prop :=
  (∃ t, i = t * step + (step - 1) ∧ i + 1 < n / 2) ∨
  (∃ t j, j = t * step + (step - 1) ∧ j + 1 < n / 2 ∧ i = n - j - 2)

/-- `hb` is the first hunt bell. -/
def FirstHunt (css : List (List Nat)) (b hb : Nat) : Prop :=
  IsHunt css b hb ∧ ∀ p, p < hb → ¬ IsHunt css b p

/-- `i` is the first change about which the path of the bell starting in `p` is symmetrical. -/
def SymPoint (css : List (List Nat)) (p i : Nat) : Prop :=
  i < css.length / 2 ∧ PathMirror css p i ∧ ∀ j, j < i → ¬ PathMirror css p j

/-- The condition for a Slow Course method: before 2019, with bells 1 and 2 hunt bells and the path
of the 2 symmetrical about the half lead. -/
def SlowCourse (css : List (List Nat)) (b hb : Nat) (year : Int) : Prop :=
  year < 2019 ∧ hb = 0 ∧ IsHunt css b 1 ∧ PathMirror css 1 (css.length / 2 - 1)

/-- The treble spends the same number of blows (modulo 256) in each place of its range during the half
lead after change `i`. -/
def EvenBlows (css : List (List Nat)) (p i lo hi : Nat) : Prop :=
  ∀ x y, lo ≤ x → x ≤ hi → lo ≤ y → y ≤ hi → halfBlows css p i x % 256 = halfBlows css p i y % 256

/-- The classes of methods, with their numbers: 1 principle, 2 bob, 3 place, 4 treble bob, 5 surprise,
6 delight, 7 treble place, 8 alliance, 9 hybrid, 10 slow course. -/
inductive Classified (b : Nat) (css : List (List Nat)) (year : Int) : Nat → Prop
  | principle : (∀ p, ¬ IsHunt css b p) → Classified b css year 1
  | hybrid {hb} : FirstHunt css b hb →
      (css.length % 2 = 1 ∨ ∀ i, i < css.length / 2 → ¬ PathMirror css hb i) → Classified b css year 9
  | slow {hb i} : FirstHunt css b hb → css.length % 2 = 0 → SymPoint css hb i → PlainHunts css hb →
      SlowCourse css b hb year → Classified b css year 10
  | bob {hb i} : FirstHunt css b hb → css.length % 2 = 0 → SymPoint css hb i → PlainHunts css hb →
      ¬ SlowCourse css b hb year → (∃ p, 1 ≤ p ∧ p < b ∧ Dodges css p) → Classified b css year 2
  | place {hb i} : FirstHunt css b hb → css.length % 2 = 0 → SymPoint css hb i → PlainHunts css hb →
      ¬ SlowCourse css b hb year → (¬ ∃ p, 1 ≤ p ∧ p < b ∧ Dodges css p) → Classified b css year 3
  | alliance {hb i lo hi} : FirstHunt css b hb → css.length % 2 = 0 → SymPoint css hb i →
      ¬ PlainHunts css hb → PathRange css hb lo hi → ¬ EvenBlows css hb i lo hi → Classified b css year 8
  | treblePlace {hb i lo hi} : FirstHunt css b hb → css.length % 2 = 0 → SymPoint css hb i →
      ¬ PlainHunts css hb → PathRange css hb lo hi → EvenBlows css hb i lo hi → HalfPlace css hb i →
      Classified b css year 7
  | dodging {hb i lo hi c} : FirstHunt css b hb → css.length % 2 = 0 → SymPoint css hb i →
      ¬ PlainHunts css hb → PathRange css hb lo hi → EvenBlows css hb i lo hi → ¬ HalfPlace css hb i →
      (c = if hi - lo = 1 then 4
        else
          let ends := fun ss => ∃ e, SectionEnd css.length (css.length / (hi - lo + 1)) e ∧ css[e]? = some ss
          open Classical in
          if (∃ ss, ends ss) ∧ ∀ ss, ends ss → ¬ HasInternal b ss then 4
          else if (∃ ss, ends ss) ∧ ∀ ss, ends ss → HasInternal b ss then 5
          else 6) →
      Classified b css year c

end Spec
