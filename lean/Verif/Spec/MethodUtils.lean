import Verif.Spec.MethodClass
import Mathlib.Logic.Function.Iterate
/-
Specification of the symmetries, constraints and orders of apps/methsearch/methodutils.cpp.
A change is given by the list of the first positions of its swapped pairs.
-/
namespace Spec

/-- The lead rung round and round: the change at time `k`, for any integer `k`. -/
def around (css : List (List Nat)) (k : Int) : List Nat :=
  css.getD (k % (css.length : Int)).toNat []

/-- On `b` bells, the change `tt` is `ss` turned upside down. -/
def UpsideDown (b : Nat) (ss tt : List Nat) : Prop :=
  ∀ p, p + 2 ≤ b → (p ∈ ss ↔ b - 2 - p ∈ tt)

/-- The lead reads the same forwards and backwards from some change. -/
def Palindromic (css : List (List Nat)) : Prop :=
  ∃ i : Int, ∀ j : Int, around css (i + j) = around css (i - j)

/-- The lead reads the same upside down. -/
def MirrorSym (b : Nat) (css : List (List Nat)) : Prop :=
  ∀ j : Int, UpsideDown b (around css j) (around css j)

/-- The second half of the lead is the first half upside down. -/
def GlideSym (b : Nat) (css : List (List Nat)) : Prop :=
  css.length % 2 = 0 ∧
    ∀ j : Int, UpsideDown b (around css j) (around css (j + (css.length / 2 : Nat)))

/-- The lead read backwards and upside down is the same lead from some starting point. -/
def RotationalSym (b : Nat) (css : List (List Nat)) : Prop :=
  ∃ s : Int, ∀ j : Int, UpsideDown b (around css j) (around css (s - j))

/-! ### Constraints -/

/-- The row keeps the first `h` bells in place and is a non-trivial cyclic shift of the others. -/
def CyclicShift (lh : List Nat) (h : Nat) : Prop :=
  (∀ i, i < h → lh[i]? = some i) ∧
  ∃ k, 0 < k ∧ k < lh.length - h ∧
    ∀ i, h ≤ i → i < lh.length → lh[i]? = some (h + (i - h + k) % (lh.length - h))

/-- After the changes `xs` every bell (of `b`) is where it is after the changes `ys`. -/
def SameAfter (b : Nat) (xs ys : List (List Nat)) : Prop := ∀ p, p < b → follow xs p = follow ys p

/-- After the changes `xs` the row is odd: an odd number of pairs has been swapped. -/
def oddAfter (xs : List (List Nat)) : Bool := (xs.map List.length).sum % 2 = 1

/-! ### Orders and counts -/

/-- `l` is the coursing order of the last two of `n` bells: it starts with the last but one and ends
with the last, has no bell twice, and `i` leads take each bell to the place of the one before it. -/
def CourseOrder (n : Nat) (css : List (List Nat)) (i : Nat) (l : List Nat) : Prop :=
  l.head? = some (n - 2) ∧ l.getLast? = some (n - 1) ∧ l.Nodup ∧
    l.IsChain fun x y => (follow css)^[i] y = x

/-- The bells in positions `i` and `i+1` swap or, if places count, both stay. -/
def Together (b : Nat) (inc : Bool) (i : Nat) (ss : List Nat) : Prop :=
  i ∈ ss ∨ (inc = true ∧ IsPlace b ss i ∧ IsPlace b ss (i + 1))

/-- A maximal run, of even positive length, of times at which `T` holds. -/
def EvenRun (T : Int → Prop) : Prop :=
  ∃ (s : Int) (len : Nat), 0 < len ∧ len % 2 = 0 ∧ ¬ T s ∧
    (∀ t, s < t → t ≤ s + len → T t) ∧ ¬ T (s + len + 1)

/-! ### Overwork and underwork -/

/-- The lower of the two positions between which the treble is at change number `k`. -/
def trebleLow (css : List (List Nat)) (k : Nat) : Nat :=
  min (follow (css.take k) 0) (follow (css.take (k + 1)) 0)

/-- The higher of the two positions between which the treble is at change number `k`. -/
def trebleHigh (css : List (List Nat)) (k : Nat) : Nat :=
  max (follow (css.take k) 0) (follow (css.take (k + 1)) 0)

/-- `os` is the work above the treble: at every change the pairs from the treble up swap as in the
method, and the bells below it swap in pairs down from the treble, whatever they do in the method. -/
def OverWork (css os : List (List Nat)) : Prop :=
  os.length = css.length ∧ ∀ k ss tt, css[k]? = some ss → os[k]? = some tt → ∀ s, s ∈ tt ↔
    (trebleLow css k ≤ s ∧ s ∈ ss) ∨ (s + 2 ≤ trebleLow css k ∧ s % 2 = trebleLow css k % 2)

/-- `us` is the work below the treble: at every change the pairs up to the treble swap as in the
method, and the bells above it swap in pairs up from the treble. -/
def UnderWork (n : Nat) (css us : List (List Nat)) : Prop :=
  us.length = css.length ∧ ∀ k ss tt, css[k]? = some ss → us[k]? = some tt → ∀ s, s ∈ tt ↔
    (s + 1 ≤ trebleHigh css k ∧ s ∈ ss) ∨
      (trebleHigh css k < s ∧ s + 2 ≤ n ∧ s % 2 = (trebleHigh css k + 1) % 2)

/-! ### Old lead head codes -/

/-- The codes of lead heads on six bells: the lead head, the swaps of the change at the lead end (12 is
`[2, 4]`, 1 is `[1, 3]`, 14 is `[1, 4]`) and the code. -/
def codes6 : List (List Nat × List Nat × String) :=
  [([1, 4, 5, 3, 6, 2], [1, 4], "X"),
   ([1, 6, 2, 5, 3, 4], [1, 4], "Y"),
   ([1, 3, 5, 2, 6, 4], [2, 4], "G"),
   ([1, 3, 5, 2, 6, 4], [1, 3], "L"),
   ([1, 3, 6, 2, 4, 5], [2, 4], "Q"),
   ([1, 3, 4, 6, 2, 5], [1, 3], "W"),
   ([1, 4, 2, 6, 3, 5], [2, 4], "K"),
   ([1, 4, 2, 6, 3, 5], [1, 3], "O"),
   ([1, 4, 2, 5, 6, 3], [2, 4], "P"),
   ([1, 4, 6, 5, 3, 2], [1, 3], "U"),
   ([1, 5, 6, 3, 4, 2], [2, 4], "H"),
   ([1, 5, 6, 3, 4, 2], [1, 3], "M"),
   ([1, 5, 4, 6, 3, 2], [2, 4], "S"),
   ([1, 5, 2, 3, 6, 4], [1, 3], "T"),
   ([1, 6, 4, 5, 2, 3], [2, 4], "J"),
   ([1, 6, 4, 5, 2, 3], [1, 3], "N"),
   ([1, 6, 5, 3, 2, 4], [2, 4], "R"),
   ([1, 6, 5, 2, 4, 3], [1, 3], "V")]

/-- Further codes on six bells, two bytes each, that need Greek letters. -/
def greek6 : List (List Nat × List Nat × String) :=
  [([1, 3, 6, 5, 2, 4], [1, 4], "\u00CE\u00BC"),
   ([1, 5, 2, 6, 4, 3], [1, 4], "\u00CE\u00B8"),
   ([1, 6, 4, 2, 3, 5], [1, 4], "\u00CE\u00B4"),
   ([1, 4, 6, 3, 2, 5], [1, 4], "\u00CE\u00A8"),
   ([1, 5, 4, 2, 6, 3], [1, 4], "\u00CE\u00A3"),
   ([1, 3, 5, 6, 4, 2], [1, 4], "\u00CE\u00BB")]

/-- The codes of lead heads on five bells (1 is `[1, 3]`, 12 is `[2]`, 123 is `[3]`, 14 is `[1]`). -/
def codes5 : List (List Nat × List Nat × String) :=
  [([1, 2, 5, 3, 4], [2], "G"),
   ([1, 2, 5, 3, 4], [3], "T"),
   ([1, 2, 4, 5, 3], [2], "K"),
   ([1, 2, 4, 5, 3], [3], "S"),
   ([1, 3, 5, 2, 4], [2], "A"),
   ([1, 3, 5, 2, 4], [1, 3], "C"),
   ([1, 3, 5, 4, 2], [1], "Z"),
   ([1, 3, 4, 2, 5], [2], "H"),
   ([1, 3, 4, 2, 5], [1], "X"),
   ([1, 3, 4, 5, 2], [1, 3], "F"),
   ([1, 4, 2, 5, 3], [2], "B"),
   ([1, 4, 2, 5, 3], [1, 3], "D"),
   ([1, 4, 2, 3, 5], [2], "J"),
   ([1, 4, 2, 3, 5], [1], "W"),
   ([1, 4, 3, 5, 2], [3], "U"),
   ([1, 4, 5, 3, 2], [3], "R"),
   ([1, 4, 5, 3, 2], [1], "N"),
   ([1, 5, 2, 3, 4], [1, 3], "E"),
   ([1, 5, 2, 4, 3], [1], "Y"),
   ([1, 5, 4, 2, 3], [3], "Q"),
   ([1, 5, 4, 2, 3], [1], "M"),
   ([1, 5, 3, 2, 4], [3], "V")]

/-- The codes on `n` bells. -/
def oldCodes (unicode : Bool) (n : Nat) : List (List Nat × List Nat × String) :=
  if n = 6 then codes6 ++ (if unicode then greek6 else []) else if n = 5 then codes5 else []

end Spec
