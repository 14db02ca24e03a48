import Verif.Lemmas.Row
import Verif.Lemmas.Spec
import Mathlib.Tactic.Ring
import Mathlib.Tactic.IntervalCases

/-! C52: the hash of a row. -/
namespace Ringing
open Spec Row

/-- Value of a digit string in base 31. -/
def b31 : List Nat → Nat
  | [] => 0
  | d :: l => d * 31 ^ l.length + b31 l

theorem foldl_hash (l : List Nat) (h : Nat) :
    l.foldl (fun h d => (31 * h + d) % 2 ^ 64) (h % 2 ^ 64) = (h * 31 ^ l.length + b31 l) % 2 ^ 64 := by
  induction l generalizing h with
  | nil => simp [b31]
  | cons d l ih =>
    rw [List.foldl_cons]
    have e : (31 * (h % 2 ^ 64) + d) % 2 ^ 64 = (31 * h + d) % 2 ^ 64 := by omega
    rw [e, ih, List.length_cons, b31]
    congr 1; ring

theorem hash_eq (r : Row) : Row.hash r = (r.length * 31 ^ r.length + b31 r) % 2 ^ 64 := foldl_hash r _

theorem b31_lt {m : Nat} : ∀ {l : List Nat}, (∀ d ∈ l, d ≤ m) → 30 * b31 l + m ≤ m * 31 ^ l.length
  | [], _ => by simp [b31]
  | d :: l, h => by
    have h1 := b31_lt (l := l) (fun d hd => h d (List.mem_cons_of_mem _ hd))
    have h2 := Nat.mul_le_mul_right (31 ^ l.length) (h d List.mem_cons_self)
    rw [b31, List.length_cons, pow_succ]
    have e : m * (31 ^ l.length * 31) = 31 * (m * 31 ^ l.length) := by ring
    omega

theorem b31_inj : ∀ {a b : List Nat}, a.length = b.length → (∀ d ∈ a, d ≤ 30) → (∀ d ∈ b, d ≤ 30) →
    b31 a = b31 b → a = b
  | [], [], _, _, _, _ => rfl
  | [], _ :: _, hl, _, _, _ => by simp at hl
  | _ :: _, [], hl, _, _, _ => by simp at hl
  | x :: a, y :: b, hl, ha, hb, e => by
    have hl' : a.length = b.length := by simpa using hl
    have ha' : ∀ d ∈ a, d ≤ 30 := fun d hd => ha d (List.mem_cons_of_mem _ hd)
    have hb' : ∀ d ∈ b, d ≤ 30 := fun d hd => hb d (List.mem_cons_of_mem _ hd)
    have h1 := b31_lt ha'
    have h2 := b31_lt hb'
    rw [b31, b31, hl'] at e
    rw [hl'] at h1
    have hp : 0 < 31 ^ b.length := Nat.pos_of_ne_zero (by simp)
    set P := 31 ^ b.length
    have hA : b31 a < P := by omega
    have hB : b31 b < P := by omega
    have hxy : x = y := by
      have c1 : (x * P + b31 a) / P = x := by
        rw [Nat.add_comm, Nat.add_mul_div_right _ _ hp, Nat.div_eq_of_lt hA, Nat.zero_add]
      have c2 : (y * P + b31 b) / P = y := by
        rw [Nat.add_comm, Nat.add_mul_div_right _ _ hp, Nat.div_eq_of_lt hB, Nat.zero_add]
      rw [← c1, e, c2]
    subst hxy
    rw [b31_inj hl' ha' hb' (by omega)]

theorem row_digit {r : Row} (h : IsRow r) : ∀ d ∈ r, d + 1 ≤ r.length := by
  intro d hd
  have := ((isRow_iff_valid r).1 h).1.mem_iff.1 hd
  rw [List.mem_range] at this; omega

/-- C52: on up to 13 bells different rows on the same number of bells have different hashes. -/
theorem C52_injective {a b : Row} (ha : IsRow a) (hb : IsRow b) (hl : a.length = b.length)
    (h13 : a.length ≤ 13) (e : Row.hash a = Row.hash b) : a = b := by
  have da : ∀ d ∈ a, d ≤ 12 := fun d hd => by have := row_digit ha d hd; omega
  have db : ∀ d ∈ b, d ≤ 12 := fun d hd => by have := row_digit hb d hd; omega
  refine b31_inj hl (fun d hd => (da d hd).trans (by omega)) (fun d hd => (db d hd).trans (by omega)) ?_
  have h1 := b31_lt da
  have h2 := b31_lt db
  have hp : 31 ^ a.length ≤ 31 ^ 13 := Nat.pow_le_pow_right (by omega) h13
  rw [hash_eq, hash_eq, hl] at e
  rw [hl] at h1 hp
  generalize b.length * 31 ^ b.length = K at e
  generalize 31 ^ b.length = P at *
  norm_num at hp e
  omega

/-- C52: on up to 12 bells the hash also separates rows on different numbers of bells. -/
theorem C52_injective_12 {a b : Row} (ha : IsRow a) (hb : IsRow b) (h1 : a.length ≤ 12)
    (h2 : b.length ≤ 12) (e : Row.hash a = Row.hash b) : a = b := by
  by_cases hl : a.length = b.length
  · exact C52_injective ha hb hl (by omega) e
  exfalso
  have key : ∀ {a b : Row}, IsRow a → IsRow b → a.length ≤ 12 → b.length ≤ 12 → a.length < b.length →
      Row.hash a ≠ Row.hash b := by
    intro a b ha hb h1 h2 hl e
    have da : ∀ d ∈ a, d ≤ 11 := fun d hd => by have := row_digit ha d hd; omega
    have db : ∀ d ∈ b, d ≤ 11 := fun d hd => by have := row_digit hb d hd; omega
    have l1 := b31_lt da
    have l2 := b31_lt db
    rw [hash_eq, hash_eq] at e
    have h12 : 31 ^ b.length ≤ 31 ^ 12 := Nat.pow_le_pow_right (by omega) h2
    have hs : 31 ^ (a.length + 1) ≤ 31 ^ b.length := Nat.pow_le_pow_right (by omega) hl
    rw [pow_succ] at hs
    have m1 : b.length * 31 ^ b.length ≤ 12 * 31 ^ b.length := Nat.mul_le_mul_right _ h2
    have m2 : a.length * 31 ^ a.length ≤ 11 * 31 ^ a.length := Nat.mul_le_mul_right _ (by omega)
    have m3 : 1 * 31 ^ b.length ≤ b.length * 31 ^ b.length := Nat.mul_le_mul_right _ (by omega)
    have hp : 0 < 31 ^ a.length := Nat.pos_of_ne_zero (by simp)
    generalize b.length * 31 ^ b.length = K at *
    generalize a.length * 31 ^ a.length = L at *
    generalize 31 ^ b.length = P at *
    generalize 31 ^ a.length = Q at *
    norm_num at h12 e
    omega
  rcases Nat.lt_or_gt_of_ne hl with h | h
  · exact key ha hb h1 h2 h e
  · exact key hb ha h2 h1 h e.symm

example : Row.hash [1,0,2] ≠ Row.hash [0,1,2] := by decide
example : ∃ a b : Row, IsRow a ∧ IsRow b ∧ a.length = b.length ∧ a.length ≤ 13 ∧ a ≠ b :=
  ⟨[1,0,2], [0,1,2], (isRow_iff_valid _).2 (by decide), (isRow_iff_valid _).2 (by decide), rfl, by decide, by decide⟩

end Ringing
