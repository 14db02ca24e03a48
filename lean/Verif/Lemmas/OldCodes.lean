import Verif.Lemmas.OverUnder

namespace Ringing
open Spec Row MethodUtils

/-- The rows with a code on six bells. -/
def known6 : List Row := ["134625", "135264", "135642", "136245", "136524", "142563", "142635", "145362", "146325", "146532", "152364", "152643", "154263", "154632", "156342", "162534", "164235", "164523", "165243", "165324"].map digitRow

/-- The rows with a code on five bells. -/
def known5 : List Row := ["12453", "12534", "13425", "13452", "13524", "13542", "14235", "14253", "14352", "14532", "15234", "15243", "15324", "15423"].map digitRow

theorem lhcode6_unknown {u a b c : Bool} {lh : Row} (hl : lh.length = 6) (h : lh ∉ known6) :
    lhcode6 u lh a b c = .ok "?" := by
  have h0 : lh ≠ digitRow "134625" := fun e => h (e ▸ by decide)
  have h1 : lh ≠ digitRow "135264" := fun e => h (e ▸ by decide)
  have h2 : lh ≠ digitRow "135642" := fun e => h (e ▸ by decide)
  have h3 : lh ≠ digitRow "136245" := fun e => h (e ▸ by decide)
  have h4 : lh ≠ digitRow "136524" := fun e => h (e ▸ by decide)
  have h5 : lh ≠ digitRow "142563" := fun e => h (e ▸ by decide)
  have h6 : lh ≠ digitRow "142635" := fun e => h (e ▸ by decide)
  have h7 : lh ≠ digitRow "145362" := fun e => h (e ▸ by decide)
  have h8 : lh ≠ digitRow "146325" := fun e => h (e ▸ by decide)
  have h9 : lh ≠ digitRow "146532" := fun e => h (e ▸ by decide)
  have h10 : lh ≠ digitRow "152364" := fun e => h (e ▸ by decide)
  have h11 : lh ≠ digitRow "152643" := fun e => h (e ▸ by decide)
  have h12 : lh ≠ digitRow "154263" := fun e => h (e ▸ by decide)
  have h13 : lh ≠ digitRow "154632" := fun e => h (e ▸ by decide)
  have h14 : lh ≠ digitRow "156342" := fun e => h (e ▸ by decide)
  have h15 : lh ≠ digitRow "162534" := fun e => h (e ▸ by decide)
  have h16 : lh ≠ digitRow "164235" := fun e => h (e ▸ by decide)
  have h17 : lh ≠ digitRow "164523" := fun e => h (e ▸ by decide)
  have h18 : lh ≠ digitRow "165243" := fun e => h (e ▸ by decide)
  have h19 : lh ≠ digitRow "165324" := fun e => h (e ▸ by decide)
  unfold lhcode6
  rw [vget_ok (by omega)]
  simp only [h0, h1, h2, h3, h4, h5, h6, h7, h8, h9, h10, h11, h12, h13, h14, h15, h16, h17, h18, h19, if_false, Out.ok_bind, Out.pure_eq, decide_false, Bool.and_false, Bool.false_eq_true]
  split_ifs <;> rfl

theorem lhcode5_unknown {a b c d : Bool} {lh : Row} (hl : lh.length = 5) (h : lh ∉ known5) :
    lhcode5 lh a b c d = .ok "?" := by
  have h0 : lh ≠ digitRow "12453" := fun e => h (e ▸ by decide)
  have h1 : lh ≠ digitRow "12534" := fun e => h (e ▸ by decide)
  have h2 : lh ≠ digitRow "13425" := fun e => h (e ▸ by decide)
  have h3 : lh ≠ digitRow "13452" := fun e => h (e ▸ by decide)
  have h4 : lh ≠ digitRow "13524" := fun e => h (e ▸ by decide)
  have h5 : lh ≠ digitRow "13542" := fun e => h (e ▸ by decide)
  have h6 : lh ≠ digitRow "14235" := fun e => h (e ▸ by decide)
  have h7 : lh ≠ digitRow "14253" := fun e => h (e ▸ by decide)
  have h8 : lh ≠ digitRow "14352" := fun e => h (e ▸ by decide)
  have h9 : lh ≠ digitRow "14532" := fun e => h (e ▸ by decide)
  have h10 : lh ≠ digitRow "15234" := fun e => h (e ▸ by decide)
  have h11 : lh ≠ digitRow "15243" := fun e => h (e ▸ by decide)
  have h12 : lh ≠ digitRow "15324" := fun e => h (e ▸ by decide)
  have h13 : lh ≠ digitRow "15423" := fun e => h (e ▸ by decide)
  unfold lhcode5
  rw [vget_ok (by omega)]
  simp only [h0, h1, h2, h3, h4, h5, h6, h7, h8, h9, h10, h11, h12, h13, if_false, Out.ok_bind, Out.pure_eq]
  split_ifs <;> rfl

/-- What is looked up for a lead head and a change at the lead end. -/
def lookup (t : List (List Nat × List Nat × String)) (lh : Row) (ss : List Nat) : String :=
  match t.find? (fun e => decide (e.1 = lh.map (· + 1) ∧ e.2.1 = ss)) with
  | some e => e.2.2
  | none => "?"

theorem lhcode6_known : ∀ u : Bool, ∀ lh ∈ known6,
    lhcode6 u lh true false false = .ok (lookup (oldCodes u 6) lh [2, 4]) ∧
    lhcode6 u lh false true false = .ok (lookup (oldCodes u 6) lh [1, 3]) ∧
    lhcode6 u lh false false true = .ok (lookup (oldCodes u 6) lh [1, 4]) ∧
    lhcode6 u lh false false false = .ok "?" := by decide +kernel

theorem lhcode5_known : ∀ u : Bool, ∀ lh ∈ known5,
    lhcode5 lh true false false false = .ok (lookup (oldCodes u 5) lh [1, 3]) ∧
    lhcode5 lh false true false false = .ok (lookup (oldCodes u 5) lh [2]) ∧
    lhcode5 lh false false true false = .ok (lookup (oldCodes u 5) lh [3]) ∧
    lhcode5 lh false false false true = .ok (lookup (oldCodes u 5) lh [1]) ∧
    lhcode5 lh false false false false = .ok "?" := by decide +kernel

theorem oldCodes_distinct : ∀ u : Bool,
    (oldCodes u 6).Pairwise (fun e f => e.2.2 ≠ f.2.2 ∧ (e.1, e.2.1) ≠ (f.1, f.2.1)) ∧
    (oldCodes u 5).Pairwise (fun e f => e.2.2 ≠ f.2.2 ∧ (e.1, e.2.1) ≠ (f.1, f.2.1)) ∧
    (∀ e ∈ oldCodes u 6, e.2.2 ≠ "?") ∧ (∀ e ∈ oldCodes u 5, e.2.2 ≠ "?") := by decide +kernel

theorem oldCodes_known : ∀ u : Bool, (∀ e ∈ oldCodes u 6, ∃ lh ∈ known6, e.1 = lh.map (· + 1)) ∧
    (∀ e ∈ oldCodes u 5, ∃ lh ∈ known5, e.1 = lh.map (· + 1)) ∧
    (∀ e ∈ oldCodes u 6, e.2.1 = [2, 4] ∨ e.2.1 = [1, 3] ∨ e.2.1 = [1, 4]) ∧
    (∀ e ∈ oldCodes u 5, e.2.1 = [1, 3] ∨ e.2.1 = [2] ∨ e.2.1 = [3] ∨ e.2.1 = [1]) := by decide +kernel

end Ringing
