import Verif.Lemmas.MethSearch5
import Verif.Props.SearchConstraints

namespace Ringing
open Spec Row MethodUtils
namespace MethSearch

theorem isTrue_bind {x : Out Bool} {f : Bool → Out Bool} :
    (x >>= f) = .ok true ↔ ∃ b, x = .ok b ∧ f b = .ok true := by
  cases x <;> simp

theorem testsC_eq (A : Args) (T : Tests) (m : List Change) (ch : Change) :
    testsC A T m ch = (tryMidleadC A T m ch >>= fun a =>
      if (!a) = true then .ok false
      else if A.huntBells ≠ 0 ∧ A.skewsym = true ∧ A.leadLen % 4 = 0 ∧
        m.length % (A.leadLen / 2) = A.leadLen / 4 - A.huntBells % 2 ∧ ¬ tryQuarterlead A m ch = true then .ok false
      else ((if (A.huntBells % 2 = 1 ∧ m.length + 1 = A.leadLen / 2) ∨
        (A.huntBells ≠ 0 ∧ A.huntBells % 2 = 0 ∧ m.length + 1 = A.leadLen / 2 + divLen A / 2) then tryHalfleadSymC A m ch
        else .ok true) >>= fun b =>
          if (!b) = true then .ok false
          else if m.length + 1 = A.leadLen ∧ ¬ tryLeadend A m ch = true then .ok false
          else if (symOffset A = 0 ∧ m.length + 1 = A.leadLen) ∨ (symOffset A ≠ 0 ∧ m.length + 1 = symOffset A) then
            tryLeadendSymC A m ch
          else .ok true)) := by
  unfold testsC
  dsimp only
  congr 1
  funext a
  split
  · rfl
  · split
    · rfl
    · split <;> rfl

/-- All the tests of a change together. -/
theorem testsC_iff {A : Args} {T : Tests} {m : List Change} {ch : Change} :
    testsC A T m ch = .ok true ↔
      tryMidleadC A T m ch = .ok true ∧
      (A.huntBells ≠ 0 → A.skewsym = true → A.leadLen % 4 = 0 →
        m.length % (A.leadLen / 2) = A.leadLen / 4 - A.huntBells % 2 → tryQuarterlead A m ch = true) ∧
      ((A.huntBells % 2 = 1 ∧ m.length + 1 = A.leadLen / 2) ∨
        (A.huntBells ≠ 0 ∧ A.huntBells % 2 = 0 ∧ m.length + 1 = A.leadLen / 2 + divLen A / 2) → tryHalfleadSymC A m ch = .ok true) ∧
      (m.length + 1 = A.leadLen → tryLeadend A m ch = true) ∧
      ((symOffset A = 0 ∧ m.length + 1 = A.leadLen) ∨ (symOffset A ≠ 0 ∧ m.length + 1 = symOffset A) →
        tryLeadendSymC A m ch = .ok true) := by
  rw [testsC_eq, isTrue_bind]
  constructor
  · rintro ⟨a, h1, h2⟩
    cases a with
    | false => simp at h2
    | true =>
      simp only [Bool.not_true, Bool.false_eq_true, if_false] at h2
      split at h2
      · simp at h2
      · rename_i hq
        rw [isTrue_bind] at h2
        obtain ⟨b, h3, h4⟩ := h2
        cases b with
        | false => simp at h4
        | true =>
          simp only [Bool.not_true, Bool.false_eq_true, if_false] at h4
          split at h4
          · simp at h4
          · rename_i hl
            refine ⟨h1, ?_, ?_, ?_, ?_⟩
            · intro q1 q2 q3 q4
              by_contra hc
              exact hq ⟨q1, q2, q3, q4, hc⟩
            · intro hh; rwa [if_pos hh] at h3
            · intro hh
              by_contra hc
              exact hl ⟨hh, hc⟩
            · intro hh; rwa [if_pos hh] at h4
  · rintro ⟨h1, h2, h3, h4, h5⟩
    refine ⟨true, h1, ?_⟩
    simp only [Bool.not_true, Bool.false_eq_true, if_false]
    rw [if_neg (fun hq => hq.2.2.2.2 (h2 hq.1 hq.2.1 hq.2.2.1 hq.2.2.2.1)), isTrue_bind]
    refine ⟨true, ?_, ?_⟩
    · split
      · rename_i hh; exact h3 hh
      · rfl
    · simp only [Bool.not_true, Bool.false_eq_true, if_false]
      rw [if_neg (fun hl => hl.2 (h4 hl.1))]
      split
      · rename_i hh; exact h5 hh
      · rfl

theorem tooMany_total {A : Args} {m : List Change} {ch : Change} (hm : Ok A m) (hc : IsChange ch.n ch.swaps) (hn : ch.n = A.bells)
    (max st : Nat) : ∃ b, isTooManyPlacesC ⟨A.bells, m⟩ ch max st = .ok b := by
  obtain ⟨r, h, -⟩ := C77_too_many_places (m := ⟨A.bells, m⟩) (c := ch) (max := max) (st := st) hm hc hn
  exact ⟨r, h⟩

theorem total_bind {x : Out Bool} {f : Bool → Out Bool} (hx : ∃ b, x = .ok b) (hf : ∀ b, ∃ r, f b = .ok r) : ∃ r, (x >>= f) = .ok r := by
  obtain ⟨b, rfl⟩ := hx
  exact hf b

theorem total_if {p : Prop} [Decidable p] {x y : Out Bool} (hx : p → ∃ b, x = .ok b) (hy : ¬ p → ∃ b, y = .ok b) :
    ∃ b, (if p then x else y) = .ok b := by
  by_cases h : p
  · rw [if_pos h]; exact hx h
  · rw [if_neg h]; exact hy h

/-- The tests give an answer, unless the changes of `is_limited_le` cannot be made. -/
theorem good_total {A : Args} {T : Tests}
    (hl : A.limitedLe = true → (∃ c, Change.ofStringC A.bells ['1'] = .ok c) ∧
      ∃ c, Change.ofStringC A.bells ['1', Bell.toChar A.huntBells] = .ok c)
    {m : List Change} {ch : Change} (hm : Ok A m) (hc : IsChange ch.n ch.swaps) (hn : ch.n = A.bells) :
    ∃ b, testsC A T m ch = .ok b := by
  have lim : A.limitedLe = true → ∀ c, ∃ b, isLimitedLeC A c = .ok b := by
    intro h c
    obtain ⟨⟨c1, e1⟩, c2, e2⟩ := hl h
    unfold isLimitedLeC
    rw [e1, e2]
    simp only [Out.ok_bind, Out.pure_eq]
    exact total_if (fun _ => ⟨_, rfl⟩) (fun _ => ⟨_, rfl⟩)
  have tm := fun max st => tooMany_total hm hc hn max st
  have mid : ∃ b, tryMidleadC A T m ch = .ok b := by
    obtain ⟨b, hb⟩ := tm A.maxBlows (stopoff A)
    unfold tryMidleadC
    simp only [hb, Out.ok_bind, Out.pure_eq]
    split_ifs <;> exact ⟨_, rfl⟩
  have hal : ∃ b, tryHalfleadSymC A m ch = .ok b := by
    obtain ⟨b, hb⟩ := tm (A.maxBlows / 2 + 1) (stopoff A)
    unfold tryHalfleadSymC
    by_cases h : A.limitedLe = true
    · obtain ⟨c, hc⟩ := lim h ch.reverse
      simp only [hb, hc, Out.ok_bind, Out.pure_eq]
      split_ifs <;> exact ⟨_, rfl⟩
    · simp only [hb, h, and_false, if_false, Out.ok_bind, Out.pure_eq, Bool.false_eq_true]
      split_ifs <;> exact ⟨_, rfl⟩
  have les : ∃ b, tryLeadendSymC A m ch = .ok b := by
    obtain ⟨b, hb⟩ := tm (A.maxBlows / 2 + 1) (2 ^ 64 - 1)
    unfold tryLeadendSymC
    by_cases h : A.limitedLe = true
    · obtain ⟨c, hc⟩ := lim h ch
      simp only [hb, hc, Out.ok_bind, Out.pure_eq]
      split_ifs <;> exact ⟨_, rfl⟩
    · simp only [hb, h, if_false, Out.ok_bind, Out.pure_eq, Bool.false_eq_true]
      split_ifs <;> exact ⟨_, rfl⟩
  rw [testsC_eq]
  refine total_bind mid (fun a => total_if (fun _ => ⟨_, rfl⟩) (fun _ => total_if (fun _ => ⟨_, rfl⟩) (fun _ => ?_)))
  refine total_bind (total_if (fun _ => hal) (fun _ => ⟨_, rfl⟩)) (fun b => total_if (fun _ => ⟨_, rfl⟩) (fun _ => ?_))
  exact total_if (fun _ => ⟨_, rfl⟩) (fun _ => total_if (fun _ => les) (fun _ => ⟨_, rfl⟩))

/-- The searches that can be made: the lead is not empty, there are changes on the bells of the search to
choose from in every position, symmetry needs an even lead and any two symmetries imply the third
(prog_args.cpp:848-849, 1037-1041), the number of hunt bells is not even, and with --limited-le the two
changes allowed can be made. -/
structure Searchable (A : Args) : Prop where
  pos : A.leadLen ≠ 0
  len : A.allowed.length = A.leadLen
  nonempty : ∀ cs ∈ A.allowed, cs ≠ [] ∧ cs.Nodup
  wf : ∀ cs ∈ A.allowed, ∀ c ∈ cs, IsChange c.n c.swaps ∧ c.n = A.bells
  even : A.sym = true ∨ A.skewsym = true ∨ A.doubsym = true → A.leadLen % 2 = 0
  two : (A.sym = true ∧ A.skewsym = true) ∨ (A.sym = true ∧ A.doubsym = true) ∨ (A.skewsym = true ∧ A.doubsym = true) →
    A.sym = true ∧ A.skewsym = true ∧ A.doubsym = true
  hunts : A.huntBells = 0 ∨ A.huntBells % 2 = 1
  start : A.start = []
  limited : A.limitedLe = true → (∃ c, Change.ofStringC A.bells ['1'] = .ok c) ∧
    ∃ c, Change.ofStringC A.bells ['1', Bell.toChar A.huntBells] = .ok c

theorem Searchable.good {A : Args} (S : Searchable A) (T : Tests) : Good A T where
  pos := S.pos
  len := S.len
  nonempty := fun cs h => (S.nonempty cs h).1
  wf := S.wf
  even := S.even
  two := S.two
  offset := by
    unfold symOffset
    rw [if_neg]
    have := S.hunts
    omega
  total := fun _ _ hm hc hn => good_total S.limited hm hc hn

/-! ### The whole search -/

/-- `L` lists the leads wanted, and the search gives the first of them. -/
theorem search_all {A : Args} {T : Tests} (G : Good A T) (hs : A.start = []) :
    ∃ L, Lists A T [] L ∧ searchC A T = .ok (cut A 0 L) := by
  obtain ⟨L, h1, h2⟩ := done_all G A.leadLen [] (by simp) (by intro c hc; simp at hc)
    ⟨by simp, fun _ => ⟨fun _ _ => by simp, fun _ => by simp, fun _ _ _ => by simp, fun _ _ _ _ => by simp⟩⟩
  refine ⟨L, h1, ?_⟩
  unfold searchC
  have e : (⟨[], 0, A.start, 0, []⟩ : St) = mk A [] ⟨[], 0, [], 0, []⟩ := by
    rw [hs]; unfold mk; simp
  rw [e, h2 _ _ rfl (by intro h; simp) (by simp)]
  simp only [Out.ok_bind, Out.pure_eq]
  rw [if_pos (by rfl)]
  simp [res, mk]

theorem good_limit {A : Args} {T : Tests} (G : Good A T) (k : Nat) : Good { A with limit := k } T :=
  ⟨G.pos, G.len, G.nonempty, G.wf, G.even, G.two, G.offset, G.total⟩

theorem before_irrefl {allowed : List (List Change)} (h : ∀ cs ∈ allowed, cs.Nodup) (x : List Change) : ¬ Before allowed x x := by
  rintro ⟨k, a, b, -, h1, h2, h3⟩
  rw [h1] at h2
  cases h2
  have hn : (allowed.getD k []).Nodup := by
    by_cases hk : k < allowed.length
    · rw [List.getD, List.getElem?_eq_getElem hk]
      exact h _ (List.getElem_mem hk)
    · rw [List.getD, List.getElem?_eq_none (by omega)]
      exact List.nodup_nil
  have := h3.nodup hn
  simp at this

end MethSearch
end Ringing
