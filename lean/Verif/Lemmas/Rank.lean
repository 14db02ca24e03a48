import Verif.Model.Extent
import Verif.Lemmas.Out
import Mathlib.Data.Nat.Factorial.Basic
import Mathlib.Data.List.Perm.Basic
import Mathlib.Tactic.Ring

/-! Lexicographic rank of a permutation of a list and the permutation algorithms. -/
namespace Ringing
open Nat (factorial)

/-- A strict total order given as a boolean relation. -/
structure STO (R : Nat → Nat → Bool) : Prop where
  irr : ∀ a, R a a = false
  tr : ∀ a b c, R a b = true → R b c = true → R a c = true
  tot : ∀ a b, a ≠ b → R a b = true ∨ R b a = true

theorem sto_lt : STO (fun a b => decide (a < b)) :=
  ⟨by simp, by simp; omega, by simp⟩

theorem sto_gt : STO (fun a b => decide (b < a)) :=
  ⟨by simp, by simp; omega, by simp; omega⟩

theorem STO.asymm {R} (h : STO R) {a b : Nat} (h1 : R a b = true) : R b a = false := by
  cases hb : R b a with
  | false => rfl
  | true => have := h.tr _ _ _ h1 hb; rw [h.irr] at this; cases this

theorem STO.of_not {R} (h : STO R) {a b : Nat} (hne : a ≠ b) (h1 : R a b = false) : R b a = true := by
  rcases h.tot a b hne with h' | h'
  · rw [h'] at h1; cases h1
  · exact h'

/-- The rank of a list among its permutations for the order `R`. -/
def rankR (R : Nat → Nat → Bool) : List Nat → Nat
  | [] => 0
  | a :: l => l.countP (fun x => R x a) * l.length.factorial + rankR R l

theorem rankR_lt (R) (l : List Nat) : rankR R l < l.length.factorial := by
  induction l with
  | nil => simp [rankR]
  | cons a l ih =>
    simp only [rankR, List.length_cons, Nat.factorial_succ]
    have h : l.countP (fun x => R x a) ≤ l.length := List.countP_le_length
    have := Nat.mul_le_mul_right l.length.factorial h
    have e : (l.length + 1) * l.length.factorial = l.length * l.length.factorial + l.length.factorial := by ring
    omega

theorem rankR_sorted {R} (h : STO R) {l : List Nat} (hl : l.Pairwise (fun a b => R a b = true)) :
    rankR R l = 0 := by
  induction l with
  | nil => rfl
  | cons a l ih =>
    rw [List.pairwise_cons] at hl
    have : l.countP (fun x => R x a) = 0 := by
      rw [List.countP_eq_zero]
      intro x hx
      simp [h.asymm (hl.1 x hx)]
    simp [rankR, this, ih hl.2]

theorem permStep_none {R} (h : STO R) : ∀ {l : List Nat}, l.Nodup → permStep R l = none →
    l.Pairwise (fun a b => R b a = true) ∧ rankR R l + 1 = l.length.factorial := by
  intro l
  induction l with
  | nil => intro _ _; simp [rankR]
  | cons a l ih =>
    intro hnd hn
    rw [List.nodup_cons] at hnd
    unfold permStep at hn
    split at hn
    · cases hn
    · rename_i h1
      split at hn
      · cases hn
      · rename_i h2
        obtain ⟨hp, hr⟩ := ih hnd.2 h1
        rw [List.findIdx?_eq_none_iff] at h2
        have hx : ∀ x ∈ l, R x a = true := by
          intro x hx
          have := h2 x (List.mem_reverse.2 hx)
          exact h.of_not (by rintro rfl; exact hnd.1 hx) this
        refine ⟨List.pairwise_cons.2 ⟨hx, hp⟩, ?_⟩
        have : l.countP (fun x => R x a) = l.length := List.countP_eq_length.2 hx
        simp only [rankR, this, List.length_cons, Nat.factorial_succ]
        have e : (l.length + 1) * l.length.factorial = l.length * l.length.factorial + l.length.factorial := by ring
        omega

theorem permStep_some {R} (h : STO R) : ∀ {l l' : List Nat}, l.Nodup → permStep R l = some l' →
    l'.Perm l ∧ rankR R l' = rankR R l + 1 := by
  intro l
  induction l with
  | nil => intro l' _ hs; simp [permStep] at hs
  | cons a l ih =>
    intro l' hnd hs
    rw [List.nodup_cons] at hnd
    unfold permStep at hs
    split at hs
    · rename_i m h1
      injection hs with hs; subst hs
      obtain ⟨hp, hr⟩ := ih hnd.2 h1
      refine ⟨hp.cons a, ?_⟩
      simp only [rankR, hr, hp.countP_eq, hp.length_eq]
      omega
    · rename_i h1
      obtain ⟨hpw, hr⟩ := permStep_none h hnd.2 h1
      split at hs
      · rename_i i hi
        injection hs with hs; subst hs
        rw [List.findIdx?_eq_some_iff_getElem] at hi
        obtain ⟨hlt, hRi, hlow⟩ := hi
        set rl := l.reverse with hrl
        have hpwr : rl.Pairwise (fun a b => R a b = true) := by rw [hrl, List.pairwise_reverse]; exact hpw
        have hget : rl.getD i 0 = rl[i] := by simp [hlt]
        have hsplit : rl = rl.take i ++ rl[i] :: rl.drop (i + 1) := by simp
        have hset : rl.set i a = rl.take i ++ a :: rl.drop (i + 1) := by
          rw [List.set_eq_take_append_cons_drop, if_pos hlt]
        set b := rl[i] with hb
        set P := rl.take i with hP
        set S := rl.drop (i + 1) with hS
        rw [hget, hset]
        have hndr : rl.Nodup := by exact (List.reverse_perm l).nodup_iff.2 hnd.2
        have haP : ∀ x ∈ P, R x a = true := by
          intro x hx
          rw [hP, List.mem_take_iff_getElem] at hx
          obtain ⟨j, hj, rfl⟩ := hx
          refine h.of_not ?_ ?_
          · intro e; apply hnd.1
            rw [← List.mem_reverse, ← hrl, e]; exact List.getElem_mem _
          · have := hlow j (by omega)
            simpa only [Bool.not_eq_true] using this
        rw [hsplit] at hpwr
        rw [List.pairwise_append, List.pairwise_cons] at hpwr
        obtain ⟨hPP, ⟨hbS, hSS⟩, hPS⟩ := hpwr
        have hperm : (b :: (P ++ a :: S)).Perm (a :: l) := by
          have h1 : (P ++ b :: S).Perm l := by rw [← hsplit]; exact List.reverse_perm l
          have h2 : (b :: (P ++ a :: S)).Perm (a :: (P ++ b :: S)) := by
            have e1 : (P ++ a :: S).Perm (a :: (P ++ S)) := List.perm_middle
            have e2 : (P ++ b :: S).Perm (b :: (P ++ S)) := List.perm_middle
            exact (e1.cons b).trans ((List.Perm.swap a b _).trans (e2.symm.cons a))
          exact h2.trans (h1.cons a)
        refine ⟨hperm, ?_⟩
        have hsorted : (P ++ a :: S).Pairwise (fun a b => R a b = true) := by
          rw [List.pairwise_append, List.pairwise_cons]
          refine ⟨hPP, ⟨fun x hx => h.tr _ _ _ hRi (hbS x hx), hSS⟩, ?_⟩
          intro x hx y hy
          rcases List.mem_cons.1 hy with rfl | hy
          · exact haP x hx
          · exact hPS x hx y (List.mem_cons_of_mem _ hy)
        have c1 : (P ++ a :: S).countP (fun x => R x b) = P.length + 1 := by
          rw [List.countP_append, List.countP_cons, List.countP_eq_length.2, List.countP_eq_zero.2]
          · simp [hRi]
          · intro x hx; simp [h.asymm (hbS x hx)]
          · intro x hx; exact h.tr _ _ _ (haP x hx) hRi
        have c2 : l.countP (fun x => R x a) = P.length := by
          have h1 : (P ++ b :: S).Perm l := by rw [← hsplit]; exact List.reverse_perm l
          rw [← h1.countP_eq, List.countP_append, List.countP_cons, List.countP_eq_length.2 haP,
            List.countP_eq_zero.2]
          · simp [h.asymm hRi]
          · intro x hx; simp [h.asymm (h.tr _ _ _ hRi (hbS x hx))]
        have hlen : (P ++ a :: S).length = l.length := by
          have := hperm.length_eq; simpa using this
        simp only [rankR]
        rw [rankR_sorted h hsorted, c1, c2, hlen]
        have e : (P.length + 1) * l.length.factorial = P.length * l.length.factorial + l.length.factorial := by ring
        omega
      · cases hs

/-- The two ranks of a list without repetitions are complementary. -/
theorem rank_compl {l : List Nat} (h : l.Nodup) :
    rankR (fun a b => decide (a < b)) l + rankR (fun a b => decide (b < a)) l + 1
      = l.length.factorial := by
  induction l with
  | nil => rfl
  | cons a l ih =>
    rw [List.nodup_cons] at h
    have ih := ih h.2
    have hc : l.countP (fun x => decide (x < a)) + l.countP (fun x => decide (a < x)) = l.length := by
      have := List.length_eq_countP_add_countP (fun x => decide (x < a)) (l := l)
      have e : l.countP (fun x => decide (a < x)) = l.countP (fun x => decide ¬(decide (x < a) = true)) := by
        apply List.countP_congr
        intro x hx
        have : x ≠ a := by rintro rfl; exact h.1 hx
        simp; omega
      omega
    simp only [rankR, List.length_cons, Nat.factorial_succ]
    have e : (l.length + 1) * l.length.factorial = (l.countP (fun x => decide (x < a)) +
      l.countP (fun x => decide (a < x))) * l.length.factorial + l.length.factorial := by rw [hc]; ring
    rw [e, add_mul]; omega

/-- The rank for the usual order. -/
abbrev rank (l : List Nat) : Nat := rankR (fun a b => decide (a < b)) l

theorem nextPerm_some {l l' : List Nat} (h : l.Nodup) (e : nextPerm l = some l') :
    l'.Perm l ∧ rank l' = rank l + 1 := permStep_some sto_lt h e

theorem nextPerm_none {l : List Nat} (h : l.Nodup) (e : nextPerm l = none) :
    rank l + 1 = l.length.factorial := (permStep_none sto_lt h e).2

theorem prevPerm_some {l l' : List Nat} (h : l.Nodup) (e : prevPerm l = some l') :
    l'.Perm l ∧ rank l' + 1 = rank l := by
  obtain ⟨h1, h2⟩ := permStep_some sto_gt h e
  refine ⟨h1, ?_⟩
  have c1 := rank_compl h
  have c2 := rank_compl (h1.nodup_iff.2 h)
  rw [h1.length_eq] at c2
  simp only [rank]
  omega

theorem prevPerm_none {l : List Nat} (h : l.Nodup) (e : prevPerm l = none) : rank l = 0 := by
  have h1 := (permStep_none sto_gt h e).2
  have c1 := rank_compl h
  simp only [rank]
  omega

theorem rank_lt_of_lt : ∀ {l m : List Nat}, l.Nodup → l.Perm m → Row.lt l m = true →
    rank l < rank m := by
  intro l
  induction l with
  | nil => intro m _ hp hlt; have := hp.symm.eq_nil; subst this; simp [Row.lt] at hlt
  | cons a l ih =>
    intro m hnd hp hlt
    match m, hp, hlt with
    | [], hp, _ => exact absurd hp.eq_nil (by simp)
    | b :: m, hp, hlt =>
      have hndm : (b :: m).Nodup := hp.nodup_iff.1 hnd
      rw [List.nodup_cons] at hnd hndm
      have hlen : l.length = m.length := by have := hp.length_eq; simpa using this
      simp only [Row.lt] at hlt
      split_ifs at hlt with h1 h2
      · have hc1 := hp.countP_eq (fun x => decide (x < a))
        have hc2 : (b :: m).countP (fun x => decide (x < a)) < (b :: m).countP (fun x => decide (x < b)) := by
          have e1 : (b :: m).countP (fun x => decide (x < a)) + 1 ≤
              (b :: m).countP (fun x => decide (x < a)) + (b :: m).countP (fun x => decide (x = a)) := by
            have : 0 < (b :: m).countP (fun x => decide (x = a)) :=
              List.countP_pos_iff.2 ⟨a, hp.mem_iff.1 (by simp), by simp⟩
            omega
          have e2 : ∀ t : List Nat, t.countP (fun x => decide (x < a)) + t.countP (fun x => decide (x = a)) ≤
              t.countP (fun x => decide (x < b)) := by
            intro t
            induction t with
            | nil => simp
            | cons y t iht =>
              simp only [List.countP_cons, decide_eq_true_eq]
              split_ifs <;> omega
          have := e2 (b :: m)
          omega
        have g1 : (a :: l).countP (fun x => decide (x < a)) = l.countP (fun x => decide (x < a)) := by simp
        have g2 : (b :: m).countP (fun x => decide (x < b)) = m.countP (fun x => decide (x < b)) := by simp
        have hc : l.countP (fun x => decide (x < a)) + 1 ≤ m.countP (fun x => decide (x < b)) := by omega
        simp only [rank, rankR]
        have := rankR_lt (fun a b => decide (a < b)) l
        have := Nat.mul_le_mul_right l.length.factorial hc
        rw [add_mul] at this
        rw [hlen] at *
        omega
      · have : a = b := by omega
        subst this
        have hp' : l.Perm m := List.Perm.cons_inv hp
        have := ih hnd.2 hp' hlt
        simp only [rank, rankR] at *
        rw [hp'.countP_eq, hlen]; omega

theorem lt_trichotomy : ∀ (l m : List Nat), Row.lt l m = true ∨ l = m ∨ Row.lt m l = true := by
  intro l
  induction l with
  | nil => intro m; cases m <;> simp [Row.lt]
  | cons a l ih =>
    intro m
    cases m with
    | nil => simp [Row.lt]
    | cons b m =>
      simp only [Row.lt]
      rcases ih m with h | h | h
      · split_ifs <;> simp_all
      · split_ifs <;> simp_all; omega
      · split_ifs <;> simp_all

theorem rank_inj {l m : List Nat} (hl : l.Nodup) (hp : l.Perm m) (h : rank l = rank m) : l = m := by
  rcases lt_trichotomy l m with h1 | h1 | h1
  · have := rank_lt_of_lt hl hp h1; omega
  · exact h1
  · have := rank_lt_of_lt (hp.nodup_iff.1 hl) hp.symm h1; omega

theorem rank_lt_iff {l m : List Nat} (hl : l.Nodup) (hp : l.Perm m) :
    rank l < rank m ↔ Row.lt l m = true := by
  constructor
  · intro h
    rcases lt_trichotomy l m with h1 | h1 | h1
    · exact h1
    · subst h1; omega
    · have := rank_lt_of_lt (hp.nodup_iff.1 hl) hp.symm h1; omega
  · exact rank_lt_of_lt hl hp

end Ringing
