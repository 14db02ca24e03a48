import Verif.Spec.Mask
import Verif.Lemmas.Extent4
import Verif.Lemmas.MethodUtils2
import Verif.Lemmas.MethodUtils3
import Verif.Lemmas.MethSearch8
import Verif.Props.MethodOrders
import Verif.Props.SearchConstraints

/-! Lemmas on the model of mask.cpp. -/
namespace Ringing
namespace Mask
open Spec Change MethodUtils

/-! ### The changes iterated -/

theorem iterateC_spec {nw nh : Nat} {it0 : ChIter} {l : List Change} (hl : 0 < l.length)
    (h : ∀ k (hk : k < l.length), ∃ it, ChIter.nextN nw nh k it0 = .ok it ∧ it.fin = false ∧ it.c = l[k])
    (he : ∃ it, ChIter.nextN nw nh l.length it0 = .ok it ∧ it.fin = true) (fuel : Nat) (hf : l.length < fuel) :
    iterateC nw nh fuel it0 = .ok l := by
  induction l generalizing it0 fuel with
  | nil => simp at hl
  | cons x l ih =>
    obtain ⟨fuel, rfl⟩ : ∃ f, fuel = f + 1 := ⟨fuel - 1, by omega⟩
    obtain ⟨it, h1, h2, h3⟩ := h 0 (by simp)
    rw [ChIter.nextN] at h1
    injection h1 with h1
    subst h1
    rw [iterateC, if_neg (by simp [h2])]
    have step : ∀ k it, ChIter.nextN nw nh (k + 1) it0 = .ok it → ∃ it1, ChIter.nextC nw nh it0 = .ok it1 ∧ ChIter.nextN nw nh k it1 = .ok it := by
      intro k it hk
      rw [ChIter.nextN] at hk
      cases hq : ChIter.nextC nw nh it0 with
      | ok it1 => rw [hq, Out.ok_bind] at hk; exact ⟨it1, rfl, hk⟩
      | throw e => rw [hq] at hk; cases hk
      | ub => rw [hq] at hk; cases hk
      | timeout => rw [hq] at hk; cases hk
    cases l with
    | nil =>
      obtain ⟨it, e1, e2⟩ := he
      obtain ⟨it1, e3, e4⟩ := step 0 it e1
      rw [ChIter.nextN] at e4
      injection e4 with e4
      subst e4
      rw [e3, Out.ok_bind]
      obtain ⟨f, rfl⟩ : ∃ f, fuel = f + 1 := ⟨fuel - 1, by simp at hf; omega⟩
      rw [iterateC, if_pos e2, Out.ok_bind, h3]; rfl
    | cons y l =>
      obtain ⟨it, e1, e2, -⟩ := h 1 (by simp)
      obtain ⟨it1, e3, -⟩ := step 0 it e1
      have same : ∀ k it, ChIter.nextN nw nh (k + 1) it0 = .ok it → ChIter.nextN nw nh k it1 = .ok it := by
        intro k it hk
        obtain ⟨j, a, b⟩ := step k it hk
        rw [e3] at a; cases a; exact b
      rw [e3, Out.ok_bind, ih (it0 := it1) (by simp) (fun k hk => by
          obtain ⟨j, a, b, c⟩ := h (k + 1) (by simpa using hk)
          exact ⟨j, same k j a, b, c⟩) (by
          obtain ⟨j, a, b⟩ := he
          exact ⟨j, same _ j a, b⟩) fuel (by simpa using hf), Out.ok_bind, h3]; rfl

theorem changesC_eq {nw nh nt : Nat} (h : nh + nw ≤ nt) (ht : nt ≤ 255) (fuel : Nat) (hf : Nat.fib (nw + 1) < fuel) :
    changesC fuel nw nh nt = .ok ((enumCh nh nw).map fun L => ⟨nt, L⟩) := by
  have h0 := start_first h ht
  have hN := nextN_enum h ht h0
  unfold changesC
  rw [h0, Out.ok_bind]
  refine iterateC_spec ?_ (fun k hk => ?_) ?_ fuel ?_
  · rw [List.length_map, length_enum]; exact Nat.fib_pos.2 (by omega)
  · rw [List.length_map] at hk
    exact ⟨_, hN k hk, rfl, by simp⟩
  · rw [List.length_map]; exact nextN_end h ht h0
  · rw [List.length_map, length_enum]; exact hf

/-! ### Places -/

theorem moveTo_eq_self {ss : List Nat} {p : Nat} : moveTo ss p = p ↔ p ∉ ss ∧ (p = 0 ∨ p - 1 ∉ ss) := by
  unfold moveTo
  split_ifs with h1 h2
  · constructor
    · intro h; omega
    · exact fun h => absurd h1 h.1
  · constructor
    · intro h; omega
    · rintro ⟨-, h | h⟩
      · exact absurd h h2.1
      · exact absurd h2.2 h
  · simp only [true_iff]
    refine ⟨h1, ?_⟩
    by_contra h; push Not at h
    exact h2 ⟨h.1, h.2⟩

/-- The number of places in the upper part. -/
theorem places_above {c : Change} (hc : c.WF) {hi : Nat} (hh : hi < c.n) (hs : ∀ s ∈ c.swaps, hi < s) :
    c.countPlaces = hi + 1 ↔ ∀ p, hi < p → ¬ IsPlace c.n c.swaps p := by
  have hw := WF.mem_places hc
  have hn : c.places.Nodup := (WF.sorted_places hc).imp (fun h => by omega)
  have hsub : ∀ p ∈ List.range (hi + 1), p ∈ c.places := by
    intro p hp
    rw [List.mem_range] at hp
    rw [hw]
    refine ⟨by omega, moveTo_eq_self.2 ⟨fun h => ?_, .inr fun h => ?_⟩⟩
    · have := hs p h; omega
    · have := hs (p - 1) h; omega
  have hperm : (List.range (hi + 1)).Subperm c.places := List.nodup_range.subperm hsub
  unfold countPlaces
  constructor
  · intro hlen p hp hpl
    have : (List.range (hi + 1)).Perm c.places := hperm.perm_of_length_le (by rw [hlen, List.length_range])
    have := this.mem_iff.2 ((hw p).2 hpl)
    rw [List.mem_range] at this; omega
  · intro h
    have : c.places.Subperm (List.range (hi + 1)) := hn.subperm fun p hp => by
      rw [List.mem_range]
      by_contra hlt
      exact h p (by omega) ((hw p).1 hp)
    have h1 := this.length_le
    have h2 := hperm.length_le
    rw [List.length_range] at h1 h2
    omega

theorem places_below {c : Change} (hc : c.WF) {lo : Nat} (hh : lo ≤ c.n) (hs : ∀ s ∈ c.swaps, s + 2 ≤ lo) :
    c.countPlaces = c.n - lo ↔ ∀ p, p < lo → ¬ IsPlace c.n c.swaps p := by
  have hw := WF.mem_places hc
  have hn : c.places.Nodup := (WF.sorted_places hc).imp (fun h => by omega)
  have hsub : ∀ p ∈ List.range' lo (c.n - lo), p ∈ c.places := by
    intro p hp
    rw [List.mem_range'_1] at hp
    rw [hw]
    refine ⟨by omega, moveTo_eq_self.2 ⟨fun h => ?_, ?_⟩⟩
    · have := hs p h; omega
    · by_cases h0 : p = 0
      · exact .inl h0
      · right; intro h; have := hs (p - 1) h; omega
  have hperm : (List.range' lo (c.n - lo)).Subperm c.places := (show (List.range' lo (c.n - lo)).Nodup from List.nodup_range').subperm hsub
  unfold countPlaces
  constructor
  · intro hlen p hp hpl
    have : (List.range' lo (c.n - lo)).Perm c.places := hperm.perm_of_length_le (by rw [hlen, List.length_range'])
    have := this.mem_iff.2 ((hw p).2 hpl)
    rw [List.mem_range'_1] at this; omega
  · intro h
    have : c.places.Subperm (List.range' lo (c.n - lo)) := hn.subperm fun p hp => by
      rw [List.mem_range'_1]
      have := (hw p).1 hp
      refine ⟨?_, by have := this.1; omega⟩
      by_contra hlt
      exact h p (by omega) this
    have h1 := this.length_le
    have h2 := hperm.length_le
    rw [List.length_range'] at h1 h2
    omega

/-! ### Sorting -/

theorem insertC_spec {n : Nat} (hn : n ≤ 33) {x : Change} (hx : x.WF ∧ x.n = n) : ∀ {l : List Change}, (∀ c ∈ l, c.WF ∧ c.n = n) →
    l.Pairwise (fun a b => Row.lt b.places a.places = false) →
    ∃ l', insertC x l = .ok l' ∧ l'.Perm (x :: l) ∧ l'.Pairwise (fun a b => Row.lt b.places a.places = false) := by
  intro l
  induction l with
  | nil => intro _ _; exact ⟨[x], rfl, .refl _, by simp⟩
  | cons y ys ih =>
    intro hw hs
    have hy := hw y (by simp)
    rw [insertC, compareChanges_eq hy.1 hx.1 (by omega) (by omega), Out.ok_bind]
    rw [List.pairwise_cons] at hs
    cases h : Row.lt y.places x.places with
    | true =>
      obtain ⟨l', e1, e2, e3⟩ := ih (fun c hc => hw c (by simp [hc])) hs.2
      rw [if_pos rfl, e1, Out.ok_bind]
      refine ⟨_, rfl, (e2.cons y).trans (.swap x y ys), List.pairwise_cons.2 ⟨fun c hc => ?_, e3⟩⟩
      rw [e2.mem_iff, List.mem_cons] at hc
      rcases hc with rfl | hc
      · exact lt_asymm' h
      · exact hs.1 c hc
    | false =>
      rw [if_neg (by simp)]
      refine ⟨_, rfl, .refl _, List.pairwise_cons.2 ⟨fun c hc => ?_, List.pairwise_cons.2 hs⟩⟩
      rw [List.mem_cons] at hc
      rcases hc with rfl | hc
      · exact h
      · have h1 := hs.1 c hc
        by_contra h2
        rw [Bool.not_eq_false] at h2
        rcases lt_total' x.places y.places with h3 | h3 | h3
        · rw [lt_trans' h2 h3] at h1; cases h1
        · rw [← h3] at h1; rw [h1] at h2; cases h2
        · rw [h3] at h; cases h

theorem sortC_spec {n : Nat} (hn : n ≤ 33) : ∀ {l : List Change}, (∀ c ∈ l, c.WF ∧ c.n = n) →
    ∃ l', sortC l = .ok l' ∧ l'.Perm l ∧ l'.Pairwise (fun a b => Row.lt b.places a.places = false) := by
  intro l
  induction l with
  | nil => intro _; exact ⟨[], rfl, .refl _, by simp⟩
  | cons x xs ih =>
    intro hw
    obtain ⟨l1, e1, e2, e3⟩ := ih (fun c hc => hw c (by simp [hc]))
    obtain ⟨l2, e4, e5, e6⟩ := insertC_spec hn (hw x (by simp)) (fun c hc => hw c (by simp [e2.mem_iff.1 hc])) e3
    exact ⟨l2, by rw [sortC, e1, Out.ok_bind, e4], e5.trans (e2.cons x), e6⟩

theorem eq_iff {n : Nat} {x y : Change} (hx : x.WF ∧ x.n = n) (hy : y.WF ∧ y.n = n) : Change.eq x y = true ↔ x = y := by
  obtain ⟨xn, xs⟩ := x
  obtain ⟨yn, ys⟩ := y
  obtain ⟨hx, rfl⟩ := hx
  obtain ⟨hy, h⟩ := hy
  simp only at h
  subst h
  simp only [Change.eq, Change.mk.injEq, true_and, decide_true, Bool.true_and, Bool.or_eq_true, decide_eq_true_eq]
  constructor
  · rintro (h | h)
    · have a := hx.2.2; have b := hy.2.2
      simp only [h] at a b
      have : ∀ l : List Nat, (∀ s ∈ l, s + 2 ≤ 0) → l = [] := by
        intro l hl
        cases l with
        | nil => rfl
        | cons s l => have := hl s (by simp); omega
      rw [this xs a, this ys b]
    · exact h
  · exact .inr

theorem uniq_spec {n : Nat} : ∀ {l : List Change}, (∀ c ∈ l, c.WF ∧ c.n = n) →
    l.Pairwise (fun a b => Row.lt b.places a.places = false) →
    (∀ c, c ∈ uniq l ↔ c ∈ l) ∧ (uniq l).head? = l.head? ∧ (uniq l).Pairwise (fun a b => Row.lt a.places b.places = true) := by
  intro l
  induction l with
  | nil => intro _ _; simp [uniq]
  | cons x xs ih =>
    intro hw hs
    rw [List.pairwise_cons] at hs
    obtain ⟨h1, h2, h3⟩ := ih (fun c hc => hw c (by simp [hc])) hs.2
    rw [uniq]
    cases hq : uniq xs with
    | nil =>
      have : xs = [] := by
        rw [hq] at h2
        cases xs with
        | nil => rfl
        | cons a l => simp at h2
      subst this
      simp
    | cons y ys =>
      simp only
      rw [hq] at h1 h2 h3
      have hy : y ∈ xs := (h1 y).1 (by simp)
      cases he : Change.eq x y with
      | true =>
        have := (eq_iff (hw x (by simp)) (hw y (by simp [hy]))).1 he
        subst this
        rw [if_pos rfl]
        refine ⟨fun c => ?_, by simp, h3⟩
        rw [h1, List.mem_cons]
        exact ⟨.inr, fun h => by rcases h with rfl | h; exacts [hy, h]⟩
      | false =>
        rw [if_neg (by simp)]
        have hne : x ≠ y := by
          intro h; rw [(eq_iff (hw x (by simp)) (hw y (by simp [hy]))).2 h] at he; cases he
        have hlt : Row.lt x.places y.places = true := by
          have := hs.1 y hy
          rcases lt_total' x.places y.places with h | h | h
          · exact h
          · exact absurd (by
              obtain ⟨⟨xn, xs⟩, hx, hy⟩ : ∃ z : Change, x = z ∧ y.n = n := ⟨x, rfl, (hw y (by simp [hy])).2⟩
              have a := hw x (by simp)
              have b := hw y (by simp [‹y ∈ _›])
              have : x.swaps = y.swaps := by
                apply C11_places_determine a.1 (a.2 ▸ b.2 ▸ b.1)
                intro i
                have p1 := Change.WF.mem_places a.1 i
                have p2 := Change.WF.mem_places b.1 i
                rw [h] at p1
                rw [a.2] at p1 ⊢; rw [b.2] at p2
                exact p1.symm.trans p2
              cases x; cases y; simp_all) hne
          · rw [h] at this; cases this
        refine ⟨fun c => ?_, by simp, List.pairwise_cons.2 ⟨fun c hc => ?_, h3⟩⟩
        · rw [List.mem_cons, h1, List.mem_cons]
        · rw [List.mem_cons] at hc
          rcases hc with rfl | hc
          · exact hlt
          · exact lt_trans' hlt ((List.pairwise_cons.1 h3).1 c hc)

/-! ### The path of the treble -/

/-- The position of the hunt bell counted within its path. -/
theorem posn2_end {A : Args} (h : A.huntBells = 1) {half i : Nat} (hl : A.leadLen = 2 * half) (hi : i + 1 = 2 * half) (hh : 0 < half) :
    posn2 A i = (-1, -1) := by
  unfold posn2
  simp only [h, if_true]
  have e1 : ((A.leadLen : Int) / 2) = half := by rw [hl]; omega
  rw [e1]
  have e3 : (if decide ((i : Int) < (half : Int)) = true then (i : Int) else 2 * half - i - 2) = -1 := by
    rw [if_neg (by simp; omega)]; omega
  rw [e3, if_pos rfl]

theorem posn2_of {A : Args} (h : A.huntBells = 1) {half i j q r D : Nat} (hl : A.leadLen = 2 * half)
    (hD : D = 2 * (1 + A.trebleDodges)) (hj : i < half ∧ j = i ∨ half ≤ i ∧ i + j + 2 = 2 * half) (hq : j = D * q + r) (hr : r < D) :
    posn2 A i = ((if r + 1 = D then 2 * (q : Int) + 1 else 2 * q), (if r + 1 = D then 2 * (q : Int) + 1 else 2 * q)) := by
  unfold posn2
  simp only [h, if_true]
  have e1 : ((A.leadLen : Int) / 2) = half := by rw [hl]; omega
  have e2 : (1 + (A.trebleDodges : Int)) * 2 = (D : Nat) := by rw [hD]; push_cast; ring
  rw [e1, e2]
  have e3 : (if decide ((i : Int) < (half : Int)) = true then (i : Int) else 2 * half - i - 2) = (j : Nat) := by
    rcases hj with ⟨a, b⟩ | ⟨a, b⟩
    · rw [if_pos (by simpa using a)]; omega
    · rw [if_neg (by simpa using a)]; omega
  rw [e3, if_neg (by omega)]
  have m1 : ((j : Nat) : Int).tmod D = r := by
    rw [show ((j : Nat) : Int).tmod D = ((j % D : Nat) : Int) from rfl, hq, Nat.mul_add_mod, Nat.mod_eq_of_lt hr]
  have m2 : ((j : Nat) : Int).tdiv D = q := by
    rw [show ((j : Nat) : Int).tdiv D = ((j / D : Nat) : Int) from rfl, hq, Nat.mul_add_div (by omega), Nat.div_eq_of_lt hr, Nat.add_zero]
  rw [m1, m2]
  have : ((r : Int) = D - 1) ↔ r + 1 = D := by omega
  simp only [this]
  split_ifs <;> simp [mul_comm]

theorem treble_of {A : Args} {half i j q r D : Nat} (hl : half = (1 + A.trebleDodges) * (A.trebleBack - A.trebleFront + 1))
    (hD : D = 2 * (1 + A.trebleDodges)) (hj : i < half ∧ j = i ∨ half ≤ i ∧ i + j + 1 = 2 * half) (hq : j = D * q + r) (hr : r < D) :
    treblePos A i = A.trebleFront - 1 + (2 * q + r % 2) := by
  unfold treblePos
  simp only
  rw [← hl, ← hD]
  have hm : i % (2 * half) = i := Nat.mod_eq_of_lt (by omega)
  rw [hm]
  have : (if i < half then i else 2 * half - 1 - i) = j := by
    rcases hj with ⟨a, b⟩ | ⟨a, b⟩
    · rw [if_pos a, b]
    · rw [if_neg (by omega)]; omega
  rw [this]
  have m2 : j / D = q := by rw [hq, Nat.mul_add_div (by omega), Nat.div_eq_of_lt hr, Nat.add_zero]
  have m1 : j % 2 = r % 2 := by
    rw [hq, hD, Nat.mul_assoc, Nat.mul_add_mod]
  rw [m1, m2]

theorem treble_wrap {A : Args} {half : Nat} (hl : half = (1 + A.trebleDodges) * (A.trebleBack - A.trebleFront + 1)) :
    treblePos A (2 * half) = A.trebleFront - 1 := by
  unfold treblePos
  simp only
  rw [← hl, Nat.mod_self]
  by_cases h : 0 < half
  · rw [if_pos h]; simp
  · have : half = 0 := by omega
    rw [if_neg h, this]; simp

/-- What happens to the treble at a change: a swap, leading or lying. -/
def Cases (A : Args) (i : Nat) : Prop :=
    (∃ lo, A.trebleFront - 1 ≤ lo ∧ lo + 1 < A.trebleBack ∧
      (treblePos A i = lo ∧ treblePos A (i + 1) = lo + 1 ∨ treblePos A i = lo + 1 ∧ treblePos A (i + 1) = lo) ∧
      activeBelow A i = lo ∧ activeAbove A i = (A.bells : Int) - 2 - lo ∧ mergePosn A i = ((lo : Int), (lo : Int) + 1)) ∨
    (treblePos A i = A.trebleFront - 1 ∧ treblePos A (i + 1) = A.trebleFront - 1 ∧
      activeBelow A i = (A.trebleFront : Int) - 1 ∧ activeAbove A i = (A.bells : Int) - A.trebleFront ∧
      mergePosn A i = ((A.trebleFront : Int), (A.trebleFront : Int) - 1)) ∨
    (treblePos A i = A.trebleBack - 1 ∧ treblePos A (i + 1) = A.trebleBack - 1 ∧
      activeBelow A i = (A.trebleBack : Int) - 1 ∧ activeAbove A i = (A.bells : Int) - A.trebleBack ∧
      mergePosn A i = ((A.trebleBack : Int) - 1, (A.trebleBack : Int) - 2))

theorem mergePosn_of {A : Args} {i : Nat} {a b x y : Int} (hp : posn2 A i = (a, b))
    (hx : (if a = -1 then 0 else a) + ((A.trebleFront : Int) - 1) = x)
    (hy : (if b = (A.trebleBack : Int) - A.trebleFront then b - 1 else b) + (A.trebleFront : Int) = y) (x' y' : Int)
    (hx1 : x = (A.trebleFront : Int) - 1 ∧ i % (2 * A.trebleDodges + 2) = 2 * A.trebleDodges + 1 → x' = x + 1)
    (hx2 : ¬ (x = (A.trebleFront : Int) - 1 ∧ i % (2 * A.trebleDodges + 2) = 2 * A.trebleDodges + 1) → x' = x)
    (hy1 : y = (A.trebleBack : Int) - 1 ∧ ((A.trebleBack - A.trebleFront) % 2 = 1 ∧ i % (2 * A.trebleDodges + 2) = 2 * A.trebleDodges + 1 ∨
      (A.trebleBack - A.trebleFront) % 2 = 0 ∧ i % 2 = 0) → y' = y - 1)
    (hy2 : ¬ (y = (A.trebleBack : Int) - 1 ∧ ((A.trebleBack - A.trebleFront) % 2 = 1 ∧ i % (2 * A.trebleDodges + 2) = 2 * A.trebleDodges + 1 ∨
      (A.trebleBack - A.trebleFront) % 2 = 0 ∧ i % 2 = 0)) → y' = y) :
    mergePosn A i = (x', y') := by
  have u : mergePosn A i = ((if (decide (x = (A.trebleFront : Int) - 1) && decide (i % (2 * A.trebleDodges + 2) = 2 * A.trebleDodges + 1)) = true then x + 1 else x),
      (if (decide (y = (A.trebleBack : Int) - 1) && (decide ((A.trebleBack - A.trebleFront) % 2 = 1) && decide (i % (2 * A.trebleDodges + 2) = 2 * A.trebleDodges + 1) ||
        decide ((A.trebleBack - A.trebleFront) % 2 = 0) && decide (i % 2 = 0))) = true then y - 1 else y)) := by
    unfold mergePosn
    rw [hp, ← hx, ← hy]
  rw [u]
  simp only [Bool.and_eq_true, Bool.or_eq_true, decide_eq_true_eq]
  congr 1
  · split_ifs with h
    · exact (hx1 h).symm
    · exact (hx2 h).symm
  · split_ifs with h
    · exact (hy1 h).symm
    · exact (hy2 h).symm

/-- While the treble swaps. -/
theorem case_swap {A : Args} (h : Std A) {i p : Nat} (hp : posn2 A i = ((p : Int), (p : Int))) (hpL : p < A.trebleBack - A.trebleFront)
    (h1 : i % (2 * A.trebleDodges + 2) = 2 * A.trebleDodges + 1 → 0 < p ∧ ((A.trebleBack - A.trebleFront) % 2 = 1 → p + 1 ≠ A.trebleBack - A.trebleFront))
    (h2 : (A.trebleBack - A.trebleFront) % 2 = 0 → i % 2 = 0 → p + 1 ≠ A.trebleBack - A.trebleFront)
    (hT : treblePos A i = A.trebleFront - 1 + p ∧ treblePos A (i + 1) = A.trebleFront - 1 + (p + 1) ∨
      treblePos A i = A.trebleFront - 1 + (p + 1) ∧ treblePos A (i + 1) = A.trebleFront - 1 + p) : Cases A i := by
  have f1 := h.front; have f2 := h.range; have f3 := h.back
  refine .inl ⟨A.trebleFront - 1 + p, by omega, by omega, ?_, ?_, ?_, ?_⟩
  · rcases hT with ⟨a, b⟩ | ⟨a, b⟩
    · exact .inl ⟨a, by rw [b]; omega⟩
    · exact .inr ⟨by rw [a]; omega, b⟩
  · unfold activeBelow
    rw [hp]
    simp only
    rw [if_neg (by omega)]; omega
  · unfold activeAbove
    rw [hp]
    simp only
    rw [if_neg (by omega), if_neg (by omega)]; omega
  · refine mergePosn_of hp rfl rfl _ _ ?_ ?_ ?_ ?_
    · rw [if_neg (by omega)]
      rintro ⟨a, b⟩
      have := (h1 b).1; omega
    · rw [if_neg (by omega)]; intro _; omega
    · rw [if_neg (by omega)]
      rintro ⟨a, ⟨b, c⟩ | ⟨b, c⟩⟩
      · have := (h1 c).2 b; omega
      · have := h2 b c; omega
    · rw [if_neg (by omega)]; intro _; omega

theorem case_lie {A : Args} (h : Std A) {i : Nat} (hp : posn2 A i = (((A.trebleBack - A.trebleFront : Nat) : Int), ((A.trebleBack - A.trebleFront : Nat) : Int)))
    (h1 : i % (2 * A.trebleDodges + 2) = 2 * A.trebleDodges + 1 → 0 < A.trebleBack - A.trebleFront)
    (h2 : (A.trebleBack - A.trebleFront) % 2 = 1 ∧ i % (2 * A.trebleDodges + 2) = 2 * A.trebleDodges + 1 ∨ (A.trebleBack - A.trebleFront) % 2 = 0 ∧ i % 2 = 0)
    (hT : treblePos A i = A.trebleBack - 1 ∧ treblePos A (i + 1) = A.trebleBack - 1) : Cases A i := by
  have f1 := h.front; have f2 := h.range; have f3 := h.back
  refine .inr (.inr ⟨hT.1, hT.2, ?_, ?_, ?_⟩)
  · unfold activeBelow
    rw [hp]
    simp only
    rw [if_neg (by omega)]; omega
  · unfold activeAbove
    rw [hp]
    have e : ((A.trebleBack - A.trebleFront : Nat) : Int) = (A.trebleBack : Int) - A.trebleFront := by omega
    simp only [e, if_true]
    rw [if_neg (by omega)]
  · refine mergePosn_of hp rfl rfl _ _ ?_ ?_ ?_ ?_
    · rw [if_neg (by omega)]
      rintro ⟨a, b⟩
      have := h1 b; omega
    · rw [if_neg (by omega)]; intro _; omega
    · rw [if_pos (by omega)]; intro _; omega
    · rw [if_pos (by omega)]
      intro hc
      exact absurd ⟨by omega, h2⟩ hc

theorem case_lead {A : Args} (h : Std A) {i : Nat} (hp : posn2 A i = (-1, -1))
    (h1 : i % (2 * A.trebleDodges + 2) = 2 * A.trebleDodges + 1)
    (h2 : A.trebleFront = A.trebleBack → i % 2 = 1)
    (hT : treblePos A i = A.trebleFront - 1 ∧ treblePos A (i + 1) = A.trebleFront - 1) : Cases A i := by
  have f1 := h.front; have f2 := h.range; have f3 := h.back
  refine .inr (.inl ⟨hT.1, hT.2, ?_, ?_, ?_⟩)
  · unfold activeBelow
    rw [hp]
    simp only
    simp only [if_true]; omega
  · unfold activeAbove
    rw [hp]
    simp only
    rw [if_neg (by omega), if_neg (by omega)]; omega
  · refine mergePosn_of hp rfl rfl _ _ ?_ ?_ ?_ ?_
    · rw [if_pos rfl]; intro _; omega
    · rw [if_pos rfl]
      intro hc
      exact absurd ⟨by omega, h1⟩ hc
    · rw [if_neg (by omega)]
      rintro ⟨a, ⟨b, c⟩ | ⟨b, c⟩⟩
      · omega
      · have : A.trebleFront = A.trebleBack := by omega
        have := h2 this; omega
    · rw [if_neg (by omega)]; intro _; omega

theorem posn_cases {A : Args} (h : Std A) {i : Nat} (hi : i < A.leadLen) : Cases A i := by
  have f1 := h.front; have f2 := h.range; have f3 := h.back
  obtain ⟨half, hh⟩ : ∃ half, half = (1 + A.trebleDodges) * (A.trebleBack - A.trebleFront + 1) := ⟨_, rfl⟩
  obtain ⟨D, hD⟩ : ∃ D, D = 2 * (1 + A.trebleDodges) := ⟨_, rfl⟩
  have hl : A.leadLen = 2 * half := by rw [h.len, hh, Nat.mul_comm]
  have hpos : 0 < half := by rw [hh]; exact Nat.mul_pos (by omega) (by omega)
  have hmD : 2 * A.trebleDodges + 2 = D := by omega
  by_cases hodd : (A.trebleBack - A.trebleFront) % 2 = 1
  · -- an even number of places
    obtain ⟨m, hm⟩ : ∃ m, A.trebleBack - A.trebleFront + 1 = 2 * m := ⟨(A.trebleBack - A.trebleFront + 1) / 2, by omega⟩
    have hH : half = D * m := by rw [hh, hD, hm]; ring
    by_cases hfirst : i < half
    · obtain ⟨q, r, e, hr⟩ : ∃ q r, i = D * q + r ∧ r < D := ⟨i / D, i % D, (Nat.div_add_mod i D).symm, Nat.mod_lt _ (by omega)⟩
      have hqm : q < m := by
        by_contra hc
        have := Nat.mul_le_mul_left D (show m ≤ q by omega)
        omega
      have hmod : i % D = r := by rw [e, Nat.mul_add_mod, Nat.mod_eq_of_lt hr]
      have hle := Nat.mul_le_mul_left D (show q + 1 ≤ m by omega)
      rw [Nat.mul_add, Nat.mul_one] at hle
      have t1 := treble_of hh hD (.inl ⟨hfirst, rfl⟩) e hr
      have hp := posn2_of h.one hl hD (.inl ⟨hfirst, rfl⟩) e hr
      by_cases hlast : r + 1 = D
      · rw [if_pos hlast] at hp
        by_cases hq : q + 1 = m
        · have hi1 : i + 1 = half := by rw [hH, ← hq, Nat.mul_add, Nat.mul_one]; omega
          have t2 := treble_of (i := i + 1) (j := i) hh hD (.inr ⟨by omega, by omega⟩) e hr
          refine case_lie h (by rw [hp]; exact Prod.ext (by simp only; omega) (by simp only; omega)) (by intro _; omega) (.inl ⟨hodd, by rw [hmD, hmod]; omega⟩) ⟨by rw [t1]; omega, by rw [t2]; omega⟩
        · have hlt : i + 1 < half := by
            have := Nat.mul_le_mul_left D (show q + 1 + 1 ≤ m by omega)
            rw [Nat.mul_add D (q + 1), Nat.mul_add] at this; omega
          have t2 := treble_of (i := i + 1) (q := q + 1) (r := 0) hh hD (.inl ⟨hlt, rfl⟩) (by rw [Nat.mul_add]; omega) (by omega)
          refine case_swap h (p := 2 * q + 1) (by rw [hp]; push_cast; rfl) (by omega) (fun _ => ⟨by omega, fun _ => by omega⟩) (fun hc => by omega)
            (.inl ⟨by rw [t1]; omega, by rw [t2]; omega⟩)
      · rw [if_neg hlast] at hp
        have t2 := treble_of (i := i + 1) (q := q) (r := r + 1) hh hD (.inl ⟨by omega, rfl⟩) (by omega) (by omega)
        refine case_swap h (p := 2 * q) (by rw [hp]; push_cast; rfl) (by omega) (fun hc => by rw [hmD, hmod] at hc; omega) (fun hc => by omega) ?_
        rcases Nat.mod_two_eq_zero_or_one r with hr2 | hr2
        · exact .inl ⟨by rw [t1]; omega, by rw [t2]; omega⟩
        · exact .inr ⟨by rw [t1]; omega, by rw [t2]; omega⟩
    · obtain ⟨j, hj⟩ : ∃ j, i + j + 1 = 2 * half := ⟨2 * half - 1 - i, by omega⟩
      obtain ⟨q, r, e, hr⟩ : ∃ q r, j = D * q + r ∧ r < D := ⟨j / D, j % D, (Nat.div_add_mod j D).symm, Nat.mod_lt _ (by omega)⟩
      have hqm : q < m := by
        by_contra hc
        have := Nat.mul_le_mul_left D (show m ≤ q by omega)
        omega
      have t1 := treble_of hh hD (.inr ⟨by omega, hj⟩) e hr
      have hmod : i % D = D - 1 - r := by
        have : i = D * (2 * m - 1 - q) + (D - 1 - r) := by
          have e2 : D * (2 * m - 1 - q) + D * (q + 1) = D * (2 * m) := by rw [← Nat.mul_add]; congr 1; omega
          rw [Nat.mul_add, Nat.mul_one] at e2
          have e3 : D * (2 * m) = 2 * half := by rw [hH]; ring
          omega
        rw [this, Nat.mul_add_mod, Nat.mod_eq_of_lt (by omega)]
      by_cases hj0 : j = 0
      · have t2 := treble_wrap hh
        rw [show 2 * half = i + 1 by omega] at t2
        have hqr : D * q = 0 ∧ r = 0 := by omega
        have hq0 : q = 0 := by
          rcases Nat.mul_eq_zero.1 hqr.1 with h | h
          · omega
          · exact h
        refine case_lead h (posn2_end h.one hl (by omega) hpos) (by rw [hmD, hmod]; omega) (fun hc => by omega) ⟨by rw [t1, hq0, hqr.2]; omega, t2⟩
      · by_cases hr0 : r = 0
        · have hq1 : 1 ≤ q := by
            by_contra hc
            have : q = 0 := by omega
            rw [this, hr0] at e; simp at e; exact hj0 e
          obtain ⟨q', rfl⟩ : ∃ q', q = q' + 1 := ⟨q - 1, by omega⟩
          rw [Nat.mul_add, Nat.mul_one] at e
          have t2 := treble_of (i := i + 1) (j := j - 1) (q := q') (r := D - 1) hh hD (.inr ⟨by omega, by omega⟩) (by omega) (by omega)
          have hp := posn2_of (i := i) (j := j - 1) (q := q') (r := D - 1) h.one hl hD (.inr ⟨by omega, by omega⟩) (by omega) (by omega)
          rw [if_pos (by omega)] at hp
          refine case_swap h (p := 2 * q' + 1) (by rw [hp]; push_cast; rfl) (by omega) (fun _ => ⟨by omega, fun _ => by omega⟩) (fun hc => by omega)
            (.inr ⟨by rw [t1, hr0]; omega, by rw [t2]; omega⟩)
        · have t2 := treble_of (i := i + 1) (j := j - 1) (q := q) (r := r - 1) hh hD (.inr ⟨by omega, by omega⟩) (by omega) (by omega)
          have hp := posn2_of (i := i) (j := j - 1) (q := q) (r := r - 1) h.one hl hD (.inr ⟨by omega, by omega⟩) (by omega) (by omega)
          rw [if_neg (by omega)] at hp
          refine case_swap h (p := 2 * q) (by rw [hp]; push_cast; rfl) (by omega) (fun hc => by rw [hmD, hmod] at hc; omega) (fun hc => by omega) ?_
          rcases Nat.mod_two_eq_zero_or_one r with hr2 | hr2
          · exact .inl ⟨by rw [t1]; omega, by rw [t2]; omega⟩
          · exact .inr ⟨by rw [t1]; omega, by rw [t2]; omega⟩
  · -- an odd number of places, so no dodging
    have hd : A.trebleDodges = 0 := by
      by_contra hc
      have := h.even hc; omega
    have hD2 : D = 2 := by omega
    subst hD2
    have hH : half = A.trebleBack - A.trebleFront + 1 := by rw [hh, hd]; omega
    by_cases hfirst : i < half
    · have t1 := treble_of (q := i / 2) (r := i % 2) hh hD (.inl ⟨hfirst, rfl⟩) (by omega) (by omega)
      have hp := posn2_of (q := i / 2) (r := i % 2) h.one hl hD (.inl ⟨hfirst, rfl⟩) (by omega) (by omega)
      have hp' : posn2 A i = ((i : Int), (i : Int)) := by
        rw [hp]; ext <;> simp only <;> split_ifs <;> omega
      by_cases hi1 : i + 1 = half
      · have t2 := treble_of (i := i + 1) (j := i) (q := i / 2) (r := i % 2) hh hD (.inr ⟨by omega, by omega⟩) (by omega) (by omega)
        refine case_lie h (by rw [hp']; ext <;> push_cast <;> simp <;> omega) (fun hc => by rw [hmD] at hc; omega) (.inr ⟨by omega, by omega⟩) ⟨by rw [t1]; omega, by rw [t2]; omega⟩
      · have t2 := treble_of (i := i + 1) (q := (i + 1) / 2) (r := (i + 1) % 2) hh hD (.inl ⟨by omega, rfl⟩) (by omega) (by omega)
        refine case_swap h hp' (by omega) (fun hc => ⟨by rw [hmD] at hc; omega, fun hc => by omega⟩) (fun _ hc => by omega) (.inl ⟨by rw [t1]; omega, by rw [t2]; omega⟩)
    · obtain ⟨j, hj⟩ : ∃ j, i + j + 1 = 2 * half := ⟨2 * half - 1 - i, by omega⟩
      have t1 := treble_of (q := j / 2) (r := j % 2) hh hD (.inr ⟨by omega, hj⟩) (by omega) (by omega)
      by_cases hj0 : j = 0
      · have t2 := treble_wrap hh
        rw [show 2 * half = i + 1 by omega] at t2
        subst hj0
        refine case_lead h (posn2_end h.one hl (by omega) hpos) (by rw [hmD]; omega) (fun hc => by omega) ⟨by rw [t1]; omega, t2⟩
      · have t2 := treble_of (i := i + 1) (j := j - 1) (q := (j - 1) / 2) (r := (j - 1) % 2) hh hD (.inr ⟨by omega, by omega⟩) (by omega) (by omega)
        have hp := posn2_of (i := i) (j := j - 1) (q := (j - 1) / 2) (r := (j - 1) % 2) h.one hl hD (.inr ⟨by omega, by omega⟩) (by omega) (by omega)
        have hp' : posn2 A i = (((j - 1 : Nat) : Int), ((j - 1 : Nat) : Int)) := by
          rw [hp]; ext <;> simp only <;> split_ifs <;> omega
        refine case_swap h hp' (by omega) (fun hc => ⟨by rw [hmD] at hc; omega, fun hc => by omega⟩) (fun _ hc => by omega) (.inr ⟨by rw [t1]; omega, by rw [t2]; omega⟩)

end Mask
end Ringing
