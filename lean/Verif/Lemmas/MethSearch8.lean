import Verif.Lemmas.MethSearch7

namespace Ringing
open Spec Row MethodUtils
namespace MethSearch

/-! ### Counting blows -/

theorem countRun_gt {p : Change → Bool} {max : Nat} : ∀ (l : List Change) (c : Nat),
    (countRun p max l c > max ↔ c + (l.takeWhile p).length > max) ∧
    (countRun p max l c ≤ max → countRun p max l c = c + (l.takeWhile p).length) := by
  intro l
  induction l with
  | nil => intro c; simp [countRun]
  | cons x xs ih =>
    intro c
    rw [countRun]
    by_cases h : c ≤ max
    · rw [if_pos h]
      by_cases hp : p x = true
      · rw [if_pos hp, List.takeWhile_cons, if_pos hp, List.length_cons]
        obtain ⟨h1, h2⟩ := ih (c + 1)
        rw [show c + ((xs.takeWhile p).length + 1) = c + 1 + (xs.takeWhile p).length by omega]
        exact ⟨h1, h2⟩
      · rw [if_neg hp, List.takeWhile_cons, if_neg hp]
        simp
    · rw [if_neg h]
      constructor
      · constructor <;> intro _ <;> omega
      · intro h2; omega

theorem takeWhile_ge {α : Type} {p : α → Bool} {l : List α} {t : Nat} :
    t ≤ (l.takeWhile p).length ↔ t ≤ l.length ∧ ∀ i x, i < t → l[i]? = some x → p x = true := by
  induction l generalizing t with
  | nil =>
    simp only [List.takeWhile_nil, List.length_nil]
    constructor
    · intro h; exact ⟨h, fun i x hi => by omega⟩
    · intro h; exact h.1
  | cons a l ih =>
    rw [List.takeWhile_cons]
    cases t with
    | zero => simp
    | succ t =>
      by_cases h : p a = true
      · rw [if_pos h, List.length_cons, List.length_cons]
        constructor
        · intro h1
          obtain ⟨h2, h3⟩ := ih.1 (show t ≤ _ by omega)
          refine ⟨by omega, fun i x hi hx => ?_⟩
          cases i with
          | zero => simp at hx; subst hx; exact h
          | succ i => exact h3 i x (by omega) (by simpa using hx)
        · rintro ⟨h1, h2⟩
          have := ih.2 ⟨show t ≤ l.length by omega, fun i x hi hx => h2 (i + 1) x (by omega) (by simpa using hx)⟩
          omega
      · rw [if_neg h]
        constructor
        · intro h1; simp at h1
        · rintro ⟨-, h2⟩
          exact absurd (h2 0 a (by omega) (by simp)) h

/-- A change of the lead has a place in position `p`. -/
def PlaceAt (b : Nat) (g : Nat → Change) (p o : Nat) : Prop := IsPlace b (g o).swaps p

theorem findplace_iff {b : Nat} {c : Change} (h : c.WF ∧ c.n = b) {p : Nat} (hp : p < b) :
    c.findplace p = true ↔ IsPlace b c.swaps p := by
  rw [Change.WF.findplace_eq h.1]
  unfold IsPlace
  rw [← h.2] at hp ⊢
  simp [hp]

/-- `max` blows or more in one place, ending with change `d`, without passing the lead end. -/
def Run (b : Nat) (g : Nat → Change) (max d : Nat) : Prop :=
  ∃ p r, r ≤ d ∧ max < r + 2 ∧ ∀ o, d - r ≤ o → o ≤ d → PlaceAt b g p o

/-- More than `max` blows across the lead end. -/
def RunLE (b : Nat) (g : Nat → Change) (n max : Nat) : Prop :=
  ∃ p x y, PlaceAt b g p (n - 1) ∧ x ≤ n - 1 ∧ y ≤ n - 1 ∧ (∀ o, n - 1 - x ≤ o → o < n - 1 → PlaceAt b g p o) ∧
    (∀ o, o < y → PlaceAt b g p o) ∧ max < x + y + 2

theorem Facts.okTake {A : Args} {full : List Change} {g : Nat → Change} (F : Facts A full g) (d : Nat) : Ok A (full.take d) := by
  intro c hc
  obtain ⟨i, hi, rfl⟩ := List.getElem_of_mem (List.mem_of_mem_take hc)
  have h := F.get i (by rw [← F.len]; exact hi)
  rw [List.getElem?_eq_getElem hi] at h
  rw [Option.some.inj h]
  exact F.ok i (by rw [← F.len]; exact hi)

theorem Facts.tooMany {A : Args} {full : List Change} {g : Nat → Change} (F : Facts A full g) {d max st : Nat} (hd : d < A.leadLen)
    (hst : d ≤ st) : ∃ b, isTooManyPlacesC ⟨A.bells, full.take d⟩ (g d) max st = .ok b ∧ (b = true ↔ Run A.bells g max d) := by
  obtain ⟨r, h1, h2⟩ := C77_too_many_places (m := ⟨A.bells, full.take d⟩) (c := g d) (max := max) (st := st) (F.okTake d)
    (F.ok d hd).1 (F.ok d hd).2
  have htl : (full.take d).length = d := by rw [List.length_take, F.len]; omega
  refine ⟨r, h1, h2.trans ?_⟩
  simp only [htl]
  have hget : ∀ o, o < d → ((full.take d).map Change.swaps)[o]? = some (g o).swaps := by
    intro o ho
    rw [List.getElem?_map, List.getElem?_take, if_pos ho, F.get o (by omega)]; rfl
  constructor
  · rintro ⟨p, hp, k, hk, hm, h⟩
    refine ⟨p, k, hk, hm, fun o h3 h4 => ?_⟩
    by_cases he : o = d
    · subst he; exact hp
    · exact (h o _ h3 (hget o (by omega))).2
  · rintro ⟨p, k, hk, hm, h⟩
    refine ⟨p, h d (by omega) le_rfl, k, hk, hm, fun o ss h3 h4 => ?_⟩
    have ho : o < d := by
      by_contra hc
      rw [List.getElem?_eq_none (by rw [List.length_map, htl]; omega)] at h4
      cases h4
    rw [hget o ho] at h4
    cases h4
    exact ⟨by omega, h o h3 (by omega)⟩

theorem Facts.leadend {A : Args} {full : List Change} {g : Nat → Change} (F : Facts A full g) (hp : A.leadLen ≠ 0)
    (hll : A.longLe = false) (hmb : A.maxBlows ≠ 0) :
    tryLeadend A (full.take (A.leadLen - 1)) (g (A.leadLen - 1)) = true ↔
      tryLeadend { A with maxBlows := 0 } (full.take (A.leadLen - 1)) (g (A.leadLen - 1)) = true ∧
        ¬ RunLE A.bells g A.leadLen A.maxBlows := by
  have hn1 : A.leadLen - 1 < A.leadLen := by omega
  have hmn := F.okTake (A.leadLen - 1)
  have htl : (full.take (A.leadLen - 1)).length = A.leadLen - 1 := by rw [List.length_take, F.len]; omega
  have hget : ∀ o, o < A.leadLen - 1 → (full.take (A.leadLen - 1))[o]? = some (g o) := by
    intro o ho
    rw [List.getElem?_take, if_pos ho, F.get o (by omega)]
  revert hmn htl hget
  generalize full.take (A.leadLen - 1) = m
  intro hmn htl hget
  unfold tryLeadend
  simp only [hll, Bool.false_eq_true, false_and, if_false, hmb, decide_false, Bool.false_or, decide_true, Bool.true_or, Bool.true_and]
  rw [Bool.and_eq_true, and_comm]
  refine and_congr Iff.rfl ?_
  rw [Bool.not_eq_true', ← Bool.not_eq_true, not_iff_not, List.any_eq_true]
  have fp : ∀ {p o}, p < A.bells → o < A.leadLen → ((g o).findplace p = true ↔ PlaceAt A.bells g p o) :=
    fun hp ho => findplace_iff (F.ok _ ho) hp
  constructor
  · rintro ⟨p, hpr, h⟩
    rw [List.mem_range] at hpr
    rw [Bool.and_eq_true, Bool.or_eq_true, decide_eq_true_iff, decide_eq_true_iff] at h
    obtain ⟨h1, h2⟩ := h
    refine ⟨p, (m.reverse.takeWhile fun c => c.findplace p).length, (m.takeWhile fun c => c.findplace p).length,
      (fp hpr hn1).1 h1, ?_, ?_, ?_, ?_, ?_⟩
    · have := (takeWhile_ge (p := fun c : Change => c.findplace p) (l := m.reverse)).1 le_rfl
      rw [List.length_reverse, htl] at this
      exact this.1
    · have := (takeWhile_ge (p := fun c : Change => c.findplace p) (l := m)).1 le_rfl
      rw [htl] at this
      exact this.1
    · intro o h3 h4
      have := (takeWhile_ge (p := fun c : Change => c.findplace p) (l := m.reverse)).1 le_rfl
      refine (fp hpr (by omega)).1 (this.2 (A.leadLen - 1 - 1 - o) (g o) (by omega) ?_)
      rw [List.getElem?_reverse (by omega), htl, show A.leadLen - 1 - 1 - (A.leadLen - 1 - 1 - o) = o by omega, hget o h4]
    · intro o h3
      have := (takeWhile_ge (p := fun c : Change => c.findplace p) (l := m)).1 le_rfl
      refine (fp hpr (by omega)).1 (this.2 o (g o) h3 (hget o (by omega)))
    · have c1 := countRun_gt (p := fun c : Change => c.findplace p) (max := A.maxBlows) m.reverse 2
      rcases h2 with h2 | h2
      · have := c1.1.1 h2; omega
      · by_cases h3 : countRun (fun c => c.findplace p) A.maxBlows m.reverse 2 > A.maxBlows
        · have := c1.1.1 h3; omega
        · have c2 := countRun_gt (p := fun c : Change => c.findplace p) (max := A.maxBlows) m
            (countRun (fun c => c.findplace p) A.maxBlows m.reverse 2)
          have := c2.1.1 h2
          have := c1.2 (by omega)
          omega
  · rintro ⟨p, x, y, h1, hx, hy, h2, h3, h4⟩
    have hpr : p < A.bells := h1.1
    refine ⟨p, List.mem_range.2 hpr, ?_⟩
    rw [Bool.and_eq_true, Bool.or_eq_true, decide_eq_true_iff, decide_eq_true_iff]
    refine ⟨(fp hpr hn1).2 h1, ?_⟩
    have hx' : x ≤ (m.reverse.takeWhile fun c => c.findplace p).length := by
      rw [takeWhile_ge]
      refine ⟨by rw [List.length_reverse, htl]; exact hx, fun i c hi hc => ?_⟩
      rw [List.getElem?_reverse (by omega), htl, hget _ (by omega)] at hc
      cases hc
      exact (fp hpr (by omega)).2 (h2 _ (by omega) (by omega))
    have hy' : y ≤ (m.takeWhile fun c => c.findplace p).length := by
      rw [takeWhile_ge]
      refine ⟨by rw [htl]; exact hy, fun i c hi hc => ?_⟩
      rw [hget _ (by omega)] at hc
      cases hc
      exact (fp hpr (by omega)).2 (h3 _ hi)
    have c1 := countRun_gt (p := fun c : Change => c.findplace p) (max := A.maxBlows) m.reverse 2
    by_cases h5 : countRun (fun c => c.findplace p) A.maxBlows m.reverse 2 > A.maxBlows
    · exact Or.inl h5
    · right
      have c2 := countRun_gt (p := fun c : Change => c.findplace p) (max := A.maxBlows) m
        (countRun (fun c => c.findplace p) A.maxBlows m.reverse 2)
      rw [c2.1]
      have := c1.2 (by omega)
      omega

theorem Facts.midlead {A : Args} {T : Tests} {full : List Change} {g : Nat → Change} (F : Facts A full g) {d : Nat}
    (hd : d < A.leadLen) (hn : A.leadLen < 2 ^ 64) (hll : A.longLe = false) (hmb : A.maxBlows ≠ 0) :
    tryMidleadC A T (full.take d) (g d) = .ok true ↔
      tryMidleadC { A with maxBlows := 0 } T (full.take d) (g d) = .ok true ∧ ¬ Run A.bells g A.maxBlows d := by
  obtain ⟨b, h1, h2⟩ := F.tooMany (d := d) (max := A.maxBlows) (st := stopoff A) hd (by
    unfold stopoff; rw [hll]; simp only [Bool.false_eq_true, if_false]; omega)
  unfold tryMidleadC
  simp only [h1, hll, Bool.false_eq_true, false_and, if_false, hmb, ne_eq, not_false_eq_true, if_true, not_true_eq_false, Out.ok_bind, Out.pure_eq]
  rw [← h2]
  split <;> split_ifs <;> cases b <;> simp

theorem Facts.halfsym {A : Args} {full : List Change} {g : Nat → Change} (F : Facts A full g) {d : Nat}
    (hd : d < A.leadLen) (hn : A.leadLen < 2 ^ 64) (hll : A.longLe = false) (hmb : A.maxBlows ≠ 0)
    (hs : A.skewsym = false) (hdb : A.doubsym = false) :
    tryHalfleadSymC A (full.take d) (g d) = .ok true ↔ (A.sym = true → ¬ Run A.bells g (A.maxBlows / 2 + 1) d) := by
  obtain ⟨b, h1, h2⟩ := F.tooMany (d := d) (max := A.maxBlows / 2 + 1) (st := stopoff A) hd (by
    unfold stopoff; rw [hll]; simp only [Bool.false_eq_true, if_false]; omega)
  unfold tryHalfleadSymC
  simp only [h1, hs, hdb, hmb, Bool.false_eq_true, false_and, or_false, if_false, ne_eq, not_false_eq_true, and_true, Out.ok_bind, Out.pure_eq, Bool.not_true]
  rw [← h2]
  cases A.sym <;> cases b <;> simp

theorem Facts.lesym {A : Args} {full : List Change} {g : Nat → Change} (F : Facts A full g) {d : Nat}
    (hd : d < A.leadLen) (hn : A.leadLen < 2 ^ 64) (hll : A.longLe = false) (hmb : A.maxBlows ≠ 0) :
    tryLeadendSymC A (full.take d) (g d) = .ok true ↔
      tryLeadendSymC { A with maxBlows := 0 } (full.take d) (g d) = .ok true ∧ (A.sym = true → ¬ Run A.bells g (A.maxBlows / 2 + 1) d) := by
  obtain ⟨b, h1, h2⟩ := F.tooMany (d := d) (max := A.maxBlows / 2 + 1) (st := 2 ^ 64 - 1) hd (by omega)
  unfold tryLeadendSymC
  rw [← h2]
  by_cases h : A.limitedLe = true
  · simp only [h, if_true, h1, hll, hmb, Bool.false_eq_true, ne_eq, not_true_eq_false, not_false_eq_true, and_true, and_false, if_false, Out.ok_bind, Out.pure_eq]
    rw [isTrue_bind, isTrue_bind]
    constructor
    · rintro ⟨x, h3, h4⟩
      cases x with
      | false => simp at h4
      | true =>
        simp only [Bool.not_true, Bool.false_eq_true, if_false] at h4
        split at h4
        · simp at h4
        · rename_i h5
          refine ⟨⟨true, h3, by simp [h5]⟩, fun h6 => ?_⟩
          rw [if_pos h6] at h4
          cases b <;> simp at h4 ⊢
    · rintro ⟨⟨x, h3, h4⟩, h5⟩
      refine ⟨x, h3, ?_⟩
      cases x with
      | false => simp at h4
      | true =>
        simp only [Bool.not_true, Bool.false_eq_true, if_false] at h4 ⊢
        split at h4
        · simp at h4
        · rename_i h6
          rw [if_neg h6]
          cases hs : A.sym with
          | false => simp
          | true => have := h5 hs; cases b <;> simp_all
  · simp only [h, if_false, h1, hll, hmb, Bool.false_eq_true, ne_eq, not_true_eq_false, not_false_eq_true, and_true, and_false, Out.ok_bind, Out.pure_eq, Bool.not_true]
    split
    · simp
    · cases A.sym <;> cases b <;> simp

end MethSearch
end Ringing
