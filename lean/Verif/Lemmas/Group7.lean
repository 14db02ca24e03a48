import Verif.Lemmas.Group6
import Verif.Props.Extent
/- Helper lemmas: symmetric and alternating groups. -/
namespace Ringing
open Spec
namespace Group

theorem copyC_spec {step : ExtIter → Out ExtIter} {N : Nat} {row : Nat → Row}
    (hstep : ∀ k, k + 1 < N → step ⟨false, row k⟩ = .ok ⟨false, row (k + 1)⟩)
    (hend : ∃ it, step ⟨false, row (N - 1)⟩ = .ok it ∧ it.fin = true) :
    ∀ m k fuel, k + m + 1 = N → m + 2 ≤ fuel →
      copyC step fuel ⟨false, row k⟩ = .ok ((List.range' k (m + 1)).map row) := by
  intro m
  induction m with
  | zero =>
    intro k fuel hk hf
    obtain ⟨it, h1, h2⟩ := hend
    obtain ⟨f, rfl⟩ : ∃ f, fuel = f + 2 := ⟨fuel - 2, by omega⟩
    have : k = N - 1 := by omega
    subst this
    unfold copyC
    simp only [Bool.false_eq_true, if_false]
    rw [h1, Out.ok_bind]
    unfold copyC
    rw [if_pos h2]; rfl
  | succ m ih =>
    intro k fuel hk hf
    obtain ⟨f, rfl⟩ : ∃ f, fuel = f + 1 := ⟨fuel - 1, by omega⟩
    unfold copyC
    simp only [Bool.false_eq_true, if_false]
    rw [hstep k (by omega), Out.ok_bind, ih (k + 1) f (by omega) (by omega)]
    rfl

/-- A set of rows of the extent that is closed under multiplication. -/
theorem extent_grp {nw nh nt : Nat} (ht : nt ≤ 256) {v : List Row} {P : Row → Prop}
    (hincr : Incr Row.lt v) (hmem : ∀ r, r ∈ v ↔ InExtent nw nh nt r ∧ P r) (h1 : P (Row.rounds nt))
    (hmul : ∀ x y, InExtent nw nh nt x → InExtent nw nh nt y → P x → P y → P (Row.mul x y)) : IsGrp v nt := by
  have hrow : ∀ r, InExtent nw nh nt r → Row.Valid r ∧ r.length = nt := fun r hr =>
    ⟨(isRow_iff_valid r).1 hr.1, hr.2.1⟩
  refine ⟨ht, hincr, fun r hr => hrow r ((hmem r).1 hr).1, ?_, ?_⟩
  · refine (hmem _).2 ⟨⟨(isRow_iff_valid _).2 (Row.valid_rounds ht), by simp, ?_, ?_⟩, h1⟩ <;>
      intro i _ <;> rw [bellAt_eq_fn, Row.fn_rounds]
  · intro x hx y hy
    obtain ⟨ex, px⟩ := (hmem x).1 hx
    obtain ⟨ey, py⟩ := (hmem y).1 hy
    obtain ⟨vx, lx⟩ := hrow x ex
    obtain ⟨vy, ly⟩ := hrow y ey
    refine (hmem _).2 ⟨⟨(isRow_iff_valid _).2 (Row.valid_mul vx vy), by rw [Row.length_mul]; omega, ?_, ?_⟩,
      hmul x y ex ey px py⟩
    · intro i hi
      have a := ex.2.2.1 i hi
      have b := ey.2.2.1 i hi
      rw [bellAt_eq_fn] at a b ⊢
      rw [Row.fn_mul, b, a]
    · intro i hi
      have a := ex.2.2.2 i hi
      have b := ey.2.2.2 i hi
      rw [bellAt_eq_fn] at a b ⊢
      rw [Row.fn_mul, b, a]

theorem symmetric_good {nw nh nt : Nat} (h : nh + nw ≤ nt) (ht : nt ≤ 256) (h0 : 0 < nt) :
    ∃ g, symmetricC nw nh nt = .ok g ∧ g.b = nt ∧ Good g ∧ (∀ r, r ∈ g.v ↔ InExtent nw nh nt r) ∧
      g.v.length = nw.factorial := by
  have hpos := Nat.factorial_pos nw
  have hf := fact_eq nw
  choose! row hrow using fun k (hk : k < Spec.fact nw) => C24_visits_extent (k := k) h ht hk
  have hstep : ∀ k, k + 1 < nw.factorial → ExtIter.incC nw nh ⟨false, row k⟩ = .ok ⟨false, row (k + 1)⟩ := by
    intro k hk
    have h1 := (hrow k (by omega)).1
    have h2 := (hrow (k + 1) (by omega)).1
    rwa [incN_succ, h1, Out.ok_bind] at h2
  have hend : ∃ it, ExtIter.incC nw nh ⟨false, row (nw.factorial - 1)⟩ = .ok it ∧ it.fin = true := by
    obtain ⟨it, h1, h2, -⟩ := C24_end h ht
    rw [fact_eq, show nw.factorial = nw.factorial - 1 + 1 by omega, incN_succ,
      (hrow (nw.factorial - 1) (by omega)).1, Out.ok_bind] at h1
    exact ⟨it, h1, h2⟩
  have hc := copyC_spec hstep hend (nw.factorial - 1) 0 (nw.factorial + 1) (by omega) (by omega)
  have hs : ExtIter.start nt = ⟨false, row 0⟩ := by
    have := (hrow 0 (by omega)).1
    injection this
  rw [show nw.factorial - 1 + 1 = nw.factorial by omega, ← hs] at hc
  have hincr : Incr Row.lt ((List.range' 0 nw.factorial).map row) := by
    unfold Incr
    rw [List.pairwise_map]
    apply List.Pairwise.imp_of_mem _ (List.pairwise_lt_range' (s := 0) (n := nw.factorial) (step := 1))
    intro a c ha hc hac
    rw [List.mem_range'_1] at ha hc
    rw [← lexLt_iff (by rw [(hrow a (by omega)).2.2.1, (hrow c (by omega)).2.2.1])]
    exact C24_increasing h ht (by omega) hac (hrow a (by omega)).1 (hrow c (by omega)).1
  have hmem : ∀ r, r ∈ (List.range' 0 nw.factorial).map row ↔ InExtent nw nh nt r ∧ True := by
    intro r
    rw [List.mem_map]
    constructor
    · rintro ⟨k, hk, rfl⟩
      rw [List.mem_range'_1] at hk
      exact ⟨(hrow k (by omega)).2, trivial⟩
    · rintro ⟨hr, -⟩
      obtain ⟨k, hk, he⟩ := C24_complete h ht hr
      refine ⟨k, by rw [List.mem_range'_1]; omega, ?_⟩
      rw [(hrow k hk).1] at he
      injection he with he
      injection he
  obtain ⟨g, e1, e2, e3, e4⟩ := withOrbits_good (extent_grp ht hincr hmem trivial (fun _ _ _ _ _ _ => trivial))
  refine ⟨g, ?_, e2, e4, ?_, by rw [e3]; simp⟩
  · unfold symmetricC
    simp only
    rw [if_neg (by omega), hc, Out.ok_bind, e1]
  · intro r; rw [e3, hmem]; simp

theorem alternating_good {nw nh nt : Nat} (h : nh + nw ≤ nt) (ht : nt ≤ 256) (h0 : 0 < nt) :
    ∃ g, alternatingC nw nh nt = .ok g ∧ g.b = nt ∧ Good g ∧
      (∀ r, r ∈ g.v ↔ InExtent nw nh nt r ∧ Row.signC r = .ok 1) ∧
      g.v.length = (nw.factorial + 1) / 2 := by
  have hpos := Nat.factorial_pos nw
  have hf := fact_eq nw
  choose! row hrow using fun k (hk : 2 * k < Spec.fact nw) => C25_iterator_visits (k := k) h ht hk
  have hstep : ∀ k, k + 1 < (nw.factorial + 1) / 2 →
      Extent.incIncourseC nw nh 3 ⟨false, row k⟩ = .ok ⟨false, row (k + 1)⟩ := by
    intro k hk
    have h1 := (hrow k (by omega)).1
    have h2 := (hrow (k + 1) (by omega)).1
    rwa [incIncourseN, h1, Out.ok_bind] at h2
  have hend : ∃ it, Extent.incIncourseC nw nh 3 ⟨false, row ((nw.factorial + 1) / 2 - 1)⟩ = .ok it ∧ it.fin = true := by
    obtain ⟨it, h1, h2⟩ := C25_iterator_end h ht
    rw [fact_eq, show (nw.factorial + 1) / 2 = (nw.factorial + 1) / 2 - 1 + 1 by omega, incIncourseN,
      (hrow ((nw.factorial + 1) / 2 - 1) (by omega)).1, Out.ok_bind] at h1
    exact ⟨it, h1, h2⟩
  have hc := copyC_spec hstep hend ((nw.factorial + 1) / 2 - 1) 0 (nw.factorial + 1) (by omega) (by omega)
  have hs : ExtIter.start nt = ⟨false, row 0⟩ := by
    have := (hrow 0 (by omega)).1
    injection this
  rw [show (nw.factorial + 1) / 2 - 1 + 1 = (nw.factorial + 1) / 2 by omega, ← hs] at hc
  have hincr : Incr Row.lt ((List.range' 0 ((nw.factorial + 1) / 2)).map row) := by
    unfold Incr
    rw [List.pairwise_map]
    apply List.Pairwise.imp_of_mem _ (List.pairwise_lt_range' (s := 0) (n := (nw.factorial + 1) / 2) (step := 1))
    intro a c ha hc hac
    rw [List.mem_range'_1] at ha hc
    rw [← lexLt_iff (by rw [(hrow a (by omega)).2.1.2.1, (hrow c (by omega)).2.1.2.1])]
    exact C25_iterator_increasing h ht (by omega) hac (hrow a (by omega)).1 (hrow c (by omega)).1
  have hmem : ∀ r, r ∈ (List.range' 0 ((nw.factorial + 1) / 2)).map row ↔ InExtent nw nh nt r ∧ Row.signC r = .ok 1 := by
    intro r
    rw [List.mem_map]
    constructor
    · rintro ⟨k, hk, rfl⟩
      rw [List.mem_range'_1] at hk
      exact (hrow k (by omega)).2
    · rintro ⟨hr, hsg⟩
      obtain ⟨k, hk, he⟩ := C25_iterator_complete h ht hr hsg
      refine ⟨k, by rw [List.mem_range'_1]; omega, ?_⟩
      rw [(hrow k hk).1] at he
      injection he with he
      injection he
  obtain ⟨g, e1, e2, e3, e4⟩ := withOrbits_good (extent_grp ht hincr hmem
    (by rw [Row.signC_eq (Row.valid_rounds ht), Row.sign_rounds ht])
    (by
      intro x y hx hy px py
      have vx := (isRow_iff_valid x).1 hx.1
      have vy := (isRow_iff_valid y).1 hy.1
      rw [Row.signC_eq vx] at px
      rw [Row.signC_eq vy] at py
      injection px with px
      injection py with py
      rw [Row.signC_eq (Row.valid_mul vx vy), Row.sign_mul vx vy, px, py]; rfl))
  refine ⟨g, ?_, e2, e4, ?_, by rw [e3]; simp⟩
  · unfold alternatingC
    simp only
    rw [if_neg (by omega), hc, Out.ok_bind, e1]
  · intro r; rw [e3, hmem]

end Group
end Ringing
