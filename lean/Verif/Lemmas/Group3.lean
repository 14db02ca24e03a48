import Verif.Lemmas.Group2
import Verif.Lemmas.NamedRows
import Mathlib.Data.List.ProdSigma
/- Helper lemmas: derived groups. -/
namespace Ringing
open Spec
namespace Group

/-- Conjugating all the rows of a group by a row. -/
theorem conj_grp {v : List Row} {b : Nat} (h : IsGrp v b) {r : Row} (hr : Row.Valid r) :
    IsGrp (sortRows (v.map fun x => Row.mul (Row.mul (Row.inverse r) x) r)) (max b r.length) ∧
    ∀ s, s ∈ sortRows (v.map fun x => Row.mul (Row.mul (Row.inverse r) x) r) ↔
      ∃ x ∈ v, s.length = max b r.length ∧ ∀ i, Row.fn r (Row.fn s i) = Row.fn x (Row.fn r i) := by
  have hlen : ∀ x ∈ v, (Row.mul (Row.mul (Row.inverse r) x) r).length = max b r.length := by
    intro x hx
    have := (h.rows x hx).2
    simp only [Row.length_mul, Row.length_inverse]; omega
  have hval : ∀ x ∈ v, Row.Valid (Row.mul (Row.mul (Row.inverse r) x) r) := fun x hx =>
    Row.valid_mul (Row.valid_mul (Row.valid_inverse hr) (h.rows x hx).1) hr
  have hfn : ∀ x i, Row.fn r (Row.fn (Row.mul (Row.mul (Row.inverse r) x) r) i) = Row.fn x (Row.fn r i) := by
    intro x i; simp only [Row.fn_mul, Row.fn_fn_inverse hr]
  have hmem : ∀ s, s ∈ sortRows (v.map fun x => Row.mul (Row.mul (Row.inverse r) x) r) ↔
      ∃ x ∈ v, s = Row.mul (Row.mul (Row.inverse r) x) r := by
    intro s
    rw [(sortRows_perm _).mem_iff, List.mem_map]
    exact ⟨fun ⟨x, h1, h2⟩ => ⟨x, h1, h2.symm⟩, fun ⟨x, h1, h2⟩ => ⟨x, h1, h2.symm⟩⟩
  have huniq : ∀ x ∈ v, ∀ s : Row, s.length = max b r.length →
      (∀ i, Row.fn r (Row.fn s i) = Row.fn x (Row.fn r i)) → s = Row.mul (Row.mul (Row.inverse r) x) r := by
    intro x hx s hs he
    apply Row.ext_fn (by rw [hs, hlen x hx])
    intro i _
    apply hr.fn_inj
    rw [he, hfn]
  have hinj : ∀ x ∈ v, ∀ y ∈ v, Row.mul (Row.mul (Row.inverse r) x) r = Row.mul (Row.mul (Row.inverse r) y) r →
      x = y := by
    intro x hx y hy e
    apply Row.ext_fn (by rw [(h.rows x hx).2, (h.rows y hy).2])
    intro i _
    have h1 := hfn x (Row.find r i)
    have h2 := hfn y (Row.find r i)
    rw [hr.fn_find] at h1 h2
    rw [← h1, ← h2, e]
  have hb := h.le
  have hb' := hr.2
  refine ⟨⟨by omega, ?_, ?_, ?_, ?_⟩, ?_⟩
  · apply sortRows_incr
    exact (List.nodup_map_iff_inj_on (h.incr.nodup rowSTO)).2 hinj
  · intro s hs
    obtain ⟨x, hx, rfl⟩ := (hmem s).1 hs
    exact ⟨hval x hx, hlen x hx⟩
  · refine (hmem _).2 ⟨_, h.one, ?_⟩
    exact huniq _ h.one _ (by simp) (by simp)
  · intro s hs t ht
    obtain ⟨x, hx, rfl⟩ := (hmem s).1 hs
    obtain ⟨y, hy, rfl⟩ := (hmem t).1 ht
    refine (hmem _).2 ⟨_, h.mul x hx y hy, ?_⟩
    apply huniq _ (h.mul x hx y hy)
    · rw [Row.length_mul, hlen x hx, hlen y hy, max_self]
    · intro i
      rw [Row.fn_mul, hfn, hfn, Row.fn_mul]
  · intro s
    rw [hmem]
    constructor
    · rintro ⟨x, hx, rfl⟩; exact ⟨x, hx, hlen x hx, hfn x⟩
    · rintro ⟨x, hx, h1, h2⟩; exact ⟨x, hx, huniq x hx s h1 h2⟩

theorem conjugateC_eq {g : Group} (h : IsGrp g.v g.b) {r : Row} (hr : Row.Valid r) :
    conjugateC g r = .ok ⟨g.b, sortRows (g.v.map fun x => Row.mul (Row.mul (Row.inverse r) x) r),
      orbs (sortRows (g.v.map fun x => Row.mul (Row.mul (Row.inverse r) x) r)) g.b 0 []⟩ := by
  unfold conjugateC
  apply withOrbitsC_eq
  intro x hx
  have := (conj_grp h hr).1.rows x hx
  omega

theorem evenRowsC_eq : ∀ {v : List Row}, (∀ r ∈ v, Row.Valid r) →
    evenRowsC v = .ok (v.filter fun r => decide (Row.sign r = 1)) := by
  intro v
  induction v with
  | nil => intro _; rfl
  | cons r v ih =>
    intro h
    unfold evenRowsC
    rw [Row.signC_eq (h r (by simp)), Out.ok_bind, ih (fun x hx => h x (by simp [hx])), Out.ok_bind,
      List.filter_cons]
    simp

theorem even_good {g : Group} (h : Good g) :
    ∃ g', evenSubgroupC g = .ok g' ∧ g'.b = g.b ∧ Good g' ∧
      ∀ r, r ∈ g'.v ↔ r ∈ g.v ∧ Row.signC r = .ok 1 := by
  have hmem : ∀ r, r ∈ sortRows (g.v.filter fun r => decide (Row.sign r = 1)) ↔ r ∈ g.v ∧ Row.sign r = 1 := by
    intro r; rw [(sortRows_perm _).mem_iff, List.mem_filter, decide_eq_true_eq]
  have hg : IsGrp (sortRows (g.v.filter fun r => decide (Row.sign r = 1))) g.b := by
    refine ⟨h.grp.le, sortRows_incr ((h.grp.incr.nodup rowSTO).filter _), ?_, ?_, ?_⟩
    · intro r hr; exact h.grp.rows r ((hmem r).1 hr).1
    · exact (hmem _).2 ⟨h.grp.one, Row.sign_rounds h.grp.le⟩
    · intro x hx y hy
      obtain ⟨x1, x2⟩ := (hmem x).1 hx
      obtain ⟨y1, y2⟩ := (hmem y).1 hy
      refine (hmem _).2 ⟨h.grp.mul x x1 y y1, ?_⟩
      rw [Row.sign_mul (h.grp.rows x x1).1 (h.grp.rows y y1).1, x2, y2]; rfl
  obtain ⟨g', e1, e2, e3, e4⟩ := withOrbits_good hg
  refine ⟨g', ?_, e2, e4, ?_⟩
  · unfold evenSubgroupC
    rw [evenRowsC_eq (fun r hr => (h.grp.rows r hr).1)]; exact e1
  · intro r
    rw [e3, hmem]
    constructor
    · rintro ⟨h1, h2⟩; exact ⟨h1, by rw [Row.signC_eq (h.grp.rows r h1).1, h2]⟩
    · rintro ⟨h1, h2⟩
      refine ⟨h1, ?_⟩
      rw [Row.signC_eq (h.grp.rows r h1).1] at h2
      injection h2

/-! ### Invariants -/

theorem mem_orb_self {v : List Row} {b : Nat} (h : IsGrp v b) (j : Nat) : j ∈ orb v j :=
  mem_orb.2 ⟨_, h.one, by simp⟩

theorem orb_eq {v : List Row} {b : Nat} (h : IsGrp v b) {j x : Nat} (hx : x ∈ orb v j) : orb v x = orb v j := by
  obtain ⟨r, hr, rfl⟩ := mem_orb.1 hx
  apply incr_ext (orb_incr _ _) (orb_incr _ _)
  intro y
  rw [mem_orb, mem_orb]
  constructor
  · rintro ⟨s, hs, rfl⟩; exact ⟨_, h.mul s hs r hr, (Row.fn_mul _).symm⟩
  · rintro ⟨s, hs, rfl⟩
    refine ⟨_, h.mul s hs _ (h.inv hr), ?_⟩
    rw [Row.fn_mul, Row.fn_inverse_fn (h.rows r hr).1]

theorem orb_eq_singleton {v : List Row} {b : Nat} (h : IsGrp v b) {j : Nat} :
    (orb v j).length = 1 ↔ ∀ r ∈ v, Row.fn r j = j := by
  constructor
  · intro hl r hr
    obtain ⟨x, hx⟩ := List.length_eq_one_iff.1 hl
    have h1 := mem_orb_self h j
    have h2 : Row.fn r j ∈ orb v j := mem_orb.2 ⟨r, hr, rfl⟩
    rw [hx, List.mem_singleton] at h1 h2
    rw [h2, h1]
  · intro hh
    have : orb v j = [j] := by
      apply incr_ext (orb_incr _ _) (by simp)
      intro x
      rw [mem_orb, List.mem_singleton]
      constructor
      · rintro ⟨r, hr, rfl⟩; exact hh r hr
      · rintro rfl; exact ⟨_, h.one, by simp⟩
    rw [this]; rfl

theorem invariants_aux {v : List Row} {b : Nat} (h : IsGrp v b) : ∀ (k j : Nat) (o : List (List Nat)),
    (∀ x ∈ o, ∃ i, i < j ∧ x = orb v i) →
    ((orbs v k j o).filter fun x => x.length == 1).map (fun x => x.headD 0) =
      (o.filter fun x => x.length == 1).map (fun x => x.headD 0) ++
        (List.range' j k).filter fun i => decide ((orb v i).length = 1) := by
  intro k
  induction k with
  | zero => intro j o _; simp [orbs]
  | succ k ih =>
    intro j o ho
    unfold orbs
    rw [List.range'_succ, List.filter_cons]
    by_cases hc : o.contains (orb v j) = true
    · rw [if_pos hc, ih (j + 1) o (fun x hx => by obtain ⟨i, h1, h2⟩ := ho x hx; exact ⟨i, by omega, h2⟩)]
      have hm : orb v j ∈ o := by simpa using hc
      obtain ⟨i, hi, e⟩ := ho _ hm
      have : ¬ (orb v j).length = 1 := by
        intro hl
        obtain ⟨x, hx⟩ := List.length_eq_one_iff.1 hl
        have h1 := mem_orb_self h j
        have h2 := mem_orb_self h i
        rw [← e] at h2
        rw [hx, List.mem_singleton] at h1 h2
        omega
      simp [this]
    · rw [if_neg hc, ih (j + 1) _ (by
        intro x hx
        rcases List.mem_append.1 hx with hx | hx
        · obtain ⟨i, h1, h2⟩ := ho x hx; exact ⟨i, by omega, h2⟩
        · exact ⟨j, by omega, List.mem_singleton.1 hx⟩)]
      rw [List.filter_append, List.map_append]
      by_cases hl : (orb v j).length = 1
      · obtain ⟨x, hx⟩ := List.length_eq_one_iff.1 hl
        have h1 := mem_orb_self h j
        rw [hx, List.mem_singleton] at h1
        subst h1
        simp [hx]
      · simp [hl]

theorem invariants_eq {g : Group} (h : Good g) :
    invariants g = (List.range g.b).filter fun i => decide (∀ r ∈ g.v, Row.fn r i = i) := by
  unfold invariants
  rw [h.o, invariants_aux h.grp g.b 0 [] (by simp), List.range_eq_range']
  simp only [List.filter_nil, List.map_nil, List.nil_append]
  apply List.filter_congr
  intro i _
  rw [decide_eq_decide]
  exact orb_eq_singleton h.grp

end Group
end Ringing
