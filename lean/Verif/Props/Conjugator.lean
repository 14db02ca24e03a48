import Verif.Lemmas.Conjugator
import Verif.Lemmas.Sign

/-! C08: `are_conjugate` and `conjugator`. -/
namespace Ringing
open Spec Row

/-- `Conjugates` is `y = r.inverse() * x * r`, that is `x.conjugate(r)`. -/
theorem C08_conjugate_eq {x y r : Row} (hxy : x.length = y.length) (h : Conjugates x y r) :
    Row.conjugate x r = y := by
  obtain ⟨h1, h2, h3⟩ := h
  have hv := (isRow_iff_valid r).1 h1
  simp only [bellAt_eq_fn] at h3
  apply ext_fn
  · simp [Row.conjugate, h2, hxy]
  · intro i _
    unfold Row.conjugate
    rw [fn_mul, fn_mul, ← h3, fn_inverse_fn hv]

theorem classVector_nil {v : List (List Char)} (h : ClassVector [] v) : v = [[]] := by
  obtain ⟨s, h1, h2, -⟩ := h
  have : s = [] := by
    have : cyclesC [] = .ok [] := by decide
    rw [this] at h1; cases h1; rfl
  subst this
  exact List.perm_singleton.1 h2

/-- C08: whatever order `std::sort` leaves cycles of equal length in, `are_conjugate` of two rows on
the same bells is true exactly when some row conjugates one to the other. -/
theorem C08_are_conjugate {x y : Row} (hx : IsRow x) (hy : IsRow y) (hl : x.length = y.length)
    {xc yc : List (List Char)} (h1 : ClassVector x xc) (h2 : ClassVector y yc) :
    areConjugateImpl xc yc = true ↔ ∃ r, Conjugates x y r := by
  rw [isRow_iff_valid] at hx hy
  by_cases hne : x = []
  · subst hne
    have hy' : y = [] := List.length_eq_zero_iff.1 hl.symm
    subst hy'
    rw [classVector_nil h1, classVector_nil h2]
    refine ⟨fun _ => ⟨[], ⟨by simp, by simp⟩, rfl, fun i => rfl⟩, fun _ => by decide⟩
  · have hne' : y ≠ [] := by rintro rfl; exact hne (List.length_eq_zero_iff.1 hl)
    obtain ⟨xs, dx, rfl, sx⟩ := classVector_spec hx hne h1
    obtain ⟨ys, dy, rfl, sy⟩ := classVector_spec hy hne' h2
    rw [areConjugateImpl_iff]
    constructor
    · intro h
      refine ⟨mul xs.flatten (inverse ys.flatten), ?_, ?_, ?_⟩
      · rw [isRow_iff_valid]
        have vX : Valid xs.flatten := ⟨by rw [dx.perm.length_eq, List.length_range]; exact dx.perm, by
          rw [dx.perm.length_eq, List.length_range]; exact hx.2⟩
        have vY : Valid ys.flatten := ⟨by rw [dy.perm.length_eq, List.length_range]; exact dy.perm, by
          rw [dy.perm.length_eq, List.length_range]; exact hy.2⟩
        exact valid_mul vX (valid_inverse vY)
      · have lX : xs.flatten.length = x.length := by rw [dx.perm.length_eq, List.length_range]
        have lY : ys.flatten.length = y.length := by rw [dy.perm.length_eq, List.length_range]
        rw [length_mul, length_inverse, lX, lY, hl]; simp
      · intro i
        simp only [bellAt_eq_fn]
        exact conjugate_of_decomp hx hy dx dy h i
    · rintro ⟨r, r1, r2, r3⟩
      simp only [bellAt_eq_fn] at r3
      have d' := dy.conjugate ((isRow_iff_valid r).1 r1) (by omega) hl r3
      have hp := dx.lengths_perm d'
      have e : List.map List.length (List.map (fun c => List.map (fn r) c) ys) = List.map List.length ys := by
        rw [List.map_map]; apply List.map_congr_left; intro c _; simp
      rw [e] at hp
      refine hp.eq_of_pairwise (le := (· ≤ ·)) (fun a b _ _ h1 h2 => le_antisymm h1 h2) ?_ ?_
      · rw [List.pairwise_map]; exact sx
      · rw [List.pairwise_map]; exact sy

/-- C08: on up to 33 bells `conjugator` gives a conjugating row if there is one, and otherwise the
empty row. -/
theorem C08_conjugator {x y : Row} (hx : IsRow x) (hy : IsRow y) (hl : x.length = y.length)
    (h33 : x.length ≤ 33) {xc yc : List (List Char)} (h1 : ClassVector x xc) (h2 : ClassVector y yc) :
    ((∃ r, Conjugates x y r) → ∃ r, conjugatorC xc yc = .ok r ∧ Conjugates x y r) ∧
    ((¬ ∃ r, Conjugates x y r) → conjugatorC xc yc = .ok []) := by
  have hiff := C08_are_conjugate hx hy hl h1 h2
  rw [isRow_iff_valid] at hx hy
  constructor
  · intro hc
    have himp := hiff.2 hc
    unfold conjugatorC
    rw [if_pos himp]
    by_cases hne : x = []
    · subst hne
      have hy' : y = [] := List.length_eq_zero_iff.1 hl.symm
      subst hy'
      rw [classVector_nil h1, classVector_nil h2]
      exact ⟨[], by decide, ⟨by simp, by simp⟩, rfl, fun i => rfl⟩
    · have hne' : y ≠ [] := by rintro rfl; exact hne (List.length_eq_zero_iff.1 hl)
      obtain ⟨xs, dx, rfl, sx⟩ := classVector_spec hx hne h1
      obtain ⟨ys, dy, rfl, sy⟩ := classVector_spec hy hne' h2
      rw [areConjugateImpl_iff] at himp
      have lX : xs.flatten.length = x.length := by rw [dx.perm.length_eq, List.length_range]
      have lY : ys.flatten.length = y.length := by rw [dy.perm.length_eq, List.length_range]
      have vX : Valid xs.flatten := ⟨by rw [lX]; exact dx.perm, by rw [lX]; exact hx.2⟩
      have vY : Valid ys.flatten := ⟨by rw [lY]; exact dy.perm, by rw [lY]; exact hy.2⟩
      have pr : ∀ {zs : List (List Nat)}, Valid zs.flatten → zs.flatten.length ≤ 33 →
          cyclesAsRowC (zs.map fun c => c.map Bell.toChar) = .ok zs.flatten := by
        intro zs hv hlen
        unfold cyclesAsRowC
        rw [← List.map_flatten]
        exact C10_print_parse ((isRow_iff_valid _).2 hv) hlen
      rw [pr vX (by omega), pr vY (by omega)]
      simp only [Out.ok_bind]
      rw [inverseC_eq vY]
      simp only [Out.ok_bind]
      rw [mulC_eq vX (valid_inverse vY)]
      refine ⟨_, rfl, (isRow_iff_valid _).2 (valid_mul vX (valid_inverse vY)), ?_, ?_⟩
      · rw [length_mul, length_inverse, lX, lY, hl]; simp
      · intro i
        simp only [bellAt_eq_fn]
        exact conjugate_of_decomp hx hy dx dy himp i
  · intro hc
    unfold conjugatorC
    rw [if_neg (fun h => hc (hiff.1 h))]

/-- C08, limit of the code: above 33 bells `conjugator` of conjugate rows throws `bell::invalid`, as
it goes through a string in which these bells are all written `*`. -/
theorem C08_conjugator_throws {x y : Row} (hx : IsRow x) (hy : IsRow y) (hl : x.length = y.length)
    (h33 : 33 < x.length) {xc yc : List (List Char)} (h1 : ClassVector x xc) (h2 : ClassVector y yc)
    (hc : ∃ r, Conjugates x y r) : conjugatorC xc yc = .throw .bellInvalid := by
  have himp := (C08_are_conjugate hx hy hl h1 h2).2 hc
  have hxr := hx
  rw [isRow_iff_valid] at hx hy
  have hne : x ≠ [] := by rintro rfl; simp at h33
  obtain ⟨xs, dx, rfl, sx⟩ := classVector_spec hx hne h1
  unfold conjugatorC
  rw [if_pos himp]
  have hm : (33 : Nat) ∈ xs.flatten := dx.perm.mem_iff.2 (List.mem_range.2 h33)
  have key : ∀ (l : List Nat), 33 ∈ l → ∀ fuel, l.length ≤ fuel →
      Row.readBells fuel (l.map Bell.toChar) = .throw .bellInvalid := by
    intro l
    induction l with
    | nil => simp
    | cons a as ih =>
      intro hm fuel hf
      simp only [List.length_cons] at hf
      obtain ⟨f, rfl⟩ : ∃ f, fuel = f + 1 := ⟨fuel - 1, by omega⟩
      rw [List.map_cons]
      unfold Row.readBells
      by_cases ha : a < 33
      · have k : ∀ b : Fin 33, Bell.toChar b.val ≠ '{' ∧ Bell.readChar (Bell.toChar b.val) = .ok b.val := by
          decide
        obtain ⟨k1, k2⟩ := k ⟨a, ha⟩
        have e : ∀ t, Bell.readExtended (Bell.toChar a :: t) = .ok (a, t) := by
          intro t
          unfold Bell.readExtended
          simp only at k1 k2 ⊢
          rw [if_pos k1, k2]; rfl
        rw [e]
        have : 33 ∈ as := by
          rcases List.mem_cons.1 hm with h | h
          · omega
          · exact h
        simp only [Out.ok_bind, Out.pure_eq]
        rw [ih this f (by omega)]; rfl
      · have : Bell.toChar a = '*' := by unfold Bell.toChar; rw [if_neg ha]
        rw [this]
        have : ∀ t, Bell.readExtended ('*' :: t) = .throw .bellInvalid := by
          intro t
          have e : Bell.readChar '*' = .throw .bellInvalid := by decide
          unfold Bell.readExtended
          simp only
          rw [if_pos (by decide), e]; rfl
        rw [this]; rfl
  have : cyclesAsRowC (xs.map fun c => c.map Bell.toChar) = .throw .bellInvalid := by
    unfold cyclesAsRowC Row.ofStringC
    rw [← List.map_flatten, key _ hm _ (by rw [List.length_map])]; rfl
  rw [this]; rfl

/-- C08, limit of the code: rows on different numbers of bells are never found conjugate, even if
they are as permutations. -/
theorem C08_mixed_stages : ∃ x y : Row, IsRow x ∧ IsRow y ∧
    (∃ r, IsRow r ∧ Row.conjugate x r = y) ∧
    ∀ xc yc, ClassVector x xc → ClassVector y yc → areConjugateImpl xc yc = false := by
  refine ⟨[1, 0], [1, 0, 2], (isRow_iff_valid _).2 (by decide), (isRow_iff_valid _).2 (by decide),
    ⟨[0, 1, 2], (isRow_iff_valid _).2 (by decide), by decide⟩, ?_⟩
  rintro xc yc ⟨s, s1, s2, -⟩ ⟨t, t1, t2, -⟩
  have l1 := s2.length_eq
  have l2 := t2.length_eq
  have e1 : cyclesC [1, 0] = .ok ['1', '2'] := by decide
  have e2 : cyclesC [1, 0, 2] = .ok ['1', '2', ',', '3'] := by decide
  rw [e1] at s1; rw [e2] at t1
  cases s1; cases t1
  have e3 : (splitComma ['1', '2']).length = 1 := by decide
  have e4 : (splitComma ['1', '2', ',', '3']).length = 2 := by decide
  unfold areConjugateImpl
  have : xc.length ≠ yc.length := by omega
  simp [this]

/-- There is always some result of the sort. -/
theorem C08_class_vector_exists {x : Row} (hx : IsRow x) : ∃ xc, ClassVector x xc := by
  obtain ⟨cs, h1, -⟩ := cyclesListC_spec ((isRow_iff_valid x).1 hx)
  refine ⟨(splitComma (cyclesString cs)).mergeSort (fun x y => decide (x.length ≤ y.length)), _,
    by unfold cyclesC; rw [h1]; rfl, List.mergeSort_perm _ _, ?_⟩
  have := List.pairwise_mergeSort (le := fun x y : List Char => decide (x.length ≤ y.length))
    (fun a b c => by simp; omega) (fun a b => by simp; omega) (splitComma (cyclesString cs))
  simpa using this

example : ClassVector [1, 0, 3, 2, 4] ["5".toList, "34".toList, "12".toList] :=
  ⟨_, rfl, by decide, by decide⟩
example : ClassVector [0, 2, 1, 4, 3] ["1".toList, "23".toList, "45".toList] :=
  ⟨_, rfl, by decide, by decide⟩
example : conjugatorC ["5".toList, "34".toList, "12".toList] ["1".toList, "23".toList, "45".toList] =
    .ok [4, 2, 3, 0, 1] := by decide
example : Row.conjugate [1, 0, 3, 2, 4] [4, 2, 3, 0, 1] = [0, 2, 1, 4, 3] := by decide

end Ringing
