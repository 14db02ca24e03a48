import Verif.Lemmas.MethodUtils4
import Verif.Props.MethodUtils
import Verif.Lemmas.RowOrder
import Mathlib.Data.Set.Card

/-! C78: the orders and counts of methsearch's output. -/
namespace Ringing
open Spec Row MethodUtils

/-! ### compare_changes -/

/-- C78: on at most 33 bells `compare_changes` compares the increasing lists of places
lexicographically (so that the cross comes first). -/
theorem C78_compare {a b : Change} (ha : IsChange a.n a.swaps) (hb : IsChange b.n b.swaps)
    (h1 : a.n ≤ 33) (h2 : b.n ≤ 33) : ∃ r, compareChangesC a b = .ok r ∧
      ∀ pa pb : List Nat, pa.Pairwise (· < ·) → pb.Pairwise (· < ·) →
        (∀ i, i ∈ pa ↔ IsPlace a.n a.swaps i) → (∀ i, i ∈ pb ↔ IsPlace b.n b.swaps i) →
        (r = true ↔ List.Lex (· < ·) pa pb) := by
  refine ⟨_, compareChanges_eq ha hb h1 h2, ?_⟩
  intro pa pb s1 s2 m1 m2
  have key : ∀ {c : Change}, IsChange c.n c.swaps → ∀ {l : List Nat}, l.Pairwise (· < ·) →
      (∀ i, i ∈ l ↔ IsPlace c.n c.swaps i) → l = c.places := by
    intro c hc l hs hm
    refine List.Perm.eq_of_pairwise (le := (· < ·)) (fun x y _ _ h1 h2 => by omega) hs
      (Change.WF.sorted_places hc) ?_
    rw [List.perm_ext_iff_of_nodup (hs.imp (fun h => by omega)) ((Change.WF.sorted_places hc).imp (fun h => by omega))]
    intro i
    rw [hm i, Change.WF.mem_places hc]
    rfl
  rw [key ha s1 m1, key hb s2 m2]
  exact row_lt_lex

/-- C78: the changes on a given number of bells are totally ordered by `compare_changes`. -/
theorem C78_compare_total {n : Nat} (hn : n ≤ 33) {x y z : List Nat} (hx : IsChange n x) (hy : IsChange n y)
    (hz : IsChange n z) :
    compareChangesC ⟨n, x⟩ ⟨n, x⟩ = .ok false ∧
    (compareChangesC ⟨n, x⟩ ⟨n, y⟩ = .ok true → compareChangesC ⟨n, y⟩ ⟨n, x⟩ = .ok false) ∧
    (x ≠ y → compareChangesC ⟨n, x⟩ ⟨n, y⟩ = .ok false → compareChangesC ⟨n, y⟩ ⟨n, x⟩ = .ok true) ∧
    (compareChangesC ⟨n, x⟩ ⟨n, y⟩ = .ok true → compareChangesC ⟨n, y⟩ ⟨n, z⟩ = .ok true →
      compareChangesC ⟨n, x⟩ ⟨n, z⟩ = .ok true) := by
  have e := fun {a b : List Nat} (ha : IsChange n a) (hb : IsChange n b) =>
    compareChanges_eq (a := ⟨n, a⟩) (b := ⟨n, b⟩) ha hb hn hn
  rw [e hx hx, e hx hy, e hy hx, e hy hz, e hx hz]
  refine ⟨by rw [lt_irrefl'], ?_, ?_, ?_⟩
  · intro h
    rw [lt_asymm' (Out.ok.inj h)]
  · intro hne h
    have h := Out.ok.inj h
    have hp : Change.places ⟨n, x⟩ ≠ Change.places ⟨n, y⟩ := by
      intro hp
      apply hne
      apply C11_places_determine hx hy
      intro i
      have p1 := Change.WF.mem_places (c := ⟨n, x⟩) hx i
      have p2 := Change.WF.mem_places (c := ⟨n, y⟩) hy i
      rw [hp] at p1
      exact p1.symm.trans p2
    rcases lt_total' (Change.places ⟨n, x⟩) (Change.places ⟨n, y⟩) with h' | h' | h'
    · rw [h'] at h; cases h
    · exact absurd h' hp
    · rw [h']
  · intro h1 h2
    rw [lt_trans' (Out.ok.inj h1) (Out.ok.inj h2)]

/-- On four bells: x before 12 before 1234 before 14 before 34. -/
example : compareChangesC ⟨4, [0, 2]⟩ ⟨4, [2]⟩ = .ok true ∧ compareChangesC ⟨4, [2]⟩ ⟨4, []⟩ = .ok true ∧
    compareChangesC ⟨4, []⟩ ⟨4, [1]⟩ = .ok true ∧ compareChangesC ⟨4, [1]⟩ ⟨4, [0]⟩ = .ok true ∧
    compareChangesC ⟨4, [0]⟩ ⟨4, [1]⟩ = .ok false := by decide +kernel

theorem readAll_big : ∀ {ps : List Nat}, (∃ p ∈ ps, 33 ≤ p) →
    readAll (ps.flatMap Bell.write) = .throw .bellInvalid := by
  intro ps
  induction ps with
  | nil => rintro ⟨p, hp, -⟩; cases hp
  | cons p ps ih =>
    rintro ⟨q, hq, hq2⟩
    rw [List.flatMap_cons]
    by_cases hp : p < 33
    · have : Bell.write p = [Bell.toChar p] := by unfold Bell.write; rw [if_pos hp]
      rw [this, List.singleton_append, readAll, Bell.readChar_toChar p hp, Out.ok_bind, ih]
      · rfl
      · rcases List.mem_cons.1 hq with rfl | hq
        · omega
        · exact ⟨q, hq, hq2⟩
    · have : Bell.write p = '{' :: (Bell.decimal (p + 1) ++ ['}']) := by unfold Bell.write; rw [if_neg hp]
      rw [this, List.cons_append, readAll, show Bell.readChar '{' = .throw .bellInvalid by decide]
      rfl

/-- C78, a finding: a change with a place above the 33rd cannot be compared with another that has
places, as the braces it is printed with cannot be read. -/
theorem C78_compare_big {a b : Change} (ha : IsChange a.n a.swaps) (hb : IsChange b.n b.swaps)
    (h1 : ∃ i, IsPlace a.n a.swaps i) (h2 : ∃ i, IsPlace b.n b.swaps i)
    (h : ∃ i, 33 ≤ i ∧ (IsPlace a.n a.swaps i ∨ IsPlace b.n b.swaps i)) :
    compareChangesC a b = .throw .bellInvalid := by
  have mem : ∀ {c : Change}, IsChange c.n c.swaps → ∀ i, i ∈ c.places ↔ IsPlace c.n c.swaps i :=
    fun hc i => Change.WF.mem_places hc i
  have pa : a.places ≠ [] := by
    obtain ⟨i, hi⟩ := h1
    intro h0; rw [← mem ha, h0] at hi; cases hi
  have pb : b.places ≠ [] := by
    obtain ⟨i, hi⟩ := h2
    intro h0; rw [← mem hb, h0] at hi; cases hi
  unfold compareChangesC
  rw [if_neg (fun h => pa (countPlaces_eq_zero.1 h)), if_neg (fun h => pb (countPlaces_eq_zero.1 h)),
    print_of_places pa, print_of_places pb]
  by_cases hA : ∃ p ∈ a.places, 33 ≤ p
  · rw [readAll_big hA]; rfl
  · have hA' : ∀ p ∈ a.places, p < 33 := by
      intro p hp; by_contra hc; exact hA ⟨p, hp, by omega⟩
    rw [readAll_write hA', Out.ok_bind, readAll_big]
    · rfl
    · obtain ⟨i, hi, hi2⟩ := h
      rcases hi2 with hi2 | hi2
      · have := hA' i ((mem ha i).2 hi2); omega
      · exact ⟨i, (mem hb i).2 hi2, hi⟩

example : compareChangesC ⟨34, []⟩ ⟨34, [0]⟩ = .throw .bellInvalid := by decide +kernel

/-! ### tenors_together_coursing_order -/

/-- C78: `tenors_together_coursing_order` throws when the last two bells never fall into each other's
places at the lead ends; otherwise it gives the bells from the last but one to the last, in the order
in which, with the least number of leads that takes the last but one to the last's place, each bell
falls into the place of the one before it. -/
theorem C78_coursing_order {m : Method} (hb : m.b ≤ 255) (hb2 : 2 ≤ m.b)
    (hm : ∀ c ∈ m.ch, IsChange c.n c.swaps ∧ c.n = m.b) :
    ((∀ k, (follow (m.ch.map Change.swaps))^[k] (m.b - 2) ≠ m.b - 1) →
      ∀ fuel, coursingOrderC fuel m = .throw .runtimeError) ∧
    ((∃ k, (follow (m.ch.map Change.swaps))^[k] (m.b - 2) = m.b - 1) →
      ∃ i l, (follow (m.ch.map Change.swaps))^[i] (m.b - 2) = m.b - 1 ∧
        (∀ k, k < i → (follow (m.ch.map Change.swaps))^[k] (m.b - 2) ≠ m.b - 1) ∧
        CourseOrder m.b (m.ch.map Change.swaps) i l ∧
        ∀ fuel, m.b ≤ fuel → coursingOrderC fuel m = .ok (l.flatMap Bell.write)) := by
  set F := follow (m.ch.map Change.swaps) with hF
  set n := m.b with hn
  obtain ⟨lh, h1, h2, h3, h4⟩ := C19_lead_head hb hm
  have hv := (isRow_iff_valid lh).1 h2
  simp only [bellAt_eq_fn] at h4
  set f := fn lh with hf
  have hfF : ∀ p, f (F p) = p := h4
  have hinj : Function.Injective f := fun x y h => hv.fn_inj h
  have hlt : ∀ i, i < n → f i < n := fun i hi => hv.fn_lt (le_of_eq h3) hi
  have hFf : ∀ p, F (f p) = p := fun p => hinj (by rw [hfF])
  have hit : ∀ k x y, f^[k] x = y ↔ F^[k] y = x := by
    intro k
    have l1 : Function.LeftInverse f^[k] F^[k] := Function.LeftInverse.iterate hfF k
    have l2 : Function.LeftInverse F^[k] f^[k] := Function.LeftInverse.iterate hFf k
    intro x y
    constructor
    · rintro rfl; exact l2 x
    · rintro rfl; exact l1 y
  have hmaps : ∀ k x, x < n → f^[k] x < n := by
    intro k
    induction k with
    | zero => intro x h; exact h
    | succ k ih => intro x h; rw [Function.iterate_succ_apply']; exact hlt _ (ih x h)
  obtain ⟨c0, c1, c2, c3⟩ := iterate_return hlt hinj (x := n - 1) (by omega)
  obtain ⟨i, i1, i2, i3, i4⟩ := tenorLoop_spec hv h3 (fuel := n) (b := n - 1) (i := 0) (by omega)
    ⟨c0, c1, c2, by rw [c3]; omega⟩
  have hx : f^[i] (n - 1) = n - 1 ∨ f^[i] (n - 1) = n - 2 := by
    have := hmaps i (n - 1) (by omega)
    have i3 : n ≤ f^[i] (n - 1) + 2 := i3
    omega
  have hstart : ∀ fuel, coursingOrderC fuel m = (if f^[i] (n - 1) + 1 = n then .throw .runtimeError
      else if f^[i] (n - 1) + 2 = n then do
        let cg ← powLoop lh (0 + i - 1) lh
        let l ← courseLoop cg n fuel (f^[i] (n - 1))
        pure ((f^[i] (n - 1) :: l).flatMap Bell.write)
      else .ub) := by
    intro fuel
    unfold coursingOrderC
    rw [h1, Out.ok_bind, if_neg (show ¬ m.b = 0 by omega), ← hn, i2, Out.ok_bind]
  rcases hx with hx | hx
  · -- back to the tenor first: never the other
    have hno : ∀ k, f^[k] (n - 1) ≠ n - 2 := by
      intro k hk
      -- reduce `k` modulo `i`
      have e0 : f^[k % i] (n - 1) = n - 2 := by
        have e : ∀ q, f^[i * q] (n - 1) = n - 1 := by
          intro q
          rw [Function.iterate_mul]
          exact Function.iterate_fixed hx q
        have := Nat.mod_add_div k i
        rw [← this, Function.iterate_add_apply, e] at hk
        exact hk
      have hmod := Nat.mod_lt k i1
      by_cases h0 : k % i = 0
      · rw [h0] at e0
        simp only [Function.iterate_zero, id_eq] at e0; omega
      · have i4' : f^[k % i] (n - 1) + 2 < n := i4 (k % i) (by omega) hmod
        omega
    constructor
    · intro _ fuel
      rw [hstart, if_pos (by omega)]
    · rintro ⟨k, hk⟩
      exact absurd ((hit k _ _).2 hk) (hno k)
  · constructor
    · intro h
      exact absurd ((hit i _ _).1 hx) (h i)
    · intro _
      obtain ⟨g, g1, g2, g3, g4⟩ := powLoop_spec hv (k := i - 1) hv rfl
      have gi : ∀ x, fn g x = f^[i] x := by
        intro x
        rw [g4 x]
        show f (f^[i - 1] x) = _
        rw [← Function.iterate_succ_apply' f, Nat.succ_eq_add_one, Nat.sub_add_cancel i1]
      have g3' : g.length = n := g3.trans h3
      have ginj : Function.Injective (fn g) := fun x y h => g2.fn_inj h
      have glt : ∀ x, x < n → fn g x < n := fun x h => g2.fn_lt (le_of_eq g3') h
      have gt : fn g (n - 1) = n - 2 := by rw [gi]; exact hx
      obtain ⟨c, d1, d2, d3⟩ := iterate_return glt ginj (x := n - 2) (by omega)
      have hc : (fn g)^[c - 1] (n - 2) = n - 1 := by
        apply ginj
        rw [← Function.iterate_succ_apply' (fn g), Nat.succ_eq_add_one, Nat.sub_add_cancel d1, d3, gt]
      -- the first time at the tenor
      have hex : ∃ t, (fn g)^[t] (n - 2) = n - 1 := ⟨c - 1, hc⟩
      obtain ⟨t, t1, t2⟩ : ∃ t, (fn g)^[t] (n - 2) = n - 1 ∧ ∀ k, k < t → (fn g)^[k] (n - 2) ≠ n - 1 := by
        classical
        exact ⟨Nat.find hex, Nat.find_spec hex, fun k hk => Nat.find_min hex hk⟩
      have tle : t ≤ c - 1 := by
        by_contra hlt'
        exact t2 (c - 1) (by omega) hc
      have t0 : 0 < t := by
        rcases Nat.eq_zero_or_pos t with h | h
        · rw [h] at t1; simp only [Function.iterate_zero, id_eq] at t1; omega
        · exact h
      have gmaps : ∀ k, (fn g)^[k] (n - 2) < n := by
        intro k
        induction k with
        | zero => show n - 2 < n; omega
        | succ k ih => rw [Function.iterate_succ_apply']; exact glt _ ih
      refine ⟨i, (List.range (t + 1)).map fun k => (fn g)^[k] (n - 2), (hit i _ _).1 hx, ?_, ⟨?_, ?_, ?_, ?_⟩, ?_⟩
      · intro k hk h
        have h := (hit k _ _).2 h
        by_cases h0 : k = 0
        · subst h0; simp only [Function.iterate_zero, id_eq] at h; omega
        · have i4' : f^[k] (n - 1) + 2 < n := i4 k (by omega) hk
          omega
      · rw [List.range_succ_eq_map]; rfl
      · rw [List.range_succ, List.map_append, List.map_singleton, List.getLast?_append, List.getLast?_singleton, t1]
        rfl
      · apply List.Nodup.map_on _ List.nodup_range
        have key : ∀ a b, a < b → b ≤ t → (fn g)^[a] (n - 2) ≠ (fn g)^[b] (n - 2) := by
          intro a b hab hbt e
          have e1 : (fn g)^[b - a] (n - 2) = n - 2 := by
            apply ginj.iterate a
            rw [← Function.iterate_add_apply, show a + (b - a) = b by omega, e]
          apply t2 (b - a - 1) (by omega)
          apply ginj
          rw [← Function.iterate_succ_apply' (fn g), Nat.succ_eq_add_one, Nat.sub_add_cancel (by omega), e1, gt]
        intro a ha b hb' e
        rw [List.mem_range] at ha hb'
        rcases Nat.lt_trichotomy a b with h | h | h
        · exact absurd e (key a b h (by omega))
        · exact h
        · exact absurd e.symm (key b a h (by omega))
      · rw [List.isChain_iff_getElem]
        intro k hk
        simp only [List.length_map, List.length_range] at hk
        simp only [List.getElem_map, List.getElem_range]
        rw [← hit, ← gi, ← Function.iterate_succ_apply' (fn g)]
      · intro fuel hfuel
        rw [hstart, if_neg (by omega), if_pos (by omega), Nat.zero_add, g1, Out.ok_bind, hx,
          courseLoop_spec g2 g3' (t := t) (by omega) t0 (by rw [t1]; omega) (by
            intro k hk1 hk2 he
            exact t2 k hk2 (by omega)) (by omega), Out.ok_bind]
        rw [Out.pure_eq, List.range_succ_eq_map, List.map_cons, List.map_map, List.range'_eq_map_range, List.map_map]
        congr 2
        simp only [Function.iterate_zero, id_eq, List.cons.injEq, true_and]
        apply List.map_congr_left
        intro k _
        simp only [Function.comp_apply, Nat.succ_eq_add_one, Nat.add_comm]

/-- Plain Bob Minimus: the coursing order from 3 to 4 is 324. -/
example : coursingOrderC 10 exBob = .ok "324".toList := by decide +kernel

/-! ### staticity and points -/

theorem dAt_together {m : Method} (hm : ∀ c ∈ m.ch, IsChange c.n c.swaps ∧ c.n = m.b) (hne : m.ch ≠ [])
    (inc : Bool) {i : Nat} (hi : i + 1 < m.b) (t : Nat) :
    dAt m (dodgeAt inc i) t = true ↔ Together m.b inc i (around (m.ch.map Change.swaps) t) := by
  have hl : 0 < m.ch.length := List.length_pos_iff.2 hne
  have hk : t % m.ch.length < m.ch.length := Nat.mod_lt _ hl
  obtain ⟨c, a1, a2, a3⟩ := atMod_ok hne t
  rw [atMod_getD hne] at a1
  have a1 := Out.ok.inj a1
  unfold dAt
  rw [a1, ← a3]
  unfold dodgeAt Together IsPlace
  rw [Bool.or_eq_true, Bool.and_eq_true, Bool.and_eq_true, Change.WF.findswap_eq (hm c a2).1,
    Change.WF.findplace_eq (hm c a2).1, Change.WF.findplace_eq (hm c a2).1]
  constructor
  · rintro (h | ⟨⟨h1, h2⟩, h3⟩)
    · exact Or.inl h
    · exact Or.inr ⟨h1, ⟨by omega, h2⟩, by omega, h3⟩
  · rintro (h | ⟨h1, ⟨-, h2⟩, -, h3⟩)
    · exact Or.inl h
    · exact Or.inr ⟨⟨h1, h2⟩, h3⟩

theorem together_mem {m : Method} (hm : ∀ c ∈ m.ch, IsChange c.n c.swaps ∧ c.n = m.b)
    (inc : Bool) {i : Nat} (hi : i + 1 < m.b) {c : Change} (hc : c ∈ m.ch) :
    dodgeAt inc i c = true ↔ Together m.b inc i c.swaps := by
  unfold dodgeAt Together IsPlace
  rw [Bool.or_eq_true, Bool.and_eq_true, Bool.and_eq_true, Change.WF.findswap_eq (hm c hc).1,
    Change.WF.findplace_eq (hm c hc).1, Change.WF.findplace_eq (hm c hc).1]
  constructor
  · rintro (h | ⟨⟨h1, h2⟩, h3⟩)
    · exact Or.inl h
    · exact Or.inr ⟨h1, ⟨by omega, h2⟩, by omega, h3⟩
  · rintro (h | ⟨h1, ⟨-, h2⟩, -, h3⟩)
    · exact Or.inl h
    · exact Or.inr ⟨⟨h1, h2⟩, h3⟩

theorem findDodgesFrom_spec (m : Method) (inc : Bool) : ∀ {k i : Nat},
    ∃ Ls : List (List Int), Ls.length = k ∧ findDodgesFrom m inc k i = .ok Ls.flatten ∧
      ∀ j, (h : j < Ls.length) → dodgesAt m (dodgeAt inc (i + j)) = .ok Ls[j] := by
  intro k
  induction k with
  | zero => intro i; exact ⟨[], rfl, rfl, fun j h => by cases h⟩
  | succ k ih =>
    intro i
    obtain ⟨Ls, h1, h2, h3⟩ := ih (i := i + 1)
    have ha : ∃ L, dodgesAt m (dodgeAt inc i) = .ok L := by
      by_cases h : ∀ c ∈ m.ch, dodgeAt inc i c = true
      · obtain ⟨L, e, -⟩ := dodgesAt_all _ h; exact ⟨L, e⟩
      · push Not at h
        obtain ⟨c, hc, hp⟩ := h
        obtain ⟨L, e, -⟩ := dodgesAt_some (dodgeAt inc i) ⟨c, hc, by simpa using hp⟩
        exact ⟨L, e⟩
    obtain ⟨L, hL⟩ := ha
    refine ⟨L :: Ls, by simp [h1], ?_, ?_⟩
    · rw [findDodgesFrom, hL, Out.ok_bind, h2, Out.ok_bind]; rfl
    · intro j hj
      cases j with
      | zero => exact hL
      | succ j =>
        rw [show i + (j + 1) = i + 1 + j by omega]
        exact h3 j (by simpa using hj)

theorem staticLoop_minus : ∀ {ds : List Int} {s : Nat}, (-1 : Int) ∈ ds → staticLoop ds s = 2 ^ 64 - 1 := by
  intro ds
  induction ds with
  | nil => intro s h; cases h
  | cons d ds ih =>
    intro s h
    rw [staticLoop]
    by_cases hd : d = -1
    · rw [if_pos hd]
    · rw [if_neg hd]
      rcases List.mem_cons.1 h with h | h
      · exact absurd h.symm hd
      · exact ih h

theorem staticLoop_sum : ∀ {ds : List Int} {s : Nat}, (-1 : Int) ∉ ds → s < 2 ^ 64 →
    staticLoop ds s = (s + (ds.map Int.toNat).sum) % 2 ^ 64 := by
  intro ds
  induction ds with
  | nil => intro s _ hs; simp only [staticLoop, List.map_nil, List.sum_nil, Nat.add_zero]; omega
  | cons d ds ih =>
    intro s h hs
    rw [List.mem_cons, not_or] at h
    rw [staticLoop, if_neg (fun e => h.1 e.symm), ih h.2 (Nat.mod_lt _ (by decide)), List.map_cons, List.sum_cons,
      Nat.mod_add_mod, Nat.add_assoc]

/-- C78: when some two adjacent positions are held or dodged throughout the lead, `staticity` is the
largest `unsigned long`; otherwise it is the number of pairs of consecutive changes, in the lead rung
round and round, and of adjacent positions in which the bells swap or both stay at both changes. -/
theorem C78_staticity {m : Method} (hm : ∀ c ∈ m.ch, IsChange c.n c.swaps ∧ c.n = m.b)
    (hsize : m.b * m.ch.length < 2 ^ 64) :
    ((∃ i, i + 1 < m.b ∧ ∀ ss ∈ m.ch.map Change.swaps, Together m.b true i ss) →
      staticityC m = .ok (2 ^ 64 - 1)) ∧
    ((∀ i, i + 1 < m.b → ∃ ss ∈ m.ch.map Change.swaps, ¬ Together m.b true i ss) →
      staticityC m = .ok (Set.ncard {q : Nat × Nat | q.1 + 1 < m.b ∧ q.2 < m.ch.length ∧
        Together m.b true q.1 (around (m.ch.map Change.swaps) q.2) ∧
        Together m.b true q.1 (around (m.ch.map Change.swaps) (q.2 + 1))})) := by
  obtain ⟨Ls, h1, h2, h3⟩ := findDodgesFrom_spec m true (k := m.b - 1) (i := 0)
  simp only [Nat.zero_add] at h3
  have hst : staticityC m = .ok (staticLoop Ls.flatten 0) := by
    unfold staticityC findDodges; rw [h2]; rfl
  rw [hst]
  constructor
  · rintro ⟨i, hi, hall⟩
    rw [staticLoop_minus]
    obtain ⟨L, e1, e2, -⟩ := dodgesAt_all (m := m) (dodgeAt true i) (by
      intro c hc
      rw [together_mem hm true hi hc]
      exact hall _ (List.mem_map_of_mem hc))
    have hlt : i < Ls.length := by omega
    have := h3 i hlt
    rw [e1] at this
    rw [List.mem_flatten]
    exact ⟨_, List.getElem_mem hlt, (Out.ok.inj this) ▸ e2⟩
  · intro hno
    have hsome : ∀ i, i + 1 < m.b → ∃ c ∈ m.ch, dodgeAt true i c = false := by
      intro i hi
      obtain ⟨ss, hs, hn⟩ := hno i hi
      obtain ⟨c, hc, rfl⟩ := List.mem_map.1 hs
      refine ⟨c, hc, ?_⟩
      rw [← together_mem hm true hi hc] at hn
      simpa using hn
    have hL : ∀ i (h : i < Ls.length), (-1 : Int) ∉ Ls[i] ∧ (Ls[i].map Int.toNat).sum =
        ((Finset.range m.ch.length).filter fun t => dAt m (dodgeAt true i) t = true ∧
          dAt m (dodgeAt true i) (t + 1) = true).card := by
      intro i hi
      obtain ⟨L, e1, e2, e3, -⟩ := dodgesAt_some (dodgeAt true i) (hsome i (by omega))
      have := h3 i hi
      rw [e1] at this
      have := Out.ok.inj this
      subst this
      exact ⟨e2, e3⟩
    have hminus : (-1 : Int) ∉ Ls.flatten := by
      intro h
      obtain ⟨L, hL1, hL2⟩ := List.mem_flatten.1 h
      obtain ⟨i, hi, rfl⟩ := List.mem_iff_getElem.1 hL1
      exact (hL i hi).1 hL2
    rw [staticLoop_sum hminus (by decide), Nat.zero_add]
    congr 1
    -- the sum over the positions
    have hsum : (Ls.flatten.map Int.toNat).sum = ((Finset.range (m.b - 1)).sum fun i =>
        ((Finset.range m.ch.length).filter fun t => dAt m (dodgeAt true i) t = true ∧
          dAt m (dodgeAt true i) (t + 1) = true).card) := by
      have e1 : (Ls.flatten.map Int.toNat).sum = (Ls.map fun L => (L.map Int.toNat).sum).sum := by
        clear hst hL hminus h3 h2 h1
        induction Ls with
        | nil => rfl
        | cons L Ls ih => rw [List.flatten_cons, List.map_append, List.sum_append, ih, List.map_cons, List.sum_cons]
      have e2 : (Ls.map fun L => (L.map Int.toNat).sum) = (List.range (m.b - 1)).map fun i =>
          ((Finset.range m.ch.length).filter fun t => dAt m (dodgeAt true i) t = true ∧
            dAt m (dodgeAt true i) (t + 1) = true).card := by
        apply List.ext_getElem
        · simp [h1]
        · intro i hi1 hi2
          rw [List.getElem_map, List.getElem_map, List.getElem_range]
          exact (hL i (by simpa using hi1)).2
      rw [e1, e2, Finset.sum_eq_multiset_sum, Finset.range_val, ← Multiset.coe_range, Multiset.map_coe, Multiset.sum_coe]
    have hset : {q : Nat × Nat | q.1 + 1 < m.b ∧ q.2 < m.ch.length ∧
        Together m.b true q.1 (around (m.ch.map Change.swaps) q.2) ∧
        Together m.b true q.1 (around (m.ch.map Change.swaps) (q.2 + 1))} =
        (((Finset.range (m.b - 1)) ×ˢ (Finset.range m.ch.length)).filter fun q =>
          dAt m (dodgeAt true q.1) q.2 = true ∧ dAt m (dodgeAt true q.1) (q.2 + 1) = true : Finset (Nat × Nat)) := by
      ext ⟨i, t⟩
      simp only [Set.mem_ofPred_eq, Finset.coe_filter, Finset.mem_product, Finset.mem_range]
      constructor
      · rintro ⟨a1, a2, a3, a4⟩
        have hne : m.ch ≠ [] := by intro h; rw [h] at a2; cases a2
        refine ⟨⟨by omega, a2⟩, (dAt_together hm hne true a1 t).2 a3, (dAt_together hm hne true a1 (t + 1)).2 ?_⟩
        rw [Nat.cast_add]; exact a4
      · rintro ⟨⟨a1, a2⟩, a3, a4⟩
        have hne : m.ch ≠ [] := by intro h; rw [h] at a2; cases a2
        have a4 := (dAt_together hm hne true (i := i) (by omega) (t + 1)).1 a4
        rw [Nat.cast_add] at a4
        exact ⟨by omega, a2, (dAt_together hm hne true (by omega) t).1 a3, a4⟩
    have hcard : (((Finset.range (m.b - 1)) ×ˢ (Finset.range m.ch.length)).filter fun q =>
          dAt m (dodgeAt true q.1) q.2 = true ∧ dAt m (dodgeAt true q.1) (q.2 + 1) = true).card =
        (Finset.range (m.b - 1)).sum fun i =>
        ((Finset.range m.ch.length).filter fun t => dAt m (dodgeAt true i) t = true ∧
          dAt m (dodgeAt true i) (t + 1) = true).card := by
      rw [Finset.card_filter, Finset.sum_product]
      apply Finset.sum_congr rfl
      intro i _
      rw [Finset.card_filter]
    rw [hset, Set.ncard_coe_finset, hcard, ← hsum, Nat.mod_eq_of_lt]
    rw [hsum, ← hcard]
    refine lt_of_le_of_lt (Finset.card_filter_le _ _) ?_
    rw [Finset.card_product, Finset.card_range, Finset.card_range]
    exact lt_of_le_of_lt (Nat.mul_le_mul_right _ (by omega)) hsize

/-- Plain Bob Minimus: at x 12 x around the lead end, 1-2 and 3-4 are together at two pairs of changes
each. -/
example : staticityC exBob = .ok 4 ∧ staticityC ⟨4, [⟨4, [0, 2]⟩]⟩ = .ok (2 ^ 64 - 1) := by decide +kernel

theorem points_of_findDodges {m : Method} (hm : ∀ c ∈ m.ch, IsChange c.n c.swaps ∧ c.n = m.b) (inc : Bool) :
    ∃ ds, findDodges m inc = .ok ds ∧
      ((ds.any fun d => decide (d > 0) && decide (d % 2 ≠ 0)) = true ↔
        ∃ i, i + 1 < m.b ∧ (EvenRun (fun t => Together m.b inc i (around (m.ch.map Change.swaps) t)) ∨
          (m.ch ≠ [] ∧ m.ch.length % 2 = 0 ∧ ∀ ss ∈ m.ch.map Change.swaps, Together m.b inc i ss))) := by
  obtain ⟨Ls, h1, h2, h3⟩ := findDodgesFrom_spec m inc (k := m.b - 1) (i := 0)
  simp only [Nat.zero_add] at h3
  refine ⟨Ls.flatten, h2, ?_⟩
  have hany : (Ls.flatten.any fun d => decide (d > 0) && decide (d % 2 ≠ 0)) = true ↔
      ∃ i, ∃ h : i < Ls.length, ∃ d ∈ Ls[i], d > 0 ∧ d % 2 ≠ 0 := by
    rw [List.any_eq_true]
    constructor
    · rintro ⟨d, hd, hp⟩
      obtain ⟨L, hL1, hL2⟩ := List.mem_flatten.1 hd
      obtain ⟨i, hi, rfl⟩ := List.mem_iff_getElem.1 hL1
      exact ⟨i, hi, d, hL2, by simpa using hp⟩
    · rintro ⟨i, hi, d, hd, hp⟩
      exact ⟨d, List.mem_flatten.2 ⟨_, List.getElem_mem hi, hd⟩, by simpa using hp⟩
  rw [hany]
  have hlen : (m.ch.map Change.swaps).length = m.ch.length := List.length_map ..
  -- one position
  have one : ∀ i (h : i < Ls.length), ((∃ d ∈ Ls[i], d > 0 ∧ d % 2 ≠ 0) ↔
      (EvenRun (fun t => Together m.b inc i (around (m.ch.map Change.swaps) t)) ∨
          (m.ch ≠ [] ∧ m.ch.length % 2 = 0 ∧ ∀ ss ∈ m.ch.map Change.swaps, Together m.b inc i ss))) := by
    intro i hi
    have hib : i + 1 < m.b := by omega
    by_cases hall : ∀ c ∈ m.ch, dodgeAt inc i c = true
    · obtain ⟨L, e1, -, e3⟩ := dodgesAt_all _ hall
      have := h3 i hi
      rw [e1] at this
      have := Out.ok.inj this
      rw [← this, e3]
      have hT : ∀ ss ∈ m.ch.map Change.swaps, Together m.b inc i ss := by
        intro ss hs
        obtain ⟨c, hc, rfl⟩ := List.mem_map.1 hs
        exact (together_mem hm inc hib hc).1 (hall c hc)
      constructor
      · rintro ⟨a1, a2⟩
        exact Or.inr ⟨List.length_pos_iff.1 a1, a2, hT⟩
      · rintro (⟨s, len, a1, a2, a3, a4, a5⟩ | ⟨a1, a2, -⟩)
        · exfalso
          by_cases hne : m.ch = []
          · have hc : ∀ k, around (m.ch.map Change.swaps) k = [] := by
              intro k; rw [hne]; rfl
            simp only [hc] at a3
            have := a4 (s + 1) (by omega) (by omega)
            simp only [hc] at this
            exact a3 this
          · apply a3
            have hl : 0 < m.ch.length := List.length_pos_iff.2 hne
            have b1 := Int.emod_nonneg s (b := ((m.ch.map Change.swaps).length : Int)) (by omega)
            show Together m.b inc i (around (m.ch.map Change.swaps) s)
            rw [← around_emod, ← Int.toNat_of_nonneg b1, ← dAt_together hm hne inc hib]
            unfold dAt
            have hk := Nat.mod_lt (s % ((m.ch.map Change.swaps).length : Int)).toNat hl
            rw [List.getD_eq_getElem?_getD, List.getElem?_eq_getElem hk]
            exact hall _ (List.getElem_mem hk)
        · exact ⟨List.length_pos_iff.2 a1, a2⟩
    · push Not at hall
      obtain ⟨c0, hc0, hp0⟩ := hall
      have hne : m.ch ≠ [] := by intro h; rw [h] at hc0; cases hc0
      have hl : 0 < m.ch.length := List.length_pos_iff.2 hne
      obtain ⟨L, e1, -, -, e4⟩ := dodgesAt_some (dodgeAt inc i) ⟨c0, hc0, by simpa using hp0⟩
      have := h3 i hi
      rw [e1] at this
      have := Out.ok.inj this
      rw [← this, e4]
      have hD := fun t => dAt_together hm hne inc hib t
      have hDf : ∀ t : Nat, dAt m (dodgeAt inc i) t = false ↔
          ¬ Together m.b inc i (around (m.ch.map Change.swaps) t) := by
        intro t; rw [← hD t]; simp
      constructor
      · rintro ⟨s, len, a1, a2, a3, a4, a5⟩
        left
        refine ⟨s, len, a1, a2, (hDf s).1 a3, ?_, ?_⟩
        · intro t b1 b2
          obtain ⟨t, rfl⟩ := Int.eq_ofNat_of_zero_le (show 0 ≤ t by omega)
          exact (hD t).1 (a4 t (by omega) (by omega))
        · have := (hDf (s + len + 1)).1 a5
          push_cast at this; exact this
      · rintro (⟨s, len, a1, a2, a3, a4, a5⟩ | ⟨-, -, a3⟩)
        · set N : Int := ((m.ch.map Change.swaps).length : Int) with hN
          have b1 := Int.emod_nonneg s (b := N) (by omega)
          obtain ⟨s', hs'⟩ := Int.eq_ofNat_of_zero_le b1
          have hsh : ∀ k : Int, around (m.ch.map Change.swaps) ((s' : Int) + k) = around (m.ch.map Change.swaps) (s + k) := by
            intro k
            apply around_congr _ (-(s / N))
            have := Int.emod_add_mul_ediv s N
            rw [hs'] at this
            rw [← hN, ← this]; ring_nf
            rw [show (s' + N * (s / N)) / N = s / N by rw [this]]
            ring
          refine ⟨s', len, a1, a2, ?_, ?_, ?_⟩
          · rw [hDf]
            have := hsh 0
            simp only [Int.add_zero] at this
            rw [this]; exact a3
          · intro t c1 c2
            rw [hD]
            have := hsh ((t : Int) - s')
            rw [show (s' : Int) + (t - s') = t by ring] at this
            rw [this]
            exact a4 _ (by omega) (by omega)
          · rw [hDf]
            have := hsh (len + 1)
            rw [← add_assoc, ← add_assoc] at this
            push_cast
            rw [this]; exact a5
        · exfalso
          apply hp0
          rw [together_mem hm inc hib hc0]
          exact a3 _ (List.mem_map_of_mem hc0)
  constructor
  · rintro ⟨i, hi, h⟩
    exact ⟨i, by omega, (one i hi).1 h⟩
  · rintro ⟨i, hi, h⟩
    exact ⟨i, by omega, (one i (by omega)).2 h⟩

/-- C78: `has_points` holds exactly when in some adjacent positions, in the lead rung round and
round, the bells swap at an even number of changes in a row and not at the changes before and after,
or swap at all the changes of a lead of even length. -/
theorem C78_points {m : Method} (hm : ∀ c ∈ m.ch, IsChange c.n c.swaps ∧ c.n = m.b) :
    ∃ r, hasPointsC m = .ok r ∧ (r = true ↔ ∃ i, i + 1 < m.b ∧
      (EvenRun (fun t => i ∈ around (m.ch.map Change.swaps) t) ∨
        (m.ch ≠ [] ∧ m.ch.length % 2 = 0 ∧ ∀ ss ∈ m.ch.map Change.swaps, i ∈ ss))) := by
  obtain ⟨ds, h1, h2⟩ := points_of_findDodges hm false
  refine ⟨_, by unfold hasPointsC; rw [h1]; rfl, h2.trans ?_⟩
  simp [Together]

/-- C78: `has_unpaired_points` is the same with two adjacent places counted as a swap. -/
theorem C78_unpaired_points {m : Method} (hm : ∀ c ∈ m.ch, IsChange c.n c.swaps ∧ c.n = m.b) :
    ∃ r, hasUnpairedPointsC m = .ok r ∧ (r = true ↔ ∃ i, i + 1 < m.b ∧
      (EvenRun (fun t => Together m.b true i (around (m.ch.map Change.swaps) t)) ∨
        (m.ch ≠ [] ∧ m.ch.length % 2 = 0 ∧ ∀ ss ∈ m.ch.map Change.swaps, Together m.b true i ss))) := by
  obtain ⟨ds, h1, h2⟩ := points_of_findDodges hm true
  exact ⟨_, by unfold hasUnpairedPointsC; rw [h1]; rfl, h2⟩

/-- In Plain Bob Minimus the runs have one or three changes; x.12.14 has a run of two in 3-4. -/
example : hasPointsC exBob = .ok false ∧ hasUnpairedPointsC exBob = .ok false ∧
    hasPointsC ⟨4, [⟨4, [0, 2]⟩, ⟨4, [2]⟩, ⟨4, [1]⟩]⟩ = .ok true := by decide +kernel

/-- C78, a finding: one lead of the method with the single change x has no point, two leads written as
one method have, although the ringing is the same. -/
theorem C78_points_lead_length :
    hasPointsC ⟨4, [⟨4, [0, 2]⟩]⟩ = .ok false ∧
    hasPointsC ⟨4, [⟨4, [0, 2]⟩, ⟨4, [0, 2]⟩]⟩ = .ok true := by decide +kernel

end Ringing
