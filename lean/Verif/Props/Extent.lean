import Verif.Lemmas.Extent3
import Verif.Lemmas.Extent4

/-!
# C23-C26: extents

`nw` working bells, `nh` fixed trebles, `nt` bells in total (`nh + nw ≤ nt`).
-/
namespace Ringing
open Spec Row Extent

/-! ## C23 -/

/-- Every index below `nw!` gives a row of the extent, and its position is the index. -/
theorem C23_nth_then_position {n nw nh nt : Nat} (h : nh + nw ≤ nt) (ht : nt ≤ 256)
    (h255 : nh + nw ≤ 255) (h13 : nw ≤ 13) (hn : n < Spec.fact nw) :
    ∃ r, nthRowC n nw nh nt = .ok r ∧ InExtent nw nh nt r ∧ positionC r nw nh nt = .ok n := by
  rw [fact_eq] at hn
  obtain ⟨w, hw, hr, he⟩ := nthRow_emb h ht h255 h13 hn
  exact ⟨_, he, inExtent_emb h ht hw, by rw [position_emb h ht (by omega) hw, hr]⟩

/-- Every row of the extent has a position below `nw!` (for up to 20 working bells, beyond which
`nw!` does not fit into a `size_t`), and it is the row with that index. -/
theorem C23_position_then_nth {nw nh nt : Nat} {r : Row} (h : nh + nw ≤ nt) (ht : nt ≤ 256)
    (h20 : nw ≤ 20) (hr : InExtent nw nh nt r) :
    ∃ n, n < Spec.fact nw ∧ positionC r nw nh nt = .ok n ∧
      (nw ≤ 13 → nh + nw ≤ 255 → nthRowC n nw nh nt = .ok r) := by
  obtain ⟨w, hw, rfl⟩ := (inExtent_iff h ht r).1 hr
  refine ⟨rank w, by rw [fact_eq]; exact rank_lt_fact hw, position_emb h ht h20 hw, ?_⟩
  intro h13 h255
  obtain ⟨w', hw', hr', he⟩ := nthRow_emb h ht h255 h13 (rank_lt_fact hw)
  rw [he, rank_inj (nodup_w hw') (hw'.trans hw.symm) hr']

/-- The order of the positions is the lexicographic order of the rows. -/
theorem C23_position_monotone {nw nh nt p q : Nat} {r s : Row} (h : nh + nw ≤ nt) (ht : nt ≤ 256)
    (h20 : nw ≤ 20) (hr : InExtent nw nh nt r) (hs : InExtent nw nh nt s)
    (hp : positionC r nw nh nt = .ok p) (hq : positionC s nw nh nt = .ok q) :
    p < q ↔ LexLt r s := by
  obtain ⟨w, hw, rfl⟩ := (inExtent_iff h ht r).1 hr
  obtain ⟨w', hw', rfl⟩ := (inExtent_iff h ht s).1 hs
  rw [position_emb h ht h20 hw] at hp
  rw [position_emb h ht h20 hw'] at hq
  injection hp with hp; injection hq with hq
  subst hp; subst hq
  exact (lexLt_emb h hw hw').symm

/-- A row on `nt` bells which is not in the extent is refused. -/
theorem C23_position_refuses {nw nh nt : Nat} {r : Row} (h : nh + nw ≤ nt)
    (hr : IsRow r) (hl : r.length = nt) (hn : ¬ InExtent nw nh nt r) :
    positionC r nw nh nt = .throw .outOfRange := by
  unfold positionC
  simp only
  rw [if_neg (by omega)]
  by_cases h1 : ∀ i, i < nh → fn r i = i
  · rw [fixedC_ok (by omega) (fun i _ hi => h1 i hi)]
    have h2 : ∃ i, nh + nw ≤ i ∧ fn r i ≠ i := by
      by_contra hc
      push Not at hc
      exact hn ⟨hr, hl, fun i hi => by rw [bellAt_eq_fn]; exact h1 i hi,
        fun i hi => by rw [bellAt_eq_fn]; exact hc i hi⟩
    obtain ⟨i, hi, hne⟩ := h2
    have hi2 : i < nt := by
      by_contra hc; exact hne (fn_of_ge (by omega))
    rw [Out.ok_bind, fixedC_bad (by omega) ⟨i, hi, hi2, hne⟩]; rfl
  · push Not at h1
    obtain ⟨i, hi, hne⟩ := h1
    rw [fixedC_bad (by omega) ⟨i, by omega, hi, hne⟩]; rfl

/-- A row with too many bells is refused. -/
theorem C23_position_too_many {nw nh nt : Nat} {r : Row} (hl : nt < r.length) :
    positionC r nw nh nt = .throw .outOfRange := by
  unfold positionC
  simp only
  rw [if_pos hl]

/-- A shorter row is the row with the missing bells at home, provided that the trebles are in it and
that there are no tenors. -/
theorem C23_position_short {nw nh : Nat} {r : Row} (ht : nh + nw ≤ 256) (h20 : nw ≤ 20)
    (hr : IsRow r) (h1 : nh ≤ r.length) (hlen : r.length ≤ nh + nw)
    (hfix : ∀ i, i < nh → bellAt r i = i) :
    positionC r nw nh (nh + nw) = positionC (mul r (rounds (nh + nw))) nw nh (nh + nw) := by
  rw [isRow_iff_valid] at hr
  have hin : InExtent nw nh (nh + nw) (mul r (rounds (nh + nw))) := by
    refine ⟨(isRow_iff_valid _).2 (valid_mul hr (valid_rounds ht)), by simp [hlen], ?_, ?_⟩
    · intro i hi; rw [bellAt_eq_fn, fn_mul, fn_rounds, ← bellAt_eq_fn, hfix i hi]
    · intro i hi; rw [bellAt_eq_fn, fn_mul]; simp [fn_of_ge (r := r) (i := i) (by omega)]
  obtain ⟨w, hw, he⟩ := (inExtent_iff (le_refl _) ht _).1 hin
  rw [he, position_emb (le_refl _) ht h20 hw]
  have hwr : workOf r nw nh = w := by
    rw [← workOf_emb (le_refl _) hw, ← he]
    unfold workOf
    apply List.map_congr_left
    intro i _; simp [fn_mul]
  unfold positionC
  simp only
  rw [if_neg (by omega), fixedC_ok (Or.inl h1) (fun i _ hi => by rw [← bellAt_eq_fn]; exact hfix i hi),
    fixedC_ok (Or.inr (le_refl _)) (fun i _ _ => by omega)]
  simp only [Out.ok_bind]
  rw [position_loop hr h20, hwr]

/-- With tenors a shorter row is read beyond its end: undefined behaviour. -/
theorem C23_position_short_ub : positionC (rounds 5) 5 0 8 = .ub := by decide +kernel

/-- With 14 working bells the 32-bit factorial overflows: the row with index 13! is the one starting
with bell 2, but the code returns one starting with bell 4, whose position is not 13!. -/
theorem C23_nth_14_wrong : ∃ r, nthRowC 6227020800 14 0 14 = .ok r ∧
    positionC r 14 0 14 ≠ .ok 6227020800 := by
  refine ⟨[3, 0, 12, 10, 9, 5, 1, 4, 2, 8, 6, 7, 11, 13], ?_, ?_⟩ <;> decide +kernel

example : nthRowC 100 5 1 8 = .ok [0, 5, 1, 4, 2, 3, 6, 7] := by decide +kernel
example : InExtent 5 1 8 [0, 5, 1, 4, 2, 3, 6, 7] := by
  refine ⟨⟨by decide, by decide⟩, rfl, by decide, ?_⟩
  intro i hi
  rw [bellAt]
  split
  · rename_i h; simp at h
    obtain rfl | rfl : i = 6 ∨ i = 7 := by omega
    · rfl
    · rfl
  · rfl

/-! ## C24 -/

/-- After `k < nw!` increments the iterator is not at the end and at a row of the extent. -/
theorem C24_visits_extent {nw nh nt k : Nat} (h : nh + nw ≤ nt) (ht : nt ≤ 256) (hk : k < Spec.fact nw) :
    ∃ r, ExtIter.incN nw nh k (ExtIter.start nt) = .ok ⟨false, r⟩ ∧ InExtent nw nh nt r := by
  rw [fact_eq] at hk
  obtain ⟨w, hw, -, he⟩ := incN_emb h ht hk
  exact ⟨_, he, inExtent_emb h ht hw⟩

/-- Later rows are lexicographically larger (so no row is visited twice). -/
theorem C24_increasing {nw nh nt j k : Nat} {r s : Row} (h : nh + nw ≤ nt) (ht : nt ≤ 256)
    (hk : k < Spec.fact nw) (hjk : j < k)
    (hr : ExtIter.incN nw nh j (ExtIter.start nt) = .ok ⟨false, r⟩)
    (hs : ExtIter.incN nw nh k (ExtIter.start nt) = .ok ⟨false, s⟩) : LexLt r s := by
  rw [fact_eq] at hk
  obtain ⟨w, hw, e1, he⟩ := incN_emb h ht (show j < nw.factorial by omega)
  obtain ⟨w', hw', e2, he'⟩ := incN_emb h ht hk
  rw [he] at hr; rw [he'] at hs
  injection hr with hr; injection hs with hs
  injection hr with _ hr; injection hs with _ hs
  subst hr; subst hs
  rw [lexLt_emb h hw hw']; omega

/-- Every row of the extent is visited. -/
theorem C24_complete {nw nh nt : Nat} {r : Row} (h : nh + nw ≤ nt) (ht : nt ≤ 256)
    (hr : InExtent nw nh nt r) :
    ∃ k, k < Spec.fact nw ∧ ExtIter.incN nw nh k (ExtIter.start nt) = .ok ⟨false, r⟩ := by
  obtain ⟨w, hw, rfl⟩ := (inExtent_iff h ht r).1 hr
  obtain ⟨w', hw', e, he⟩ := incN_emb h ht (rank_lt_fact hw)
  refine ⟨rank w, by rw [fact_eq]; exact rank_lt_fact hw, ?_⟩
  rw [he, rank_inj (nodup_w hw') (hw'.trans hw.symm) e]

/-- After exactly `nw!` increments the iterator equals `end()`. -/
theorem C24_end {nw nh nt : Nat} (h : nh + nw ≤ nt) (ht : nt ≤ 256) :
    ∃ it, ExtIter.incN nw nh (Spec.fact nw) (ExtIter.start nt) = .ok it ∧ it.fin = true ∧
      it.eq (ExtIter.done nt) = true := by
  rw [fact_eq]
  have hpos := Nat.factorial_pos nw
  obtain ⟨w, hw, e, he⟩ := incN_emb (k := nw.factorial - 1) h ht (by omega)
  conv => enter [1, it, 1, 1]; rw [← Nat.sub_add_cancel hpos]
  rw [incN_succ, he, Out.ok_bind]
  rcases inc_emb h ht hw false with ⟨w', hw', h1, -⟩ | ⟨-, h2⟩
  · have := rank_lt_fact hw'; omega
  · exact ⟨_, h2, rfl, rfl⟩

/-- The rows visited before the end compare unequal to `end()` and are ordered by `<`. -/
theorem C24_comparison {nt : Nat} (r s : Row) (hl : r.length = s.length) :
    ExtIter.eq ⟨false, r⟩ (ExtIter.done nt) = false ∧ ExtIter.lt ⟨false, r⟩ (ExtIter.done nt) = true ∧
    ExtIter.lt (ExtIter.done nt) ⟨false, r⟩ = false ∧
    (ExtIter.eq ⟨false, r⟩ ⟨false, s⟩ = true ↔ r = s) ∧
    (ExtIter.lt ⟨false, r⟩ ⟨false, s⟩ = true ↔ LexLt r s) := by
  refine ⟨rfl, rfl, rfl, by simp [ExtIter.eq], ?_⟩
  rw [lexLt_iff hl]; simp [ExtIter.lt]

/-- Decrementing undoes incrementing between two rows of the extent. -/
theorem C24_decrement {nw nh nt k : Nat} (h : nh + nw ≤ nt) (ht : nt ≤ 256) (hk : k + 1 < Spec.fact nw) :
    (ExtIter.incN nw nh (k + 1) (ExtIter.start nt) >>= ExtIter.decC nw nh nt) =
      ExtIter.incN nw nh k (ExtIter.start nt) := by
  rw [fact_eq] at hk
  obtain ⟨w, hw, e, he⟩ := incN_emb h ht hk
  obtain ⟨w', hw', e', he'⟩ := incN_emb h ht (show k < nw.factorial by omega)
  obtain ⟨v, hv, ev, hev⟩ := dec_emb h ht hw (by omega)
  rw [he, Out.ok_bind, hev, he', rank_inj (nodup_w hv) (hv.trans hw'.symm) (by omega)]

/-- Decrementing the end iterator finds the last row of the extent but leaves the iterator marked as
the end: it still equals `end()`, and decrementing it again does not move it.  (So a loop walking
backwards from `end()` never leaves the last row.) -/
theorem C24_decrement_end_stuck {nw nh nt : Nat} (h : nh + nw ≤ nt) (ht : nt ≤ 256) (r0 : Row) :
    ∃ r, ExtIter.decC nw nh nt ⟨true, r0⟩ = .ok ⟨true, r⟩ ∧
      ExtIter.incN nw nh (Spec.fact nw - 1) (ExtIter.start nt) = .ok ⟨false, r⟩ ∧
      ExtIter.decC nw nh nt ⟨true, r⟩ = .ok ⟨true, r⟩ ∧
      ExtIter.eq ⟨true, r⟩ (ExtIter.done nt) = true := by
  have hpos := Nat.factorial_pos nw
  set v := (List.range nw).map (fun i => nw + nh - 1 - i) with hv
  have hvp : v.Perm (List.range' nh nw) := by
    have : v = (List.range' nh nw).reverse := by
      apply List.ext_getElem
      · simp [hv]
      · intro i h1 h2
        simp [hv] at h1 h2 ⊢
        omega
    rw [this]; exact List.reverse_perm _
  have hrank : rank v + 1 = nw.factorial := by
    have hnd := nodup_w hvp
    have hc := rank_compl hnd
    rw [wlen hvp] at hc
    have : rankR (fun a b => decide (b < a)) v = 0 := by
      apply rankR_sorted sto_gt
      rw [hv, List.pairwise_map]
      apply List.Pairwise.imp_of_mem _ (List.pairwise_lt_range (n := nw))
      intro a b ha hb hab
      rw [List.mem_range] at ha hb
      simp; omega
    simp only [rank]; omega
  have hdec : ∀ r1, ExtIter.decC nw nh nt ⟨true, r1⟩ = .ok ⟨true, emb nw nh nt v⟩ := by
    intro r1
    unfold ExtIter.decC
    rw [if_pos rfl, if_neg (by omega)]
    have : (List.range nh).map toBell ++
        (List.range nw).map (fun i => toBell (nw + nh - 1 - (nh + i) + nh)) ++
        (List.range' (nh + nw) (nt - (nh + nw))).map toBell = emb nw nh nt v := by
      unfold emb
      rw [map_toBell (by intro x hx; rw [List.mem_range] at hx; omega),
        map_toBell (by intro x hx; rw [List.mem_range'_1] at hx; omega)]
      congr 2
      rw [hv]
      apply List.map_congr_left
      intro i hi
      rw [List.mem_range] at hi
      rw [toBell_of_lt (by omega)]; omega
    rw [this, ofVectorC_valid (emb_valid h ht hvp)]; rfl
  obtain ⟨w, hw, e, he⟩ := incN_emb (k := nw.factorial - 1) h ht (by omega)
  refine ⟨emb nw nh nt v, hdec r0, ?_, hdec _, rfl⟩
  rw [fact_eq, he, rank_inj (nodup_w hw) (hw.trans hvp.symm) (by omega)]

/-- Decrementing at the first row goes round to the last row of the extent. -/
theorem C24_decrement_first {nw nh nt : Nat} (h : nh + nw ≤ nt) (ht : nt ≤ 256) :
    ExtIter.decC nw nh nt (ExtIter.start nt) = ExtIter.incN nw nh (Spec.fact nw - 1) (ExtIter.start nt) := by
  have hpos := Nat.factorial_pos nw
  obtain ⟨w, hw, e, he⟩ := incN_emb (k := 0) h ht hpos
  have hst : ExtIter.start nt = ⟨false, emb nw nh nt w⟩ := by injection he
  obtain ⟨w', hw', e', he'⟩ := incN_emb (k := nw.factorial - 1) h ht (by omega)
  rw [fact_eq, he', hst]
  have hnone : prevPerm w = none := by
    cases hp : prevPerm w with
    | none => rfl
    | some x => have := (prevPerm_some (nodup_w hw) hp).2; omega
  have hws : w = List.range' nh nw := by
    apply rank_inj (nodup_w hw) hw
    rw [e]
    symm
    exact rankR_sorted sto_lt (by simpa using List.pairwise_lt_range' (s := nh) (n := nw))
  have hrv : w.reverse.Perm (List.range' nh nw) := (List.reverse_perm _).trans hw
  have hrank : rank w.reverse + 1 = nw.factorial := by
    have hc := rank_compl (nodup_w hrv)
    rw [wlen hrv] at hc
    have : rankR (fun a b => decide (b < a)) w.reverse = 0 := by
      apply rankR_sorted sto_gt
      rw [hws, List.pairwise_reverse]
      simpa using List.pairwise_lt_range' (s := nh) (n := nw)
    simp only [rank]; omega
  have hr : w' = w.reverse := rank_inj (nodup_w hw') (hw'.trans hrv.symm) (by omega)
  unfold ExtIter.decC
  simp only [emb_length h hw, work_emb (wlen hw), splice_emb (wlen hw)]
  rw [if_neg (by simp), if_neg (by omega), hnone, Option.getD_none, hr, ofVectorC_valid (emb_valid h ht hrv)]
  rfl

example : ExtIter.incN 3 1 4 (ExtIter.start 5) = .ok ⟨false, [0, 3, 1, 2, 4]⟩ := by decide +kernel

/-! ## C25 -/

/-- `sign_of_nth_row_of_extent` is the sign of the row with that index. -/
theorem C25_sign_of_nth {n nw nh nt : Nat} {r : Row} (h : nh + nw ≤ nt) (ht : nt ≤ 256)
    (h255 : nh + nw ≤ 255) (h13 : nw ≤ 13) (hn : n < Spec.fact nw)
    (hr : nthRowC n nw nh nt = .ok r) : signC r = .ok (signOfNth n) := by
  rw [fact_eq] at hn
  obtain ⟨w, hw, e, he⟩ := nthRow_emb h ht h255 h13 hn
  rw [he] at hr
  injection hr with hr
  subst hr
  rw [signC_emb h ht hw, ← signOfNth_rank, e]

/-- The same for every row of the extent and its position (up to 20 working bells). -/
theorem C25_sign_of_position {n nw nh nt : Nat} {r : Row} (h : nh + nw ≤ nt) (ht : nt ≤ 256)
    (h20 : nw ≤ 20) (hr : InExtent nw nh nt r) (hp : positionC r nw nh nt = .ok n) :
    signC r = .ok (signOfNth n) := by
  obtain ⟨w, hw, rfl⟩ := (inExtent_iff h ht r).1 hr
  rw [position_emb h ht h20 hw] at hp
  injection hp with hp
  rw [signC_emb h ht hw, ← signOfNth_rank, hp]

/-- `nth_row_of_incourse_extent` gives an even row of the extent whose position in the in-course
extent is the given index. -/
theorem C25_nth_then_position {n nw nh nt : Nat} (h : nh + nw ≤ nt) (ht : nt ≤ 255) (h13 : nw ≤ 13)
    (hn : 2 * n < Spec.fact nw) :
    ∃ r, nthIncourseC n nw nh nt = .ok r ∧ InExtent nw nh nt r ∧ signC r = .ok 1 ∧
      positionIncourseC r nw nh nt = .ok n := by
  rw [fact_eq] at hn
  obtain ⟨w, hw, e, hs, he⟩ := nthIncourse_emb h ht h13 hn
  refine ⟨_, he, inExtent_emb h (by omega) hw, by rw [signC_emb h (by omega) hw, hs], ?_⟩
  unfold positionIncourseC
  rw [position_emb h (by omega) (by omega) hw]
  simp [e]

/-- Two even rows with the same in-course position are equal. -/
theorem incourse_unique {nw nh : Nat} {w w' : List Nat}
    (hw : w.Perm (List.range' nh nw)) (hw' : w'.Perm (List.range' nh nw))
    (hs : invSign w = 1) (hs' : invSign w' = 1) (he : rank w / 2 = rank w' / 2) : w = w' := by
  apply rank_inj (nodup_w hw) (hw.trans hw'.symm)
  by_contra hne
  rcases Nat.lt_or_ge (rank w) (rank w') with hlt | hge
  · have := pair_sign hw hw' (by omega) (by omega)
    rw [hs, hs'] at this; omega
  · have := pair_sign hw' hw (by omega) (by omega)
    rw [hs, hs'] at this; omega

/-- Every even row of the extent is the row of the in-course extent with the index given by its
position. -/
theorem C25_position_then_nth {nw nh nt : Nat} {r : Row} (h : nh + nw ≤ nt) (ht : nt ≤ 255)
    (h13 : nw ≤ 13) (hr : InExtent nw nh nt r) (hs : signC r = .ok 1) :
    ∃ n, 2 * n < Spec.fact nw ∧ positionIncourseC r nw nh nt = .ok n ∧ nthIncourseC n nw nh nt = .ok r := by
  obtain ⟨w, hw, rfl⟩ := (inExtent_iff h (by omega) r).1 hr
  rw [signC_emb h (by omega) hw] at hs
  injection hs with hs
  have hlt := rank_lt_fact hw
  refine ⟨rank w / 2, by rw [fact_eq]; omega, ?_, ?_⟩
  · unfold positionIncourseC
    rw [position_emb h (by omega) (by omega) hw]; rfl
  · obtain ⟨w', hw', e, hs', he⟩ := nthIncourse_emb (n := rank w / 2) h ht h13 (by omega)
    rw [he, incourse_unique hw' hw hs' hs e]

/-- In-course positions are in lexicographic order of the rows. -/
theorem C25_monotone {nw nh nt p q : Nat} {r s : Row} (h : nh + nw ≤ nt) (ht : nt ≤ 256)
    (h20 : nw ≤ 20) (hr : InExtent nw nh nt r) (hs : InExtent nw nh nt s)
    (hre : signC r = .ok 1) (hse : signC s = .ok 1)
    (hp : positionIncourseC r nw nh nt = .ok p) (hq : positionIncourseC s nw nh nt = .ok q) :
    p < q ↔ LexLt r s := by
  obtain ⟨w, hw, rfl⟩ := (inExtent_iff h ht r).1 hr
  obtain ⟨w', hw', rfl⟩ := (inExtent_iff h ht s).1 hs
  rw [signC_emb h ht hw] at hre
  rw [signC_emb h ht hw'] at hse
  injection hre with hre; injection hse with hse
  unfold positionIncourseC at hp hq
  rw [position_emb h ht h20 hw] at hp
  rw [position_emb h ht h20 hw'] at hq
  injection hp with hp; injection hq with hq
  subst hp; subst hq
  rw [lexLt_emb h hw hw']
  constructor
  · intro h'
    change rank w / 2 < rank w' / 2 at h'
    omega
  · intro h'
    by_contra hc
    change ¬ rank w / 2 < rank w' / 2 at hc
    have := incourse_unique hw hw' hre hse (by omega)
    subst this; omega

/-- `k` increments of the in-course iterator. -/
def incIncourseN (nw nh : Nat) : Nat → ExtIter → Out ExtIter
  | 0, it => .ok it
  | k + 1, it => incIncourseN nw nh k it >>= incIncourseC nw nh 3

theorem incIncourse_step {nw nh nt : Nat} {w : List Nat} (h : nh + nw ≤ nt) (ht : nt ≤ 256)
    (hw : w.Perm (List.range' nh nw)) (hs : invSign w = 1) :
    (∃ w', w'.Perm (List.range' nh nw) ∧ invSign w' = 1 ∧ rank w' / 2 = rank w / 2 + 1 ∧
      incIncourseC nw nh 3 ⟨false, emb nw nh nt w⟩ = .ok ⟨false, emb nw nh nt w'⟩) ∨
    (nw.factorial ≤ 2 * (rank w / 2 + 1) ∧
      incIncourseC nw nh 3 ⟨false, emb nw nh nt w⟩ = .ok ⟨true, []⟩) := by
  rcases inc_emb h ht hw false with ⟨w1, hw1, r1, e1⟩ | ⟨r1, e1⟩
  · rcases invSign_cases w1 with s1 | s1
    · -- w at an odd position
      have hodd : rank w % 2 = 1 := by
        by_contra hc
        have := pair_sign hw hw1 (by omega) r1
        rw [hs, s1] at this; omega
      left
      refine ⟨w1, hw1, s1, by omega, ?_⟩
      unfold incIncourseC
      rw [e1, Out.ok_bind]; simp only [Bool.false_eq_true, if_false]
      rw [signC_emb h ht hw1, Out.ok_bind, s1, if_neg (by decide)]; rfl
    · rcases inc_emb h ht hw1 false with ⟨w2, hw2, r2, e2⟩ | ⟨r2, e2⟩
      · rcases invSign_cases w2 with s2 | s2
        · left
          refine ⟨w2, hw2, s2, by omega, ?_⟩
          unfold incIncourseC
          rw [e1, Out.ok_bind]; simp only [Bool.false_eq_true, if_false]
          rw [signC_emb h ht hw1, Out.ok_bind, s1, if_pos (by decide)]
          unfold incIncourseC
          rw [e2, Out.ok_bind]; simp only [Bool.false_eq_true, if_false]
          rw [signC_emb h ht hw2, Out.ok_bind, s2, if_neg (by decide)]; rfl
        · -- w, w1 a pair; w2 the odd first of the next pair
          have hev : rank w2 % 2 = 0 := by
            by_contra hc
            have := pair_sign hw1 hw2 (by omega) r2
            rw [s1, s2] at this; omega
          rcases inc_emb h ht hw2 false with ⟨w3, hw3, r3, e3⟩ | ⟨r3, e3⟩
          · have s3 := pair_sign hw2 hw3 hev r3
            rw [s2] at s3
            left
            refine ⟨w3, hw3, by simpa using s3, by omega, ?_⟩
            unfold incIncourseC
            rw [e1, Out.ok_bind]; simp only [Bool.false_eq_true, if_false]
            rw [signC_emb h ht hw1, Out.ok_bind, s1, if_pos (by decide)]
            unfold incIncourseC
            rw [e2, Out.ok_bind]; simp only [Bool.false_eq_true, if_false]
            rw [signC_emb h ht hw2, Out.ok_bind, s2, if_pos (by decide)]
            unfold incIncourseC
            rw [e3, Out.ok_bind]; simp only [Bool.false_eq_true, if_false]
            rw [signC_emb h ht hw3, Out.ok_bind, s3, if_neg (by decide)]; rfl
          · -- impossible: nw! would be odd and at least 3
            exfalso
            have h2 : 2 ≤ nw := by
              by_contra hc
              have : nw.factorial ≤ (1).factorial := Nat.factorial_le (by omega)
              have : Nat.factorial 1 = 1 := rfl
              omega
            have := Nat.dvd_factorial (show 0 < 2 by omega) h2
            omega
      · right
        have h2 : 2 ≤ nw := by
          by_contra hc
          have : nw.factorial ≤ (1).factorial := Nat.factorial_le (by omega)
          have : Nat.factorial 1 = 1 := rfl
          omega
        have := Nat.dvd_factorial (show 0 < 2 by omega) h2
        refine ⟨by omega, ?_⟩
        unfold incIncourseC
        rw [e1, Out.ok_bind]; simp only [Bool.false_eq_true, if_false]
        rw [signC_emb h ht hw1, Out.ok_bind, s1, if_pos (by decide)]
        unfold incIncourseC
        rw [e2, Out.ok_bind]; rfl
  · right
    refine ⟨by omega, ?_⟩
    unfold incIncourseC
    rw [e1, Out.ok_bind]; rfl

theorem incIncourseN_emb {nw nh nt : Nat} (h : nh + nw ≤ nt) (ht : nt ≤ 256) {k : Nat}
    (hk : 2 * k < nw.factorial) :
    ∃ w, w.Perm (List.range' nh nw) ∧ invSign w = 1 ∧ rank w / 2 = k ∧
      incIncourseN nw nh k (ExtIter.start nt) = .ok ⟨false, emb nw nh nt w⟩ := by
  induction k with
  | zero =>
    refine ⟨List.range' nh nw, List.Perm.refl _, invSign_sorted List.pairwise_lt_range', ?_, ?_⟩
    · rw [rank_range']
    · rw [incIncourseN, start_emb h ht]
  | succ k ih =>
    obtain ⟨w, hw, hs, hr, he⟩ := ih (by omega)
    rcases incIncourse_step h ht hw hs with ⟨w', hw', hs', hr', he'⟩ | ⟨h1, -⟩
    · exact ⟨w', hw', hs', by omega, by rw [incIncourseN, he]; exact he'⟩
    · omega

/-- The in-course iterator visits even rows of the extent. -/
theorem C25_iterator_visits {nw nh nt k : Nat} (h : nh + nw ≤ nt) (ht : nt ≤ 256)
    (hk : 2 * k < Spec.fact nw) :
    ∃ r, incIncourseN nw nh k (ExtIter.start nt) = .ok ⟨false, r⟩ ∧ InExtent nw nh nt r ∧
      signC r = .ok 1 := by
  rw [fact_eq] at hk
  obtain ⟨w, hw, hs, hr, he⟩ := incIncourseN_emb h ht hk
  exact ⟨_, he, inExtent_emb h ht hw, by rw [signC_emb h ht hw, hs]⟩

/-- In increasing lexicographic order. -/
theorem C25_iterator_increasing {nw nh nt j k : Nat} {r s : Row} (h : nh + nw ≤ nt) (ht : nt ≤ 256)
    (hk : 2 * k < Spec.fact nw) (hjk : j < k)
    (hr : incIncourseN nw nh j (ExtIter.start nt) = .ok ⟨false, r⟩)
    (hs : incIncourseN nw nh k (ExtIter.start nt) = .ok ⟨false, s⟩) : LexLt r s := by
  rw [fact_eq] at hk
  obtain ⟨w, hw, -, e1, he⟩ := incIncourseN_emb h ht (show 2 * j < nw.factorial by omega)
  obtain ⟨w', hw', -, e2, he'⟩ := incIncourseN_emb h ht hk
  rw [he] at hr; rw [he'] at hs
  injection hr with hr; injection hs with hs
  injection hr with _ hr; injection hs with _ hs
  subst hr; subst hs
  rw [lexLt_emb h hw hw']
  by_contra hc
  have : rank w' / 2 ≤ rank w / 2 := Nat.div_le_div_right (by omega)
  omega

/-- All the even rows of the extent are visited. -/
theorem C25_iterator_complete {nw nh nt : Nat} {r : Row} (h : nh + nw ≤ nt) (ht : nt ≤ 256)
    (hr : InExtent nw nh nt r) (hs : signC r = .ok 1) :
    ∃ k, 2 * k < Spec.fact nw ∧ incIncourseN nw nh k (ExtIter.start nt) = .ok ⟨false, r⟩ := by
  obtain ⟨w, hw, rfl⟩ := (inExtent_iff h ht r).1 hr
  rw [signC_emb h ht hw] at hs
  injection hs with hs
  have := rank_lt_fact hw
  obtain ⟨w', hw', hs', e, he⟩ := incIncourseN_emb (k := rank w / 2) h ht (by omega)
  refine ⟨rank w / 2, by rw [fact_eq]; omega, ?_⟩
  rw [he, incourse_unique hw' hw hs' hs e]

/-- After half of the extent (rounded up) the in-course iterator is at the end. -/
theorem C25_iterator_end {nw nh nt : Nat} (h : nh + nw ≤ nt) (ht : nt ≤ 256) :
    ∃ it, incIncourseN nw nh ((Spec.fact nw + 1) / 2) (ExtIter.start nt) = .ok it ∧ it.fin = true := by
  rw [fact_eq]
  have hpos := Nat.factorial_pos nw
  obtain ⟨w, hw, hs, e, he⟩ := incIncourseN_emb (k := (nw.factorial + 1) / 2 - 1) h ht (by omega)
  have e1 : (nw.factorial + 1) / 2 = ((nw.factorial + 1) / 2 - 1) + 1 := by omega
  rw [e1, incIncourseN, he, Out.ok_bind]
  rcases incIncourse_step h ht hw hs with ⟨w', hw', -, hr', -⟩ | ⟨-, h2⟩
  · have := rank_lt_fact hw'; omega
  · exact ⟨_, h2, rfl⟩

example : nthIncourseC 7 4 1 6 = .ok [0, 3, 2, 4, 1, 5] := by decide +kernel
example : signOfNth 5 = -1 := signOfNth_rank [3, 2, 1]

/-! ## C26 -/

/-- The changes on `nt` bells swapping only the `nw` places from `nh` on. -/
def WorkingChange (nw nh nt : Nat) (c : Change) : Prop :=
  c.n = nt ∧ IsChange nt c.swaps ∧ ∀ s ∈ c.swaps, nh ≤ s ∧ s + 2 ≤ nh + nw

theorem mem_enum_iff {nw nh nt : Nat} (h : nh + nw ≤ nt) (ht : nt ≤ 255) (c : Change) :
    WorkingChange nw nh nt c ↔ ∃ (k : Nat) (hk : k < (enumCh nh nw).length), c = ⟨nt, (enumCh nh nw)[k]⟩ := by
  constructor
  · rintro ⟨h1, h2, h3⟩
    obtain ⟨k, hk, he⟩ := List.getElem_of_mem ((mem_enum nh nw c.swaps).2 ⟨h2.2.1, h3⟩)
    refine ⟨k, hk, ?_⟩
    rw [he, ← h1]
  · rintro ⟨k, hk, rfl⟩
    have := (mem_enum nh nw _).1 (List.getElem_mem hk)
    exact ⟨rfl, ⟨ht, this.1, fun s hs => by have := this.2 s hs; omega⟩, this.2⟩

/-- The number of changes visited is a Fibonacci number; no step throws or has undefined behaviour,
the changes visited are exactly the changes of the working places (the identity among them), each
exactly once, and then the iterator is at the end. -/
theorem C26_enumerates {nw nh nt : Nat} (h : nh + nw ≤ nt) (ht : nt ≤ 255) :
    ∃ it0, ChIter.startC nw nh nt = .ok it0 ∧ ∃ N, N = Nat.fib (nw + 1) ∧
      (∀ k, k < N → ∃ it, ChIter.nextN nw nh k it0 = .ok it ∧ it.fin = false ∧
        WorkingChange nw nh nt it.c) ∧
      (∀ c, WorkingChange nw nh nt c → ∃ k it, k < N ∧ ChIter.nextN nw nh k it0 = .ok it ∧ it.c = c) ∧
      (∀ j k a b, j < k → k < N → ChIter.nextN nw nh j it0 = .ok a → ChIter.nextN nw nh k it0 = .ok b →
        a.c ≠ b.c) ∧
      ∃ it, ChIter.nextN nw nh N it0 = .ok it ∧ it.fin = true := by
  have h0 := start_first h ht
  refine ⟨_, h0, (enumCh nh nw).length, length_enum nh nw, ?_, ?_, ?_, nextN_end h ht h0⟩
  · intro k hk
    exact ⟨_, nextN_enum h ht h0 k hk, rfl, (mem_enum_iff h ht _).2 ⟨k, hk, rfl⟩⟩
  · intro c hc
    obtain ⟨k, hk, rfl⟩ := (mem_enum_iff h ht c).1 hc
    exact ⟨k, _, hk, nextN_enum h ht h0 k hk, rfl⟩
  · intro j k a b hjk hk ha hb
    rw [nextN_enum h ht h0 j (by omega)] at ha
    rw [nextN_enum h ht h0 k hk] at hb
    injection ha with ha; injection hb with hb
    subst ha; subst hb
    simp only [ne_eq, Change.mk.injEq, true_and]
    intro e
    have := (nodup_enum nh nw).getElem_inj_iff.1 e
    omega

example : ∃ it0, ChIter.startC 5 1 8 = .ok it0 ∧
    ChIter.nextN 5 1 4 it0 = .ok ⟨false, ⟨8, [2]⟩, [5, 4, 2, 1]⟩ := by
  refine ⟨⟨false, ⟨8, [1, 3]⟩, [5, 3, 1]⟩, ?_, ?_⟩ <;> decide +kernel

end Ringing
