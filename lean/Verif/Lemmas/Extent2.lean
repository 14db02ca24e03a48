import Verif.Lemmas.Extent
import Verif.Lemmas.MathUtils
import Mathlib.GroupTheory.Perm.Fin

namespace Ringing
open Spec Row

/-! `position_in_extent`. -/

theorem fixedC_ok {r : Row} {lo hi : Nat} (hhi : hi ≤ r.length ∨ hi ≤ lo)
    (h : ∀ i, lo ≤ i → i < hi → fn r i = i) : Extent.fixedC r lo hi = .ok () := by
  unfold Extent.fixedC
  by_cases hle : lo ≤ hi
  · obtain ⟨s, hs, -⟩ := forUp_inv (lo := lo) (hi := hi) (s := ()) (body := fun _ i => do
      let x ← vget r i
      if x ≠ i then .throw .outOfRange else pure ()) (fun _ _ => True) hle trivial (by
        intro i s h1 h2 _
        refine ⟨(), ?_, trivial⟩
        have hi' : i < r.length := by omega
        rw [vget_ok hi']
        have := h i h1 h2
        rw [fn_of_lt hi'] at this
        simp [this])
    rw [hs]; rfl
  · have : hi - lo = 0 := by omega
    simp [forUp, this, forN]

theorem forN_throw {σ : Type} {body : σ → Nat → Out σ} {e : Err} (P : Nat → Prop) [DecidablePred P]
    (hgood : ∀ s i, P i → body s i = .ok s) (hbad : ∀ s i, ¬ P i → body s i = .throw e) :
    ∀ (k lo : Nat) (s : σ), (∃ i, lo ≤ i ∧ i < lo + k ∧ ¬ P i) → forN body k lo s = .throw e := by
  intro k
  induction k with
  | zero => rintro lo s ⟨i, h1, h2, -⟩; omega
  | succ k ih =>
    rintro lo s ⟨i, h1, h2, h3⟩
    unfold forN
    by_cases hp : P lo
    · rw [hgood s lo hp, Out.ok_bind]
      apply ih
      refine ⟨i, ?_, by omega, h3⟩
      rcases Nat.lt_or_ge lo i with h | h
      · omega
      · have : i = lo := by omega
        subst this; exact absurd hp h3
    · rw [hbad s lo hp]; rfl

theorem fixedC_bad {r : Row} {lo hi : Nat} (hhi : hi ≤ r.length)
    (h : ∃ i, lo ≤ i ∧ i < hi ∧ fn r i ≠ i) : Extent.fixedC r lo hi = .throw .outOfRange := by
  have key : ∀ (k lo : Nat), lo + k ≤ r.length → (∃ i, lo ≤ i ∧ i < lo + k ∧ fn r i ≠ i) →
      forN (fun (_ : Unit) i => do
        let x ← vget r i
        if x ≠ i then .throw .outOfRange else pure ()) k lo () = .throw .outOfRange := by
    intro k
    induction k with
    | zero => rintro lo _ ⟨i, h1, h2, -⟩; omega
    | succ k ih =>
      rintro lo hk ⟨i, h1, h2, h3⟩
      unfold forN
      rw [vget_ok (by omega), Out.ok_bind, ← fn_of_lt (by omega)]
      by_cases hp : fn r lo = lo
      · rw [if_neg (by simpa using hp), Out.pure_eq, Out.ok_bind]
        apply ih _ (by omega)
        refine ⟨i, ?_, by omega, h3⟩
        rcases Nat.lt_or_ge lo i with h | h
        · omega
        · have : i = lo := by omega
          subst this; exact absurd hp h3
      · rw [if_pos hp]; rfl
  unfold Extent.fixedC forUp
  obtain ⟨i, h1, h2, h3⟩ := h
  rw [key (hi - lo) lo (by omega) ⟨i, h1, by omega, h3⟩]; rfl

/-- The bells in the working positions. -/
def workOf (r : Row) (nw nh : Nat) : List Nat := (List.range' nh nw).map (fn r)

theorem countP_range'_succ (p : Nat → Bool) (s n : Nat) :
    (List.range' s (n + 1)).countP p = (List.range' s n).countP p + if p (s + n) then 1 else 0 := by
  rw [← List.range'_append (s := s) (m := n) (n := 1) (step := 1), List.countP_append]
  simp [List.countP_cons]

theorem workOf_drop (r : Row) (nw nh k : Nat) :
    (workOf r nw nh).drop k = workOf r (nw - k) (nh + k) := by
  unfold workOf
  rw [List.map_drop.symm, List.drop_range']; simp

theorem fact20 : Nat.factorial 20 < 2 ^ 64 := by decide

/-- The double loop of `position_in_extent` computes the rank. -/
theorem position_loop {r : Row} (hr : Valid r) {nw nh : Nat} (h20 : nw ≤ 20) :
    (forUp nh (nw + nh) 0 fun x i =>
      forUp (i + 1) (nw + nh) (u64 (x * (nw + nh - i))) fun x j =>
        if j < r.length then do
          let rj ← vget r j
          let ri ← vget r i
          if rj < ri then pure (u64 (x + 1)) else pure x
        else pure x) = .ok (rank (workOf r nw nh)) := by
  have hbound : rank (workOf r nw nh) < 2 ^ 64 := by
    have h1 := rankR_lt (fun a b => decide (a < b)) (workOf r nw nh)
    have h2 : (workOf r nw nh).length = nw := by simp [workOf]
    rw [h2] at h1
    calc rank (workOf r nw nh) < nw.factorial := h1
      _ ≤ (20).factorial := Nat.factorial_le h20
      _ < 2 ^ 64 := fact20
  obtain ⟨x, hx, hP⟩ := forUp_inv (lo := nh) (hi := nw + nh) (s := (0 : Nat)) (body := fun x i =>
      forUp (i + 1) (nw + nh) (u64 (x * (nw + nh - i))) fun x j =>
        if j < r.length then do
          let rj ← vget r j
          let ri ← vget r i
          if rj < ri then pure (u64 (x + 1)) else pure x
        else pure x)
      (fun i x => x * (nw + nh - i).factorial + rank (workOf r (nw + nh - i) i) = rank (workOf r nw nh))
      (by omega) (by simp) (by
        intro i x h1 h2 hI
        set m := nw + nh - (i + 1) with hm
        have hm1 : nw + nh - i = m + 1 := by omega
        rw [hm1] at hI ⊢
        set c := (List.range' (i + 1) m).countP (fun j => decide (fn r j < fn r i)) with hc
        have hrank : rank (workOf r (m + 1) i) = c * m.factorial + rank (workOf r m (i + 1)) := by
          unfold workOf
          rw [List.range'_succ, List.map_cons]
          simp only [rank, rankR, List.countP_map, List.length_map, List.length_range']
          rfl
        have htot : (x * (m + 1) + c) * m.factorial + rank (workOf r m (i + 1)) = rank (workOf r nw nh) := by
          rw [← hI, hrank, Nat.factorial_succ]; ring
        have hle : x * (m + 1) + c < 2 ^ 64 := by
          have := Nat.le_mul_of_pos_right (x * (m + 1) + c) (Nat.factorial_pos m)
          omega
        obtain ⟨y, hy, hPy⟩ := forUp_inv (lo := i + 1) (hi := nw + nh) (s := u64 (x * (m + 1)))
          (body := fun x j =>
            if j < r.length then do
              let rj ← vget r j
              let ri ← vget r i
              if rj < ri then pure (u64 (x + 1)) else pure x
            else pure x)
          (fun j y => y = x * (m + 1) +
            (List.range' (i + 1) (j - (i + 1))).countP (fun j => decide (fn r j < fn r i)))
          (by omega) (by simp [u64_of_lt (show x * (m + 1) < 2 ^ 64 by omega)]) (by
            intro j y g1 g2 hy
            have e : j + 1 - (i + 1) = (j - (i + 1)) + 1 := by omega
            rw [e, countP_range'_succ, Nat.add_sub_cancel' g1]
            have hmono : (List.range' (i + 1) (j - (i + 1) + 1)).countP (fun j => decide (fn r j < fn r i)) ≤ c := by
              rw [hc]
              apply List.Sublist.countP_le
              have : m = (j - (i + 1) + 1) + (m - (j - (i + 1) + 1)) := by omega
              have e2 := List.range'_append (s := i + 1) (m := j - (i + 1) + 1) (n := m - (j - (i + 1) + 1)) (step := 1)
              rw [this, ← e2]
              exact List.sublist_append_left _ _
            rw [countP_range'_succ, Nat.add_sub_cancel' g1] at hmono
            by_cases hj : j < r.length
            · rw [if_pos hj, vget_ok hj, vget_ok (show i < r.length by omega)]
              simp only [Out.ok_bind]
              rw [← fn_of_lt hj, ← fn_of_lt (show i < r.length by omega)]
              by_cases hlt : fn r j < fn r i
              · rw [if_pos hlt]
                simp only [hlt, decide_true, if_true] at hmono ⊢
                refine ⟨_, rfl, ?_⟩
                rw [u64_of_lt (by omega)]; omega
              · rw [if_neg hlt]
                simp only [hlt, decide_false] at hmono ⊢
                exact ⟨_, rfl, by simpa using hy⟩
            · rw [if_neg hj]
              have hlt : ¬ fn r j < fn r i := by
                rw [fn_of_ge (by omega)]
                by_cases hi : i < r.length
                · have := hr.fn_lt_len hi; omega
                · rw [fn_of_ge (by omega)]; omega
              simp only [hlt, decide_false] at hmono ⊢
              exact ⟨_, rfl, by simpa using hy⟩)
        refine ⟨y, hy, ?_⟩
        rw [hPy]; exact htot)
  rw [hx]
  have : nw + nh - (nw + nh) = 0 := by omega
  rw [this] at hP
  simp [workOf, rankR] at hP
  simp [workOf, hP]

theorem workOf_emb {nw nh nt : Nat} {w : List Nat} (h : nh + nw ≤ nt)
    (hw : w.Perm (List.range' nh nw)) : workOf (emb nw nh nt w) nw nh = w := by
  have hl := wlen hw
  apply List.ext_getElem
  · simp [workOf, hl]
  · intro i h1 h2
    simp only [workOf, List.getElem_map, List.getElem_range']
    rw [emb_fn h hw, if_neg (by omega), if_pos (by omega)]
    simp [List.getD_eq_getElem?_getD, h2]

theorem position_emb {nw nh nt : Nat} {w : List Nat} (h : nh + nw ≤ nt) (ht : nt ≤ 256)
    (h20 : nw ≤ 20) (hw : w.Perm (List.range' nh nw)) :
    Extent.positionC (emb nw nh nt w) nw nh nt = .ok (rank w) := by
  unfold Extent.positionC
  simp only [emb_length h hw]
  rw [if_neg (by omega)]
  rw [fixedC_ok (by rw [emb_length h hw]; omega) (by intro i _ hi; rw [emb_fn h hw, if_pos hi])]
  rw [fixedC_ok (by rw [emb_length h hw]; omega)
    (by intro i hi _; rw [emb_fn h hw, if_neg (by omega), if_neg (by omega)])]
  have := position_loop (emb_valid h ht hw) (nh := nh) h20
  rw [workOf_emb h hw, emb_length h hw] at this
  exact this

/-! `nth_row_of_extent`. -/

theorem countP_range'_add (p : Nat → Bool) (s m n : Nat) :
    (List.range' s (m + n)).countP p = (List.range' s m).countP p + (List.range' (s + m) n).countP p := by
  rw [← List.range'_append (step := 1), List.countP_append]; simp

theorem skip_spec {used : List Nat} {nh nw d : Nat} (h255 : nh + nw ≤ 255)
    (hd : d < (List.range' nh nw).countP (fun x => !used.contains x)) :
    ∀ (fuel ob b : Nat), nh ≤ ob → ob ≤ b + 1 → ob ≤ nh + nw → nh + nw < ob + fuel →
      b = nh + d + (List.range' nh (ob - nh)).countP (fun x => used.contains x) →
      (ob = b + 1 → b ∉ used) →
      ∃ b', Extent.skipC used fuel ob b = .ok b' ∧ nh ≤ b' ∧ b' < nh + nw ∧ b' ∉ used ∧
        (List.range' nh (b' - nh)).countP (fun x => !used.contains x) = d := by
  have hcompl : ∀ n, (List.range' nh n).countP (fun x => used.contains x) +
      (List.range' nh n).countP (fun x => !used.contains x) = n := by
    intro n
    have := List.length_eq_countP_add_countP (fun x => used.contains x) (l := List.range' nh n)
    simp only [List.length_range'] at this
    have e : (List.range' nh n).countP (fun x => !used.contains x) =
        (List.range' nh n).countP (fun a => decide ¬(used.contains a = true)) := by
      apply List.countP_congr
      intro x _; simp
    rw [e]; exact this.symm
  intro fuel
  induction fuel with
  | zero => intro ob b h1 h2 h3 h4 h5 h6; omega
  | succ fuel ih =>
    intro ob b h1 h2 h3 h4 h5 h6
    have hU := hcompl (ob - nh)
    have hUn := hcompl nw
    have hsum : (List.range' nh nw).countP (fun x => used.contains x) =
        (List.range' nh (ob - nh)).countP (fun x => used.contains x) +
        (List.range' ob (nh + nw - ob)).countP (fun x => used.contains x) := by
      have := countP_range'_add (fun x => used.contains x) nh (ob - nh) (nh + nw - ob)
      rw [Nat.add_sub_cancel' h1] at this
      rw [← this]; congr 2; omega
    have hb : b < nh + nw := by omega
    unfold Extent.skipC
    by_cases hle : ob ≤ b
    · rw [if_pos hle, toBell_of_lt (show ob + 1 < 256 by omega)]
      have e : ob + 1 - nh = (ob - nh) + 1 := by omega
      by_cases hu : used.contains ob = true
      · rw [if_pos hu, toBell_of_lt (show b + 1 < 256 by omega)]
        refine ih (ob + 1) (b + 1) (by omega) (by omega) (by omega) (by omega) ?_ (by omega)
        rw [e, countP_range'_succ, Nat.add_sub_cancel' h1, if_pos hu]; omega
      · rw [if_neg hu]
        refine ih (ob + 1) b (by omega) (by omega) (by omega) (by omega) ?_ ?_
        · rw [e, countP_range'_succ, Nat.add_sub_cancel' h1, if_neg hu]; omega
        · intro he
          have : ob = b := by omega
          subst this; simpa using hu
    · rw [if_neg hle]
      have hob : ob = b + 1 := by omega
      have hnu := h6 hob
      refine ⟨b, rfl, by omega, hb, hnu, ?_⟩
      have e : ob - nh = (b - nh) + 1 := by omega
      rw [e, countP_range'_succ, Nat.add_sub_cancel' (by omega), if_neg (by simpa using hnu)] at h5
      have := hcompl (b - nh)
      omega

theorem nthLoop_spec {nh nw : Nat} (h255 : nh + nw ≤ 255) : ∀ (k n : Nat) (v : List Nat),
    (List.range' nh nw).countP (fun x => !v.contains x) = k → k ≤ 13 → n < k.factorial →
    ∃ w, Extent.nthLoopC nh k n v = .ok (v ++ w) ∧
      w.Perm ((List.range' nh nw).filter (fun x => !v.contains x)) ∧ rank w = n := by
  intro k
  induction k with
  | zero =>
    intro n v hc _ hn
    refine ⟨[], by simp [Extent.nthLoopC], ?_, ?_⟩
    · have : (List.range' nh nw).filter (fun x => !v.contains x) = [] := by
        rw [← List.length_eq_zero_iff, ← List.countP_eq_length_filter, hc]
      rw [this]
    · simp at hn; simp [rank, rankR, hn]
  | succ k ih =>
    intro n v hc hk hn
    have hfp := Nat.factorial_pos k
    have hd : n / k.factorial < k + 1 := by
      rw [Nat.div_lt_iff_lt_mul hfp]; rw [Nat.factorial_succ] at hn; exact hn
    unfold Extent.nthLoopC
    rw [factorialC_small (by omega)]
    simp only
    rw [if_neg (by omega), toBell_of_lt (show nh < 256 by omega)]
    generalize hq : n / k.factorial = q at hd
    have hck : k + 1 ≤ nw := by
      rw [← hc]; exact (List.countP_le_length).trans (by simp)
    rw [u64_of_lt (by omega), toBell_of_lt (by omega)]
    obtain ⟨b, hb, hb1, hb2, hb3, hb4⟩ := skip_spec (used := v) h255 (d := q) (by omega) 258 nh
      (q + nh) (le_refl _) (by omega) (by omega) (by omega) (by simp; omega) (by omega)
    rw [hb, Out.ok_bind]
    have hfil : (List.range' nh nw).filter (fun x => !v.contains x) |>.Perm
        (b :: (List.range' nh nw).filter (fun x => !(v ++ [b]).contains x)) := by
      have hmem : b ∈ (List.range' nh nw).filter (fun x => !v.contains x) := by
        rw [List.mem_filter, List.mem_range'_1]; simp [hb1, hb2, hb3]
      have hnd : ((List.range' nh nw).filter (fun x => !v.contains x)).Nodup :=
        (List.nodup_range' (s := nh) (n := nw)).filter _
      have := List.perm_cons_erase hmem
      refine this.trans ?_
      rw [hnd.erase_eq_filter, List.filter_filter]
      apply List.Perm.cons
      apply List.Perm.of_eq
      apply List.filter_congr
      intro x _
      by_cases hx : x = b <;> simp [hx]
    obtain ⟨w, hw, hp, hrk⟩ := ih (n % k.factorial) (v ++ [b]) (by
      have := hfil.length_eq
      rw [List.length_cons, ← List.countP_eq_length_filter, ← List.countP_eq_length_filter, hc] at this
      omega) (by omega) (Nat.mod_lt _ hfp)
    refine ⟨b :: w, by rw [hw]; simp, (hp.cons b).trans hfil.symm, ?_⟩
    have hlen : w.length = k := by
      have := (hp.cons b).trans hfil.symm |>.length_eq
      rw [List.length_cons, ← List.countP_eq_length_filter, hc] at this
      omega
    simp only [rank, rankR, hlen]
    rw [show rankR (fun a b => decide (a < b)) w = n % k.factorial from hrk]
    have hcnt : w.countP (fun x => decide (x < b)) = n / k.factorial := by
      rw [hq, ← hb4]
      have h1 : (b :: w).countP (fun x => decide (x < b)) = w.countP (fun x => decide (x < b)) := by simp
      rw [← h1, ((hp.cons b).trans hfil.symm).countP_eq, List.countP_filter]
      have := countP_range'_add (fun x => decide (x < b) && !v.contains x) nh (b - nh) (nh + nw - b)
      rw [show b - nh + (nh + nw - b) = nw by omega, Nat.add_sub_cancel' hb1] at this
      rw [this]
      have z : (List.range' b (nh + nw - b)).countP (fun x => decide (x < b) && !v.contains x) = 0 := by
        rw [List.countP_eq_zero]
        intro x hx
        rw [List.mem_range'_1] at hx
        simp; omega
      rw [z, Nat.add_zero]
      apply List.countP_congr
      intro x hx
      rw [List.mem_range'_1] at hx
      simp; omega
    rw [hcnt]
    exact Nat.div_add_mod' n k.factorial

theorem map_toBell {l : List Nat} (h : ∀ x ∈ l, x < 256) : l.map toBell = l := by
  conv_rhs => rw [← List.map_id l]
  apply List.map_congr_left
  intro x hx
  exact toBell_of_lt (h x hx)

theorem nthRow_emb {n nw nh nt : Nat} (h : nh + nw ≤ nt) (ht : nt ≤ 256) (h255 : nh + nw ≤ 255)
    (h13 : nw ≤ 13) (hn : n < nw.factorial) :
    ∃ w, w.Perm (List.range' nh nw) ∧ rank w = n ∧ Extent.nthRowC n nw nh nt = .ok (emb nw nh nt w) := by
  have hfil : (List.range' nh nw).filter (fun x => !(List.range nh).contains x) = List.range' nh nw := by
    rw [List.filter_eq_self]
    intro x hx
    rw [List.mem_range'_1] at hx
    simp; omega
  have hcount : (List.range' nh nw).countP (fun x => !(List.range nh).contains x) = nw := by
    rw [List.countP_eq_length_filter, hfil]; simp
  obtain ⟨w, hw, hp, hr⟩ := nthLoop_spec h255 nw n (List.range nh) hcount h13 hn
  rw [hfil] at hp
  refine ⟨w, hp, hr, ?_⟩
  unfold Extent.nthRowC
  rw [if_neg (by omega), map_toBell (by intro x hx; rw [List.mem_range] at hx; omega), hw, Out.ok_bind,
    map_toBell (by intro x hx; rw [List.mem_range'_1] at hx; omega)]
  exact ofVectorC_valid (emb_valid h ht hp)

end Ringing
