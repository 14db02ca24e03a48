import Verif.Lemmas.Extent2
import Verif.Lemmas.Change3
import Mathlib.Algebra.BigOperators.Fin
import Mathlib.GroupTheory.Perm.Fin

namespace Ringing
open Spec Row

/-- The sign of a list without repetitions, from its inversions. -/
def invSign : List Nat → Int
  | [] => 1
  | a :: l => (-1) ^ (l.countP fun x => decide (x < a)) * invSign l

theorem prod_ite_countP : ∀ {n : Nat} (f : Fin n → Nat) (a : Nat), (∀ i, f i ≠ a) →
    ((∏ i, (if a < f i then 1 else -1 : ℤˣ) : ℤˣ) : ℤ) =
      (-1) ^ ((List.ofFn f).countP fun x => decide (x < a)) := by
  intro n
  induction n with
  | zero => intro f a _; simp
  | succ n ih =>
    intro f a h
    rw [Fin.prod_univ_succ, List.ofFn_succ, List.countP_cons, Units.val_mul,
      ih (fun i => f i.succ) a (fun i => h i.succ)]
    have := h 0
    by_cases h0 : a < f 0
    · rw [if_pos h0, if_neg (by simp; omega)]; simp
    · rw [if_neg h0, if_pos (by simp; omega), pow_succ]; simp

theorem invSign_ofFn : ∀ {n : Nat} (f : Fin n → Nat), Function.Injective f →
    invSign (List.ofFn f) =
      ((∏ i, ∏ j ∈ Finset.Ioi i, (if f i < f j then 1 else -1 : ℤˣ) : ℤˣ) : ℤ) := by
  intro n
  induction n with
  | zero => intro f _; simp [invSign]
  | succ n ih =>
    intro f hf
    rw [Fin.prod_univ_succ, Fin.prod_Ioi_zero, List.ofFn_succ, invSign, Units.val_mul,
      ih (fun i => f i.succ) (hf.comp (Fin.succ_injective n)),
      prod_ite_countP (fun i => f i.succ) (f 0)
        (fun i h => by have := hf h; exact absurd this (Fin.succ_ne_zero i))]
    congr 2
    apply congrArg
    funext i
    rw [Fin.prod_Ioi_succ]

theorem sign_eq_invSign {r : Row} (hr : Valid r) : sign r = invSign r := by
  rw [sign_eq hr, Equiv.Perm.sign_eq_prod_prod_Ioi]
  have : r = List.ofFn (fun i : Fin r.length => fn r i) := by
    apply List.ext_getElem
    · simp
    · intro i h1 h2; simp [fn_of_lt h1]
  conv_rhs => rw [this]
  rw [invSign_ofFn _ (by intro i j h; exact Fin.ext (hr.fn_inj h))]
  rfl

theorem invSign_sorted {l : List Nat} (h : l.Pairwise (· < ·)) : invSign l = 1 := by
  induction l with
  | nil => rfl
  | cons a l ih =>
    rw [List.pairwise_cons] at h
    have : l.countP (fun x => decide (x < a)) = 0 := by
      rw [List.countP_eq_zero]; intro x hx; have := h.1 x hx; simp; omega
    simp [invSign, this, ih h.2]

theorem invSign_append_big {l s : List Nat} (h : ∀ x ∈ l, ∀ y ∈ s, x < y) :
    invSign (l ++ s) = invSign l * invSign s := by
  induction l with
  | nil => simp [invSign]
  | cons a l ih =>
    have : s.countP (fun x => decide (x < a)) = 0 := by
      rw [List.countP_eq_zero]; intro x hx; have := h a (by simp) x hx; simp; omega
    simp only [List.cons_append, invSign, List.countP_append, this, Nat.add_zero]
    rw [ih (fun x hx => h x (by simp [hx])), mul_assoc]

section
variable {nw nh nt : Nat} {w : List Nat}

theorem sign_emb (h : nh + nw ≤ nt) (ht : nt ≤ 256) (hw : w.Perm (List.range' nh nw)) :
    sign (emb nw nh nt w) = invSign w := by
  rw [sign_eq_invSign (emb_valid h ht hw)]
  unfold emb
  have hmem : ∀ x ∈ w, nh ≤ x ∧ x < nh + nw := by
    intro x hx; have := hw.mem_iff.1 hx; rwa [List.mem_range'_1] at this
  rw [invSign_append_big, invSign_append_big, invSign_sorted (List.pairwise_lt_range),
    invSign_sorted (List.pairwise_lt_range')]
  · simp
  · intro x hx y hy; rw [List.mem_range] at hx; have := hmem y hy; omega
  · intro x hx y hy
    rw [List.mem_range'_1] at hy
    rcases List.mem_append.1 hx with h' | h'
    · rw [List.mem_range] at h'; omega
    · have := hmem x h'; omega

/-! `sign_of_nth_row_of_extent`. -/

theorem signLoop_zero (k : Nat) : Extent.signLoop k 0 = 1 := by unfold Extent.signLoop; simp

theorem signLoop_step (k n : Nat) : Extent.signLoop k n =
    (-1) ^ (n % (k + 1)) * Extent.signLoop (k + 1) (n / (k + 1)) := by
  conv_lhs => unfold Extent.signLoop
  by_cases h : n = 0
  · subst h; simp [signLoop_zero]
  · rw [dif_neg h]
    congr 1
    by_cases hp : n % (k + 1) % 2 = 0
    · rw [if_pos hp, Even.neg_one_pow (Nat.even_iff.2 hp)]
    · rw [if_neg hp, Odd.neg_one_pow (Nat.odd_iff.2 (by omega))]

theorem signLoop_rank : ∀ (l : List Nat) (x : Nat),
    Extent.signLoop 0 (x * l.length.factorial + rank l) = invSign l * Extent.signLoop l.length x := by
  intro l
  induction l with
  | nil => intro x; simp [rank, rankR, invSign]
  | cons a l ih =>
    intro x
    set c := l.countP (fun x => decide (x < a)) with hc
    have hle : c ≤ l.length := List.countP_le_length
    have e : x * (a :: l).length.factorial + rank (a :: l) =
        (x * (l.length + 1) + c) * l.length.factorial + rank l := by
      simp only [rank, rankR, List.length_cons, Nat.factorial_succ, ← hc]; ring
    rw [e, ih, signLoop_step]
    have e1 : (x * (l.length + 1) + c) % (l.length + 1) = c := by
      rw [Nat.mul_add_mod_self_right, Nat.mod_eq_of_lt (by omega)]
    have e2 : (x * (l.length + 1) + c) / (l.length + 1) = x := by
      rw [Nat.mul_comm, Nat.mul_add_div (by omega), Nat.div_eq_of_lt (by omega)]; rfl
    rw [e1, e2]
    simp only [invSign, List.length_cons, ← hc]
    ring

theorem signOfNth_rank (l : List Nat) : Extent.signOfNth (rank l) = invSign l := by
  have := signLoop_rank l 0
  rw [signLoop_zero] at this
  unfold Extent.signOfNth
  simpa using this

/-! In-course extent. -/

theorem invSign_cases (l : List Nat) : invSign l = 1 ∨ invSign l = -1 := by
  induction l with
  | nil => left; rfl
  | cons a l ih =>
    simp only [invSign]
    rcases neg_one_pow_eq_or ℤ (l.countP fun x => decide (x < a)) with h | h <;> rw [h] <;>
      rcases ih with h' | h' <;> rw [h'] <;> simp

theorem rank_swap_last (p : List Nat) {x y : Nat} (h : x < y) :
    rank (p ++ [y, x]) = rank (p ++ [x, y]) + 1 ∧ rank (p ++ [x, y]) % 2 = 0 ∧
      invSign (p ++ [y, x]) = - invSign (p ++ [x, y]) := by
  induction p with
  | nil =>
    have h' : ¬ y < x := by omega
    simp [rank, rankR, invSign, h, h']
  | cons a p ih =>
    obtain ⟨h1, h2, h3⟩ := ih
    have hp : (p ++ [y, x]).Perm (p ++ [x, y]) := (List.Perm.swap x y []).append_left p
    simp only [List.cons_append, rank, rankR, invSign] at *
    rw [hp.countP_eq, hp.length_eq, h1, h3]
    refine ⟨by omega, ?_, by ring⟩
    rw [Nat.add_mod, h2]
    have : (p ++ [x, y]).length.factorial % 2 = 0 := by
      apply Nat.mod_eq_zero_of_dvd
      exact Nat.dvd_factorial (by omega) (by simp)
    rw [Nat.mul_mod, this]; simp

/-- Splitting off the last two of the working bells. -/
theorem split_last2 (hnd : w.Nodup) (hl : 2 ≤ w.length) : ∃ p x y, w = p ++ [x, y] ∧ x ≠ y := by
  refine ⟨w.take (w.length - 2), w[w.length - 2], w[w.length - 1], ?_, ?_⟩
  · conv_lhs => rw [← List.take_append_drop (w.length - 2) w]
    congr 1
    rw [List.drop_eq_getElem_cons (by omega)]
    congr 1
    have e : w.length - 2 + 1 = w.length - 1 := by omega
    rw [e, List.drop_eq_getElem_cons (by omega)]
    congr 1
    rw [List.drop_eq_nil_iff]; omega
  · intro h
    have := (hnd.getElem_inj_iff).1 h
    omega

/-- Consecutive positions `2k`, `2k+1` have opposite signs. -/
theorem pair_sign {w w' : List Nat} (hw : w.Perm (List.range' nh nw)) (hw' : w'.Perm (List.range' nh nw))
    (he : rank w % 2 = 0) (hs : rank w' = rank w + 1) : invSign w' = - invSign w := by
  have h2 : 2 ≤ w.length := by
    by_contra hc
    have h1 := rankR_lt (fun a b => decide (a < b)) w'
    have : w'.length = w.length := by rw [wlen hw, wlen hw']
    rw [this] at h1
    have : w.length.factorial ≤ 1 := by
      calc w.length.factorial ≤ (1).factorial := Nat.factorial_le (by omega)
        _ = 1 := rfl
    simp only [rank] at hs
    omega
  obtain ⟨p, x, y, rfl, hne⟩ := split_last2 (nodup_w hw) h2
  rcases Nat.lt_or_ge x y with hlt | hge
  · obtain ⟨h1, -, h3⟩ := rank_swap_last p hlt
    have hp : w'.Perm (p ++ [y, x]) :=
      (hw'.trans hw.symm).trans ((List.Perm.swap y x []).append_left p)
    have := rank_inj (nodup_w hw') hp (by omega)
    rw [this, h3]
  · obtain ⟨h1, h2, -⟩ := rank_swap_last p (show y < x by omega)
    omega

theorem signC_emb (h : nh + nw ≤ nt) (ht : nt ≤ 256) (hw : w.Perm (List.range' nh nw)) :
    signC (emb nw nh nt w) = .ok (invSign w) := by
  rw [signC_eq (emb_valid h ht hw), sign_emb h ht hw]

theorem nthIncourse_emb {n : Nat} (h : nh + nw ≤ nt) (ht : nt ≤ 255) (h13 : nw ≤ 13)
    (hn : 2 * n < nw.factorial) :
    ∃ w, w.Perm (List.range' nh nw) ∧ rank w / 2 = n ∧ invSign w = 1 ∧
      Extent.nthIncourseC n nw nh nt = .ok (emb nw nh nt w) := by
  obtain ⟨w, hw, hr, he⟩ := nthRow_emb (n := 2 * n) h (by omega) (by omega) h13 hn
  have hbig : 2 * n < 2 ^ 64 := by
    have : nw.factorial ≤ (13).factorial := Nat.factorial_le h13
    have : Nat.factorial 13 < 2 ^ 64 := by decide
    omega
  unfold Extent.nthIncourseC
  rw [Nat.mul_comm n 2, u64_of_lt hbig, he, Out.ok_bind, signC_emb h (by omega) hw, Out.ok_bind]
  rcases invSign_cases w with hs | hs
  · rw [if_neg (by rw [hs]; decide)]
    exact ⟨w, hw, by omega, hs, rfl⟩
  · rw [if_pos (by rw [hs]; decide)]
    have hl := wlen hw
    have h2 : 2 ≤ w.length := by
      by_contra hc
      have : w = [] ∨ ∃ a, w = [a] := by
        rcases w with _ | ⟨a, _ | ⟨b, t⟩⟩
        · left; rfl
        · right; exact ⟨a, rfl⟩
        · simp at hc
      rcases this with rfl | ⟨a, rfl⟩ <;> simp [invSign] at hs
    obtain ⟨p, x, y, hwe, hne⟩ := split_last2 (nodup_w hw) h2
    have hxy : x < y := by
      by_contra hc
      obtain ⟨h1, h2, -⟩ := rank_swap_last p (show y < x by omega)
      rw [← hwe] at h1; omega
    obtain ⟨h1, -, h3⟩ := rank_swap_last p hxy
    rw [← hwe] at h1 h3
    have hp : (p ++ [y, x]).Perm (List.range' nh nw) := by
      rw [hwe] at hw
      exact ((List.Perm.swap x y []).append_left p).trans hw
    refine ⟨p ++ [y, x], hp, by omega, by rw [h3, hs]; rfl, ?_⟩
    have hu : toBell (u32 (nw + nh + 2 ^ 32 - 2)) = nw + nh - 2 := by
      have : u32 (nw + nh + 2 ^ 32 - 2) = nw + nh - 2 := by
        unfold u32; omega
      rw [this, toBell_of_lt (by omega)]
    rw [hu]
    have hsw : Change.swappairC ⟨nt, []⟩ (nw + nh - 2) = .ok (true, ⟨nt, [nw + nh - 2]⟩) := by
      unfold Change.swappairC
      rw [if_neg (by simp only; omega)]
      rfl
    rw [hsw, Out.ok_bind]
    have hwf : Change.WF ⟨nt, [nw + nh - 2]⟩ := by
      refine ⟨ht, by simp, ?_⟩
      intro s hs'; simp only [List.mem_singleton] at hs'; subst hs'; simp only; omega
    show applyC _ _ = _
    rw [applyC_eq hwf]
    apply congrArg Out.ok
    apply ext_fn
    · rw [length_apply, emb_length h hw, emb_length h hp]; simp
    · intro i _
      rw [fn_apply hwf, emb_fn h hw, emb_fn h hp, hwf.pos_eq]
      have hpl : p.length = nw - 2 := by
        have := congrArg List.length hwe; simp at this; omega
      have e1 : ∀ i, i < nw - 2 → w.getD i 0 = p.getD i 0 := by
        intro i hi
        rw [hwe, List.getD_eq_getElem?_getD, List.getD_eq_getElem?_getD, List.getElem?_append_left (by omega)]
      have e2 : ∀ i, i < nw - 2 → (p ++ [y, x]).getD i 0 = p.getD i 0 := by
        intro i hi
        rw [List.getD_eq_getElem?_getD, List.getD_eq_getElem?_getD, List.getElem?_append_left (by omega)]
      have f1 : w.getD (nw - 2) 0 = x := by rw [hwe]; simp [List.getD_eq_getElem?_getD, ← hpl]
      have f2 : w.getD (nw - 1) 0 = y := by
        rw [hwe, show nw - 1 = p.length + 1 by omega]; simp [List.getD_eq_getElem?_getD]
      have f3 : (p ++ [y, x]).getD (nw - 2) 0 = y := by simp [List.getD_eq_getElem?_getD, ← hpl]
      have f4 : (p ++ [y, x]).getD (nw - 1) 0 = x := by
        rw [show nw - 1 = p.length + 1 by omega]; simp [List.getD_eq_getElem?_getD]
      unfold moveTo
      simp only [List.mem_singleton]
      by_cases c1 : i = nw + nh - 2
      · subst c1
        rw [if_pos rfl, if_neg (by omega), if_pos (by omega), if_neg (by omega), if_pos (by omega),
          show nw + nh - 2 + 1 - nh = nw - 1 by omega, show nw + nh - 2 - nh = nw - 2 by omega, f2, f3]
      · rw [if_neg c1]
        by_cases c2 : i ≠ 0 ∧ i - 1 = nw + nh - 2
        · rw [if_pos c2, if_neg (by omega), if_pos (by omega), if_neg (by omega), if_pos (by omega),
            show i - 1 - nh = nw - 2 by omega, show i - nh = nw - 1 by omega, f1, f4]
        · rw [if_neg c2]
          split_ifs with d1 d2
          · rfl
          · rw [e1 _ (by omega), e2 _ (by omega)]
          · rfl

end
end Ringing
