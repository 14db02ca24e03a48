import Verif.Lemmas.Falseness
import Verif.Props.RowCycles

namespace Ringing
namespace Falseness
open Spec Row

/-- The lead head fixes the treble and moves the tenor through all other positions. -/
structure Cyc (lh : Row) (n : Nat) : Prop where
  valid : Valid lh
  len : lh.length = n
  two : 2 ≤ n
  fix : fn lh 0 = 0
  cyc : ∀ i, 0 < i → i < n → ∃ k, iter (fn lh) k (n - 1) = i

theorem iter_add' (f : Nat → Nat) (a b i : Nat) : iter f (a + b) i = iter f a (iter f b i) := by
  induction a with
  | zero => rw [Nat.zero_add]; rfl
  | succ a ih => rw [Nat.succ_add, iter, iter, ih]

namespace Cyc
variable {lh : Row} {n : Nat}

theorem iter_zero (h : Cyc lh n) (k : Nat) : iter (fn lh) k 0 = 0 := by
  induction k with
  | zero => rfl
  | succ k ih => rw [iter, ih, h.fix]

/-- Two powers agreeing on the tenor are equal. -/
theorem npow_ext (h : Cyc lh n) {a b : Nat} (e : iter (fn lh) a (n - 1) = iter (fn lh) b (n - 1)) :
    npow lh a = npow lh b := by
  refine ext_fn (by simp [length_npow]) ?_
  intro i hi
  rw [length_npow, h.len] at hi
  rw [fn_npow, fn_npow]
  by_cases h0 : i = 0
  · subst h0; rw [h.iter_zero, h.iter_zero]
  · obtain ⟨k, rfl⟩ := h.cyc i (by omega) hi
    rw [← iter_add', ← iter_add', Nat.add_comm a, Nat.add_comm b, iter_add', iter_add', e]

theorem exists_period (h : Cyc lh n) : ∃ o, 0 < o ∧ npow lh o = rounds n ∧
    ∀ j, 0 < j → j < o → npow lh j ≠ rounds n := by
  obtain ⟨k, -, h1, h2, -⟩ := C07_cycle_size ((isRow_iff_valid _).2 h.valid) (b := n - 1)
    (by have := h.two; rw [h.len]; omega)
  have hf : bellAt lh = fn lh := funext (bellAt_eq_fn lh)
  rw [hf] at h2
  have he : npow lh k = rounds n := by
    have := h.npow_ext (a := k) (b := 0) h2
    rw [this, npow, h.len]
  have hex : ∃ o, 0 < o ∧ npow lh o = rounds n := ⟨k, h1, he⟩
  classical
  refine ⟨Nat.find hex, (Nat.find_spec hex).1, (Nat.find_spec hex).2, fun j j0 jo e => ?_⟩
  exact Nat.find_min hex jo ⟨j0, e⟩

theorem npow_mod' (h : Cyc lh n) {o : Nat} (ho : npow lh o = rounds n) (k : Nat) :
    npow lh k = npow lh (k % o) := (npow_mod (by rw [ho, h.len])).symm

end Cyc

theorem courseC_spec {lh : Row} {n : Nat} (hv : Valid lh) (hl : lh.length = n) (hn : 0 < n) :
    ∀ (k : Nat) {c : Row}, Valid c → c.length = n → fn c (iter (fn lh) k (n - 1)) = n - 1 →
    ∀ fuel, k < fuel → ∃ k', courseC lh n fuel c = .ok (mul c (npow lh k')) ∧
      fn (mul c (npow lh k')) (n - 1) = n - 1
  | k, c, hc, hcl, he, 0, hf => by omega
  | k, c, hc, hcl, he, fuel + 1, hf => by
    have e : vget c (n - 1) = .ok (fn c (n - 1)) := by
      have : n - 1 < c.length := by omega
      unfold vget fn
      rw [List.getElem?_eq_getElem this, List.getD_eq_getElem?_getD, List.getElem?_eq_getElem this]; rfl
    rw [courseC, e, Out.ok_bind]
    by_cases hx : fn c (n - 1) = n - 1
    · rw [if_neg (by simpa using hx)]
      refine ⟨0, ?_, ?_⟩
      · rw [npow, mul_rounds (by omega)]
      · rw [npow, mul_rounds (by omega)]; exact hx
    · rw [if_pos hx, mulC_eq hc hv, Out.ok_bind]
      cases k with
      | zero => exact absurd he hx
      | succ k =>
        obtain ⟨k', g1, g2⟩ := courseC_spec hv hl hn k (valid_mul hc hv) (by simp [hl, hcl])
          (by rw [fn_mul]; exact he) fuel (by omega)
        rw [mul_assoc'] at g1 g2
        exact ⟨k' + 1, g1, g2⟩

/-- What the flags require of a false course head. -/
def CKeep (flags : Nat) (c : Row) : Prop :=
  (flags.testBit 0 = true → sign c = 1) ∧ (flags.testBit 1 = true → ∀ i, 6 ≤ i → fn c i = i)

theorem tenorsTogether_iff (c : Row) : tenorsTogether c = true ↔ ∀ i, 6 ≤ i → fn c i = i := by
  unfold tenorsTogether
  rw [List.all_eq_true]
  constructor
  · intro h i hi
    by_cases hl : i < c.length
    · have := h i (by rw [List.mem_range'_1]; omega)
      rw [decide_eq_true_eq] at this
      rw [fn_of_lt hl]
      rw [List.getD_eq_getElem?_getD, List.getElem?_eq_getElem hl] at this
      exact this
    · exact fn_of_ge (by omega)
  · intro h i hi
    rw [List.mem_range'_1] at hi
    have hl : i < c.length := by omega
    have := h i hi.1
    rw [fn_of_lt hl] at this
    rw [decide_eq_true_eq, List.getD_eq_getElem?_getD, List.getElem?_eq_getElem hl]
    exact this

theorem insertC_spec {flags : Nat} {c : Row} (hc : Valid c) {fs : List Row} (hi : Group.Incr Row.lt fs) :
    ∃ fs', insertC flags c fs = .ok fs' ∧ Group.Incr Row.lt fs' ∧
      ∀ x, x ∈ fs' ↔ x ∈ fs ∨ (x = c ∧ CKeep flags c) := by
  unfold insertC IN_COURSE_ONLY TENORS_TOGETHER
  rw [show has flags 0x02 = flags.testBit 1 from has_pow flags 1,
    show has flags 0x01 = flags.testBit 0 from has_pow flags 0, signC_eq hc]
  have ins : ∃ fs', (Out.ok (Group.setInsert Row.lt c fs).1 : Out (List Row)) = .ok fs' ∧
      Group.Incr Row.lt fs' ∧ ∀ x, x ∈ fs' ↔ x ∈ fs ∨ x = c :=
    ⟨_, rfl, Group.setInsert_incr Group.rowSTO _ hi, fun x => by
      rw [Group.mem_setInsert Group.rowSTO]; exact or_comm⟩
  have skip : ∀ {P : Prop}, ¬ P → ∃ fs', (Out.ok fs : Out (List Row)) = .ok fs' ∧
      Group.Incr Row.lt fs' ∧ ∀ x, x ∈ fs' ↔ x ∈ fs ∨ (x = c ∧ P) :=
    fun hP => ⟨fs, rfl, hi, fun x => by simp [hP]⟩
  have ht := tenorsTogether_iff c
  by_cases h0 : flags.testBit 0 = true ∧ sign c = -1
  · rw [h0.1, if_pos rfl, Out.ok_bind, Out.ok_bind]
    rw [if_pos (by simp [h0.2])]
    apply skip
    intro hk; have := hk.1 h0.1; rw [h0.2] at this; omega
  · have e : ((if flags.testBit 0 = true then (Out.ok (sign c) >>= fun s => Out.ok (decide (s ≠ -1)))
        else Out.ok true) : Out Bool) = .ok true := by
      split
      · rename_i h; rw [Out.ok_bind]; rw [decide_eq_true]; exact fun hs => h0 ⟨h, hs⟩
      · rfl
    rw [e, Out.ok_bind, if_neg (by simp)]
    have hs : flags.testBit 0 = true → sign c = 1 := by
      intro h
      rcases sign_sq hc with h1 | h1
      · exact h1
      · exact absurd ⟨h, h1⟩ h0
    by_cases h1 : flags.testBit 1 = true ∧ tenorsTogether c = false
    · rw [if_pos h1]
      apply skip
      intro hk
      rw [ht.2 (hk.2 h1.1)] at h1
      exact absurd h1.2 (by simp)
    · rw [if_neg h1]
      have hk : CKeep flags c := ⟨hs, fun h => ht.1 (by
        cases ht' : tenorsTogether c
        · exact absurd ⟨h, ht'⟩ h1
        · rfl)⟩
      obtain ⟨fs', g1, g2, g3⟩ := ins
      exact ⟨fs', g1, g2, fun x => by rw [g3]; simp [hk]⟩


/-- `x` is a false course head got from `f`. -/
def Gets (flags : Nat) (lh : Row) (n : Nat) (f x : Row) : Prop :=
  fn x (n - 1) = n - 1 ∧ CKeep flags x ∧ ∃ j k, x = mul (mul (npow lh j) f) (npow lh k)

/-- The variable `lead` after `j` rounds of the loop. -/
def leadAt (lh : Row) : Nat → Row
  | 0 => []
  | j + 1 => npow lh (j + 1)

theorem valid_leadAt {lh : Row} (h : Valid lh) (j : Nat) : Valid (leadAt lh j) := by
  cases j with
  | zero => exact valid_rounds (n := 0) (by omega)
  | succ j => exact valid_npow h _

theorem leadAt_mul {lh f : Row} (hl : f.length = lh.length) (j : Nat) :
    mul (leadAt lh j) f = mul (npow lh j) f := by
  cases j with
  | zero =>
    rw [leadAt, npow, ← hl, rounds_mul le_rfl]
    exact rounds_mul (n := 0) (by omega)
  | succ j => rfl

theorem npow_succ' (lh : Row) (j : Nat) : mul (npow lh j) lh = npow lh (j + 1) := by
  rw [npow_add]; congr 1
  rw [npow, npow, mul_rounds le_rfl]

variable {lh : Row} {n : Nat}

theorem Cyc.leadsLoopC_spec (h : Cyc lh n) {flags : Nat} {f : Row} (hf : Valid f) (hfl : f.length = n)
    (hf0 : fn f 0 = 0) {o : Nat} (ho : npow lh o = rounds n) (hmin : ∀ j, 0 < j → j < o → npow lh j ≠ rounds n)
    {cfuel : Nat} (hcf : o ≤ cfuel) :
    ∀ (fuel j : Nat) (fs : List Row), j < o → o ≤ fuel + j → Group.Incr Row.lt fs →
    ∃ fs', leadsLoopC flags lh f cfuel fuel (leadAt lh j) fs = .ok fs' ∧ Group.Incr Row.lt fs' ∧
      ∀ x, x ∈ fs' ↔ x ∈ fs ∨ (fn x (n - 1) = n - 1 ∧ CKeep flags x ∧
        ∃ j' k, j ≤ j' ∧ j' < o ∧ x = mul (mul (npow lh j') f) (npow lh k)) := by
  have hlen := h.len
  have hn := h.two
  intro fuel
  induction fuel with
  | zero => intro j fs hj hf; omega
  | succ fuel ih =>
    intro j fs hj hfu hi
    have hcv : Valid (mul (npow lh j) f) := valid_mul (valid_npow h.valid j) hf
    have hcl : (mul (npow lh j) f).length = n := by simp [length_npow, hlen, hfl]
    -- the tenor is somewhere
    obtain ⟨k, hk, hko⟩ : ∃ k, fn (mul (npow lh j) f) (iter (fn lh) k (n - 1)) = n - 1 ∧ k < o := by
      set p := find (mul (npow lh j) f) (n - 1) with hp
      have hpf : fn (mul (npow lh j) f) p = n - 1 := hcv.fn_find _
      have hpn : p < n := hcv.find_lt (by omega) (by omega)
      have hp0 : 0 < p := by
        rcases Nat.eq_zero_or_pos p with h0 | h0
        · rw [h0, fn_mul, hf0, fn_npow, h.iter_zero] at hpf; omega
        · exact h0
      obtain ⟨k, hk⟩ := h.cyc p hp0 hpn
      refine ⟨k % o, ?_, Nat.mod_lt _ (by omega)⟩
      have e : iter (fn lh) (k % o) (n - 1) = p := by
        rw [← hk, ← fn_npow, ← fn_npow, ← h.npow_mod' ho]
      rw [e]; exact hpf
    obtain ⟨k', e1, e2⟩ := courseC_spec h.valid hlen (by omega) k hcv hcl hk cfuel (by omega)
    obtain ⟨f1, g1, g2, g3⟩ := insertC_spec (flags := flags) (valid_mul hcv (valid_npow h.valid k')) hi
    have hstep : mul (leadAt lh j) lh = leadAt lh (j + 1) := by
      rw [leadAt_mul rfl]; exact npow_succ' lh j
    rw [leadsLoopC, mulC_eq (valid_leadAt h.valid j) hf, Out.ok_bind,
      mulC_eq (valid_leadAt h.valid j) h.valid, Out.ok_bind, leadAt_mul (by omega), hfl, e1, Out.ok_bind, g1,
      Out.ok_bind, hstep]
    -- what is new
    have hnew : ∀ x, (x = mul (mul (npow lh j) f) (npow lh k') ∧ CKeep flags (mul (mul (npow lh j) f) (npow lh k'))) ↔
        (fn x (n - 1) = n - 1 ∧ CKeep flags x ∧ ∃ k, x = mul (mul (npow lh j) f) (npow lh k)) := by
      intro x
      constructor
      · rintro ⟨rfl, hkk⟩; exact ⟨e2, hkk, k', rfl⟩
      · rintro ⟨h1, h2, k2, rfl⟩
        have hkk : npow lh k2 = npow lh k' := by
          apply h.npow_ext
          rw [fn_mul, fn_npow] at h1 e2
          exact hcv.fn_inj (h1.trans e2.symm)
        exact ⟨by rw [hkk], hkk ▸ h2⟩
    have hr : isrounds (leadAt lh (j + 1)) = true ↔ j + 1 = o := by
      rw [isrounds_iff]
      show npow lh (j + 1) = _ ↔ _
      have hl1 : (leadAt lh (j + 1)).length = n := by simp [leadAt, length_npow, hlen]
      rw [hl1]
      constructor
      · intro e; by_contra hc; exact hmin (j + 1) (by omega) (by omega) e
      · intro e; rw [e, ho]
    by_cases hlast : j + 1 = o
    · rw [if_neg (by rw [hr.2 hlast]; simp)]
      refine ⟨f1, rfl, g2, fun x => ?_⟩
      rw [g3, hnew]
      constructor
      · rintro (hx | ⟨a, b, k, c⟩)
        · exact Or.inl hx
        · exact Or.inr ⟨a, b, j, k, le_rfl, hj, c⟩
      · rintro (hx | ⟨a, b, j', k, c1, c2, c⟩)
        · exact Or.inl hx
        · obtain rfl : j' = j := by omega
          exact Or.inr ⟨a, b, k, c⟩
    · rw [if_pos (by rw [← Bool.not_eq_true, hr]; exact hlast)]
      obtain ⟨f2, q1, q2, q3⟩ := ih (j + 1) f1 (by omega) (by omega) g2
      refine ⟨f2, q1, q2, fun x => ?_⟩
      rw [q3, g3, hnew]
      constructor
      · rintro ((hx | ⟨a, b, k, c⟩) | ⟨a, b, j', k, c1, c2, c⟩)
        · exact Or.inl hx
        · exact Or.inr ⟨a, b, j, k, le_rfl, hj, c⟩
        · exact Or.inr ⟨a, b, j', k, by omega, c2, c⟩
      · rintro (hx | ⟨a, b, j', k, c1, c2, c⟩)
        · exact Or.inl (Or.inl hx)
        · by_cases hjj : j' = j
          · subst hjj; exact Or.inl (Or.inr ⟨a, b, k, c⟩)
          · exact Or.inr ⟨a, b, j', k, by omega, c2, c⟩

theorem sign_npow {r : Row} (hr : Valid r) (k : Nat) : sign (npow r k) = 1 ∨ sign (npow r k) = sign r := by
  induction k with
  | zero => exact Or.inl (by rw [npow]; exact sign_rounds hr.2)
  | succ k ih =>
    rw [npow, sign_mul hr (valid_npow hr k)]
    rcases ih with h | h
    · right; rw [h]; omega
    · left; rw [h]; rcases sign_sq hr with h1 | h1 <;> rw [h1] <;> rfl

theorem Cyc.processC_spec (h : Cyc lh n) {o : Nat} (h0 : 0 < o) (ho : npow lh o = rounds n)
    (hmin : ∀ j, 0 < j → j < o → npow lh j ≠ rounds n) {fuel : Nat} (hfu : o ≤ fuel) {flags : Nat}
    {f : Row} (hf : Valid f) (hfl : f.length = n) {fs : List Row} (hi : Group.Incr Row.lt fs) :
    ∃ fs', processC fuel flags lh f fs = .ok fs' ∧ Group.Incr Row.lt fs' ∧
      ∀ x, x ∈ fs' ↔ x ∈ fs ∨ (fn x 0 = 0 ∧ Gets flags lh n f x) := by
  have hn := h.two
  have e : vget f 0 = .ok (fn f 0) := by
    have : 0 < f.length := by omega
    unfold vget fn
    rw [List.getElem?_eq_getElem this, List.getD_eq_getElem?_getD, List.getElem?_eq_getElem this]; rfl
  unfold processC IN_COURSE_ONLY
  rw [e, Out.ok_bind, show has flags 0x01 = flags.testBit 0 from has_pow flags 0, signC_eq h.valid,
    signC_eq hf]
  have hx0 : ∀ x, Gets flags lh n f x → (fn x 0 = 0 ↔ fn f 0 = 0) := by
    rintro x ⟨-, -, j, k, rfl⟩
    rw [fn_mul, fn_mul, fn_npow, fn_npow, h.iter_zero]
    constructor
    · intro hh
      apply (valid_npow h.valid j).fn_inj
      rw [fn_npow, fn_npow, hh, h.iter_zero]
    · intro hh; rw [hh, h.iter_zero]
  by_cases hf0 : fn f 0 = 0
  · rw [if_neg (by simpa using hf0)]
    by_cases hsk : flags.testBit 0 = true ∧ sign lh = 1 ∧ sign f = -1
    · rw [if_pos hsk.1, Out.ok_bind, Out.ok_bind, Out.ok_bind, hsk.2.1, hsk.2.2, if_pos (by decide)]
      refine ⟨fs, rfl, hi, fun x => ⟨Or.inl, ?_⟩⟩
      rintro (hx | ⟨-, -, hk, j, k, rfl⟩)
      · exact hx
      · exfalso
        have := hk.1 hsk.1
        rw [sign_mul (valid_mul (valid_npow h.valid j) hf) (valid_npow h.valid k),
          sign_mul (valid_npow h.valid j) hf, hsk.2.2] at this
        have s1 : ∀ i, sign (npow lh i) = 1 := fun i => by
          rcases sign_npow h.valid i with q | q
          · exact q
          · rw [q, hsk.2.1]
        rw [s1, s1] at this
        omega
    · have e2 : ((if flags.testBit 0 = true then (Out.ok (sign lh) >>= fun s => Out.ok (sign f) >>= fun t =>
          Out.ok (decide (s = 1 ∧ t = -1))) else Out.ok false) : Out Bool) = .ok false := by
        split
        · rename_i hb; rw [Out.ok_bind, Out.ok_bind]; rw [decide_eq_false]; exact fun hs => hsk ⟨hb, hs⟩
        · rfl
      rw [e2, Out.ok_bind, if_neg (by simp)]
      obtain ⟨fs', q1, q2, q3⟩ := h.leadsLoopC_spec (flags := flags) hf hfl hf0 ho hmin hfu fuel 0 fs h0
        (by omega) hi
      refine ⟨fs', q1, q2, fun x => ?_⟩
      rw [q3]
      constructor
      · rintro (hx | ⟨a, b, j, k, -, -, c⟩)
        · exact Or.inl hx
        · have hg : Gets flags lh n f x := ⟨a, b, j, k, c⟩
          exact Or.inr ⟨(hx0 x hg).2 hf0, hg⟩
      · rintro (hx | ⟨-, a, b, j, k, c⟩)
        · exact Or.inl hx
        · exact Or.inr ⟨a, b, j % o, k, by omega, Nat.mod_lt _ h0, by rw [← h.npow_mod' ho]; exact c⟩
  · rw [if_pos hf0]
    refine ⟨fs, rfl, hi, fun x => ⟨Or.inl, ?_⟩⟩
    rintro (hx | ⟨a, b⟩)
    · exact hx
    · exact absurd ((hx0 x b).1 a) hf0

theorem Cyc.innerC_spec (h : Cyc lh n) {o : Nat} (h0 : 0 < o) (ho : npow lh o = rounds n)
    (hmin : ∀ j, 0 < j → j < o → npow lh j ≠ rounds n) {fuel : Nat} (hfu : o ≤ fuel) {flags : Nat}
    {r1 : Row} (hr1 : Valid r1 ∧ r1.length = n) :
    ∀ (cs : List Change) (r2 : Row) (fs : List Row), (∀ c ∈ cs, c.WF ∧ c.n = n) → Valid r2 → r2.length = n →
    Group.Incr Row.lt fs → ∃ fs', coursesInnerC fuel flags lh r1 cs r2 fs = .ok fs' ∧ Group.Incr Row.lt fs' ∧
      ∀ x, x ∈ fs' ↔ x ∈ fs ∨ (fn x 0 = 0 ∧ ∃ i, i < cs.length ∧
        Gets flags lh n (Row.div r1 (applyAll r2 (cs.take i))) x) := by
  intro cs
  induction cs with
  | nil => intro r2 fs _ _ _ hi; exact ⟨fs, rfl, hi, fun x => by simp⟩
  | cons c cs ih =>
    intro r2 fs hc hv hl hi
    have hcw := hc c (by simp)
    obtain ⟨f1, g1, g2, g3⟩ := h.processC_spec h0 ho hmin hfu (flags := flags) (valid_div hr1.1 hv)
      (by simp [Row.div, hr1.2, hl]) hi
    obtain ⟨f2, q1, q2, q3⟩ := ih (apply r2 c) f1 (fun d hd => hc d (by simp [hd])) (valid_apply hcw.1 hv)
      (by rw [length_apply, hl, hcw.2]; simp) g2
    refine ⟨f2, ?_, q2, fun x => ?_⟩
    · rw [coursesInnerC, divC_eq hr1.1 hv, Out.ok_bind, g1, Out.ok_bind, applyC_eq hcw.1, Out.ok_bind, q1]
    · rw [q3, g3]
      constructor
      · rintro ((hx | ⟨a, b⟩) | ⟨a, i, hi, b⟩)
        · exact Or.inl hx
        · exact Or.inr ⟨a, 0, by simp, b⟩
        · exact Or.inr ⟨a, i + 1, by simpa using hi, b⟩
      · rintro (hx | ⟨a, i, hi, b⟩)
        · exact Or.inl (Or.inl hx)
        · cases i with
          | zero => exact Or.inl (Or.inr ⟨a, b⟩)
          | succ i => exact Or.inr ⟨a, i, by simpa using hi, b⟩

theorem Cyc.outerC_spec (h : Cyc lh n) (h255 : n ≤ 255) {o : Nat} (h0 : 0 < o) (ho : npow lh o = rounds n)
    (hmin : ∀ j, 0 < j → j < o → npow lh j ≠ rounds n) {fuel : Nat} (hfu : o ≤ fuel) {flags : Nat}
    {m : Method} (hm : m.WF) (hmb : m.b = n) :
    ∀ (cs : List Change) (r1 : Row) (fs : List Row), (∀ c ∈ cs, c.WF ∧ c.n = n) → Valid r1 → r1.length = n →
    Group.Incr Row.lt fs → ∃ fs', coursesOuterC fuel flags lh m cs r1 fs = .ok fs' ∧ Group.Incr Row.lt fs' ∧
      ∀ x, x ∈ fs' ↔ x ∈ fs ∨ (fn x 0 = 0 ∧ ∃ i, i < cs.length ∧ ∃ j, j < m.ch.length ∧
        Gets flags lh n (Row.div (applyAll r1 (cs.take i)) (applyAll (rounds n) (m.ch.take j))) x) := by
  intro cs
  induction cs with
  | nil => intro r1 fs _ _ _ hi; exact ⟨fs, rfl, hi, fun x => by simp⟩
  | cons c cs ih =>
    intro r1 fs hc hv hl hi
    have hcw := hc c (by simp)
    obtain ⟨f1, g1, g2, g3⟩ := h.innerC_spec h0 ho hmin hfu (flags := flags) ⟨hv, hl⟩ m.ch (rounds n) fs
      (fun d hd => hmb ▸ hm.2 d hd) (valid_rounds (by omega)) (by simp) hi
    obtain ⟨f2, q1, q2, q3⟩ := ih (apply r1 c) f1 (fun d hd => hc d (by simp [hd])) (valid_apply hcw.1 hv)
      (by rw [length_apply, hl, hcw.2]; simp) g2
    refine ⟨f2, ?_, q2, fun x => ?_⟩
    · rw [coursesOuterC, roundsC_eq (by have := hm.1; omega), hmb, g1, Out.ok_bind, applyC_eq hcw.1, Out.ok_bind, q1]
    · rw [q3, g3]
      constructor
      · rintro ((hx | ⟨a, b⟩) | ⟨a, i, hi, b⟩)
        · exact Or.inl hx
        · exact Or.inr ⟨a, 0, by simp, b⟩
        · exact Or.inr ⟨a, i + 1, by simpa using hi, b⟩
      · rintro (hx | ⟨a, i, hi, b⟩)
        · exact Or.inl (Or.inl hx)
        · cases i with
          | zero => exact Or.inl (Or.inr ⟨a, b⟩)
          | succ i => exact Or.inr ⟨a, i, by simpa using hi, b⟩

/-! ### Non-termination -/

/-- A result or no end. -/
def OT {α : Type} (x : Out α) : Prop := (∃ a, x = .ok a) ∨ x = .timeout

theorem OT.bind {α β : Type} {x : Out α} {f : α → Out β} (hx : OT x) (hf : ∀ a, x = .ok a → OT (f a)) :
    OT (x >>= f) := by
  rcases hx with ⟨a, rfl⟩ | rfl
  · exact hf a rfl
  · exact Or.inr rfl

theorem bind_ok {α β : Type} {x : Out α} {f : α → Out β} {b : β} (h : (x >>= f) = .ok b) :
    ∃ a, x = .ok a ∧ f a = .ok b := by
  cases x with
  | ok a => exact ⟨a, rfl, h⟩
  | throw e => cases h
  | ub => cases h
  | timeout => cases h

theorem courseC_ot (hv : Valid lh) (hl : lh.length = n) (hn : 0 < n) : ∀ (fuel : Nat) {c : Row}, Valid c → c.length = n →
    (∃ k, courseC lh n fuel c = .ok (mul c (npow lh k)) ∧ fn (mul c (npow lh k)) (n - 1) = n - 1) ∨
      courseC lh n fuel c = .timeout
  | 0, c, _, _ => Or.inr rfl
  | fuel + 1, c, hc, hcl => by
    have e : vget c (n - 1) = .ok (fn c (n - 1)) := by
      have : n - 1 < c.length := by omega
      unfold vget fn
      rw [List.getElem?_eq_getElem this, List.getD_eq_getElem?_getD, List.getElem?_eq_getElem this]; rfl
    rw [courseC, e, Out.ok_bind]
    by_cases hx : fn c (n - 1) = n - 1
    · rw [if_neg (by simpa using hx)]
      left
      refine ⟨0, ?_, ?_⟩
      · rw [npow, mul_rounds (by omega)]
      · rw [npow, mul_rounds (by omega)]; exact hx
    · rw [if_pos hx, mulC_eq hc hv, Out.ok_bind]
      rcases courseC_ot hv hl hn fuel (valid_mul hc hv) (by simp [hl, hcl]) with ⟨k, g1, g2⟩ | g
      · rw [mul_assoc'] at g1 g2
        exact Or.inl ⟨k + 1, g1, g2⟩
      · exact Or.inr g

theorem insertC_ot {flags : Nat} {c : Row} (hc : Valid c) (fs : List Row) : OT (insertC flags c fs) := by
  unfold insertC
  rw [signC_eq hc]
  refine OT.bind (by split <;> exact Or.inl ⟨_, rfl⟩) (fun a _ => ?_)
  split
  · exact Or.inl ⟨_, rfl⟩
  · split <;> exact Or.inl ⟨_, rfl⟩

theorem leadsLoopC_ot (hv : Valid lh) (hl : lh.length = n) (hn : 0 < n) {flags : Nat} {f : Row} (hf : Valid f)
    (hfl : f.length = n) (cfuel : Nat) : ∀ (fuel j : Nat) (fs : List Row),
    OT (leadsLoopC flags lh f cfuel fuel (leadAt lh j) fs) := by
  intro fuel
  induction fuel with
  | zero => intro j fs; exact Or.inr rfl
  | succ fuel ih =>
    intro j fs
    have hcv : Valid (mul (npow lh j) f) := valid_mul (valid_npow hv j) hf
    have hcl : (mul (npow lh j) f).length = n := by simp [length_npow, hl, hfl]
    have hstep : mul (leadAt lh j) lh = leadAt lh (j + 1) := by
      rw [leadAt_mul rfl]; exact npow_succ' lh j
    rw [leadsLoopC, mulC_eq (valid_leadAt hv j) hf, Out.ok_bind, mulC_eq (valid_leadAt hv j) hv, Out.ok_bind,
      leadAt_mul (by omega), hfl, hstep]
    rcases courseC_ot hv hl hn cfuel hcv hcl with ⟨k, g, -⟩ | g
    · rw [g, Out.ok_bind]
      refine OT.bind (insertC_ot (valid_mul hcv (valid_npow hv k)) fs) (fun a _ => ?_)
      split
      · exact ih _ _
      · exact Or.inl ⟨_, rfl⟩
    · rw [g]; exact Or.inr rfl

/-- If the loop ends, then for every lead the tenor could be brought back. -/
theorem leadsLoopC_ok (hv : Valid lh) (hl : lh.length = n) (hn : 0 < n) {flags : Nat} {f : Row} (hf : Valid f)
    (hfl : f.length = n) (cfuel : Nat) : ∀ (fuel j : Nat) (fs fs' : List Row),
    leadsLoopC flags lh f cfuel fuel (leadAt lh j) fs = .ok fs' → ∃ o, j < o ∧ npow lh o = rounds n ∧
      ∀ j', j ≤ j' → j' < o → ∃ k, fn (mul (mul (npow lh j') f) (npow lh k)) (n - 1) = n - 1 := by
  intro fuel
  induction fuel with
  | zero => intro j fs fs' h; cases h
  | succ fuel ih =>
    intro j fs fs' h
    have hcv : Valid (mul (npow lh j) f) := valid_mul (valid_npow hv j) hf
    have hcl : (mul (npow lh j) f).length = n := by simp [length_npow, hl, hfl]
    have hstep : mul (leadAt lh j) lh = leadAt lh (j + 1) := by
      rw [leadAt_mul rfl]; exact npow_succ' lh j
    rw [leadsLoopC, mulC_eq (valid_leadAt hv j) hf, Out.ok_bind, mulC_eq (valid_leadAt hv j) hv, Out.ok_bind,
      leadAt_mul (by omega), hfl, hstep] at h
    rcases courseC_ot hv hl hn cfuel hcv hcl with ⟨k, g, gk⟩ | g
    · rw [g, Out.ok_bind] at h
      obtain ⟨f1, -, h2⟩ := bind_ok h
      by_cases hr : isrounds (leadAt lh (j + 1)) = true
      · rw [isrounds_iff] at hr
        have hr' : npow lh (j + 1) = rounds n := by
          have : (leadAt lh (j + 1)).length = n := by simp [leadAt, length_npow, hl]
          rw [this] at hr; exact hr
        refine ⟨j + 1, by omega, hr', fun j' a b => ?_⟩
        obtain rfl : j' = j := by omega
        exact ⟨k, gk⟩
      · rw [if_pos (by simpa using hr)] at h2
        obtain ⟨o, a1, a2, a3⟩ := ih _ _ _ h2
        refine ⟨o, by omega, a2, fun j' b1 b2 => ?_⟩
        by_cases hj : j' = j
        · subst hj; exact ⟨k, gk⟩
        · exact a3 j' (by omega) b2
    · rw [g] at h; cases h

theorem processC_ot (hv : Valid lh) (hl : lh.length = n) (hn : 0 < n) (fuel flags : Nat) {f : Row} (hf : Valid f)
    (hfl : f.length = n) (fs : List Row) : OT (processC fuel flags lh f fs) := by
  have e : vget f 0 = .ok (fn f 0) := by
    have : 0 < f.length := by omega
    unfold vget fn
    rw [List.getElem?_eq_getElem this, List.getD_eq_getElem?_getD, List.getElem?_eq_getElem this]; rfl
  unfold processC
  rw [e, Out.ok_bind, signC_eq hv, signC_eq hf]
  split
  · exact Or.inl ⟨_, rfl⟩
  · refine OT.bind (by split <;> exact Or.inl ⟨_, rfl⟩) (fun a _ => ?_)
    split
    · exact Or.inl ⟨_, rfl⟩
    · exact leadsLoopC_ot hv hl hn hf hfl _ _ 0 _

end Falseness
end Ringing
