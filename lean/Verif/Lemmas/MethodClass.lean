import Verif.Model.MethodClass
import Verif.Spec.MethodClass
import Verif.Props.MethodPred
import Verif.Props.RowCycles
/-! Lemmas for `methclass`. -/
namespace Ringing
open Spec Row

theorem iter_succ' (f : Nat → Nat) (k x : Nat) : iter f (k + 1) x = iter f k (f x) := by
  induction k generalizing x with
  | zero => rfl
  | succ k ih => show f (iter f (k + 1) x) = f (iter f k (f x)); rw [ih]

theorem iter_add (f : Nat → Nat) (a b x : Nat) : iter f (a + b) x = iter f a (iter f b x) := by
  induction a with
  | zero => rw [Nat.zero_add]; rfl
  | succ a ih => rw [Nat.succ_add]; show f (iter f (a + b) x) = f (iter f a (iter f b x)); rw [ih]

theorem iter_left_inv {f g : Nat → Nat} (h : ∀ x, g (f x) = x) (k x : Nat) : iter g k (iter f k x) = x := by
  induction k generalizing x with
  | zero => rfl
  | succ k ih =>
    rw [iter_succ' g]
    show iter g k (g (f (iter f k x))) = x
    rw [h, ih]

namespace Method

/-- The paths of a method. -/
abbrev css (m : Method) : List (List Nat) := m.ch.map Change.swaps

@[simp] theorem css_length (m : Method) : m.css.length = m.length := by simp [css]

theorem WF.lh_follow {m : Method} (h : m.WF) (p : Nat) : fn (lh m) (follow m.css p) = p := by
  unfold lh; rw [fn_applyAll_follow h.wf, fn_rounds]

theorem WF.follow_lh {m : Method} (h : m.WF) (p : Nat) : follow m.css (fn (lh m) p) = p := by
  apply h.lh_valid.fn_inj
  rw [h.lh_follow]

theorem WF.lh_fix {m : Method} (h : m.WF) (p : Nat) : fn (lh m) p = p ↔ follow m.css p = p := by
  constructor
  · intro e; have := h.follow_lh p; rw [e] at this; exact this
  · intro e; have := h.lh_follow p; rw [e] at this; exact this

theorem WF.lh_iter {m : Method} (h : m.WF) (k p : Nat) :
    iter (fn (lh m)) k p = p ↔ iter (follow m.css) k p = p := by
  constructor
  · intro e; have := iter_left_inv h.follow_lh k p; rw [e] at this; exact this
  · intro e; have := iter_left_inv h.lh_follow k p; rw [e] at this; exact this

/-! ### The first loops -/

theorem rdPast_lt {r : Row} {past : Out Nat} {i : Nat} (hi : i < r.length) : rdPast r past i = .ok (fn r i) := by
  unfold rdPast
  rw [if_neg (by omega), vget_ok hi, fn_of_lt hi]

theorem huntLoop_spec {r : Row} {n j : Nat} (hr : r.length = n) : ∀ (fuel i : Nat), i ≤ n → n < fuel + i →
    ∃ h, huntLoop r (.ok j) n fuel i = .ok h ∧ i ≤ h ∧ h ≤ n ∧ (∀ k, i ≤ k → k < h → fn r k ≠ k) ∧
      (h < n → fn r h = h) := by
  intro fuel
  induction fuel with
  | zero => intro i h1 h2; omega
  | succ fuel ih =>
    intro i h1 h2
    rw [huntLoop]
    by_cases hi : i < n
    · rw [rdPast_lt (by omega), Out.ok_bind]
      by_cases hx : fn r i ≠ i
      · rw [if_pos ⟨hx, hi⟩]
        obtain ⟨h, h3, h4, h5, h6, h7⟩ := ih (i + 1) (by omega) (by omega)
        refine ⟨h, h3, by omega, h5, fun k hk hk' => ?_, h7⟩
        by_cases e : k = i
        · rw [e]; exact hx
        · exact h6 k (by omega) hk'
      · rw [if_neg (fun h => hx h.1)]
        exact ⟨i, rfl, le_rfl, h1, fun k a b => by omega, fun _ => not_not.1 hx⟩
    · have e : i = n := by omega
      unfold rdPast
      rw [if_pos (by omega), Out.ok_bind, if_neg (fun h => hi h.2)]
      exact ⟨i, rfl, le_rfl, h1, fun k a b => by omega, fun h => by omega⟩

theorem workLoop_spec {r : Row} {n j : Nat} (hr : r.length = n) : ∀ (fuel i : Nat), i ≤ n → n < fuel + i →
    ∃ h, workLoop r (.ok j) n fuel i = .ok h ∧ i ≤ h ∧ h ≤ n ∧ (∀ k, i ≤ k → k < h → fn r k = k) ∧
      (h < n → fn r h ≠ h) := by
  intro fuel
  induction fuel with
  | zero => intro i h1 h2; omega
  | succ fuel ih =>
    intro i h1 h2
    rw [workLoop]
    by_cases hi : i < n
    · rw [rdPast_lt (by omega), Out.ok_bind]
      by_cases hx : fn r i = i
      · rw [if_pos ⟨hx, hi⟩]
        obtain ⟨h, h3, h4, h5, h6, h7⟩ := ih (i + 1) (by omega) (by omega)
        refine ⟨h, h3, by omega, h5, fun k hk hk' => ?_, h7⟩
        by_cases e : k = i
        · rw [e]; exact hx
        · exact h6 k (by omega) hk'
      · rw [if_neg (fun h => hx h.1)]
        exact ⟨i, rfl, le_rfl, h1, fun k a b => by omega, fun _ => hx⟩
    · have e : i = n := by omega
      unfold rdPast
      rw [if_pos (by omega), Out.ok_bind, if_neg (fun h => hi h.2)]
      exact ⟨i, rfl, le_rfl, h1, fun k a b => by omega, fun h => by omega⟩

/-- The period of a bell under repeated leads. -/
def Period (m : Method) (p k : Nat) : Prop :=
  0 < k ∧ iter (follow m.css) k p = p ∧ ∀ j, 0 < j → j < k → iter (follow m.css) j p ≠ p

theorem Period.unique {m : Method} {p k l : Nat} (h1 : Period m p k) (h2 : Period m p l) : k = l := by
  rcases Nat.lt_trichotomy k l with h | h | h
  · exact absurd h1.2.1 (h2.2.2 k h1.1 h)
  · exact h
  · exact absurd h2.2.1 (h1.2.2 l h2.1 h)

theorem Period.iter_mul {m : Method} {p k : Nat} (h : Period m p k) (a : Nat) :
    iter (follow m.css) (a * k) p = p := by
  induction a with
  | zero => rw [Nat.zero_mul]; rfl
  | succ a ih => rw [Nat.succ_mul, iter_add, h.2.1, ih]

theorem Period.dvd {m : Method} {p k : Nat} (h : Period m p k) {a : Nat}
    (ha : iter (follow m.css) a p = p) : k ∣ a := by
  have e : iter (follow m.css) (a % k) p = p := by
    have h0 : a = a % k + (a / k) * k := by rw [Nat.mul_comm]; exact (Nat.mod_add_div a k).symm
    rw [h0, iter_add, h.iter_mul] at ha
    exact ha
  rcases Nat.eq_zero_or_pos (a % k) with h0 | h0
  · exact Nat.dvd_of_mod_eq_zero h0
  · exact absurd e (h.2.2 _ h0 (Nat.mod_lt _ h.1))

theorem WF.cycleSize {m : Method} (h : m.WF) {p : Nat} (hp : p < m.b) :
    ∃ k, Row.cycleSizeC (lh m) p = .ok k ∧ Period m p k := by
  obtain ⟨k, h1, h2, h3, h4⟩ := C07_cycle_size ((isRow_iff_valid _).2 h.lh_valid)
    (show p < (lh m).length by rw [h.lh_length]; exact hp)
  rw [bellAt_funext] at h3 h4
  exact ⟨k, h1, h2, (h.lh_iter _ _).1 h3, fun j a b c => h4 j a b ((h.lh_iter _ _).2 c)⟩

theorem WF.wbC_spec {m : Method} (h : m.WF) (j : Nat) :
    (wbC (lh m) (.ok j) m.b = .ok 0 ∧ ∀ p, ¬ IsWorking m.css m.b p) ∨
    ∃ p k, IsWorking m.css m.b p ∧ Period m p k ∧ wbC (lh m) (.ok j) m.b = .ok k := by
  obtain ⟨i, h1, -, h3, h4, h5⟩ := workLoop_spec (j := j) h.lh_length (m.b + 1) 0 (by omega) (by omega)
  unfold wbC
  rw [h1, Out.ok_bind]
  by_cases hi : i < m.b
  · right
    rw [if_pos hi]
    obtain ⟨k, h6, h7⟩ := h.cycleSize hi
    exact ⟨i, k, ⟨hi, fun e => h5 hi ((h.lh_fix _).2 e)⟩, h7, h6⟩
  · left
    rw [if_neg hi]
    refine ⟨rfl, fun p hp => hp.2 ((h.lh_fix _).1 (h4 p (by omega) ?_))⟩
    have := hp.1; omega

theorem WF.diffLoop_spec {m : Method} (h : m.WF) (wb : Nat) : ∀ (k i : Nat), i + k = m.b →
    ∃ b, diffLoop (lh m) wb k i = .ok b ∧
      (b = true ↔ ∃ p l, i ≤ p ∧ IsWorking m.css m.b p ∧ Period m p l ∧ l ≠ wb) := by
  intro k
  induction k with
  | zero =>
    intro i hi
    refine ⟨false, rfl, ?_⟩
    simp only [Bool.false_eq_true, false_iff]
    rintro ⟨p, l, h1, h2, -⟩
    have := h2.1; omega
  | succ k ih =>
    intro i hi
    obtain ⟨b, h1, h2⟩ := ih (i + 1) (by omega)
    have hl : i < (lh m).length := by rw [h.lh_length]; omega
    rw [diffLoop, vget_ok hl, Out.ok_bind, ← fn_of_lt hl]
    by_cases hx : fn (lh m) i ≠ i
    · rw [if_pos hx]
      obtain ⟨s, h3, h4⟩ := h.cycleSize (show i < m.b by omega)
      have hw : IsWorking m.css m.b i := ⟨by omega, fun e => hx ((h.lh_fix _).2 e)⟩
      rw [h3, Out.ok_bind]
      by_cases hs : s ≠ wb
      · rw [if_pos hs]
        exact ⟨true, rfl, by simp only [true_iff]; exact ⟨i, s, le_rfl, hw, h4, hs⟩⟩
      · rw [if_neg hs]
        refine ⟨b, h1, h2.trans ⟨?_, ?_⟩⟩
        · rintro ⟨p, l, a1, a2⟩; exact ⟨p, l, by omega, a2⟩
        · rintro ⟨p, l, a1, a2, a3, a4⟩
          refine ⟨p, l, ?_, a2, a3, a4⟩
          by_cases e : p = i
          · subst e
            have := a3.unique h4
            exact absurd (this ▸ a4) hs
          · omega
    · rw [if_neg hx]
      refine ⟨b, h1, h2.trans ⟨?_, ?_⟩⟩
      · rintro ⟨p, l, a1, a2⟩; exact ⟨p, l, by omega, a2⟩
      · rintro ⟨p, l, a1, a2, a3⟩
        refine ⟨p, l, ?_, a2, a3⟩
        by_cases e : p = i
        · subst e; exact absurd ((h.lh_fix _).1 (not_not.1 hx)) a2.2
        · omega

theorem WF.follow_lt {m : Method} (h : m.WF) {p : Nat} (hp : p < m.b) : follow m.css p < m.b := by
  have : ∀ (cs : List Change), (∀ c ∈ cs, c.WF ∧ c.n = m.b) → ∀ p, p < m.b →
      follow (cs.map Change.swaps) p < m.b := by
    intro cs
    induction cs with
    | nil => intro _ p hp; exact hp
    | cons c cs ih =>
      intro hc p hp
      obtain ⟨h1, h2⟩ := hc c (by simp)
      exact ih (fun d hd => hc d (by simp [hd])) _
        (Change.moveTo_lt h1.gap h1.2.2 (by omega) hp)
  exact this m.ch h.2 p hp

theorem WF.follow_inj {m : Method} (h : m.WF) {p q : Nat} (e : follow m.css p = follow m.css q) : p = q := by
  have := congrArg (fn (lh m)) e
  rwa [h.lh_follow, h.lh_follow] at this

theorem WF.iter_inj {m : Method} (h : m.WF) (k : Nat) {p q : Nat}
    (e : iter (follow m.css) k p = iter (follow m.css) k q) : p = q := by
  induction k with
  | zero => exact e
  | succ k ih => exact ih (h.follow_inj e)

theorem WF.iter_working {m : Method} (h : m.WF) {p : Nat} (hp : IsWorking m.css m.b p) (k : Nat) :
    IsWorking m.css m.b (iter (follow m.css) k p) := by
  induction k with
  | zero => exact hp
  | succ k ih =>
    exact ⟨h.follow_lt ih.1, fun e => ih.2 (h.follow_inj e)⟩

/-- The two definitions of a differential. -/
theorem WF.differential_spec {m : Method} (h : m.WF) (j : Nat) (year : Int) :
    ∃ wb d, wbC (lh m) (.ok j) m.b = .ok wb ∧ differentialC m (lh m) wb year = .ok d ∧
      (d = true ↔ if year ≥ 2019 then UnequalCycles m.css m.b else SeveralCycles m.css m.b) := by
  unfold differentialC
  have hunt := C21_huntbells (m := m) h.1 h.2
  rcases h.wbC_spec j with ⟨h1, h2⟩ | ⟨p0, k0, h1, h2, h3⟩
  · by_cases hy : year ≥ 2019
    · obtain ⟨b, h3, h4⟩ := h.diffLoop_spec 0 m.b 0 (by omega)
      refine ⟨0, b, h1, by rw [if_pos hy]; exact h3, h4.trans ?_⟩
      rw [if_pos hy]
      constructor
      · rintro ⟨p, l, -, a, -⟩; exact absurd a (h2 p)
      · rintro ⟨p, q, k, a, -⟩; exact absurd a (h2 p)
    · refine ⟨0, false, h1, ?_, ?_⟩
      · rw [if_neg hy, hunt, Out.ok_bind]
        congr 1
        rw [decide_eq_false_iff_not]
        have : (List.range m.b).filter (fun p => decide (follow (m.ch.map Change.swaps) p = p)) =
            List.range m.b := by
          rw [List.filter_eq_self]
          intro p hp
          rw [decide_eq_true_eq]
          by_contra e
          exact h2 p ⟨List.mem_range.1 hp, e⟩
        rw [this]; simp
      · rw [if_neg hy]
        simp only [Bool.false_eq_true, false_iff]
        rintro ⟨p, q, a, -⟩; exact h2 p a
  · by_cases hy : year ≥ 2019
    · obtain ⟨b, h4, h5⟩ := h.diffLoop_spec k0 m.b 0 (by omega)
      refine ⟨k0, b, h3, by rw [if_pos hy]; exact h4, h5.trans ?_⟩
      rw [if_pos hy]
      constructor
      · rintro ⟨p, l, -, a, b, c⟩
        by_cases hd : k0 ∣ l
        · refine ⟨p0, p, k0, h1, a, h2.2.1, fun e => ?_⟩
          exact c (Nat.dvd_antisymm (b.dvd e) hd)
        · exact ⟨p, p0, l, a, h1, b.2.1, fun e => hd (h2.dvd e)⟩
      · rintro ⟨p, q, k, a, b, c, d⟩
        obtain ⟨lp, -, hlp⟩ := h.cycleSize a.1
        obtain ⟨lq, -, hlq⟩ := h.cycleSize b.1
        by_cases e : lp = k0
        · by_cases e' : lq = k0
          · exfalso; apply d
            subst e; subst e'
            obtain ⟨t, rfl⟩ := hlp.dvd c
            rw [Nat.mul_comm]; exact hlq.iter_mul t
          · exact ⟨q, lq, by omega, b, hlq, e'⟩
        · exact ⟨p, lp, by omega, a, hlp, e⟩
    · refine ⟨k0, _, h3, by rw [if_neg hy, hunt]; rfl, ?_⟩
      rw [if_neg hy, decide_eq_true_eq]
      set F := follow m.css with hF
      let C := (List.range k0).map fun t => iter F t p0
      let W := (List.range m.b).filter fun p => decide (F p ≠ p)
      have hC : C.Nodup := by
        refine List.Nodup.map_on ?_ List.nodup_range
        intro a ha b hb e
        have key : ∀ a b, a < b → b < k0 → iter F a p0 = iter F b p0 → False := by
          intro a b hab hb e
          have : iter F (b - a + a) p0 = iter F (b - a) (iter F a p0) := iter_add _ _ _ _
          rw [Nat.sub_add_cancel hab.le, ← e, ← iter_add, Nat.add_comm, iter_add] at this
          have := h.iter_inj a this
          exact h2.2.2 (b - a) (by omega) (by omega) this.symm
        rcases Nat.lt_trichotomy a b with hab | hab | hab
        · exact (key a b hab (List.mem_range.1 hb) e).elim
        · exact hab
        · exact (key b a hab (List.mem_range.1 ha) e.symm).elim
      have hW : W.Nodup := List.nodup_range.filter _
      have memW : ∀ p, p ∈ W ↔ IsWorking m.css m.b p := by
        intro p; simp [W, IsWorking, hF]
      have hCW : C ⊆ W := by
        intro x hx
        obtain ⟨t, -, rfl⟩ := List.mem_map.1 hx
        exact (memW _).2 (h.iter_working h1 t)
      have hlen : W.length = m.b - ((List.range m.b).filter fun p =>
          decide (follow (m.ch.map Change.swaps) p = p)).length := by
        have := List.length_eq_length_filter_add (l := List.range m.b)
          (fun p => decide (follow (m.ch.map Change.swaps) p = p))
        rw [List.length_range] at this
        have e : W = (List.range m.b).filter fun p => !decide (follow (m.ch.map Change.swaps) p = p) := by
          simp only [W]
          congr 1
          funext p
          simp [hF]
        rw [e]; omega
      rw [← hlen]
      have hCl : C.length = k0 := by simp [C]
      have memC : ∀ q k, iter F k p0 = q → q ∈ C := by
        rintro q k rfl
        refine List.mem_map.2 ⟨k % k0, List.mem_range.2 (Nat.mod_lt _ h2.1), ?_⟩
        have h0 : k = k % k0 + (k / k0) * k0 := by rw [Nat.mul_comm]; exact (Nat.mod_add_div k k0).symm
        conv_rhs => rw [h0, iter_add]
        rw [hF, h2.iter_mul]
      constructor
      · intro hlt
        have : ∃ q ∈ W, q ∉ C := by
          by_contra hne
          push Not at hne
          have := (List.subperm_of_subset hW (fun x hx => hne x hx)).length_le
          omega
        obtain ⟨q, hq, hq'⟩ := this
        exact ⟨p0, q, h1, (memW q).1 hq, fun k e => hq' (memC q k e)⟩
      · rintro ⟨p, q, a, b, c⟩
        by_contra hge
        have hperm : C.Perm W := (List.subperm_of_subset hC hCW).perm_of_length_le (by omega)
        obtain ⟨s, hs, hsp⟩ := List.mem_map.1 (hperm.mem_iff.2 ((memW p).2 a))
        obtain ⟨t, ht, htq⟩ := List.mem_map.1 (hperm.mem_iff.2 ((memW q).2 b))
        have hs := List.mem_range.1 hs
        have ht := List.mem_range.1 ht
        apply c (t + (k0 - s))
        rw [← hsp, ← iter_add, show t + (k0 - s) + s = t + k0 by omega, iter_add]
        rw [h2.2.1]; exact htq

end Method
end Ringing
