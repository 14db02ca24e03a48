import Verif.Lemmas.FalsenessAnalysis
import Verif.Props.Falseness
import Verif.Props.FalseSymbols
import Verif.Props.MethodPred

/-! C83: what methsearch says about the falseness of a method. -/
namespace Ringing
open Spec Row Falseness FalsenessAnalysis
namespace FalsenessAnalysis

/-- The rows at which a lead may start: the treble leads; and they are in course, if only these count. -/
def LeadHead (m : Method) (inCourseOnly : Bool) (r : Row) : Prop :=
  IsRow r ∧ r.length = m.b ∧ bellAt r 0 = 0 ∧ (inCourseOnly = true → Row.signC r = .ok 1)

/-- The leads starting from `r` and `s` have a row in common. -/
def MutuallyFalse (m : Method) (r s : Row) : Prop :=
  ∃ i, i < m.ch.length ∧ ∃ j, j < m.ch.length ∧ ∃ x,
    Method.applyAllC (m.ch.take i) r = .ok x ∧ Method.applyAllC (m.ch.take j) s = .ok x

/-- The lead heads can be divided into two classes so that leads that are false against each other start
from rows of different classes. -/
def Divides (m : Method) (inCourseOnly : Bool) : Prop :=
  ∃ S : Row → Prop, ∀ r s, LeadHead m inCourseOnly r → LeadHead m inCourseOnly s → r ≠ s → MutuallyFalse m r s → (S r ↔ ¬ S s)

theorem MutuallyFalse.symm {m : Method} {r s : Row} (h : MutuallyFalse m r s) : MutuallyFalse m s r := by
  obtain ⟨i, hi, j, hj, x, h1, h2⟩ := h
  exact ⟨j, hj, i, hi, x, h2, h1⟩

/-- C83: the search ends, and finds whether the lead heads can be divided into two classes without falseness
within a class. -/
theorem C83_divides {m : Method} (h0 : 0 < m.b) (hb : m.b ≤ 255) (hm : ∀ c ∈ m.ch, IsChange c.n c.swaps ∧ c.n = m.b)
    (ic : Bool) : ∃ N b, (∀ fuel, N ≤ fuel → analyseC fuel m ic = .ok b) ∧ (b = true ↔ Divides m ic) := by
  obtain ⟨flags, hfl⟩ : ∃ flags, flags = if ic = true then IN_COURSE_ONLY else 0 := ⟨_, rfl⟩
  have t0 : flags.testBit 0 = ic := by cases ic <;> subst hfl <;> rfl
  have t1 : flags.testBit 1 = false := by cases ic <;> subst hfl <;> rfl
  have t2 : flags.testBit 2 = false := by cases ic <;> subst hfl <;> rfl
  have t3 : flags.testBit 3 = false := by cases ic <;> subst hfl <;> rfl
  obtain ⟨t, ht, -, hmem⟩ := C34_methods (flags := flags) h0 hb hm hm rfl rfl (by simp [t2])
  have hsign : ∀ {r : Row}, Valid r → ((ic = true → Row.signC r = .ok 1) ↔ (ic = true → sign r = 1)) := by
    intro r hr; rw [signC_eq hr]; simp
  have hrow : ∀ {r}, LeadHead m ic r → Valid r ∧ r.length = m.b := fun h => ⟨(isRow_iff_valid _).1 h.1, h.2.1⟩
  have htab : ∀ {f}, f ∈ t → LeadHead m ic f := by
    intro f hf
    obtain ⟨h1, h2, ⟨h3, h4, -⟩, -⟩ := (hmem f).1 hf
    exact ⟨h1, h2, h3.resolve_left (by simp [t1]), by rw [t0] at h4; exact h4⟩
  have hmulLH : ∀ {r f}, LeadHead m ic r → LeadHead m ic f → LeadHead m ic (Row.mul r f) := by
    intro r f hr hf
    have vr := hrow hr
    have vf := hrow hf
    refine ⟨(isRow_iff_valid _).2 (valid_mul vr.1 vf.1), by simp [vr.2, vf.2], ?_, ?_⟩
    · have a := hr.2.2.1; have b := hf.2.2.1
      rw [bellAt_eq_fn] at a b ⊢
      rw [fn_mul, b, a]
    · rw [hsign (valid_mul vr.1 vf.1)]
      intro h
      rw [sign_mul vr.1 vf.1, (hsign vr.1).1 hr.2.2.2 h, (hsign vf.1).1 hf.2.2.2 h]; rfl
  have hrounds : LeadHead m ic (rounds m.b) := by
    have hv : Valid (rounds m.b) := valid_rounds (by omega)
    refine ⟨(isRow_iff_valid _).2 hv, by simp, by rw [bellAt_eq_fn, fn_rounds], ?_⟩
    rw [hsign hv]
    intro _
    have h1 := sign_mul hv hv
    rw [mul_rounds (by simp)] at h1
    rcases sign_sq hv with h | h
    · exact h
    · rw [h] at h1; omega
  have hinv : ∀ {q}, LeadHead m ic q → LeadHead m ic (Row.inverse q) := by
    intro q hq
    have vq := hrow hq
    refine ⟨(isRow_iff_valid _).2 (valid_inverse vq.1), by simp [vq.2], ?_, ?_⟩
    · have a := hq.2.2.1
      rw [bellAt_eq_fn] at a ⊢
      refine vq.1.fn_inj ?_
      rw [← fn_mul, mul_inverse vq.1, fn_rounds, a]
    · rw [hsign (valid_inverse vq.1)]
      intro h
      have h1 := sign_mul vq.1 (valid_inverse vq.1)
      have hr := (hsign (hrow hrounds).1).1 hrounds.2.2.2 h
      rw [mul_inverse vq.1, vq.2, hr, (hsign vq.1).1 hq.2.2.2 h] at h1
      omega
  have hfalse : ∀ {r s}, LeadHead m ic r → LeadHead m ic s → (MutuallyFalse m r s ↔ ∃ f ∈ t, Row.mul r f = s) := by
    intro r s hr hs
    obtain ⟨t', ht', h⟩ := C34_false (a := m) (b := m) (flags := flags) h0 hb hm hm rfl rfl t2 hr.1 hs.1 hr.2.1 hs.2.1
      (.inr (by rw [hr.2.2.1, hs.2.2.1])) (fun h => by rw [t0] at h; rw [hr.2.2.2 h, hs.2.2.2 h]) (fun h => by rw [t3] at h; cases h)
    rw [ht] at ht'
    cases ht'
    refine Iff.trans h ⟨?_, ?_⟩
    · rintro ⟨f, hf, e⟩
      rw [mulC_eq (hrow hr).1 (hrow (htab hf)).1] at e
      exact ⟨f, hf, Out.ok.inj e⟩
    · rintro ⟨f, hf, e⟩
      exact ⟨f, hf, by rw [mulC_eq (hrow hr).1 (hrow (htab hf)).1, e]⟩
  have hself : ∀ {r f}, LeadHead m ic r → f ∈ t → (Row.isrounds f = true ↔ Row.mul r f = r) := by
    intro r f hr hf
    have vr := hrow hr
    have vf := hrow (htab hf)
    constructor
    · intro h
      rw [isrounds_iff] at h
      rw [h, vf.2, mul_rounds (by omega)]
    · intro e
      rw [isrounds_iff_fn]
      intro i
      have h1 := congrArg (fun z => fn z i) e
      simp only [fn_mul] at h1
      exact vr.1.fn_inj h1
  have W : World (LeadHead m ic) t m.b :=
    ⟨fun h => hrow h, fun {r f} hr hf => ⟨mulC_eq (hrow hr).1 (hrow (htab hf)).1, hmulLH hr (htab hf)⟩⟩
  obtain ⟨N, b, hN, hbχ⟩ := root_spec W hrounds (fun {q r} hq hr => hmulLH (hinv hq) hr) (fun {q f} hq hf => by
    have h1 := (hfalse hq (hmulLH hq (htab hf))).2 ⟨f, hf, rfl⟩
    exact (hfalse (hmulLH hq (htab hf)) hq).1 h1.symm)
  refine ⟨N, b, fun fuel hf => ?_, hbχ.trans ?_⟩
  · obtain ⟨sg, e⟩ := hN fuel hf
    unfold analyseC
    rw [← hfl, C34_method, ht, Out.ok_bind, roundsC_eq (by omega), e, Out.ok_bind]
  · constructor
    · rintro ⟨χ, hp⟩
      refine ⟨fun r => χ r = 1, fun r s hr hs hne hfa => ?_⟩
      obtain ⟨f, hf, rfl⟩ := (hfalse hr hs).1 hfa
      have hfr : Row.isrounds f = false := by
        rw [Bool.eq_false_iff]
        intro h
        exact hne ((hself hr hf).1 h).symm
      show χ r = 1 ↔ ¬ χ (Row.mul r f) = 1
      rw [hp.step r hr f hf hfr]
      rcases hp.vals r with h | h <;> rw [h] <;> simp
    · rintro ⟨S, hS⟩
      classical
      refine ⟨fun r => if S r then 1 else -1, fun r => by split <;> simp, fun r hr f hf hfr => ?_⟩
      have hne : r ≠ Row.mul r f := by
        intro e
        rw [(hself hr hf).2 e.symm] at hfr; cases hfr
      have := hS r _ hr (hmulLH hr (htab hf)) hne ((hfalse hr (hmulLH hr (htab hf))).2 ⟨f, hf, rfl⟩)
      by_cases h : S r
      · rw [if_pos h, if_neg (this.1 h)]
      · rw [if_neg h, if_pos (by_contra fun h' => h (this.2 h'))]; rfl

/-- C83: `might_support_extent` of a method with a plain hunting treble. -/
theorem C83_extent {m : Method} (h0 : 0 < m.b) (hb : m.b ≤ 255) (hm : ∀ c ∈ m.ch, IsChange c.n c.swaps ∧ c.n = m.b)
    (hp : PlainHunts (m.ch.map Change.swaps) 0) :
    ∃ N b, (∀ fuel, N ≤ fuel → mightSupportExtentC fuel m = .ok b) ∧ (b = true ↔ Divides m false) := by
  obtain ⟨N, b, h1, h2⟩ := C83_divides h0 hb hm false
  refine ⟨N, b, fun fuel hf => ?_, h2⟩
  unfold mightSupportExtentC
  rw [if_neg (by rw [(C21_isplain hb hm (by omega)).2 hp]; simp), h1 fuel hf]

/-- C83: `might_support_positive_extent`. -/
theorem C83_positive {m : Method} (h0 : 0 < m.b) (hb : m.b ≤ 255) (hm : ∀ c ∈ m.ch, IsChange c.n c.swaps ∧ c.n = m.b) :
    ∃ N b, (∀ fuel, N ≤ fuel → mightSupportPositiveExtentC fuel m = .ok b) ∧ (b = true ↔ Divides m true) :=
  C83_divides h0 hb hm true

/-- C83: without a plain hunting treble the assertion of `might_support_extent` fails. -/
theorem C83_assert {m : Method} (hb : m.b ≤ 255) (hm : ∀ c ∈ m.ch, IsChange c.n c.swaps ∧ c.n = m.b)
    (hp : ¬ PlainHunts (m.ch.map Change.swaps) 0) (fuel : Nat) : mightSupportExtentC fuel m = .ub := by
  unfold mightSupportExtentC
  rw [if_pos]
  rw [Bool.eq_false_iff]
  intro h
  exact hp ((C21_isplain hb hm (by omega)).1 h)

/-! ### What this has to do with extents -/

/-- Leads starting from these rows are true and give every row. -/
def Extent (m : Method) (ic : Bool) (S : Row → Prop) : Prop :=
  (∀ s, S s → LeadHead m ic s) ∧ (∀ s s', S s → S s' → MutuallyFalse m s s' → s = s') ∧
  ∀ x, IsRow x → x.length = m.b → ∃ s, S s ∧ ∃ i, i < m.ch.length ∧ Method.applyAllC (m.ch.take i) s = .ok x

theorem hunts_twice {css : List (List Nat)} (h : PlainHunts css 0) : ∃ i, css.length = 2 * i + 2 ∧
    ∀ k, k < css.length → follow (css.take k) 0 = if k ≤ i then k else 2 * i + 1 - k := by
  obtain ⟨i, j, hij, hj, hl, hm⟩ := h
  have step : ∀ k, k < css.length → (follow (css.take (k + 1)) 0 : Int) = follow (css.take k) 0 +
      (if k = i ∨ k = j then 0 else if i < k ∧ k < j then -1 else 1) := by
    intro k hk
    have := hm k hk
    unfold move at this
    simp only [Nat.zero_mod, if_true] at this
    omega
  have p0 : (follow (css.take 0) 0 : Int) = 0 := by simp [follow]
  have a1 : ∀ k, k ≤ i → (follow (css.take k) 0 : Int) = k := by
    intro k
    induction k with
    | zero => intro _; exact p0
    | succ k ih =>
      intro hk
      rw [step k (by omega), ih (by omega), if_neg (by omega), if_neg (by omega)]; push_cast; rfl
  have a2 : ∀ d, i + 1 + d ≤ j → (follow (css.take (i + 1 + d)) 0 : Int) = i - d := by
    intro d
    induction d with
    | zero => intro _; rw [Nat.add_zero, step i (by omega), a1 i (le_refl _), if_pos (.inl rfl)]; simp
    | succ d ih =>
      intro hd
      rw [← Nat.add_assoc, step (i + 1 + d) (by omega), ih (by omega), if_neg (by omega), if_pos (by omega)]; push_cast; omega
  have a3 : ∀ d, j + 1 + d ≤ css.length → (follow (css.take (j + 1 + d)) 0 : Int) = 2 * i + 1 - j + d := by
    intro d
    have hj0 := a2 (j - (i + 1)) (by omega)
    rw [show i + 1 + (j - (i + 1)) = j by omega] at hj0
    induction d with
    | zero => intro _; rw [Nat.add_zero, step j hj, hj0, if_pos (.inr rfl)]; push_cast; omega
    | succ d ih =>
      intro hd
      rw [← Nat.add_assoc, step (j + 1 + d) (by omega), ih (by omega), if_neg (by omega), if_neg (by omega)]; push_cast; omega
  have e1 := a3 (css.length - (j + 1)) (by omega)
  rw [show j + 1 + (css.length - (j + 1)) = css.length by omega, List.take_length, hl] at e1
  have e2 := a2 (j - (i + 1)) (by omega)
  have hji : j = 2 * i + 1 ∧ css.length = j + 1 := by omega
  refine ⟨i, by omega, fun k hk => ?_⟩
  by_cases hki : k ≤ i
  · rw [if_pos hki]; have := a1 k hki; omega
  · rw [if_neg hki]
    have := a2 (k - (i + 1)) (by omega)
    rw [show i + 1 + (k - (i + 1)) = k by omega] at this
    omega

/-- C83: if leads of a method with a plain hunting treble make up an extent, `might_support_extent` says that it
might (and `might_support_positive_extent`, if they all start from rows in course). -/
theorem C83_necessary {m : Method} (h0 : 0 < m.b) (hb : m.b ≤ 255) (hm : ∀ c ∈ m.ch, IsChange c.n c.swaps ∧ c.n = m.b)
    (hp : PlainHunts (m.ch.map Change.swaps) 0) {ic : Bool} {S : Row → Prop} (hS : Extent m ic S) :
    ∃ N, ∀ fuel, N ≤ fuel → analyseC fuel m ic = .ok true := by
  obtain ⟨N, b, h1, h2⟩ := C83_divides h0 hb hm ic
  obtain ⟨s1, s2, s3⟩ := hS
  have key : Divides m ic := by
    refine ⟨S, fun r r' hr hr' hne hf => ?_⟩
    constructor
    · intro h h'; exact hne (s2 _ _ h h' hf)
    · intro h'
      by_contra h
      obtain ⟨i, hi, j, hj, x, e1, e2⟩ := hf
      have vr := (isRow_iff_valid _).1 hr.1
      have vr' := (isRow_iff_valid _).1 hr'.1
      have wf : ∀ i, ∀ c ∈ m.ch.take i, c.WF := fun i c hc => (hm c (List.mem_of_mem_take hc)).1
      rw [applyAllC_eq (wf _)] at e1 e2
      have hx : Valid x ∧ x.length = m.b := by
        cases e1
        exact ⟨valid_applyAll (wf i) vr, by
          rw [length_applyAll (b := m.b) (fun c hc => (hm c (List.mem_of_mem_take hc)).2.le) (by rw [hr.2.1])]; exact hr.2.1⟩
      obtain ⟨s, hs, k, hk, e3⟩ := s3 x ((isRow_iff_valid _).2 hx.1) hx.2
      have vs := (isRow_iff_valid _).1 (s1 s hs).1
      rw [applyAllC_eq (wf _)] at e3
      have pos : ∀ {q i}, Valid q → fn q 0 = 0 → Out.ok (applyAll q (m.ch.take i)) = Out.ok x →
          fn x (follow ((m.ch.map Change.swaps).take i) 0) = 0 := by
        intro q i _ hq e
        cases e
        rw [← List.map_take, fn_applyAll_follow (wf i), hq]
      have z : ∀ {q : Row}, bellAt q 0 = 0 → fn q 0 = 0 := fun h => by rwa [bellAt_eq_fn] at h
      have q1 := pos vr (z hr.2.2.1) e1
      have q2 := pos vr' (z hr'.2.2.1) e2
      have q3 := pos vs (z (s1 s hs).2.2.1) e3
      obtain ⟨d, hd, hT⟩ := hunts_twice hp
      rw [List.length_map] at hd hT
      have b12 : follow ((m.ch.map Change.swaps).take i) 0 = follow ((m.ch.map Change.swaps).take j) 0 := hx.1.fn_inj (q1.trans q2.symm)
      have b13 : follow ((m.ch.map Change.swaps).take i) 0 = follow ((m.ch.map Change.swaps).take k) 0 := hx.1.fn_inj (q1.trans q3.symm)
      rw [hT i hi, hT j hj] at b12
      rw [hT i hi, hT k hk] at b13
      have hinj : ∀ {q q' : Row} {i}, Valid q → Valid q' → q.length = m.b → q'.length = m.b →
          Out.ok (applyAll q (m.ch.take i)) = Out.ok x → Out.ok (applyAll q' (m.ch.take i)) = Out.ok x → q = q' := by
        intro q q' i hq hq' hl hl' a b
        have a := (Out.ok.inj a).trans (Out.ok.inj b).symm
        refine ext_fn (by rw [hl, hl']) fun p _ => ?_
        have := congrArg (fun z => fn z (follow ((m.ch.take i).map Change.swaps) p)) a
        simpa only [fn_applyAll_follow (wf i)] using this
      have cases3 : i = j ∨ k = i ∨ k = j := by
        split_ifs at b12 b13 <;> omega
      rcases cases3 with rfl | rfl | rfl
      · exact hne (hinj vr vr' hr.2.1 hr'.2.1 e1 e2)
      · exact h (hinj vr vs hr.2.1 (s1 s hs).2.1 e1 e3 ▸ hs)
      · exact h' (hinj vr' vs hr'.2.1 (s1 s hs).2.1 e2 e3 ▸ hs)
  refine ⟨N, fun fuel hf => ?_⟩
  rw [h1 fuel hf, h2.2 key]

/-! ### Clean proof scale -/

/-- The course from `c` has a row in common with the plain course, and is in course with the treble and the
tenor at home; so are the bells from the seventh on, if `tenors`. -/
def FalseCourse (m : Method) (tenors : Bool) (c : Row) : Prop :=
  IsRow c ∧ c.length = m.b ∧ bellAt c 0 = 0 ∧ bellAt c (m.b - 1) = m.b - 1 ∧ Row.signC c = .ok 1 ∧
  (tenors = true → ∀ i, 6 ≤ i → bellAt c i = i) ∧ ∃ x, InCourse m (roundsC m.b) x ∧ InCourse m c x

theorem falseCourses_spec {m : Method} {tenors : Bool} {flags : Nat} (hf : flags = if tenors = true then IN_COURSE_ONLY ||| TENORS_TOGETHER else IN_COURSE_ONLY)
    (h2 : 2 ≤ m.b) (hb : m.b ≤ 255) (hm : ∀ c ∈ m.ch, IsChange c.n c.swaps ∧ c.n = m.b) {lh : Row} (hlh : Method.lhC m = .ok lh)
    (h0 : bellAt lh 0 = 0) (hcyc : ∀ i, 0 < i → i < m.b → ∃ k, iter (bellAt lh) k (m.b - 1) = i) :
    ∃ N t, (∀ fuel, N ≤ fuel → falseCoursesC fuel m flags = .ok t) ∧ t.Nodup ∧ ∀ c, c ∈ t ↔ FalseCourse m tenors c := by
  obtain ⟨N, t, h1, h2, h3⟩ := C35_courses (flags := flags) h2 hb hm hlh h0 hcyc
  have b0 : flags.testBit 0 = true := by cases tenors <;> subst hf <;> rfl
  have b1 : flags.testBit 1 = tenors := by cases tenors <;> subst hf <;> rfl
  refine ⟨N, t, h1, h2.imp fun {a b} h e => ?_, fun c => (h3 c).trans ?_⟩
  · subst e
    exact absurd h (by unfold LexLt; rintro ⟨i, h⟩; simp at h)
  · rw [b0, b1]
    constructor
    · rintro ⟨a1, a2, a3, a4, a5, a6, a7⟩; exact ⟨a1, a2, a3, a4, a5 rfl, a6, a7⟩
    · rintro ⟨a1, a2, a3, a4, a5, a6, a7⟩; exact ⟨a1, a2, a3, a4, fun _ => a5, a6, a7⟩

theorem one_iff {t : List Row} {x : Row} (hn : t.Nodup) (hx : x ∈ t) : t.length = 1 ↔ ∀ c ∈ t, c = x := by
  match t with
  | [] => cases hx
  | [a] => simp at hx; subst hx; simp
  | a :: b :: l =>
    simp only [List.length_cons]
    constructor
    · intro h; omega
    · intro h
      have h1 := h a (by simp)
      have h2 := h b (by simp)
      simp [h1, h2] at hn

theorem two_iff {t : List Row} {x : Row} (hn : t.Nodup) (hx : x ∈ t) : t.length = 2 ↔ ∃ y, y ≠ x ∧ ∀ c, c ∈ t ↔ c = x ∨ c = y := by
  constructor
  · intro h
    match t with
    | [a, b] =>
      simp only [List.nodup_cons, List.mem_singleton] at hn
      rcases List.mem_cons.1 hx with rfl | hx
      · exact ⟨b, Ne.symm hn.1, fun c => by simp⟩
      · rw [List.mem_singleton] at hx; subst hx
        exact ⟨a, hn.1, fun c => by simp [or_comm]⟩
  · rintro ⟨y, hy, h⟩
    have : t.Perm [x, y] := (List.perm_ext_iff_of_nodup hn (by simp [Ne.symm hy])).2 (fun c => by rw [h]; simp)
    exact this.length_eq

theorem plain_false {m : Method} {tenors : Bool} (h2 : 2 ≤ m.b) (hb : m.b ≤ 255) (hne : m.ch ≠ []) : FalseCourse m tenors (roundsC m.b) := by
  have hv : Valid (rounds m.b) := valid_rounds (by omega)
  have hs : sign (rounds m.b) = 1 := by
    have h1 := sign_mul hv hv
    rw [mul_rounds (by simp)] at h1
    rcases sign_sq hv with h | h
    · exact h
    · rw [h] at h1; omega
  rw [roundsC_eq (by omega)]
  refine ⟨(isRow_iff_valid _).2 hv, by simp, by rw [bellAt_eq_fn, fn_rounds], by rw [bellAt_eq_fn, fn_rounds],
    by rw [signC_eq hv, hs], fun _ i _ => by rw [bellAt_eq_fn, fn_rounds], rounds m.b, ?_⟩
  rw [roundsC_eq (by omega)]
  have : InCourse m (rounds m.b) (rounds m.b) := ⟨0, 0, List.length_pos_iff.2 hne, by simp [Method.applyAllC]⟩
  exact ⟨this, this⟩

/-- C83: `is_cps` of a method on eight bells or more: no course in course with the tenors together is false against
the plain course. -/
theorem C83_cps {m : Method} (h8 : 8 ≤ m.b) (hb : m.b ≤ 255) (hm : ∀ c ∈ m.ch, IsChange c.n c.swaps ∧ c.n = m.b)
    (hne : m.ch ≠ []) {lh : Row} (hlh : Method.lhC m = .ok lh) (h0 : bellAt lh 0 = 0)
    (hcyc : ∀ i, 0 < i → i < m.b → ∃ k, iter (bellAt lh) k (m.b - 1) = i) :
    ∃ N b, (∀ fuel, N ≤ fuel → isCpsC fuel m = .ok b) ∧ (b = true ↔ ∀ c, FalseCourse m true c → c = roundsC m.b) := by
  obtain ⟨N, t, h1, h2, h3⟩ := falseCourses_spec (tenors := true) rfl (by omega) hb hm hlh h0 hcyc
  have hr : roundsC m.b ∈ t := (h3 _).2 (plain_false (by omega) hb hne)
  refine ⟨N, decide (t.length = 1), fun fuel hf => ?_, ?_⟩
  · unfold isCpsC
    rw [if_pos rfl] at h1
    rw [if_pos h8, h1 fuel hf, Out.ok_bind]
  · rw [decide_eq_true_iff, one_iff h2 hr]
    exact forall_congr' fun c => by rw [h3]

/-- C83: `is_cps` of a method on fewer bells: one course in course, or none if the last change has an odd number of swaps,
is false against the plain course. -/
theorem C83_cps_small {m : Method} (h2 : 2 ≤ m.b) (h8 : m.b < 8) (hm : ∀ c ∈ m.ch, IsChange c.n c.swaps ∧ c.n = m.b)
    {last : Change} (hl : m.ch.getLast? = some last) {lh : Row} (hlh : Method.lhC m = .ok lh) (h0 : bellAt lh 0 = 0)
    (hcyc : ∀ i, 0 < i → i < m.b → ∃ k, iter (bellAt lh) k (m.b - 1) = i) :
    ∃ N b, (∀ fuel, N ≤ fuel → isCpsC fuel m = .ok b) ∧
      (last.swaps.length % 2 = 1 → (b = true ↔ ∀ c, FalseCourse m false c → c = roundsC m.b)) ∧
      (last.swaps.length % 2 = 0 → (b = true ↔ ∃ d, d ≠ roundsC m.b ∧ ∀ c, FalseCourse m false c ↔ c = roundsC m.b ∨ c = d)) := by
  have hne : m.ch ≠ [] := by rintro e; rw [e] at hl; cases hl
  obtain ⟨N, t, h1, hn, h3⟩ := falseCourses_spec (tenors := false) rfl h2 (by omega) hm hlh h0 hcyc
  have hr : roundsC m.b ∈ t := (h3 _).2 (plain_false h2 (by omega) hne)
  have hn0 : last.n ≠ 0 := by rw [(hm last (List.mem_of_getLast? hl)).2]; omega
  refine ⟨N, if last.sign = 1 then decide (t.length = 2) else decide (t.length = 1), fun fuel hf => ?_, fun h => ?_, fun h => ?_⟩
  · unfold isCpsC
    rw [if_neg (by simp)] at h1
    rw [if_neg (by omega), h1 fuel hf, Out.ok_bind, hl]
    simp only
    split <;> rfl
  · have : last.sign ≠ 1 := by simp [Change.sign, h, hn0]
    rw [if_neg this, decide_eq_true_iff, one_iff hn hr]
    exact forall_congr' fun c => by rw [h3]
  · have : last.sign = 1 := by simp [Change.sign, h, hn0]
    rw [if_pos this, decide_eq_true_iff, two_iff hn hr]
    exact exists_congr fun d => and_congr_right fun _ => forall_congr' fun c => by rw [h3]

/-- C83: `is_cps` of an empty method on fewer than eight bells looks for its last change. -/
theorem C83_cps_empty {m : Method} (h8 : m.b < 8) (he : m.ch = []) (fuel : Nat) : ¬ ∃ b, isCpsC fuel m = .ok b := by
  rintro ⟨b, h⟩
  unfold isCpsC at h
  rw [if_neg (by omega), he] at h
  cases hq : falseCoursesC fuel m IN_COURSE_ONLY with
  | ok t => rw [hq, Out.ok_bind] at h; cases h
  | ub => rw [hq] at h; cases h
  | throw e => rw [hq] at h; cases h
  | timeout => rw [hq] at h; cases h

/-! ### False course heads -/

/-- C83: `falseness_group_codes` of a method on an even number of bells from ten on: the codes of the courses with the
tenors together that are false against the plain course. -/
theorem C83_codes {c : Option Table} (hc : Cached c) {m : Method} (he : m.b % 2 = 0) (h8 : 8 < m.b)
    (hb : m.b ≤ 255) (hm : ∀ c ∈ m.ch, IsChange c.n c.swaps ∧ c.n = m.b) {lh : Row} (hlh : Method.lhC m = .ok lh)
    (h0 : bellAt lh 0 = 0) (hcyc : ∀ i, 0 < i → i < m.b → ∃ k, iter (bellAt lh) k (m.b - 1) = i) {i : Nat}
    (hi : Row.ispblh0C lh = .ok i) (hi0 : i ≠ 0) :
    ∃ (N : Nat) (ns : List (List Char)), (∀ fuel, N ≤ fuel → falsenessGroupCodesC fuel c m = .ok ns.flatten) ∧ ns.Pairwise (· < ·) ∧
      ∀ n, n ∈ ns ↔ ∃ r, HasSymbol m.b n r ∧ IsRow r ∧ r.length = m.b ∧ bellAt r 0 = 0 ∧
        (∀ i, 6 ≤ i → bellAt r i = i) ∧ ∃ x, InCourse m (Row.roundsC m.b) x ∧ InCourse m r x := by
  obtain ⟨N, t, ns, h1, h2, h3, h4⟩ := C67_method (flags := TENORS_TOGETHER) hc he (by omega) hb hm hlh h0 hcyc hi hi0 rfl
  refine ⟨N, ns, fun fuel hf => ?_, h3, fun n => (h4 n).trans ?_⟩
  · unfold falsenessGroupCodesC
    rw [if_neg (by omega), h1 fuel hf, Out.ok_bind, hlh, Out.ok_bind, h2]
  · refine exists_congr fun r => ?_
    have : Nat.testBit TENORS_TOGETHER 0 = false := rfl
    rw [this]; simp

/-- C83: on eight bells courses with the tenors apart are also looked at. -/
theorem C83_codes8 {c : Option Table} (hc : Cached c) {m : Method} (h8 : m.b = 8)
    (hm : ∀ c ∈ m.ch, IsChange c.n c.swaps ∧ c.n = m.b) {lh : Row} (hlh : Method.lhC m = .ok lh)
    (h0 : bellAt lh 0 = 0) (hcyc : ∀ i, 0 < i → i < m.b → ∃ k, iter (bellAt lh) k (m.b - 1) = i) {i : Nat}
    (hi : Row.ispblh0C lh = .ok i) (hi0 : i ≠ 0) :
    ∃ (N : Nat) (ns : List (List Char)), (∀ fuel, N ≤ fuel → falsenessGroupCodesC fuel c m = .ok ns.flatten) ∧ ns.Pairwise (· < ·) ∧
      ∀ n, n ∈ ns ↔ ∃ r, HasSymbol 8 n r ∧ ((∀ i, 6 ≤ i → bellAt r i = i) ∨ ∃ g ∈ splitTenors, r = courseHead 8 g.2) ∧
        IsRow r ∧ r.length = 8 ∧ bellAt r 0 = 0 ∧ bellAt r 7 = 7 ∧
        ∃ x, InCourse m (Row.roundsC 8) x ∧ InCourse m r x := by
  obtain ⟨N, t, h1, -, h3⟩ := C35_courses (flags := 0) (by omega) (by omega) hm hlh h0 hcyc
  have hl : lh.length = m.b := by
    have wm : m.WF := ⟨by omega, hm⟩
    rw [wm.lhC_eq] at hlh
    injection hlh with hlh
    exact hlh ▸ wm.lh_length
  obtain ⟨ns, q1, q2, q3⟩ := C67_symbols (flags := 0) hc hl (by omega) (by omega) (by omega) (Or.inr h8) hi hi0
    (fun r hr => by obtain ⟨a1, a2, a3, -⟩ := (h3 r).1 hr; exact ⟨a1, a2, a3⟩)
  refine ⟨N, ns, fun fuel hf => ?_, q2, fun n => ?_⟩
  · unfold falsenessGroupCodesC
    rw [if_pos h8, h1 fuel hf, Out.ok_bind, hlh, Out.ok_bind, q1]
  · rw [q3]
    rw [h8] at h3 ⊢
    constructor
    · rintro ⟨r, hr, hs, ht⟩
      obtain ⟨a1, a2, a3, a4, a5, a6, a7⟩ := (h3 r).1 hr
      exact ⟨r, hs, ht.imp id (·.2), a1, a2, a3, a4, a7⟩
    · rintro ⟨r, hs, ht, a1, a2, a3, a4, a5⟩
      exact ⟨r, (h3 r).2 ⟨a1, a2, a3, a4, by simp, by simp, a5⟩, hs, ht.imp id (⟨rfl, ·⟩)⟩

/-! ### Concrete cases -/

/-- Plain Bob Minimus might give an extent with calls of a single change; it has a clean proof scale. -/
example : mightSupportExtentC 30 plainBob4 = .ok true ∧ mightSupportPositiveExtentC 30 plainBob4 = .ok true ∧
    isCpsC 30 plainBob4 = .ok true := by decide +kernel

/-- Plain Bob Minimus with 34 made before the lead end. -/
def odd4 : Method :=
  ⟨4, [⟨4, [0, 2]⟩, ⟨4, [1]⟩, ⟨4, [0, 2]⟩, ⟨4, [1]⟩, ⟨4, [0, 2]⟩, ⟨4, [1]⟩, ⟨4, [0]⟩, ⟨4, [1]⟩]⟩

theorem odd4_ok : ∀ c ∈ odd4.ch, IsChange c.n c.swaps ∧ c.n = 4 := by
  simp only [odd4, List.forall_mem_cons, List.not_mem_nil, false_imp_iff, implies_true, and_true]
  refine ⟨?_, ?_, ?_, ?_, ?_, ?_, ?_, ?_⟩ <;> simp [IsChange]

example : mightSupportExtentC 30 odd4 = .ok false ∧ mightSupportPositiveExtentC 30 odd4 = .ok false := by decide +kernel

theorem plainBob4_hunts : PlainHunts (plainBob4.ch.map Change.swaps) 0 :=
  ⟨3, 7, by decide, by decide, by decide, by decide⟩
theorem odd4_hunts : PlainHunts (odd4.ch.map Change.swaps) 0 :=
  ⟨3, 7, by decide, by decide, by decide, by decide⟩

/-- Both meet the hypotheses of `C83_extent`. -/
example : ∃ N b, (∀ fuel, N ≤ fuel → mightSupportExtentC fuel plainBob4 = .ok b) ∧ (b = true ↔ Divides plainBob4 false) :=
  C83_extent (by decide) (by decide) plainBob4_ok plainBob4_hunts
example : ∃ N b, (∀ fuel, N ≤ fuel → mightSupportExtentC fuel odd4 = .ok b) ∧ (b = true ↔ Divides odd4 false) :=
  C83_extent (by decide) (by decide) odd4_ok odd4_hunts
example : ∃ N b, (∀ fuel, N ≤ fuel → mightSupportPositiveExtentC fuel odd4 = .ok b) ∧ (b = true ↔ Divides odd4 true) :=
  C83_positive (by decide) (by decide) odd4_ok

/-- The changes of Original Minimus do not take the treble on a plain hunt once. -/
example (fuel : Nat) : mightSupportExtentC fuel ⟨4, [⟨4, [0, 2]⟩, ⟨4, [1]⟩]⟩ = .ub :=
  C83_assert (by decide) (by
    simp only [List.forall_mem_cons, List.not_mem_nil, false_imp_iff, implies_true, and_true]
    refine ⟨?_, ?_⟩ <;> simp [IsChange]) (by
    rintro ⟨i, j, -, -, h, -⟩
    exact absurd h (by decide)) fuel

def leads4 : List Row := [[0, 1, 2, 3], [0, 2, 3, 1], [0, 3, 1, 2]]

/-- Three leads of Plain Bob Minimus are an extent. -/
theorem extent4 : Extent plainBob4 true (· ∈ leads4) := by
  refine ⟨?_, ?_, ?_⟩
  · intro s hs
    have : ∀ s ∈ leads4, Valid s ∧ s.length = 4 ∧ bellAt s 0 = 0 ∧ Row.signC s = .ok 1 := by decide +kernel
    obtain ⟨h1, h2, h3, h4⟩ := this s hs
    exact ⟨(isRow_iff_valid _).2 h1, h2, h3, fun _ => h4⟩
  · rintro s s' hs hs' ⟨i, hi, j, hj, x, h1, h2⟩
    have : ∀ s ∈ leads4, ∀ s' ∈ leads4, ∀ i, i < 8 → ∀ j, j < 8 →
        Method.applyAllC (plainBob4.ch.take i) s = Method.applyAllC (plainBob4.ch.take j) s' → s = s' := by decide +kernel
    exact this s hs s' hs' i hi j hj (h1.trans h2.symm)
  · intro x hx hl
    have hl : x.length = 4 := hl
    have hv := (isRow_iff_valid _).1 hx
    have : ∀ x ∈ (List.range 4).permutations', ∃ s ∈ leads4, ∃ i, i < 8 ∧ Method.applyAllC (plainBob4.ch.take i) s = .ok x := by
      decide +kernel
    exact this x (List.mem_permutations'.2 (hl ▸ hv.1))

example : ∃ N, ∀ fuel, N ≤ fuel → analyseC fuel plainBob4 true = .ok true :=
  C83_necessary (by decide) (by decide) plainBob4_ok plainBob4_hunts extent4

/-- Plain Bob Minimus meets the hypotheses of `C83_cps_small`: its last change has an odd number of swaps. -/
example : ∃ N b, (∀ fuel, N ≤ fuel → isCpsC fuel plainBob4 = .ok b) ∧
      ([2].length % 2 = 1 → (b = true ↔ ∀ c, FalseCourse plainBob4 false c → c = roundsC 4)) ∧
      ([2].length % 2 = 0 → (b = true ↔ ∃ d, d ≠ roundsC 4 ∧ ∀ c, FalseCourse plainBob4 false c ↔ c = roundsC 4 ∨ c = d)) :=
  C83_cps_small (m := plainBob4) (last := ⟨4, [2]⟩) (lh := [0, 2, 3, 1]) (by decide) (by decide) plainBob4_ok rfl
    (by decide +kernel) (by decide)
    (fun i h0 h4 => by
      have : i < 4 := h4
      interval_cases i
      · exact ⟨1, by decide⟩
      · exact ⟨2, by decide⟩
      · exact ⟨0, by decide⟩)

example (fuel : Nat) : ¬ ∃ b, isCpsC fuel ⟨6, []⟩ = .ok b := C83_cps_empty (by decide) rfl fuel

/-- Plain Bob Major. -/
def bob8 : Method :=
  ⟨8, [⟨8, [0, 2, 4, 6]⟩, ⟨8, [1, 3, 5]⟩, ⟨8, [0, 2, 4, 6]⟩, ⟨8, [1, 3, 5]⟩, ⟨8, [0, 2, 4, 6]⟩, ⟨8, [1, 3, 5]⟩,
    ⟨8, [0, 2, 4, 6]⟩, ⟨8, [1, 3, 5]⟩, ⟨8, [0, 2, 4, 6]⟩, ⟨8, [1, 3, 5]⟩, ⟨8, [0, 2, 4, 6]⟩, ⟨8, [1, 3, 5]⟩,
    ⟨8, [0, 2, 4, 6]⟩, ⟨8, [1, 3, 5]⟩, ⟨8, [0, 2, 4, 6]⟩, ⟨8, [2, 4, 6]⟩]⟩

theorem bob8_ok : ∀ c ∈ bob8.ch, IsChange c.n c.swaps ∧ c.n = 8 := by
  simp only [bob8, List.forall_mem_cons, List.not_mem_nil, false_imp_iff, implies_true, and_true]
  refine ⟨?_, ?_, ?_, ?_, ?_, ?_, ?_, ?_, ?_, ?_, ?_, ?_, ?_, ?_, ?_, ?_⟩ <;> simp [IsChange]

theorem bob8_cyc : ∀ i, 0 < i → i < bob8.b → ∃ k, iter (bellAt [0, 2, 4, 1, 6, 3, 7, 5]) k (bob8.b - 1) = i := by
  intro i h0 h8
  have : i < 8 := h8
  interval_cases i
  · exact ⟨3, by decide⟩
  · exact ⟨4, by decide⟩
  · exact ⟨2, by decide⟩
  · exact ⟨5, by decide⟩
  · exact ⟨1, by decide⟩
  · exact ⟨6, by decide⟩
  · exact ⟨0, by decide⟩

example : ∃ N b, (∀ fuel, N ≤ fuel → isCpsC fuel bob8 = .ok b) ∧ (b = true ↔ ∀ c, FalseCourse bob8 true c → c = roundsC 8) :=
  C83_cps (m := bob8) (lh := [0, 2, 4, 1, 6, 3, 7, 5]) (by decide) (by decide) bob8_ok (by decide) (by decide +kernel) (by decide) bob8_cyc

set_option maxRecDepth 100000 in
example : isCpsC 20 bob8 = .ok true := by decide +kernel

example : ∃ (N : Nat) (ns : List (List Char)), (∀ fuel, N ≤ fuel → falsenessGroupCodesC fuel none bob8 = .ok ns.flatten) ∧ ns.Pairwise (· < ·) ∧
      ∀ n, n ∈ ns ↔ ∃ r, HasSymbol 8 n r ∧ ((∀ i, 6 ≤ i → bellAt r i = i) ∨ ∃ g ∈ splitTenors, r = courseHead 8 g.2) ∧
        IsRow r ∧ r.length = 8 ∧ bellAt r 0 = 0 ∧ bellAt r 7 = 7 ∧
        ∃ x, InCourse bob8 (Row.roundsC 8) x ∧ InCourse bob8 r x :=
  C83_codes8 (m := bob8) (lh := [0, 2, 4, 1, 6, 3, 7, 5]) (i := 1) .none rfl bob8_ok (by decide +kernel) (by decide) bob8_cyc
    (by decide +kernel) (by decide)

end FalsenessAnalysis
end Ringing
