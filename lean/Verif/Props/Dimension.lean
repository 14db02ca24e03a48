import Verif.Lemmas.Dimension
import Verif.Props.LibraryOut

/-! C88: lengths with a unit. -/
namespace Ringing
namespace Dim
open Spec Bell

theorem unit_facts : ∀ p ∈ unitNames, unitNames.lookup p.1 = some p.2 ∧ p.1 ≠ [] ∧ (∀ c ∈ p.1, isSpace c = false) ∧
    (p.1.head? ≠ some '/' ∧ p.1.head? ≠ some '.' ∧ p.1.head?.any isDigit = false) := by decide

theorem named {u : Units} : ∀ {U : List Char}, U ∈ namesOf u → (U, u) ∈ unitNames := by
  cases u <;> decide

theorem named_of : ∀ p ∈ unitNames, p.1 ∈ namesOf p.2 := by decide

/-- The end of a text: a unit, then nothing or something after white space. -/
structure Ends (E : List Char) (u : Units) : Prop where
  ex : ∃ w U tail, E = w ++ (U ++ tail) ∧ Blanks w ∧ U ∈ namesOf u ∧ ∀ c, tail.head? = some c → Space c

theorem takeWhile_unit {U tail : List Char} (hU : ∀ c ∈ U, isSpace c = false) (ht : ∀ c, tail.head? = some c → Space c) :
    (U ++ tail).takeWhile (fun c => !isSpace c) = U := by
  induction U with
  | nil =>
    cases tail with
    | nil => rfl
    | cons c t => rw [List.nil_append, List.takeWhile_cons_of_neg]; simp [(isSpace_iff c).2 (ht c rfl)]
  | cons c U ih =>
    rw [List.cons_append, List.takeWhile_cons_of_pos (by simp [hU c (by simp)]), ih fun c h => hU c (by simp [h])]

theorem unit_head {U tail : List Char} {u : Units} (h : (U, u) ∈ unitNames) : ∃ c s, U ++ tail = c :: s ∧ ¬Space c ∧ ¬Digit c ∧ c ≠ '/' ∧ c ≠ '.' := by
  obtain ⟨-, h2, h3, h4, h5, h6⟩ := unit_facts _ h
  simp only at h2 h3 h4 h5 h6
  cases U with
  | nil => exact absurd rfl h2
  | cons c U =>
    refine ⟨c, U ++ tail, rfl, ?_, ?_, ?_, ?_⟩
    · rw [← isSpace_iff, h3 c (by simp)]; simp
    · rw [← isDigit_iff]; simpa using h6
    · simpa using h4
    · simpa using h5

theorem Ends.units {E : List Char} {u : Units} (h : Ends E u) : unitsC E = .ok u := by
  obtain ⟨w, U, tail, rfl, hw, hU, ht⟩ := h.ex
  obtain ⟨h1, -, h3, -⟩ := unit_facts _ (named hU)
  obtain ⟨c, s, hc, hns, -⟩ := unit_head (tail := tail) (named hU)
  unfold unitsC
  rw [dropSpace hw (by rw [hc]; intro c' h'; cases h'; exact hns), takeWhile_unit h3 ht, h1]

theorem Ends.head {E : List Char} {u : Units} (h : Ends E u) : ∀ c, E.head? = some c → ¬Digit c ∧ c ≠ '.' := by
  obtain ⟨w, U, tail, rfl, hw, hU, ht⟩ := h.ex
  obtain ⟨c, s, hc, -, hd, -, hp⟩ := unit_head (tail := tail) (named hU)
  intro c' h'
  cases w with
  | nil => rw [List.nil_append, hc] at h'; cases h'; exact ⟨hd, hp⟩
  | cons x w =>
    rw [List.cons_append, List.head?_cons, Option.some.injEq] at h'
    subst h'
    have := hw x (by simp)
    exact ⟨fun hd => digit_not_space hd this, by rintro rfl; revert this; unfold Space; decide⟩

theorem Ends.drop {E : List Char} {u : Units} (h : Ends E u) :
    Ends (E.dropWhile isSpace) u ∧ ∃ c s, E.dropWhile isSpace = c :: s ∧ ¬Digit c ∧ c ≠ '/' := by
  obtain ⟨w, U, tail, rfl, hw, hU, ht⟩ := h.ex
  obtain ⟨c, s, hc, hns, hd, hp, -⟩ := unit_head (tail := tail) (named hU)
  rw [dropSpace hw (by rw [hc]; intro c' h'; cases h'; exact hns)]
  exact ⟨⟨⟨[], U, tail, rfl, (by intro c hc; cases hc), hU, ht⟩⟩, c, s, hc, hd, hp⟩

theorem finish_spec {neg : Bool} {p q : Nat} {E : List Char} {u : Units} (hE : Ends E u) (hp : p < 2 ^ 31) (hq : q < 2 ^ 31) (hq0 : q ≠ 0) :
    ∃ x, finishC neg p q E = .ok x ∧ x.u = u ∧ Lowest x (if neg then -(p : Int) else p) q := by
  unfold finishC
  rw [hE.units, Out.ok_bind]
  exact reduceC_spec (by split <;> omega) (by split <;> omega) (by omega) (by omega) (by omega)

theorem num_head {A e : List Char} (hA : Num A) : ∃ c s, A ++ e = c :: s ∧ Digit c := by
  obtain ⟨h0, h1⟩ := hA
  cases A with
  | nil => exact absurd rfl h0
  | cons c A => exact ⟨c, A ++ e, rfl, h1 c (by simp)⟩

theorem drop_num {w A e : List Char} (hw : Blanks w) (hA : Num A) : (w ++ (A ++ e)).dropWhile isSpace = A ++ e := by
  obtain ⟨c, s, hc, hd⟩ := num_head (e := e) hA
  exact dropSpace hw (by rw [hc]; intro c' h'; cases h'; exact digit_not_space hd)

theorem drop_slash {w e : List Char} (hw : Blanks w) : (w ++ '/' :: e).dropWhile isSpace = '/' :: e :=
  dropSpace hw (by intro c' h'; cases h'; unfold Space; decide)

theorem denominator_spec {w A e : List Char} (hw : Blanks w) (hA : Num A) (he : ∀ c, e.head? = some c → ¬Digit c) (h : number A < 2 ^ 31) :
    denominatorC (w ++ (A ++ e)) = .ok ((number A : Int), e) := by
  unfold denominatorC
  rw [drop_num hw hA, numberC_spec hA he h]

theorem number_le_append (A B : List Char) : number A ≤ number (A ++ B) := by
  rw [number_append]
  have := Nat.le_mul_of_pos_right (number A) (pow_pos10 B.length)
  omega

theorem slash_after {w e : List Char} (hw : Blanks w) : ∀ c, (w ++ '/' :: e).head? = some c → ¬Digit c ∧ c ≠ '.' := by
  intro c hc
  cases w with
  | nil => cases hc; unfold Digit; decide
  | cons x w =>
    rw [List.cons_append, List.head?_cons, Option.some.injEq] at hc
    subst hc
    have := hw x (by simp)
    exact ⟨fun hd => digit_not_space hd this, by rintro rfl; revert this; unfold Space; decide⟩

/-- C88: a number of any of the four forms (an integer, a decimal number, a fraction, an integer and a fraction), with a sign and
white space, and a unit is read as its value in lowest terms, if it fits into an `int`. -/
theorem C88_read {t w0 w1 E : List Char} {sg : List Char} {p q : Nat} {u : Units} (ht : Form t p q) (hE : Ends E u)
    (h0 : Blanks w0) (h1 : Blanks w1) (hs : sg = [] ∨ sg = ['-']) (hp : p < 2 ^ 31) (hq : q < 2 ^ 31) (hq0 : q ≠ 0) :
    ∃ x, readC (w0 ++ (sg ++ (w1 ++ (t ++ E)))) = .ok x ∧ x.u = u ∧ Lowest x (if sg = [] then (p : Int) else -p) q := by
  have core : ∀ {A r : List Char}, Num A → (∀ c, r.head? = some c → ¬Digit c) → number A < 2 ^ 31 →
      readC (w0 ++ (sg ++ (w1 ++ (A ++ r)))) = restC (decide (sg ≠ [])) (number A) r := by
    intro A r hA hr hlt
    obtain ⟨c, s, hc, hd⟩ := num_head (e := r) hA
    unfold readC
    rcases hs with rfl | rfl
    · rw [List.nil_append, ← List.append_assoc, drop_num (by intro c hc; rcases List.mem_append.1 hc with h | h; exact h0 c h; exact h1 c h) hA]
      have hh : decide ((A ++ r).head? = some '-') = false := by
        rw [hc]; simp only [List.head?_cons, Option.some.injEq, decide_eq_false_iff_not]
        rintro rfl; revert hd; unfold Digit; decide
      simp only [hh, Bool.false_eq_true, if_false]
      rw [show (A ++ r).dropWhile isSpace = A ++ r from drop_num (w := []) (by intro c hc; cases hc) hA, numberC_spec hA hr hlt, Out.ok_bind]
      rfl
    · rw [show w0 ++ (['-'] ++ (w1 ++ (A ++ r))) = w0 ++ '-' :: (w1 ++ (A ++ r)) from rfl, dropSpace h0 (by intro c hc; cases hc; unfold Space; decide)]
      simp only [List.head?_cons, decide_true, if_true, List.tail_cons]
      rw [drop_num h1 hA, numberC_spec hA hr hlt, Out.ok_bind]
      rfl
  have hsg : (if sg = [] then (p : Int) else -p) = if decide (sg ≠ []) = true then -(p : Int) else p := by
    rcases hs with rfl | rfl <;> simp
  rw [hsg]
  cases ht with
  | @whole A hA =>
    rw [core hA (fun c h => (hE.head c h).1) hp]
    obtain ⟨hE', c, s, hc, hd, hsl⟩ := hE.drop
    unfold restC
    rw [if_neg (fun h => (hE.head '.' h).2 rfl)]
    simp only
    rw [if_neg (by rw [hc]; simpa [isDigit_iff] using hd), if_neg (by rw [hc]; simpa using hsl)]
    exact finish_spec hE' hp (by omega) (by omega)
  | @decimal A B hA hB =>
    rw [List.append_assoc, core hA (by intro c hc; cases hc; unfold Digit; decide) (Nat.lt_of_le_of_lt (number_le_append _ _) hp)]
    unfold restC
    rw [List.cons_append, if_pos List.head?_cons, List.tail_cons]
    rw [number_append] at hp
    have hpt := pointC_spec hB (fun c h => (hE.head c h).1) (a := number A) (b := 1) hp (by omega)
    rw [Nat.cast_one] at hpt
    rw [hpt, Out.ok_bind, Nat.one_mul, number_append]
    exact finish_spec hE hp hq hq0
  | @fraction A B v1 v2 hA hB hv1 hv2 =>
    rw [List.append_assoc, List.append_assoc, List.cons_append, List.append_assoc, core hA (fun c h => (slash_after hv1 c h).1) hp]
    unfold restC
    rw [if_neg (fun h => (slash_after hv1 '.' h).2 rfl)]
    simp only
    rw [drop_slash hv1, if_neg (by simp only [List.head?_cons, Option.any_some]; decide), if_pos List.head?_cons, List.tail_cons,
      denominator_spec hv2 hB (fun c h => (hE.head c h).1) hq, Out.ok_bind]
    exact finish_spec hE hp hq hq0
  | @mixed A B C v1 v2 v3 hA hB hC hv1 hne hv2 hv3 =>
    have hAp : number A < 2 ^ 31 := by
      have := Nat.le_mul_of_pos_right (number A) (Nat.pos_of_ne_zero hq0); omega
    simp only [List.append_assoc, List.cons_append]
    have hv : ∀ e : List Char, ∀ c, (v1 ++ e).head? = some c → ¬Digit c ∧ c ≠ '.' := by
      intro e c hc
      cases v1 with
      | nil => exact absurd rfl hne
      | cons x w =>
        rw [List.cons_append, List.head?_cons, Option.some.injEq] at hc
        subst hc
        have := hv1 x (by simp)
        exact ⟨fun hd => digit_not_space hd this, by rintro rfl; revert this; unfold Space; decide⟩
    rw [core hA (fun c h => (hv _ c h).1) hAp]
    unfold restC
    rw [if_neg (fun h => (hv _ '.' h).2 rfl)]
    simp only
    obtain ⟨c, s, hc, hd⟩ := num_head (e := v2 ++ '/' :: (v3 ++ (C ++ E))) hB
    rw [drop_num hv1 hB, if_pos (by rw [hc]; simpa [isDigit_iff] using hd), numberC_spec hB (fun c h => (slash_after hv2 c h).1) (by omega), Out.ok_bind]
    simp only
    rw [drop_slash hv2, if_neg (by simp), List.tail_cons, denominator_spec hv3 hC (fun c h => (hE.head c h).1) hq, Out.ok_bind]
    simp only
    rw [hE.units, Out.ok_bind, chk_ok (by omega) (by push_cast at hp; omega), Out.ok_bind, chk_ok (by omega) (by push_cast at hp; omega), Out.ok_bind]
    have := finish_spec (neg := decide (sg ≠ [])) hE hp hq hq0
    push_cast at this ⊢
    exact this

/-- In lowest terms. -/
def Reduced (x : Dimension) : Prop := 0 < x.d ∧ x.d < 2 ^ 31 ∧ -2 ^ 31 < x.n ∧ x.n < 2 ^ 31 ∧ Int.gcd x.n x.d = 1

theorem num_decimal (n : Nat) : Num (decimal n) ∧ number (decimal n) = n := by
  obtain ⟨h1, h2, h3⟩ := Lib.decimal_spec n
  exact ⟨⟨h2, h3⟩, h1⟩

theorem ends_unit (u : Units) : Ends (' ' :: unitString u) u :=
  ⟨[' '], unitString u, [], (by simp), (by intro c hc; rw [List.mem_singleton] at hc; rw [hc]; unfold Space; decide), (by cases u <;> decide), (by intro c hc; cases hc)⟩

/-- C88: what is written for a length in lowest terms, the text of the number with its sign: the quotient and the remainder. -/
theorem write_spec {x : Dimension} (h : Reduced x) (h0 : x.n ≠ 0) :
    ∃ t p, writeC x = .ok ((if x.n ≤ -x.d then ['-'] else []) ++ (t ++ ' ' :: unitString x.u)) ∧ Form t p x.d.natAbs ∧ p = x.n.natAbs := by
  obtain ⟨hd, hd2, hn1, hn2, hg⟩ := h
  obtain ⟨n, d, u⟩ := x
  simp only at h0 hd hd2 hn1 hn2 hg ⊢
  unfold writeC
  simp only
  rw [if_neg (by omega), if_neg h0, if_neg (by omega)]
  obtain ⟨D, rfl⟩ : ∃ D : Nat, d = D := ⟨d.natAbs, by omega⟩
  have hD : 0 < D := by omega
  have hr : (n.tmod D).natAbs = n.natAbs % D := by rw [Int.natAbs_tmod]; rfl
  have hqe : (n - n.tmod D).tdiv D = n.tdiv D := by
    have := Int.mul_tdiv_add_tmod n D
    rw [show n - n.tmod D = D * n.tdiv D by omega, Int.mul_tdiv_cancel_left _ (by omega)]
  have hq : (n.tdiv D).natAbs = n.natAbs / D := by rw [Int.natAbs_tdiv]; rfl
  rw [hqe, Int.natAbs_natCast]
  have hdm := Nat.div_add_mod n.natAbs D
  have hq0 : n.tdiv D = 0 ↔ n.natAbs / D = 0 := by rw [← hq, Int.natAbs_eq_zero]
  have hr0 : n.tmod D = 0 ↔ n.natAbs % D = 0 := by rw [← hr, Int.natAbs_eq_zero]
  have hsign : (n ≤ -(D : Int)) ↔ n.tdiv D < 0 := by
    constructor
    · intro h
      have h1 : n.natAbs / D ≠ 0 := by rw [Nat.div_ne_zero_iff]; omega
      have h2 : n.tdiv D ≤ 0 := by
        obtain ⟨m, rfl⟩ : ∃ m : Nat, n = -(m : Int) := ⟨n.natAbs, by omega⟩
        rw [Int.neg_tdiv, show (m : Int).tdiv D = ((m / D : Nat) : Int) from rfl]; exact Int.neg_nonpos_of_nonneg (Int.natCast_nonneg _)
      have h3 : n.tdiv D ≠ 0 := fun h => h1 (hq0.1 h)
      omega
    · intro h
      by_contra hc
      rcases lt_or_ge n 0 with hneg | hpos
      · have h1 : n.natAbs / D = 0 := Nat.div_eq_of_lt (by omega)
        have := hq0.2 h1; omega
      · have := Int.tdiv_nonneg (a := n) (b := D) hpos (by omega); omega
  have hdec : ∀ k : Nat, decimalInt (k : Int) = decimal k := by
    intro k; unfold decimalInt; rw [if_neg (by omega), Int.natAbs_natCast]
  have hqt : n.tdiv D ≠ 0 → decimalInt (n.tdiv D) = (if n ≤ -(D : Int) then ['-'] else []) ++ decimal (n.natAbs / D) := by
    intro _
    unfold decimalInt
    by_cases h : n.tdiv D < 0
    · rw [if_pos h, if_pos (hsign.2 h), hq]; rfl
    · rw [if_neg h, if_neg (fun h' => h (hsign.1 h')), hq]; rfl
  rw [hr, hdec, hdec]
  by_cases hqz : n.tdiv D = 0
  · have hrz : n.tmod D ≠ 0 := by
      intro h
      have := hq0.1 hqz; have := hr0.1 h
      have : n.natAbs = 0 := by rw [← hdm]; simp [*]
      omega
    have hlt : n.natAbs % D = n.natAbs := by have := hq0.1 hqz; rw [this] at hdm; omega
    rw [if_neg (show ¬(n.tdiv D ≠ 0) by simpa using hqz), if_neg (show ¬(n.tdiv D ≠ 0 ∧ n.tmod D ≠ 0) by simp [hqz]), if_pos hrz, if_neg (by rw [hsign]; omega)]
    refine ⟨decimal (n.natAbs % D) ++ '/' :: decimal D, n.natAbs % D, by simp, ?_, hlt⟩
    have := Form.fraction (num_decimal (n.natAbs % D)).1 (num_decimal D).1 (w1 := []) (w2 := []) (by intro c hc; cases hc) (by intro c hc; cases hc)
    rw [(num_decimal _).2, (num_decimal _).2] at this
    exact this
  · rw [if_pos hqz, hqt hqz]
    by_cases hrz : n.tmod D = 0
    · rw [if_neg (show ¬(n.tdiv D ≠ 0 ∧ n.tmod D ≠ 0) by simp [hrz]), if_neg (show ¬(n.tmod D ≠ 0) by simpa using hrz)]
      have hmod := hr0.1 hrz
      have hD1 : D = 1 := by
        have h1 : D ∣ n.natAbs := Nat.dvd_of_mod_eq_zero hmod
        have h2 : Int.gcd n D = Nat.gcd n.natAbs D := rfl
        rw [h2, Nat.gcd_eq_right h1] at hg; exact hg
      subst hD1
      refine ⟨decimal (n.natAbs / 1), n.natAbs / 1, by simp, ?_, by simp⟩
      have := Form.whole (num_decimal (n.natAbs / 1)).1
      rw [(num_decimal _).2] at this
      exact this
    · rw [if_pos (show n.tdiv D ≠ 0 ∧ n.tmod D ≠ 0 from ⟨hqz, hrz⟩), if_pos (show n.tmod D ≠ 0 from hrz)]
      refine ⟨decimal (n.natAbs / D) ++ ([' '] ++ (decimal (n.natAbs % D) ++ ([] ++ '/' :: ([] ++ decimal D)))), n.natAbs / D * D + n.natAbs % D, by simp, ?_, by rw [Nat.mul_comm]; omega⟩
      have := Form.mixed (num_decimal (n.natAbs / D)).1 (num_decimal (n.natAbs % D)).1 (num_decimal D).1 (w1 := [' ']) (w2 := []) (w3 := [])
        (by intro c hc; rw [List.mem_singleton] at hc; rw [hc]; unfold Space; decide) (by simp) (by intro c hc; cases hc) (by intro c hc; cases hc)
      simp only [(num_decimal _).2] at this
      exact this

/-- C88: a length in lowest terms written and read again is the same, unless it is zero or between minus one and zero. -/
theorem C88_round_trip {x : Dimension} (h : Reduced x) (h0 : x.n ≠ 0) (hs : 0 < x.n ∨ x.n ≤ -x.d) :
    ∃ t, writeC x = .ok t ∧ readC t = .ok x := by
  obtain ⟨t, p, h1, h2, h3⟩ := write_spec h h0
  have h' := h
  obtain ⟨hd, hd2, hn1, hn2, hg⟩ := h'
  refine ⟨_, h1, ?_⟩
  obtain ⟨y, h4, h5, h6⟩ := C88_read h2 (ends_unit x.u) (w0 := []) (w1 := []) (by intro c hc; cases hc) (by intro c hc; cases hc)
    (sg := if x.n ≤ -x.d then ['-'] else []) (by split <;> simp) (by omega) (by omega) (by omega)
  rw [List.nil_append, List.nil_append] at h4
  rw [h4]
  have e : (if (if x.n ≤ -x.d then ['-'] else []) = ([] : List Char) then (p : Int) else -p) = x.n := by
    by_cases hle : x.n ≤ -x.d
    · rw [if_pos hle, if_neg (by simp)]; omega
    · rw [if_neg hle, if_pos rfl]; omega
  rw [e] at h6
  have hx : Lowest x x.n x.d.natAbs := ⟨hd, hg, by rw [Int.natAbs_of_nonneg (by omega)]⟩
  obtain ⟨e1, e2⟩ := lowest_unique (by omega) h6 hx
  obtain ⟨yn, yd, yu⟩ := y
  obtain ⟨xn, xd, xu⟩ := x
  simp only at e1 e2 h5
  rw [e1, e2, h5]

/-- C88: a length between minus one and zero is written without its sign. -/
theorem C88_sign_lost {x : Dimension} (h : Reduced x) (h0 : x.n < 0) (hs : -x.d < x.n) :
    ∃ t, writeC x = .ok t ∧ readC t = .ok ⟨-x.n, x.d, x.u⟩ := by
  obtain ⟨t, p, h1, h2, h3⟩ := write_spec h (by omega)
  have h' := h
  obtain ⟨hd, hd2, hn1, hn2, hg⟩ := h'
  refine ⟨_, h1, ?_⟩
  rw [if_neg (by omega)]
  obtain ⟨y, h4, h5, h6⟩ := C88_read h2 (ends_unit x.u) (w0 := []) (w1 := []) (by intro c hc; cases hc) (by intro c hc; cases hc)
    (sg := []) (.inl rfl) (by omega) (by omega) (by omega)
  rw [List.nil_append, List.nil_append] at h4
  rw [if_pos rfl] at h6
  rw [h4]
  have hx : Lowest ⟨-x.n, x.d, x.u⟩ p x.d.natAbs :=
    ⟨hd, by show Int.gcd (-x.n) x.d = 1; rw [Int.neg_gcd]; exact hg, by show -x.n * _ = _ * x.d; rw [Int.natAbs_of_nonneg (by omega), show (p : Int) = -x.n by omega]⟩
  obtain ⟨e1, e2⟩ := lowest_unique (by omega) h6 hx
  obtain ⟨yn, yd, yu⟩ := y
  simp only at e1 e2 h5
  rw [e1, e2, h5]

theorem lookup_mem {k : List Char} {u : Units} : ∀ {l : List (List Char × Units)}, l.lookup k = some u → (k, u) ∈ l
  | [], h => by simp at h
  | (k', u') :: l, h => by
    rw [List.lookup_cons] at h
    split at h
    · rename_i e
      cases h
      rw [eq_of_beq e]; simp
    · exact List.mem_cons_of_mem _ (lookup_mem h)

/-- C88: a word is the name of a unit or is refused, and each name is that of the unit. -/
theorem C88_units {s : List Char} {u : Units} :
    unitsC s = .ok u ↔ ((s.dropWhile isSpace).takeWhile fun c => !isSpace c) ∈ namesOf u := by
  unfold unitsC
  constructor
  · intro h
    split at h
    · rename_i v hv
      cases h
      exact named_of _ (lookup_mem hv)
    · cases h
  · intro h
    have := (unit_facts _ (named h)).1
    simp only at this
    rw [this]

/-- C88: zero is written without a unit, which is not read. -/
theorem C88_zero_not_read {x : Dimension} (h : x.d ≠ 0) (h0 : x.n = 0) : ∃ t, writeC x = .ok t ∧ readC t = .throw .invalidArgument := by
  refine ⟨['0'], ?_, by rfl⟩
  unfold writeC
  rw [if_neg h, if_pos h0]

/-- C88: `*=` and `/=` by a number other than zero multiply and divide the value, as long as it fits into an `int`. -/
theorem C88_scale {x : Dimension} (h : Reduced x) {i : Int} :
    (-2 ^ 31 < x.n * i → x.n * i < 2 ^ 31 → ∃ y, mulC x i = .ok y ∧ y.u = x.u ∧ Lowest y (x.n * i) x.d) ∧
    (i ≠ 0 → -2 ^ 31 < x.d * i → x.d * i < 2 ^ 31 → ∃ y, quotC x i = .ok y ∧ y.u = x.u ∧ Lowest y x.n (x.d * i)) := by
  obtain ⟨hd, hd2, hn1, hn2, hg⟩ := h
  constructor
  · intro h1 h2
    unfold mulC
    rw [chk_ok (by omega) h2, Out.ok_bind]
    exact reduceC_spec h1 h2 (by omega) hd2 (by omega)
  · intro h0 h1 h2
    unfold quotC
    rw [chk_ok (by omega) h2, Out.ok_bind]
    exact reduceC_spec hn1 hn2 h1 h2 (Int.mul_ne_zero (by omega) h0)

/-- C88: a length of zero divided by zero, and the text `0/0`, divide by zero. -/
theorem C88_zero_by_zero (u : Units) : quotC ⟨0, 1, u⟩ 0 = .ub ∧ readC ['0', '/', '0', ' ', 'i', 'n'] = .ub := by
  have hg : gcdC 0 0 = .ok 0 := by rw [gcdC]; rfl
  have hr : ∀ u, reduceC ⟨0, 0, u⟩ = .ub := by
    intro u; unfold reduceC; simp only; rw [hg, Out.ok_bind]; rfl
  constructor
  · unfold quotC
    rw [chk_ok (by simp) (by simp), Out.ok_bind]
    exact hr u
  · have : readC ['0', '/', '0', ' ', 'i', 'n'] = reduceC ⟨0, 0, .inches⟩ := rfl
    rw [this]; exact hr _

example : readC "  - 3 1/2 inches wide".toList = .ok ⟨-7, 2, .inches⟩ := by decide +kernel
example : readC "2.50cm".toList = .ok ⟨5, 2, .cm⟩ := by decide +kernel
example : readC "72 pt".toList = .ok ⟨72, 1, .points⟩ := by decide +kernel
example : readC "3 4 cm".toList = .throw .invalidArgument := by decide +kernel
example : writeC ⟨-7, 2, .inches⟩ = .ok "-3 1/2 in".toList := by decide +kernel
example : writeC ⟨-1, 2, .mm⟩ = .ok "1/2 mm".toList := by decide +kernel
example : Reduced ⟨-7, 2, .inches⟩ ∧ Reduced ⟨-1, 2, .mm⟩ := by unfold Reduced; decide
example : Form "3 1/2".toList 7 2 := by
  have h : ∀ c : Char, c ∈ ['1', '2', '3'] → Num [c] := by
    intro c hc
    refine ⟨by simp, fun x hx => ?_⟩
    rw [List.mem_singleton] at hx; subst hx
    simp only [List.mem_cons, List.not_mem_nil, or_false] at hc
    rcases hc with rfl | rfl | rfl <;> unfold Digit <;> decide
  exact Form.mixed (A := ['3']) (B := ['1']) (C := ['2']) (w1 := [' ']) (w2 := []) (w3 := []) (h _ (by simp)) (h _ (by simp)) (h _ (by simp))
    (by intro c hc; rw [List.mem_singleton] at hc; rw [hc]; unfold Space; decide) (by simp) (by intro c hc; cases hc) (by intro c hc; cases hc)

end Dim
end Ringing
