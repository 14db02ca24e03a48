import Verif.Lemmas.RowCalc
import Verif.Props.RowCycles
/-!
# C91: row expressions (apps/utils/row_calc.cpp)

`E` is an expression, `mach fuel e` the nodes that evaluate it and `rowsC` the rows the iterator of a
`row_calc` gives.  Here is what an expression means, by recursion on the expression.
-/
namespace Ringing
open Row
namespace RowCalc
open Spec

/-- The right-hand side varies slowest: all `f x y`, `x` in `LA`, for the first `y` in `LB`, then for the second. -/
def products (f : Row → Row → Row) (LA LB : List Row) : List Row := (LB.map fun y => LA.map fun x => f x y).flatten

/-- The values of the operators. -/
def opV : Op → Row → Row → Row
  | .times, x, y => Row.mul x y
  | .divide, x, y => Row.mul x (Row.inverse y)
  | .ldivide, x, y => Row.mul (Row.inverse x) y

def conjV (x y : Row) : Row := Row.mul (Row.mul (Row.inverse y) x) y

mutual
/-- The rows an expression stands for, in order. -/
def den : E → List Row
  | .row r => [r]
  | .exec rows => rows
  | .set es => dens es
  | .group es => match Group.ofVectorC (dens es) with
    | .ok g => g.v
    | _ => []
  | .mult op a b => products (opV op) (den a) (den b)
  | .conj a b => products conjV (den a) (den b)
  | .pow a n => (den a).map fun r => Row.npow r n
  | .diff a b => (den a).filter fun r => decide (r ∉ den b)
def dens : Es → List Row
  | .nil => []
  | .cons e es => den e ++ dens es
end

/-- Whether an expression is a list (of any number of rows), and not a row. -/
def isVec : E → Bool
  | .row _ => false
  | .exec _ | .set _ | .group _ => true
  | .mult _ a b | .conj a b => isVec a || isVec b
  | .pow a _ => isVec a
  | .diff a _ => isVec a

/-- None of the expressions is a list. -/
def flat : Es → Bool
  | .nil => true
  | .cons e es => !isVec e && flat es

/-- The lists that can be run through again: those without a list within a set or a group, or on the right of
`^`. -/
def Rerun : E → Bool
  | .row _ | .exec _ => true
  | .set es | .group es => flat es
  | .mult _ a b => Rerun a && Rerun b
  | .conj a b => Rerun a && !isVec b
  | .pow a _ => Rerun a
  | .diff a _ => Rerun a

mutual
/-- The rows are rows of at least one bell; in a product of two lists that on the left can be run through
again; a row less others is not among them; a group has generators; and a power is of rows of
at most 18 bells, or of at most 58 with an exponent not above the square of their number (see C04). -/
def Safe : E → Prop
  | .row r => IsRow r ∧ r ≠ []
  | .exec rows => ∀ r ∈ rows, IsRow r ∧ r ≠ []
  | .set es => Safes es
  | .group es => Safes es ∧ dens es ≠ []
  | .mult _ a b => Safe a ∧ Safe b ∧ (isVec a = true → isVec b = true → Rerun a = true)
  | .conj a b => Safe a ∧ Safe b ∧ (isVec a = true → isVec b = true → Rerun a = true)
  | .pow a n => Safe a ∧ ∀ r ∈ den a, r.length ≤ 18 ∨ (r.length ≤ 58 ∧ n ≤ r.length * r.length)
  | .diff a b => Safe a ∧ Safe b ∧ (isVec a = false → den (.diff a b) ≠ [])
def Safes : Es → Prop
  | .nil => True
  | .cons e es => Safe e ∧ Safes es
end

/-! ### Proofs -/

theorem products_eq (f : Row → Row → Row) (LA LB : List Row) : products f LA LB = prods f LA LB := by
  simp [products, prods, List.flatMap_def]

theorem mem_products {f : Row → Row → Row} {LA LB : List Row} {r : Row} :
    r ∈ products f LA LB ↔ ∃ x ∈ LA, ∃ y ∈ LB, f x y = r := by
  simp only [products, List.mem_flatten, List.mem_map]
  constructor
  · rintro ⟨l, ⟨y, hy, rfl⟩, h⟩
    obtain ⟨x, hx, rfl⟩ := List.mem_map.1 h
    exact ⟨x, hx, y, hy, rfl⟩
  · rintro ⟨x, hx, y, hy, rfl⟩
    exact ⟨_, ⟨y, hy, rfl⟩, List.mem_map.2 ⟨x, hx, rfl⟩⟩

def Fine (r : Row) : Prop := Valid r ∧ r.length ≠ 0

theorem fine_iff {r : Row} : IsRow r ∧ r ≠ [] ↔ Fine r := by
  unfold Fine
  rw [isRow_iff_valid]
  simp [List.length_eq_zero_iff]

theorem opV_fine {op : Op} {x y : Row} (hx : Fine x) (hy : Fine y) : opC op x y = .ok (opV op x y) ∧ Fine (opV op x y) := by
  obtain ⟨vx, lx⟩ := hx
  obtain ⟨vy, ly⟩ := hy
  cases op
  · refine ⟨mulC_eq vx vy, valid_mul vx vy, ?_⟩
    simp only [opV, length_mul]; omega
  · refine ⟨?_, valid_mul vx (valid_inverse vy), ?_⟩
    · simp [opC, opV, inverseC_eq vy, mulC_eq vx (valid_inverse vy)]
    · simp only [opV, length_mul, length_inverse]; omega
  · refine ⟨?_, valid_mul (valid_inverse vx) vy, ?_⟩
    · simp [opC, opV, inverseC_eq vx, mulC_eq (valid_inverse vx) vy]
    · simp only [opV, length_mul, length_inverse]; omega

theorem conjV_fine {x y : Row} (hx : Fine x) (hy : Fine y) : conjC x y = .ok (conjV x y) ∧ Fine (conjV x y) := by
  obtain ⟨vx, lx⟩ := hx
  obtain ⟨vy, ly⟩ := hy
  have v1 := valid_mul (valid_inverse vy) vx
  refine ⟨?_, valid_mul v1 vy, ?_⟩
  · simp [conjC, conjV, inverseC_eq vy, mulC_eq (valid_inverse vy) vx, mulC_eq v1 vy]
  · simp only [conjV, length_mul, length_inverse]; omega

theorem power_fine {r : Row} {n fuel : Nat} (hr : Fine r) (h : r.length ≤ 18 ∨ (r.length ≤ 58 ∧ n ≤ r.length * r.length)) (hf : n + 1 < fuel) :
    Row.powerC fuel r n = .ok (Row.npow r n) := by
  have h58 : r.length ≤ 58 := by omega
  have ho := (Row.order_spec hr.1 h58)
  unfold Row.powerC
  rw [if_neg (by omega), Int.natAbs_natCast]
  refine Row.powerNatC_spec hr.1 h58 ?_ hf
  rcases h with h | h
  · have h1 := Nat.mod_lt n ho.2.1
    have h2 := order_le_sq hr.1 h
    right; omega
  · left; exact h.2

theorem npow_fine {r : Row} (n : Nat) (hr : Fine r) : Fine (Row.npow r n) :=
  ⟨Row.valid_npow hr.1 n, by rw [Row.length_npow]; exact hr.2⟩

mutual
theorem den_fine : (e : E) → Safe e → ∀ r ∈ den e, Fine r
  | .row r, h, x, hx => by
    rw [den, List.mem_singleton] at hx
    rw [Safe] at h
    exact hx ▸ fine_iff.1 h
  | .exec rows, h, x, hx => by
    rw [den] at hx
    rw [Safe] at h
    exact fine_iff.1 (h x hx)
  | .set es, h, x, hx => by
    rw [den] at hx
    rw [Safe] at h
    exact dens_fine es h x hx
  | .group es, h, x, hx => by
    rw [den] at hx
    rw [Safe] at h
    have hf := dens_fine es h.1
    obtain ⟨g, e, h1, -, h3⟩ := Group.C31_vector (l := dens es) (fun r hr => (fine_iff.2 (hf r hr)).1)
    rw [e] at hx
    obtain ⟨r, hr⟩ := List.exists_mem_of_ne_nil _ h.2
    have := (h3.mem x).1 hx
    refine ⟨(isRow_iff_valid x).1 this.1, ?_⟩
    have hb := h1 r hr
    have h0 := (hf r hr).2
    rw [this.2.1]; omega
  | .mult op a b, h, x, hx => by
    rw [den, mem_products] at hx
    rw [Safe] at h
    obtain ⟨u, hu, v, hv, rfl⟩ := hx
    exact (opV_fine (den_fine a h.1 u hu) (den_fine b h.2.1 v hv)).2
  | .conj a b, h, x, hx => by
    rw [den, mem_products] at hx
    rw [Safe] at h
    obtain ⟨u, hu, v, hv, rfl⟩ := hx
    exact (conjV_fine (den_fine a h.1 u hu) (den_fine b h.2.1 v hv)).2
  | .pow a n, h, x, hx => by
    rw [den, List.mem_map] at hx
    rw [Safe] at h
    obtain ⟨r, hr, rfl⟩ := hx
    exact npow_fine n (den_fine a h.1 r hr)
  | .diff a b, h, x, hx => by
    rw [den, List.mem_filter] at hx
    rw [Safe] at h
    exact den_fine a h.1 x hx.1
theorem dens_fine : (es : Es) → Safes es → ∀ r ∈ dens es, Fine r
  | .nil, _, x, hx => by rw [dens] at hx; simp at hx
  | .cons e es, h, x, hx => by
    rw [dens, List.mem_append] at hx
    rw [Safes] at h
    exact hx.elim (den_fine e h.1 x) (dens_fine es h.2 x)
end

/-- An expression which is not a list is one row. -/
theorem den_scalar : (e : E) → Safe e → isVec e = false → ∃ r, den e = [r]
  | .row r, _, _ => ⟨r, by rw [den]⟩
  | .exec _, _, h => by simp [isVec] at h
  | .set _, _, h => by simp [isVec] at h
  | .group _, _, h => by simp [isVec] at h
  | .mult op a b, h, hv => by
    rw [isVec, Bool.or_eq_false_iff] at hv
    rw [Safe] at h
    obtain ⟨x, ex⟩ := den_scalar a h.1 hv.1
    obtain ⟨y, ey⟩ := den_scalar b h.2.1 hv.2
    exact ⟨opV op x y, by rw [den, ex, ey]; rfl⟩
  | .conj a b, h, hv => by
    rw [isVec, Bool.or_eq_false_iff] at hv
    rw [Safe] at h
    obtain ⟨x, ex⟩ := den_scalar a h.1 hv.1
    obtain ⟨y, ey⟩ := den_scalar b h.2.1 hv.2
    exact ⟨conjV x y, by rw [den, ex, ey]; rfl⟩
  | .pow a n, h, hv => by
    rw [isVec] at hv
    rw [Safe] at h
    obtain ⟨x, ex⟩ := den_scalar a h.1 hv
    exact ⟨Row.npow x n, by rw [den, ex]; rfl⟩
  | .diff a b, h, hv => by
    rw [isVec] at hv
    rw [Safe] at h
    obtain ⟨x, ex⟩ := den_scalar a h.1 hv
    have h3 := h.2.2 hv
    rw [den, ex] at h3 ⊢
    rw [List.filter_cons] at h3 ⊢
    split at h3
    · exact ⟨x, by simp_all⟩
    · simp at h3

theorem Vect.mono {M : Mach} {L : List Row} {re re' : Prop} (h : Vect M L re) (hr : re' → re) : Vect M L re' := by
  obtain ⟨v, F, Q, P, h⟩ := h
  exact ⟨v, F, Q, P, h.init, h.start, h.step, h.stop, fun h' => h.again (hr h')⟩

/-- What is known of the node of an expression. -/
def Good (M : Mach) (e : E) : Prop :=
  (isVec e = false → ∀ r, den e = [r] → Scal M r) ∧ (isVec e = true → Vect M (den e) (Rerun e = true))

theorem good_bin {fuel : Nat} {both : Bool} {op : Row → Row → Out Row} {f : Row → Row → Row} {A B : Mach} {a b : E}
    {re : Prop} (sa : Safe a) (sb : Safe b) (ha : Good A a) (hb : Good B b)
    (hs : isVec a = true → isVec b = true → Rerun a = true) (hf : (den b).length + 1 < fuel)
    (hop : ∀ x ∈ den a, ∀ y ∈ den b, op x y = .ok (f x y))
    (hre1 : re → Rerun a = true) (hre2 : re → isVec b = true → both = true ∧ Rerun b = true) :
    ((isVec a || isVec b) = false → ∀ r, products f (den a) (den b) = [r] → Scal (binM fuel both op A B) r) ∧
    ((isVec a || isVec b) = true → Vect (binM fuel both op A B) (products f (den a) (den b)) re) := by
  cases va : isVec a <;> cases vb : isVec b
  · obtain ⟨x, ex⟩ := den_scalar a sa va
    obtain ⟨y, ey⟩ := den_scalar b sb vb
    refine ⟨fun _ r hr => ?_, fun h => by simp at h⟩
    rw [ex, ey] at hr
    have : f x y = r := by simpa [products] using hr
    rw [← this]
    exact scal_bin (ha.1 va x ex) (hb.1 vb y ey) (hop x (by simp [ex]) y (by simp [ey]))
  · obtain ⟨x, ex⟩ := den_scalar a sa va
    refine ⟨fun h => by simp at h, fun _ => ?_⟩
    have := vect_bin_right (fuel := fuel) (both := both) (f := f) (ha.1 va x ex) (hb.2 vb) (hop x (by simp [ex]))
    have e : products f (den a) (den b) = (den b).map fun y => f x y := by
      rw [ex, products_eq, prods]; simp [List.flatMap_def]
      generalize den b = L
      induction L with
      | nil => rfl
      | cons y L ih => simp [ih]
    rw [e]
    exact this.mono fun h => hre2 h vb
  · obtain ⟨y, ey⟩ := den_scalar b sb vb
    refine ⟨fun h => by simp at h, fun _ => ?_⟩
    have := vect_bin_left (fuel := fuel) (both := both) (f := f) (ha.2 va) (hb.1 vb y ey) (fun x hx => hop x hx y (by simp [ey]))
    have e : products f (den a) (den b) = (den a).map fun x => f x y := by rw [ey]; simp [products]
    rw [e]
    exact this.mono hre1
  · refine ⟨fun h => by simp at h, fun _ => ?_⟩
    have := vect_bin (both := both) (f := f) (ha.2 va) (hb.2 vb) (hs va vb) (fun y hy => (den_fine b sb y hy).2) hf hop
    rw [products_eq]
    exact this.mono fun h => hre2 h vb

mutual
theorem good : (e : E) → Safe e → ∃ N, ∀ fuel, N ≤ fuel → Good (mach fuel e) e
  | .row r, _ => ⟨0, fun fuel _ => by
      rw [mach]
      refine ⟨fun _ x hx => ?_, fun h => by simp [isVec] at h⟩
      rw [den, List.cons.injEq] at hx
      exact hx.1 ▸ scal_row r⟩
  | .exec rows, _ => ⟨0, fun fuel _ => by
      rw [mach]
      refine ⟨fun h => by simp [isVec] at h, fun _ => ?_⟩
      rw [den]
      exact (vect_exec rows).mono fun _ => trivial⟩
  | .set es, h => by
    rw [Safe] at h
    obtain ⟨N, hN⟩ := goods es h
    refine ⟨N, fun fuel hf => ?_⟩
    rw [mach]
    refine ⟨fun h => by simp [isVec] at h, fun _ => ?_⟩
    rw [den, Rerun]
    exact hN fuel hf
  | .group es, h => by
    rw [Safe] at h
    obtain ⟨N, hN⟩ := goods es h.1
    refine ⟨N + (dens es).length + 1, fun fuel hf => ?_⟩
    rw [mach]
    refine ⟨fun h => by simp [isVec] at h, fun _ => ?_⟩
    rw [den, Rerun]
    obtain ⟨g, e, -⟩ := Group.C31_vector (l := dens es) (fun r hr => (fine_iff.2 (dens_fine es h.1 r hr)).1)
    rw [e]
    exact vect_group (hN fuel (by omega)) e (by omega)
  | .mult op a b, h => by
    rw [Safe] at h
    obtain ⟨N1, h1⟩ := good a h.1
    obtain ⟨N2, h2⟩ := good b h.2.1
    refine ⟨N1 + N2 + (den b).length + 2, fun fuel hf => ?_⟩
    have := good_bin (fuel := fuel) (both := true) (op := opC op) (f := opV op) (re := Rerun (.mult op a b) = true) h.1 h.2.1
      (h1 fuel (by omega)) (h2 fuel (by omega)) h.2.2 (by omega)
      (fun x hx y hy => (opV_fine (den_fine a h.1 x hx) (den_fine b h.2.1 y hy)).1)
      (fun hr => by rw [Rerun, Bool.and_eq_true] at hr; exact hr.1)
      (fun hr _ => by rw [Rerun, Bool.and_eq_true] at hr; exact ⟨rfl, hr.2⟩)
    rw [mach, Good, den, isVec]
    exact this
  | .conj a b, h => by
    rw [Safe] at h
    obtain ⟨N1, h1⟩ := good a h.1
    obtain ⟨N2, h2⟩ := good b h.2.1
    refine ⟨N1 + N2 + (den b).length + 2, fun fuel hf => ?_⟩
    have := good_bin (fuel := fuel) (both := false) (op := conjC) (f := conjV) (re := Rerun (.conj a b) = true) h.1 h.2.1
      (h1 fuel (by omega)) (h2 fuel (by omega)) h.2.2 (by omega)
      (fun x hx y hy => (conjV_fine (den_fine a h.1 x hx) (den_fine b h.2.1 y hy)).1)
      (fun hr => by rw [Rerun, Bool.and_eq_true] at hr; exact hr.1)
      (fun hr hb => by rw [Rerun, Bool.and_eq_true, hb] at hr; simp at hr)
    rw [mach, Good, den, isVec]
    exact this
  | .pow a n, h => by
    rw [Safe] at h
    obtain ⟨N1, h1⟩ := good a h.1
    refine ⟨N1 + n + 2, fun fuel hf => ?_⟩
    have ha := h1 fuel (by omega)
    have hp : ∀ r ∈ den a, Row.powerC fuel r n = .ok (Row.npow r n) := fun r hr =>
      power_fine (den_fine a h.1 r hr) (h.2 r hr) (by omega)
    rw [mach, Good, isVec]
    refine ⟨fun va r hr => ?_, fun va => ?_⟩
    · obtain ⟨x, ex⟩ := den_scalar a h.1 va
      rw [den, ex, List.map_cons, List.map_nil, List.cons.injEq] at hr
      rw [← hr.1]
      exact scal_pow (ha.1 va x ex) (hp x (by simp [ex]))
    · rw [den, Rerun]
      exact vect_pow (ha.2 va) hp
  | .diff a b, h => by
    rw [Safe] at h
    obtain ⟨N1, h1⟩ := good a h.1
    obtain ⟨N2, h2⟩ := good b h.2.1
    refine ⟨N1 + N2 + (den a).length + (den b).length + 1, fun fuel hf => ?_⟩
    have ha := h1 fuel (by omega)
    have hb := h2 fuel (by omega)
    have hex : Excl fuel (mach fuel b) (den b) := by
      cases vb : isVec b
      · obtain ⟨y, ey⟩ := den_scalar b h.2.1 vb
        rw [ey]
        exact excl_scal (hb.1 vb y ey)
      · exact excl_vect (hb.2 vb) (by omega)
    rw [mach, Good, isVec]
    refine ⟨fun va r hr => ?_, fun va => ?_⟩
    · obtain ⟨x, ex⟩ := den_scalar a h.1 va
      rw [den, ex, List.filter_cons] at hr
      split at hr
      · rename_i hx
        rw [List.filter_nil, List.cons.injEq] at hr
        rw [← hr.1]
        exact scal_diff (ha.1 va x ex) hex (by simpa using hx) (by omega)
      · simp at hr
    · rw [den, Rerun]
      exact vect_diff (ha.2 va) hex (by omega)
theorem goods : (es : Es) → Safes es → ∃ N, ∀ fuel, N ≤ fuel → Vect (machs fuel es) (dens es) (flat es = true)
  | .nil, _ => ⟨0, fun fuel _ => by
      rw [machs, dens]
      exact vect_nil.mono fun _ => trivial⟩
  | .cons e es, h => by
    rw [Safes] at h
    obtain ⟨N1, h1⟩ := good e h.1
    obtain ⟨N2, h2⟩ := goods es h.2
    refine ⟨N1 + N2, fun fuel hf => ?_⟩
    have he := h1 fuel (by omega)
    have hs := h2 fuel (by omega)
    rw [machs, dens]
    cases ve : isVec e
    · obtain ⟨r, er⟩ := den_scalar e h.1 ve
      rw [er]
      exact (vect_cons_scal (he.1 ve r er) hs).mono fun hf => by rw [flat, Bool.and_eq_true] at hf; exact hf.2
    · exact (vect_cons_vect (he.2 ve) hs).mono fun hf => by rw [flat, Bool.and_eq_true, ve] at hf; simp at hf
end

/-- The rows of an expression are evaluated, in order, and evaluation ends. -/
theorem C91_rows {e : E} (h : Safe e) : ∃ N, ∀ fuel, N ≤ fuel → rowsC fuel (mach fuel e) = .ok (den e) := by
  obtain ⟨N, hN⟩ := good e h
  refine ⟨N + (den e).length + 1, fun fuel hf => ?_⟩
  have hg := hN fuel (by omega)
  cases hv : isVec e
  · obtain ⟨r, er⟩ := den_scalar e h hv
    obtain ⟨v0, S, s1, s2, -⟩ := hg.1 hv r er
    obtain ⟨s', es, -⟩ := s2 _ s1
    rw [rowsC, if_pos v0, es, er]; rfl
  · obtain ⟨v0, F, Q, P, hp⟩ := hg.2 hv
    obtain ⟨s', es, -⟩ := hp.drain _ _ fuel (hp.start _ hp.init) (by omega)
    rw [rowsC, if_neg v0, es]; rfl

/-- Every row evaluated is a row of at least one bell. -/
theorem C91_valid {e : E} (h : Safe e) : ∀ r ∈ den e, IsRow r ∧ r ≠ [] := fun r hr => fine_iff.2 (den_fine e h r hr)

/-- What a group stands for: the rows of the group its generators generate, each once and in order. -/
theorem C91_group {es : Es} (h : Safe (.group es)) : ∃ b, (∀ r ∈ dens es, r.length ≤ b) ∧ (∃ r ∈ dens es, r.length = b) ∧
    Spec.Lists (den (.group es)) b (Spec.generated (dens es)) := by
  rw [Safe] at h
  have hf := dens_fine es h.1
  obtain ⟨g, e, h1, h2, h3⟩ := Group.C31_vector (l := dens es) (fun r hr => (fine_iff.2 (hf r hr)).1)
  refine ⟨g.b, h1, ?_, by rw [den, e]; exact h3⟩
  rcases h2 with h2 | h2
  · obtain ⟨r, hr⟩ := List.exists_mem_of_ne_nil _ h.2
    have := h1 r hr
    exact absurd h2 (by have := (hf r hr).2; omega)
  · exact h2

/-- What a product, a quotient, a conjugate and a difference stand for. -/
theorem C91_members (a b : E) (r : Row) :
    (r ∈ den (.mult .times a b) ↔ ∃ x ∈ den a, ∃ y ∈ den b, Row.mul x y = r) ∧
    (r ∈ den (.mult .divide a b) ↔ ∃ x ∈ den a, ∃ y ∈ den b, Row.mul x (Row.inverse y) = r) ∧
    (r ∈ den (.mult .ldivide a b) ↔ ∃ x ∈ den a, ∃ y ∈ den b, Row.mul (Row.inverse x) y = r) ∧
    (r ∈ den (.conj a b) ↔ ∃ x ∈ den a, ∃ y ∈ den b, Row.mul (Row.mul (Row.inverse y) x) y = r) ∧
    (∀ n, r ∈ den (.pow a n) ↔ ∃ x ∈ den a, Row.npow x n = r) ∧
    (r ∈ den (.diff a b) ↔ r ∈ den a ∧ r ∉ den b) := by
  refine ⟨?_, ?_, ?_, ?_, ?_, ?_⟩
  · rw [den, mem_products]; rfl
  · rw [den, mem_products]; rfl
  · rw [den, mem_products]; rfl
  · rw [den, mem_products]; rfl
  · intro n; rw [den, List.mem_map]
  · rw [den, List.mem_filter]; simp

/-- The powers: the permutation of `Row.npow r n` is that of `r`, `n` times. -/
theorem C91_power (r : Row) (n i : Nat) : bellAt (Row.npow r n) i = iter (bellAt r) n i := by
  rw [bellAt_eq_fn, bellAt_funext, Row.fn_npow]

/-- `{21, 12} * {21, 12}`, for instance. -/
example : Safe (.mult .times (.set (.cons (.row [1, 0]) (.cons (.row [0, 1]) .nil))) (.set (.cons (.row [1, 0]) (.cons (.row [0, 1]) .nil)))) := by
  have h1 : IsRow [0, 1] ∧ [0, 1] ≠ [] := ⟨by unfold IsRow; decide, by decide⟩
  have h2 : IsRow [1, 0] ∧ [1, 0] ≠ [] := ⟨by unfold IsRow; decide, by decide⟩
  simp only [Safe, Safes, isVec]
  exact ⟨⟨h2, h1, trivial⟩, ⟨h2, h1, trivial⟩, by decide⟩

/-- Of a list that is not at once read to its end, within braces on the left of a product, only the products with
one row of the right-hand side are found: `{$(echo 12)} * {12, 21}` is 12. -/
theorem C91_lost_nested : ∃ e : E, e = .mult .times (.set (.cons (.exec [[0, 1]]) .nil))
      (.set (.cons (.row [0, 1]) (.cons (.row [1, 0]) .nil))) ∧
    den e = [[0, 1], [1, 0]] ∧ rowsC 100 (mach 100 e) = .ok [[0, 1]] :=
  ⟨_, rfl, by decide +kernel, by decide +kernel⟩

/-- Conjugates by a list on the left of a product: `({12} ^ {12, 21}) * {12, 21}` has two rows, not four. -/
theorem C91_lost_conjugates : ∃ e : E, e = .mult .times (.conj (.set (.cons (.row [0, 1]) .nil))
      (.set (.cons (.row [0, 1]) (.cons (.row [1, 0]) .nil)))) (.set (.cons (.row [0, 1]) (.cons (.row [1, 0]) .nil))) ∧
    den e = [[0, 1], [0, 1], [1, 0], [1, 0]] ∧ rowsC 100 (mach 100 e) = .ok [[0, 1], [0, 1]] :=
  ⟨_, rfl, by decide +kernel, by decide +kernel⟩

/-- A row less itself ends the list it is in: `{12 - 12, 21}` is empty. -/
theorem C91_lost_after_difference : ∃ e : E, e = .set (.cons (.diff (.row [0, 1]) (.row [0, 1])) (.cons (.row [1, 0]) .nil)) ∧
    den e = [[1, 0]] ∧ rowsC 100 (mach 100 e) = .ok [] :=
  ⟨_, rfl, by decide +kernel, by decide +kernel⟩

end RowCalc
end Ringing
