import Verif.Props.FalseSymbols
/-!
# The rows of a regular palindromic method and the group of plain bob
-/
namespace Ringing
open Spec
namespace Falseness

theorem iter_perm (p : Equiv.Perm Nat) (k i : Nat) : iter p k i = (p ^ k) i := by
  induction k generalizing i with
  | zero => rfl
  | succ k ih =>
    rw [iter, ih, pow_succ', Equiv.Perm.mul_apply]

/-- A rotation that takes the tenor everywhere generates all rotations. -/
theorem rotation_pow {n : Nat} (hn : n % 2 = 1) (h1 : 1 ≤ n) {p q : Equiv.Perm Nat} {k l : ZMod n} (hp : Dih n p 1 k)
    (hc : ∀ i, 0 < i → i ≤ n → ∃ j : Nat, (p ^ j) n = i) (hq : Dih n q 1 l) : ∃ j : Nat, q = p ^ j := by
  have r := hq.range h1 le_rfl
  obtain ⟨j, hj⟩ := hc (q n) (by omega) r.2
  have hpow : ∀ j : Nat, ∃ m, Dih n (p ^ j) 1 m := by
    intro j
    induction j with
    | zero => exact ⟨0, by simpa using Dih.one n⟩
    | succ j ih =>
      obtain ⟨m, hm⟩ := ih
      rw [pow_succ]
      exact ⟨_, (hm.mul hp).congr rfl rfl⟩
  obtain ⟨m, hm⟩ := hpow j
  refine ⟨j, hq.ext hn (hm.congr rfl ?_)⟩
  have e1 := hq.lab n h1 le_rfl
  have e2 := hm.lab n h1 le_rfl
  rw [hj, e1] at e2
  exact (add_left_cancel e2).symm

/-- The permutation of a list of changes. -/
noncomputable def Q (b : Nat) (cs : List Change) : Equiv.Perm Nat := permOf (Row.applyAll (Row.rounds b) cs)

theorem Q_append {b : Nat} (hb : b ≤ 256) {cs ds : List Change} (hc : ∀ c ∈ cs, c.WF ∧ c.n = b) (hd : ∀ c ∈ ds, c.WF ∧ c.n = b) :
    Q b (cs ++ ds) = Q b cs * Q b ds := by
  have vr := Row.valid_rounds hb
  have v1 := valid_applyAll (fun c h => (hc c h).1) vr
  have v2 := valid_applyAll (fun c h => (hd c h).1) vr
  unfold Q
  rw [← permOf_mul v1 v2, mul_applyAll (fun c h => (hd c h).1), Row.mul_rounds, applyAll_append]
  rw [length_applyAll (b := b) (fun c h => (hc c h).2.le) (by simp)]; simp

theorem Q_inv {b : Nat} {c : Change} (hw : c.WF) (hn : c.n = b) : Q b [c] * Q b [c] = 1 := by
  have hb : b ≤ 256 := by have := hw.1; omega
  have vr := Row.valid_rounds hb
  have v : Row.Valid (Row.applyAll (Row.rounds b) [c]) := valid_applyAll (by simpa using hw) vr
  ext i
  have e : ∀ i, Q b [c] i = c.pos i := by
    intro i
    unfold Q
    rw [permOf_apply v]
    show Row.fn (Row.apply (Row.rounds b) c) i = _
    rw [Row.fn_apply hw, Row.fn_rounds]
  rw [Equiv.Perm.mul_apply, e, e, Equiv.Perm.one_apply]
  exact hw.pos_pos i

theorem Q_reverse {b : Nat} (hb : b ≤ 256) {cs : List Change} (hc : ∀ c ∈ cs, c.WF ∧ c.n = b) :
    Q b cs.reverse = (Q b cs)⁻¹ := by
  induction cs with
  | nil => 
    have : Q b [] = 1 := permOf_rounds hb
    rw [List.reverse_nil, this, inv_one]
  | cons c cs ih =>
    have h1 := hc c List.mem_cons_self
    have h2 : ∀ c ∈ cs, c.WF ∧ c.n = b := fun c h => hc c (List.mem_cons_of_mem _ h)
    rw [List.reverse_cons, Q_append hb (fun c h => h2 c (List.mem_reverse.1 h)) (by simpa using h1), ih h2,
      show c :: cs = [c] ++ cs from rfl, Q_append hb (by simpa using h1) h2, mul_inv_rev]
    congr 1
    rw [eq_inv_iff_mul_eq_one]
    exact Q_inv h1.1 h1.2

/-- The method is palindromic about the treble's lead, and regular: its lead end change is `12` or `1n` and its lead
head is a rotation that takes the tenor to every position. -/
structure Regular (m : Method) (ps : List Change) (z : Change) (k : ZMod (m.b - 1)) : Prop where
  even : m.b % 2 = 0
  eight : 8 ≤ m.b
  le : m.b ≤ 255
  ch : m.ch = ps ++ [z]
  wf : ∀ c ∈ m.ch, c.WF ∧ c.n = m.b
  pal : ps.reverse = ps
  lh : Dih (m.b - 1) (Q m.b m.ch) 1 k
  cyc : ∀ i, 0 < i → i ≤ m.b - 1 → ∃ j : Nat, (Q m.b m.ch ^ j) (m.b - 1) = i
  last : ∃ l, Dih (m.b - 1) (Q m.b [z]) (-1) l

/-- The rows of the plain course. -/
def InPlain (m : Method) (p : Equiv.Perm Nat) : Prop :=
  ∃ k i : Nat, i < m.ch.length ∧ p = Q m.b m.ch ^ k * Q m.b (m.ch.take i)

namespace Regular
variable {m : Method} {ps : List Change} {z : Change} {k : ZMod (m.b - 1)} (h : Regular m ps z k)
include h

theorem rot {q : Equiv.Perm Nat} {l : ZMod (m.b - 1)} (hq : Dih (m.b - 1) q 1 l) : ∃ j : Nat, q = Q m.b m.ch ^ j :=
  rotation_pow (by have := h.even; have := h.eight; omega) (by have := h.eight; omega) h.lh h.cyc hq

theorem wfp : ∀ c ∈ ps, c.WF ∧ c.n = m.b := fun c hc => h.wf c (by rw [h.ch]; simp [hc])

theorem odd : (m.b - 1) % 2 = 1 := by have := h.even; have := h.eight; omega

/-- The lead end is a reflection. -/
theorem leadEnd : ∃ l, Dih (m.b - 1) (Q m.b ps) (-1) l := by
  have hz : z.WF ∧ z.n = m.b := h.wf z (by rw [h.ch]; simp)
  have e : Q m.b ps = Q m.b m.ch * (Q m.b [z])⁻¹ := by
    rw [h.ch, Q_append (by have := h.le; omega) h.wfp (by simpa using hz), mul_inv_cancel_right]
  obtain ⟨l, hl⟩ := h.last
  rw [e]
  exact ⟨_, (h.lh.mul (hl.inv h.odd)).congr (by norm_num) rfl⟩

/-- Every rotation keeps the rows. -/
theorem rot_plain {q p : Equiv.Perm Nat} {l : ZMod (m.b - 1)} (hq : Dih (m.b - 1) q 1 l) (hp : InPlain m p) :
    InPlain m (q * p) := by
  obtain ⟨j, rfl⟩ := h.rot hq
  obtain ⟨a, i, hi, rfl⟩ := hp
  exact ⟨j + a, i, hi, by rw [pow_add, mul_assoc]⟩

theorem take_plain {i : Nat} (hi : i ≤ ps.length) :
    (Q m.b ps)⁻¹ * Q m.b (ps.take i) = Q m.b (ps.take (ps.length - i)) := by
  have hb : m.b ≤ 256 := by have := h.le; omega
  have w1 : ∀ c ∈ ps.take i, c.WF ∧ c.n = m.b := fun c hc => h.wfp c (List.mem_of_mem_take hc)
  have w2 : ∀ c ∈ ps.drop i, c.WF ∧ c.n = m.b := fun c hc => h.wfp c (List.mem_of_mem_drop hc)
  have e1 : Q m.b ps = Q m.b (ps.take i) * Q m.b (ps.drop i) := by
    rw [← Q_append hb w1 w2, List.take_append_drop]
  have e2 : ps.take (ps.length - i) = (ps.drop i).reverse := by
    conv_lhs => rw [← h.pal]
    rw [List.take_reverse]
    congr 2
    simp; omega
  rw [e2, Q_reverse hb w2, e1]
  group

theorem refl_plain {p : Equiv.Perm Nat} (hp : InPlain m p) : InPlain m ((Q m.b ps)⁻¹ * p) := by
  obtain ⟨a, i, hi, rfl⟩ := hp
  have hlen : m.ch.length = ps.length + 1 := by rw [h.ch]; simp
  have tk : ∀ j, j ≤ ps.length → m.ch.take j = ps.take j := fun j hj => by rw [h.ch, List.take_append_of_le_length hj]
  obtain ⟨l, hl⟩ := h.leadEnd
  have hrow : InPlain m ((Q m.b ps)⁻¹ * Q m.b (m.ch.take i)) := by
    refine ⟨0, ps.length - i, by omega, ?_⟩
    rw [tk i (by omega), tk _ (by omega), h.take_plain (by omega), pow_zero, one_mul]
  have hpw : ∃ t, Dih (m.b - 1) (Q m.b m.ch ^ a) 1 t := by
    induction a with
    | zero => exact ⟨0, by simpa using Dih.one _⟩
    | succ a ih =>
      obtain ⟨t, ht⟩ := ih
      rw [pow_succ]
      exact ⟨_, (ht.mul h.lh).congr rfl rfl⟩
  obtain ⟨t, ht⟩ := hpw
  have hconj := ((hl.inv h.odd).mul ht).mul hl
  have := h.rot_plain (hconj.congr (by norm_num) rfl) hrow
  convert this using 1
  group

/-- Every row of the group keeps the rows of the plain course. -/
theorem plain {d p : Equiv.Perm Nat} (hd : d ∈ PlainBob m.b) (hp : InPlain m p) : InPlain m (d * p) := by
  have h8 := h.eight
  have hle := h.le
  obtain ⟨s, l, hs⟩ := (plainBob_dih h.even (by omega) (by omega)).1 hd
  rcases hs.sgn with rfl | rfl
  · exact h.rot_plain hs hp
  · obtain ⟨t, ht⟩ := h.leadEnd
    have := h.rot_plain ((hs.mul ht).congr (by norm_num) rfl) (h.refl_plain hp)
    convert this using 1
    group

theorem same {x y : Equiv.Perm Nat} (hx : ∃ p q, InPlain m p ∧ InPlain m q ∧ x = p * q⁻¹) {d e : Equiv.Perm Nat}
    (hd : d ∈ PlainBob m.b) (he : e ∈ PlainBob m.b) (hy : y = d * x * e ∨ y = d * x⁻¹ * e) :
    ∃ p q, InPlain m p ∧ InPlain m q ∧ y = p * q⁻¹ := by
  obtain ⟨p, q, hp, hq, rfl⟩ := hx
  rcases hy with rfl | rfl
  · exact ⟨d * p, e⁻¹ * q, h.plain hd hp, h.plain (inv_mem he) hq, by group⟩
  · exact ⟨d * q, e⁻¹ * p, h.plain hd hq, h.plain (inv_mem he) hp, by group⟩

end Regular

/-! ## The rows in terms of the model -/

theorem Q_valid {b : Nat} (hb : b ≤ 256) {cs : List Change} (hc : ∀ c ∈ cs, c.WF) : Row.Valid (Row.applyAll (Row.rounds b) cs) :=
  valid_applyAll hc (Row.valid_rounds hb)

theorem Q_pow {m : Method} (wm : m.WF) (k : Nat) : Q m.b (List.replicate k m.ch).flatten = Q m.b m.ch ^ k := by
  have hb : m.b ≤ 256 := by have := wm.1; omega
  induction k with
  | zero =>
    have : Q m.b [] = 1 := permOf_rounds hb
    simpa using this
  | succ k ih =>
    rw [List.replicate_succ', List.flatten_append, Q_append hb, ih, pow_succ]
    · simp
    · intro c hc
      obtain ⟨l, hl, hcl⟩ := List.mem_flatten.1 hc
      rw [(List.mem_replicate.1 hl).2] at hcl
      exact wm.2 c hcl
    · intro c hc
      exact wm.2 c (by simpa using hc)

theorem inCourse_iff {m : Method} (wm : m.WF) {c x : Row} (hc : Row.Valid c) (hl : c.length = m.b) :
    InCourse m c x ↔ Row.Valid x ∧ x.length = m.b ∧ ∃ p, InPlain m p ∧ permOf x = permOf c * p := by
  have hb : m.b ≤ 256 := by have := wm.1; omega
  have wfr : ∀ k i, ∀ c ∈ (List.replicate k m.ch).flatten ++ m.ch.take i, c.WF ∧ c.n = m.b := by
    intro k i c hc'
    rw [List.mem_append] at hc'
    rcases hc' with h | h
    · obtain ⟨l, hl, hcl⟩ := List.mem_flatten.1 h
      rw [(List.mem_replicate.1 hl).2] at hcl
      exact wm.2 c hcl
    · exact wm.2 c (List.mem_of_mem_take h)
  have key : ∀ k i, let x := Row.applyAll c ((List.replicate k m.ch).flatten ++ m.ch.take i)
      Row.Valid x ∧ x.length = m.b ∧ permOf x = permOf c * (Q m.b m.ch ^ k * Q m.b (m.ch.take i)) := by
    intro k i
    have w := fun c h => (wfr k i c h).1
    have e : Row.applyAll c ((List.replicate k m.ch).flatten ++ m.ch.take i) =
        Row.mul c (Row.applyAll (Row.rounds m.b) ((List.replicate k m.ch).flatten ++ m.ch.take i)) := by
      rw [mul_applyAll w, Row.mul_rounds (by omega)]
    refine ⟨valid_applyAll w hc, ?_, ?_⟩
    · rw [length_applyAll (b := m.b) (fun c h => (wfr k i c h).2.le) (by omega), hl]
    · rw [e, permOf_mul hc (Q_valid hb w)]
      congr 1
      have := Q_append hb (fun c h => wfr k i c (List.mem_append_left _ h)) (fun c h => wfr k i c (List.mem_append_right _ h))
      rw [Q_pow wm] at this
      exact this
  unfold InCourse
  constructor
  · rintro ⟨k, i, hi, e⟩
    rw [applyAllC_eq (fun c h => (wfr k i c h).1)] at e
    injection e with e
    obtain ⟨h1, h2, h3⟩ := key k i
    rw [e] at h1 h2 h3
    exact ⟨h1, h2, _, ⟨k, i, hi, rfl⟩, h3⟩
  · rintro ⟨h1, h2, p, ⟨k, i, hi, rfl⟩, e⟩
    obtain ⟨q1, q2, q3⟩ := key k i
    refine ⟨k, i, hi, ?_⟩
    rw [applyAllC_eq (fun c h => (wfr k i c h).1)]
    congr 1
    exact permOf_inj q1 h1 (by rw [q2, h2]) (by rw [q3, e])

/-- The course of a row has a row in common with the plain course. -/
theorem common_iff {m : Method} (wm : m.WF) {c : Row} (hc : Row.Valid c) (hl : c.length = m.b) :
    (∃ x, InCourse m (Row.roundsC m.b) x ∧ InCourse m c x) ↔
      ∃ p q, InPlain m p ∧ InPlain m q ∧ permOf c = p * q⁻¹ := by
  have hb : m.b ≤ 256 := by have := wm.1; omega
  rw [Row.roundsC_eq hb]
  constructor
  · rintro ⟨x, h1, h2⟩
    obtain ⟨-, -, p, hp, e1⟩ := (inCourse_iff wm (Row.valid_rounds hb) (by simp)).1 h1
    obtain ⟨-, -, q, hq, e2⟩ := (inCourse_iff wm hc hl).1 h2
    refine ⟨p, q, hp, hq, ?_⟩
    rw [permOf_rounds hb, one_mul] at e1
    rw [← e1, e2, mul_inv_cancel_right]
  · rintro ⟨p, q, hp, hq, e⟩
    obtain ⟨k, i, hi, rfl⟩ := hp
    have w : ∀ c ∈ (List.replicate k m.ch).flatten ++ m.ch.take i, c.WF ∧ c.n = m.b := by
      intro c hc'
      rw [List.mem_append] at hc'
      rcases hc' with h | h
      · obtain ⟨l, hl, hcl⟩ := List.mem_flatten.1 h
        rw [(List.mem_replicate.1 hl).2] at hcl
        exact wm.2 c hcl
      · exact wm.2 c (List.mem_of_mem_take h)
    have e1 := Q_append hb (fun c h => w c (List.mem_append_left _ h)) (fun c h => w c (List.mem_append_right _ h))
    rw [Q_pow wm] at e1
    have vx := Q_valid hb (fun c h => (w c h).1)
    have lx : (Row.applyAll (Row.rounds m.b) ((List.replicate k m.ch).flatten ++ m.ch.take i)).length = m.b := by
      rw [length_applyAll (b := m.b) (fun c h => (w c h).2.le) (by simp)]; simp
    refine ⟨_, (inCourse_iff wm (Row.valid_rounds hb) (by simp)).2 ⟨vx, lx, _, ⟨k, i, hi, rfl⟩, ?_⟩,
      (inCourse_iff wm hc hl).2 ⟨vx, lx, q, hq, ?_⟩⟩
    · rw [permOf_rounds hb, one_mul]; exact e1
    · rw [e, inv_mul_cancel_right]; exact e1

end Falseness
end Ringing
