import Verif.Lemmas.Falseness2
import Verif.Props.Group

/-! C34 (falseness tables) and C35 (false course heads). -/
namespace Ringing
open Spec Row Falseness

/-- Flags 1 and 8 of a falseness table restrict it to in-course or out-of-course elements, and unless
flag 2 is given the treble is fixed. -/
def Falseness.Allowed (flags : Nat) (f : Row) : Prop :=
  (flags.testBit 1 = true ∨ bellAt f 0 = 0) ∧ (flags.testBit 0 = true → Row.signC f = .ok 1) ∧
    (flags.testBit 3 = true → Row.signC f = .ok (-1))

theorem incr_lex {n : Nat} {t : List Row} (h : Group.Incr Row.lt t) (hl : ∀ x ∈ t, x.length = n) :
    t.Pairwise LexLt :=
  List.Pairwise.imp_of_mem (fun ha hb hab => (lexLt_iff (by rw [hl _ ha, hl _ hb])).2 hab) h

theorem allowed_iff {flags : Nat} {f : Row} (hf : Valid f) : Allowed flags f ↔ Keep flags f := by
  unfold Allowed Keep
  rw [bellAt_eq_fn, signC_eq hf]
  simp

/-- C34: the table of two lists of rows: exactly the allowed quotients `a / b`, in increasing order.
With `half_lead_only` only the first halves of the lists are used. -/
theorem C34_rows {n flags : Nat} (hn : 0 < n) {A B : List Row} (hA : ∀ a ∈ A, IsRow a ∧ a.length = n)
    (hB : ∀ b ∈ B, IsRow b ∧ b.length = n) :
    ∃ t, initC flags A B = .ok t ∧ t.Pairwise LexLt ∧
      ∀ f, f ∈ t ↔ IsRow f ∧ f.length = n ∧ Allowed flags f ∧
        ∃ a ∈ A.take (if flags.testBit 2 then A.length / 2 else A.length),
        ∃ b ∈ B.take (if flags.testBit 2 then B.length / 2 else B.length),
          ∀ i, bellAt f (bellAt b i) = bellAt a i := by
  have hA' : ∀ a ∈ A, Valid a ∧ a.length = n := fun a h => ⟨(isRow_iff_valid _).1 (hA a h).1, (hA a h).2⟩
  have hB' : ∀ a ∈ B, Valid a ∧ a.length = n := fun a h => ⟨(isRow_iff_valid _).1 (hB a h).1, (hB a h).2⟩
  obtain ⟨t, h1, h2, h3⟩ := initC_spec (flags := flags) hn hA' hB'
  rw [← part_eq, ← part_eq]
  have hpA : ∀ a ∈ part flags A, Valid a ∧ a.length = n := fun a h => hA' a (by
    rw [part_eq] at h; exact List.mem_of_mem_take h)
  have hpB : ∀ a ∈ part flags B, Valid a ∧ a.length = n := fun a h => hB' a (by
    rw [part_eq] at h; exact List.mem_of_mem_take h)
  refine ⟨t, h1, incr_lex (n := n) h2 (fun x hx => ?_), fun f => ?_⟩
  · obtain ⟨a, ha, b, hb, rfl, -⟩ := (h3 x).1 hx
    simp [Row.div, (hpA a ha).2, (hpB b hb).2]
  rw [h3]
  simp only [bellAt_eq_fn]
  constructor
  · rintro ⟨a, ha, b, hb, e, hk⟩
    have hv : Valid f := e ▸ valid_div (hpA a ha).1 (hpB b hb).1
    have := (eq_div_iff (hpB b hb).1 (by rw [(hpA a ha).2, (hpB b hb).2])).1 e
    exact ⟨(isRow_iff_valid _).2 hv, by rw [this.1, (hpA a ha).2], (allowed_iff hv).2 hk, a, ha, b, hb, this.2⟩
  · rintro ⟨hf, hl, hk, a, ha, b, hb, e⟩
    refine ⟨a, ha, b, hb, ?_, (allowed_iff ((isRow_iff_valid _).1 hf)).1 hk⟩
    exact (eq_div_iff (hpB b hb).1 (by rw [(hpA a ha).2, (hpB b hb).2])).2 ⟨by rw [hl, (hpA a ha).2], e⟩

/-- The rows of a lead. -/
theorem leadC_spec {m : Method} (hw : m.WF) {flags : Nat} (h1 : ¬ (flags.testBit 2 = true ∧ m.ch.length = 1)) :
    ∃ L, leadC flags m = .ok L ∧ L.length = (if flags.testBit 2 then m.ch.length / 2 else m.ch.length) ∧
      ∀ i, i < L.length → L[i]? = some (applyAll (rounds m.b) (m.ch.take i)) := by
  unfold leadC HALF_LEAD_ONLY
  rw [show has flags 0x04 = flags.testBit 2 from has_pow flags 2]
  cases hch : m.ch with
  | nil => exact ⟨[], by simp [RowBlock.ofChangesC, RowBlock.baseSize], by simp, by simp⟩
  | cons c cs =>
    have hc : ∀ d ∈ c :: cs, IsChange d.n d.swaps := fun d hd => (hw.2 d (by rw [hch]; exact hd)).1
    have hcn : c.n = m.b := (hw.2 c (by rw [hch]; simp)).2
    rw [C47_from_rounds hc _ _ (by rw [hch] at h1; simp at h1 ⊢; exact h1), hcn]
    obtain ⟨b, e1, -, e2, e3⟩ := C47_from_row hc (rounds m.b) (flags.testBit 2) true
    refine ⟨b.rows, by rw [e1]; rfl, by rw [e2]; simp, fun i hi => e3 i hi⟩

theorem mem_take_lead {m : Method} {L : List Row} {k : Nat} (hk : k ≤ L.length)
    (h : ∀ i, i < L.length → L[i]? = some (applyAll (rounds m.b) (m.ch.take i))) (r : Row) :
    r ∈ L.take k ↔ ∃ i, i < k ∧ r = applyAll (rounds m.b) (m.ch.take i) := by
  rw [List.mem_iff_getElem?]
  constructor
  · rintro ⟨i, hi⟩
    rw [List.getElem?_take] at hi
    split at hi
    · rename_i hlt
      rw [h i (by omega)] at hi
      exact ⟨i, hlt, by simpa using hi.symm⟩
    · cases hi
  · rintro ⟨i, hi, rfl⟩
    exact ⟨i, by rw [List.getElem?_take, if_pos hi, h i (by omega)]⟩

theorem lead_rows {m : Method} (hw : m.WF) {L : List Row}
    (h : ∀ i, i < L.length → L[i]? = some (applyAll (rounds m.b) (m.ch.take i))) :
    ∀ a ∈ L, Valid a ∧ a.length = m.b := by
  intro a ha
  have := (mem_take_lead (k := L.length) le_rfl h a).1 (by simpa using ha)
  obtain ⟨i, -, rfl⟩ := this
  have hb := hw.1
  have hwf : ∀ c ∈ m.ch.take i, c.WF := fun c hc => (hw.2 c (List.mem_of_mem_take hc)).1
  refine ⟨valid_applyAll hwf (valid_rounds (by omega)), ?_⟩
  rw [length_applyAll (b := m.b) (fun c hc => (hw.2 c (List.mem_of_mem_take hc)).2.le) (by simp)]
  simp

/-- How many rows of each lead the table of methods is built from.  With `half_lead_only` it is only a
quarter: both the block of rows and the table take half. -/
def Falseness.used (flags len : Nat) : Nat := if flags.testBit 2 then len / 2 / 2 else len

theorem methods_spec {a b : Method} {n flags : Nat} (hn : 0 < n) (ha : a.WF) (hb : b.WF) (hab : a.b = n)
    (hbb : b.b = n) (h1 : ¬ (flags.testBit 2 = true ∧ (a.ch.length = 1 ∨ b.ch.length = 1))) :
    ∃ t, ofMethodsC a b flags = .ok t ∧ Group.Incr Row.lt t ∧
      ∀ f, f ∈ t ↔ Keep flags f ∧ ∃ i, i < used flags a.ch.length ∧ ∃ j, j < used flags b.ch.length ∧
        f = Row.div (applyAll (rounds n) (a.ch.take i)) (applyAll (rounds n) (b.ch.take j)) := by
  obtain ⟨L, l1, l2, l3⟩ := leadC_spec ha (flags := flags) (fun h => h1 ⟨h.1, Or.inl h.2⟩)
  obtain ⟨M, m1, m2, m3⟩ := leadC_spec hb (flags := flags) (fun h => h1 ⟨h.1, Or.inr h.2⟩)
  obtain ⟨t, t1, t2, t3⟩ := initC_spec (flags := flags) hn (hab ▸ lead_rows ha l3) (hbb ▸ lead_rows hb m3)
  refine ⟨t, by rw [ofMethodsC, l1, Out.ok_bind, m1, Out.ok_bind, t1], t2, fun f => ?_⟩
  have k1 : (if flags.testBit 2 then L.length / 2 else L.length) = used flags a.ch.length := by
    rw [l2]; unfold used; split <;> rfl
  have k2 : (if flags.testBit 2 then M.length / 2 else M.length) = used flags b.ch.length := by
    rw [m2]; unfold used; split <;> rfl
  rw [t3, part_eq, part_eq, k1, k2]
  have q1 : used flags a.ch.length ≤ L.length := by rw [← k1]; split <;> omega
  have q2 : used flags b.ch.length ≤ M.length := by rw [← k2]; split <;> omega
  simp only [mem_take_lead (m := a) q1 l3, mem_take_lead (m := b) q2 m3, hab, hbb]
  constructor
  · rintro ⟨_, ⟨i, hi, rfl⟩, _, ⟨j, hj, rfl⟩, e, hk⟩
    exact ⟨hk, i, hi, j, hj, e⟩
  · rintro ⟨hk, i, hi, j, hj, e⟩
    exact ⟨_, ⟨i, hi, rfl⟩, _, ⟨j, hj, rfl⟩, e, hk⟩

/-- C34: the table of two methods: exactly the allowed quotients of a row of the first lead of the one
by a row of the first lead of the other, in increasing order. -/
theorem C34_methods {a b : Method} {n flags : Nat} (hn : 0 < n) (hn' : n ≤ 255)
    (ha : ∀ c ∈ a.ch, IsChange c.n c.swaps ∧ c.n = n) (hb : ∀ c ∈ b.ch, IsChange c.n c.swaps ∧ c.n = n)
    (hab : a.b = n) (hbb : b.b = n)
    (h1 : ¬ (flags.testBit 2 = true ∧ (a.ch.length = 1 ∨ b.ch.length = 1))) :
    ∃ t, ofMethodsC a b flags = .ok t ∧ t.Pairwise LexLt ∧
      ∀ f, f ∈ t ↔ IsRow f ∧ f.length = n ∧ Allowed flags f ∧
        ∃ i, i < used flags a.ch.length ∧ ∃ j, j < used flags b.ch.length ∧ ∃ x y,
          Method.applyAllC (a.ch.take i) (roundsC n) = .ok x ∧
          Method.applyAllC (b.ch.take j) (roundsC n) = .ok y ∧ ∀ k, bellAt f (bellAt y k) = bellAt x k := by
  have wa : a.WF := ⟨by omega, fun c hc => hab ▸ ha c hc⟩
  have wb : b.WF := ⟨by omega, fun c hc => hbb ▸ hb c hc⟩
  obtain ⟨t, t1, t2, t3⟩ := methods_spec hn wa wb hab hbb h1
  have va : ∀ i, ∀ c ∈ a.ch.take i, c.WF := fun i c hc => (ha c (List.mem_of_mem_take hc)).1
  have vb : ∀ i, ∀ c ∈ b.ch.take i, c.WF := fun i c hc => (hb c (List.mem_of_mem_take hc)).1
  have ra : ∀ i, Valid (applyAll (rounds n) (a.ch.take i)) := fun i => valid_applyAll (va i) (valid_rounds (by omega))
  have rb : ∀ i, Valid (applyAll (rounds n) (b.ch.take i)) := fun i => valid_applyAll (vb i) (valid_rounds (by omega))
  have la : ∀ i, (applyAll (rounds n) (a.ch.take i)).length = n := fun i => by
    rw [length_applyAll (b := n) (fun c hc => (ha c (List.mem_of_mem_take hc)).2.le) (by simp)]; simp
  have lb : ∀ i, (applyAll (rounds n) (b.ch.take i)).length = n := fun i => by
    rw [length_applyAll (b := n) (fun c hc => (hb c (List.mem_of_mem_take hc)).2.le) (by simp)]; simp
  refine ⟨t, t1, incr_lex (n := n) t2 (fun x hx => ?_), fun f => ?_⟩
  · obtain ⟨-, i, -, j, -, rfl⟩ := (t3 x).1 hx
    simp [Row.div, la, lb]
  rw [t3, roundsC_eq (by omega)]
  simp only [applyAllC_eq (va _), applyAllC_eq (vb _), bellAt_eq_fn]
  constructor
  · rintro ⟨hk, i, hi, j, hj, e⟩
    have hv : Valid f := e ▸ valid_div (ra i) (rb j)
    have := (eq_div_iff (rb j) (by rw [la, lb])).1 e
    exact ⟨(isRow_iff_valid _).2 hv, by rw [this.1, la], (allowed_iff hv).2 hk, i, hi, j, hj, _, _, rfl, rfl, this.2⟩
  · rintro ⟨hf, hl, hk, i, hi, j, hj, x, y, ex, ey, e⟩
    injection ex with ex
    injection ey with ey
    refine ⟨(allowed_iff ((isRow_iff_valid _).1 hf)).1 hk, i, hi, j, hj, ?_⟩
    refine (eq_div_iff (rb j) (by rw [la, lb])).2 ⟨by rw [hl, la], ?_⟩
    rw [ex, ey]; exact e

/-- C34: the table of one method is its table against itself. -/
theorem C34_method (m : Method) (flags : Nat) : ofMethodC m flags = ofMethodsC m m flags := by
  unfold ofMethodC ofMethodsC
  cases leadC flags m <;> rfl

/-- C34: the point of the table.  The lead of `a` starting from the row `r` and the lead of `b`
starting from the row `s` have a row in common if and only if `s = r * f` for some `f` in the table;
if the table is restricted by flags this holds for the corresponding pairs of rows: with the same bell
leading, of the same sign, of opposite signs. -/
theorem C34_false {a b : Method} {n flags : Nat} (hn : 0 < n) (hn' : n ≤ 255)
    (ha : ∀ c ∈ a.ch, IsChange c.n c.swaps ∧ c.n = n) (hb : ∀ c ∈ b.ch, IsChange c.n c.swaps ∧ c.n = n)
    (hab : a.b = n) (hbb : b.b = n) (h2 : flags.testBit 2 = false) {r s : Row} (hr : IsRow r) (hs : IsRow s)
    (hrl : r.length = n) (hsl : s.length = n)
    (hlead : flags.testBit 1 = true ∨ bellAt r 0 = bellAt s 0)
    (hin : flags.testBit 0 = true → Row.signC r = Row.signC s)
    (hout : flags.testBit 3 = true → Row.signC r ≠ Row.signC s) :
    ∃ t, ofMethodsC a b flags = .ok t ∧
      ((∃ i, i < a.ch.length ∧ ∃ j, j < b.ch.length ∧ ∃ x,
          Method.applyAllC (a.ch.take i) r = .ok x ∧ Method.applyAllC (b.ch.take j) s = .ok x) ↔
        ∃ f ∈ t, Row.mulC r f = .ok s) := by
  have wa : a.WF := ⟨by omega, fun c hc => hab ▸ ha c hc⟩
  have wb : b.WF := ⟨by omega, fun c hc => hbb ▸ hb c hc⟩
  obtain ⟨t, t1, t2, t3⟩ := methods_spec (flags := flags) hn wa wb hab hbb (by simp [h2])
  have hu : ∀ k, used flags k = k := fun k => by simp [used, h2]
  simp only [hu] at t3
  refine ⟨t, t1, ?_⟩
  have hr' := (isRow_iff_valid _).1 hr
  have hs' := (isRow_iff_valid _).1 hs
  have va : ∀ i, ∀ c ∈ a.ch.take i, c.WF := fun i c hc => (ha c (List.mem_of_mem_take hc)).1
  have vb : ∀ i, ∀ c ∈ b.ch.take i, c.WF := fun i c hc => (hb c (List.mem_of_mem_take hc)).1
  have ra : ∀ i, Valid (applyAll (rounds n) (a.ch.take i)) := fun i => valid_applyAll (va i) (valid_rounds (by omega))
  have rb : ∀ i, Valid (applyAll (rounds n) (b.ch.take i)) := fun i => valid_applyAll (vb i) (valid_rounds (by omega))
  have la : ∀ i, (applyAll (rounds n) (a.ch.take i)).length = n := fun i => by
    rw [length_applyAll (b := n) (fun c hc => (ha c (List.mem_of_mem_take hc)).2.le) (by simp)]; simp
  have lb : ∀ i, (applyAll (rounds n) (b.ch.take i)).length = n := fun i => by
    rw [length_applyAll (b := n) (fun c hc => (hb c (List.mem_of_mem_take hc)).2.le) (by simp)]; simp
  have ea : ∀ i, applyAll r (a.ch.take i) = Row.mul r (applyAll (rounds n) (a.ch.take i)) := fun i => by
    rw [mul_applyAll (va i), mul_rounds (by omega)]
  have eb : ∀ i, applyAll s (b.ch.take i) = Row.mul s (applyAll (rounds n) (b.ch.take i)) := fun i => by
    rw [mul_applyAll (vb i), mul_rounds (by omega)]
  simp only [applyAllC_eq (va _), applyAllC_eq (vb _), ea, eb]
  constructor
  · rintro ⟨i, hi, j, hj, x, ex, ey⟩
    injection ex with ex
    injection ey with ey
    set A := applyAll (rounds n) (a.ch.take i)
    set B := applyAll (rounds n) (b.ch.take j)
    have hvd : Valid (Row.div A B) := valid_div (ra i) (rb j)
    have hmul : Row.mul r (Row.div A B) = s := by
      refine ext_fn (by simp [Row.div, A, B, la, lb, hrl, hsl]) ?_
      intro k _
      obtain ⟨p, rfl⟩ : ∃ p, k = fn B p := ⟨find B k, ((rb j).fn_find k).symm⟩
      have hd := ((eq_div_iff (rb j) (by rw [la, lb])).1 (rfl : Row.div A B = Row.div A B)).2
      rw [fn_mul, hd, ← fn_mul, ex, ← ey, fn_mul]
    refine ⟨_, (t3 _).2 ⟨?_, i, hi, j, hj, rfl⟩, by rw [mulC_eq hr' hvd]; exact congrArg _ hmul⟩
    -- the flags allow it
    have hsg : sign r * sign (Row.div A B) = sign s := by rw [← sign_mul hr' hvd, hmul]
    rw [signC_eq hr', signC_eq hs'] at hin hout
    refine ⟨?_, ?_, ?_⟩
    · rcases hlead with h | h
      · exact Or.inl h
      · right
        rw [bellAt_eq_fn, bellAt_eq_fn, ← hmul, fn_mul] at h
        exact (hr'.fn_inj h).symm
    · intro h
      show sign (Row.div A B) = 1
      have h' := hin h
      injection h' with h'
      rcases sign_sq hr' with q | q <;> rw [← h', q] at hsg <;> omega
    · intro h
      show sign (Row.div A B) = -1
      have h' : sign r ≠ sign s := fun e => hout h (by rw [e])
      rcases sign_sq hr' with q | q <;> rcases sign_sq hs' with q' | q' <;> rw [q, q'] at hsg h' <;>
        first | omega | exact absurd rfl h'
  · rintro ⟨f, hf, e⟩
    obtain ⟨-, i, hi, j, hj, hfe⟩ := (t3 f).1 hf
    have hfv : Valid f := hfe ▸ valid_div (ra i) (rb j)
    rw [mulC_eq hr' hfv] at e
    injection e with e
    have hd := (eq_div_iff (rb j) (by rw [la, lb])).1 hfe
    refine ⟨i, hi, j, hj, _, rfl, ?_⟩
    congr 1
    refine ext_fn (by simp [la, lb, hrl, hsl]) ?_
    intro k _
    rw [fn_mul, fn_mul, ← e, fn_mul, hd.2]

/-- C34: with `half_lead_only` a method of one change is undefined behaviour. -/
theorem C34_half_lead_ub {m : Method} {c : Change} (hc : m.ch = [c]) {flags : Nat} (h : flags.testBit 2 = true) :
    ofMethodC m flags = .ub := by
  unfold ofMethodC leadC HALF_LEAD_ONLY
  rw [show has flags 0x04 = flags.testBit 2 from has_pow flags 2, h, hc, C47_ub]; rfl

/-! ### The group generated by a table -/

/-- C34: without `out_of_course_only`, `generate_group` gives the group generated by the table. -/
theorem C34_group {t : List Row} (ht : ∀ r ∈ t, IsRow r) {flags : Nat} (h : flags.testBit 3 = false) :
    ∃ g, generateGroupC flags t = .ok g ∧ Lists g.v g.b (generated t) := by
  unfold generateGroupC OUT_OF_COURSE_ONLY
  rw [show has flags 0x08 = flags.testBit 3 from has_pow flags 3, h]
  obtain ⟨g, h1, -, -, h2⟩ := Group.C31_vector ht
  exact ⟨g, h1, h2⟩

theorem quotientsGo_spec {n : Nat} {a : Row} (ha : Valid a ∧ a.length = n ∧ sign a = -1) : ∀ (bs acc : List Row),
    (∀ b ∈ bs, Valid b ∧ b.length = n ∧ sign b = -1) →
    quotientsC.go a bs acc = .ok (acc ++ bs.map (Row.div a))
  | [], acc, _ => by simp [quotientsC.go]
  | b :: bs, acc, hb => by
    have hb1 := hb b (by simp)
    have hs : sign (Row.div a b) = 1 := by
      rw [div_eq hb1.1, sign_mul ha.1 (valid_inverse hb1.1), sign_inverse hb1.1, ha.2.2, hb1.2.2]; rfl
    rw [quotientsC.go, divC_eq ha.1 hb1.1, Out.ok_bind, signC_eq (valid_div ha.1 hb1.1), Out.ok_bind, hs, if_pos rfl,
      quotientsGo_spec ha bs _ (fun c hc => hb c (by simp [hc]))]
    simp

theorem quotientsC_spec {n : Nat} {t : List Row} (ht : ∀ b ∈ t, Valid b ∧ b.length = n ∧ sign b = -1) :
    ∀ (as acc : List Row), (∀ b ∈ as, Valid b ∧ b.length = n ∧ sign b = -1) →
    quotientsC t as acc = .ok (acc ++ as.flatMap fun a => t.map (Row.div a))
  | [], acc, _ => by simp [quotientsC]
  | a :: as, acc, ha => by
    rw [quotientsC, quotientsGo_spec (ha a (by simp)) t acc ht, Out.ok_bind,
      quotientsC_spec ht as _ (fun c hc => ha c (by simp [hc]))]
    simp

theorem evenGroup {n : Nat} {t q : List Row} (hn : n ≤ 256) (ht : ∀ b ∈ t, Valid b ∧ b.length = n ∧ sign b = -1)
    (hinv : ∀ b ∈ t, Row.inverse b ∈ t) (hq : ∀ x, x ∈ q ↔ ∃ a ∈ t, ∃ b ∈ t, x = Row.div a b) {r : Row}
    (hr : Valid r) (hrl : r.length = n) :
    permOf r ∈ generated q ↔ permOf r ∈ generated t ∧ sign r = 1 := by
  have hdiv : ∀ a ∈ t, ∀ b ∈ t, permOf (Row.div a b) = permOf a * (permOf b)⁻¹ := by
    intro a ha b hb
    rw [div_eq (ht b hb).1, permOf_mul (ht a ha).1 (valid_inverse (ht b hb).1), permOf_inverse (ht b hb).1]
  have mt : ∀ a ∈ t, permOf a ∈ generated t := fun a ha => Subgroup.subset_closure ⟨a, ha, rfl⟩
  have sgn : ∀ {p : Equiv.Perm Nat} {s : Row}, Valid s → s.length = n → permOf s = p → permOf r = p → sign s = sign r := by
    intro p s hs hsl e1 e2
    rw [permOf_inj hs hr (by rw [hsl, hrl]) (e1.trans e2.symm)]
  constructor
  · intro h
    refine ⟨?_, ?_⟩
    · have : generated q ≤ generated t := by
        unfold generated
        rw [Subgroup.closure_le]
        rintro p ⟨x, hx, rfl⟩
        obtain ⟨a, ha, b, hb, rfl⟩ := (hq x).1 hx
        rw [hdiv a ha b hb]
        exact Subgroup.mul_mem _ (mt a ha) (Subgroup.inv_mem _ (mt b hb))
      exact this h
    · have key : ∀ p ∈ generated q, ∃ s, Valid s ∧ s.length = n ∧ permOf s = p ∧ sign s = 1 := by
        intro p hp
        refine Subgroup.closure_induction (p := fun p _ => ∃ s, Valid s ∧ s.length = n ∧ permOf s = p ∧ sign s = 1)
          ?_ ?_ ?_ ?_ hp
        · rintro p ⟨x, hx, rfl⟩
          obtain ⟨a, ha, b, hb, rfl⟩ := (hq x).1 hx
          refine ⟨_, valid_div (ht a ha).1 (ht b hb).1, by simp [Row.div, (ht a ha).2.1, (ht b hb).2.1], rfl, ?_⟩
          rw [div_eq (ht b hb).1, sign_mul (ht a ha).1 (valid_inverse (ht b hb).1), sign_inverse (ht b hb).1,
            (ht a ha).2.2, (ht b hb).2.2]; rfl
        · exact ⟨rounds n, valid_rounds hn, by simp, permOf_rounds hn, sign_rounds hn⟩
        · rintro x y - - ⟨s, s1, s2, s3, s4⟩ ⟨u, u1, u2, u3, u4⟩
          exact ⟨Row.mul s u, valid_mul s1 u1, by simp [s2, u2], by rw [permOf_mul s1 u1, s3, u3],
            by rw [sign_mul s1 u1, s4, u4]; rfl⟩
        · rintro x - ⟨s, s1, s2, s3, s4⟩
          exact ⟨Row.inverse s, valid_inverse s1, by simp [Row.inverse, s2], by rw [permOf_inverse s1, s3],
            by rw [sign_inverse s1, s4]⟩
      obtain ⟨s, s1, s2, s3, s4⟩ := key _ h
      rw [← sgn s1 s2 s3 rfl, s4]
  · rintro ⟨h, hs⟩
    have hab : ∀ a ∈ t, ∀ b ∈ t, permOf a * permOf b ∈ generated q := by
      intro a ha b hb
      have := hdiv a ha _ (hinv b hb)
      rw [permOf_inverse (ht b hb).1, inv_inv] at this
      rw [← this]
      exact Subgroup.subset_closure ⟨_, (hq _).2 ⟨a, ha, _, hinv b hb, rfl⟩, rfl⟩
    have key : ∀ p ∈ generated t, ∃ s, Valid s ∧ s.length = n ∧ permOf s = p ∧
        ((p ∈ generated q ∧ sign s = 1) ∨ ((∀ a ∈ t, permOf a * p ∈ generated q) ∧ sign s = -1)) := by
      have step : ∀ (b : Row), b ∈ t → ∀ y, (∃ s, Valid s ∧ s.length = n ∧ permOf s = y ∧
          ((y ∈ generated q ∧ sign s = 1) ∨ ((∀ a ∈ t, permOf a * y ∈ generated q) ∧ sign s = -1))) →
          ∃ s, Valid s ∧ s.length = n ∧ permOf s = permOf b * y ∧ ((permOf b * y ∈ generated q ∧ sign s = 1) ∨
            ((∀ a ∈ t, permOf a * (permOf b * y) ∈ generated q) ∧ sign s = -1)) := by
        rintro b hb y ⟨s, s1, s2, s3, hor⟩
        have hsg : sign (Row.mul b s) = - sign s := by
          rw [sign_mul (ht b hb).1 s1, (ht b hb).2.2]; omega
        refine ⟨Row.mul b s, valid_mul (ht b hb).1 s1, by simp [s2, (ht b hb).2.1],
          by rw [permOf_mul (ht b hb).1 s1, s3], ?_⟩
        rcases hor with ⟨g1, g2⟩ | ⟨g1, g2⟩
        · right
          refine ⟨fun a ha => ?_, by rw [hsg, g2]⟩
          rw [← mul_assoc]; exact Subgroup.mul_mem _ (hab a ha b hb) g1
        · left
          exact ⟨g1 b hb, by rw [hsg, g2]; rfl⟩
      intro p hp
      refine Subgroup.closure_induction_left (p := fun p _ => ∃ s, Valid s ∧ s.length = n ∧ permOf s = p ∧
        ((p ∈ generated q ∧ sign s = 1) ∨ ((∀ a ∈ t, permOf a * p ∈ generated q) ∧ sign s = -1))) ?_ ?_ ?_ hp
      · exact ⟨rounds n, valid_rounds hn, by simp, permOf_rounds hn, Or.inl ⟨Subgroup.one_mem _, sign_rounds hn⟩⟩
      · rintro x ⟨b, hb, rfl⟩ y - hy
        exact step b hb y hy
      · rintro x ⟨b, hb, rfl⟩ y - hy
        rw [← permOf_inverse (ht b hb).1]
        exact step _ (hinv b hb) y hy
    obtain ⟨s, s1, s2, s3, hor⟩ := key _ h
    have := sgn s1 s2 s3 rfl
    rcases hor with ⟨g, -⟩ | ⟨-, g⟩
    · exact g
    · rw [this, hs] at g; omega

/-- C34: with `out_of_course_only`, `generate_group` on the table of a method gives the even elements
of the group generated by the table. -/
theorem C34_group_out {m : Method} {flags : Nat} (hn : 0 < m.b) (hn' : m.b ≤ 255)
    (hm : ∀ c ∈ m.ch, IsChange c.n c.swaps ∧ c.n = m.b) (h3 : flags.testBit 3 = true)
    (h1 : ¬ (flags.testBit 2 = true ∧ m.ch.length = 1)) :
    ∃ t g, ofMethodC m flags = .ok t ∧ generateGroupC flags t = .ok g ∧ g.v.Pairwise LexLt ∧
      ∀ r, r ∈ g.v ↔ IsRow r ∧ r.length = g.b ∧ permOf r ∈ generated t ∧ Row.signC r = .ok 1 := by
  have wm : m.WF := ⟨hn', hm⟩
  obtain ⟨t, t1, t2, t3⟩ := methods_spec (flags := flags) hn wm wm rfl rfl (by simpa using h1)
  have va : ∀ i, ∀ c ∈ m.ch.take i, c.WF := fun i c hc => (hm c (List.mem_of_mem_take hc)).1
  have ra : ∀ i, Valid (applyAll (rounds m.b) (m.ch.take i)) := fun i => valid_applyAll (va i) (valid_rounds (by omega))
  have la : ∀ i, (applyAll (rounds m.b) (m.ch.take i)).length = m.b := fun i => by
    rw [length_applyAll (b := m.b) (fun c hc => (hm c (List.mem_of_mem_take hc)).2.le) (by simp)]; simp
  have ht : ∀ b ∈ t, Valid b ∧ b.length = m.b ∧ sign b = -1 := by
    intro b hb
    obtain ⟨hk, i, -, j, -, rfl⟩ := (t3 b).1 hb
    exact ⟨valid_div (ra i) (ra j), by simp [Row.div, la], hk.2.2 h3⟩
  have hinv : ∀ b ∈ t, Row.inverse b ∈ t := by
    intro b hb
    obtain ⟨hv, hl, -⟩ := ht b hb
    obtain ⟨hk, i, hi, j, hj, e⟩ := (t3 b).1 hb
    refine (t3 _).2 ⟨⟨?_, ?_, ?_⟩, j, hj, i, hi, ?_⟩
    · rcases hk.1 with h | h
      · exact Or.inl h
      · right; apply hv.fn_inj; rw [fn_fn_inverse hv, h]
    · rw [sign_inverse hv]; exact hk.2.1
    · rw [sign_inverse hv]; exact hk.2.2
    · have hd := (eq_div_iff (ra j) (by rw [la, la])).1 e
      refine (eq_div_iff (ra i) (by rw [la, la])).2 ⟨by simp [Row.inverse, hl, la], fun k => ?_⟩
      rw [← hd.2, fn_inverse_fn hv]
  set q : List Row := t.flatMap fun a => t.map (Row.div a) with hqd
  have hq : ∀ x, x ∈ q ↔ ∃ a ∈ t, ∃ b ∈ t, x = Row.div a b := by
    intro x; simp only [hqd, List.mem_flatMap, List.mem_map]
    constructor
    · rintro ⟨a, ha, b, hb, rfl⟩; exact ⟨a, ha, b, hb, rfl⟩
    · rintro ⟨a, ha, b, hb, rfl⟩; exact ⟨a, ha, b, hb, rfl⟩
  have hqr : ∀ r ∈ q, IsRow r ∧ r.length = m.b := by
    intro r hr
    obtain ⟨a, ha, b, hb, rfl⟩ := (hq r).1 hr
    exact ⟨(isRow_iff_valid _).2 (valid_div (ht a ha).1 (ht b hb).1), by simp [Row.div, (ht a ha).2.1, (ht b hb).2.1]⟩
  obtain ⟨g, g1, g2, g3, g4⟩ := Group.C31_vector (l := q) (fun r hr => (hqr r hr).1)
  refine ⟨t, g, by rw [C34_method, t1], ?_, g4.increasing, fun r => ?_⟩
  · unfold generateGroupC OUT_OF_COURSE_ONLY
    rw [show has flags 0x08 = flags.testBit 3 from has_pow flags 3, h3, if_pos rfl, quotientsC_spec ht t [] ht,
      Out.ok_bind, List.nil_append, g1]
  · rw [g4.mem]
    refine and_congr_right fun hr => and_congr_right fun hl => ?_
    have hr' := (isRow_iff_valid _).1 hr
    rw [signC_eq hr']
    have hsig : ((Out.ok (sign r) : Out Int) = .ok 1) ↔ sign r = 1 := by
      constructor
      · intro h; injection h
      · intro h; rw [h]
    rw [hsig]
    by_cases hte : t = []
    · have hqe : q = [] := by rw [hqd, hte]; rfl
      rw [hqe, hte]
      constructor
      · intro h
        refine ⟨h, ?_⟩
        have h1' : permOf r = 1 := by
          have : generated [] = ⊥ := by unfold generated; simp
          rw [this] at h; exact Subgroup.mem_bot.1 h
        have : r = rounds r.length := permOf_inj hr' (valid_rounds hr'.2) (by simp) (by rw [h1', permOf_rounds hr'.2])
        rw [this]; exact sign_rounds (by simpa using hr'.2)
      · exact fun h => h.1
    · obtain ⟨b, hb⟩ := List.exists_mem_of_ne_nil t hte
      have hbq : Row.div b b ∈ q := (hq _).2 ⟨b, hb, b, hb, rfl⟩
      have hgb : g.b = m.b := by
        have h1 := g2 _ hbq
        rw [(hqr _ hbq).2] at h1
        rcases g3 with h | ⟨x, hx, h⟩
        · omega
        · rw [← h, (hqr x hx).2]
      exact evenGroup (by omega) ht hinv hq hr' (by rw [hl, hgb])

/-! ### C35: false course heads -/

/-- `x` is a row of the course starting from `c`: some number of whole leads and a part of another. -/
def InCourse (m : Method) (c x : Row) : Prop :=
  ∃ k i, i < m.ch.length ∧ Method.applyAllC ((List.replicate k m.ch).flatten ++ m.ch.take i) c = .ok x

/-- C35: if the treble is a hunt bell and the lead head takes the tenor to every other position in
turn, the false course heads are exactly the rows, fixing treble and tenor, whose courses share a row
with the plain course; with the flags, those of them that are in course or have the seventh and
following bells at home. -/
theorem C35_courses {m : Method} {flags : Nat} (h2 : 2 ≤ m.b) (hb : m.b ≤ 255)
    (hm : ∀ c ∈ m.ch, IsChange c.n c.swaps ∧ c.n = m.b) {lh : Row} (hlh : Method.lhC m = .ok lh)
    (h0 : bellAt lh 0 = 0) (hcyc : ∀ i, 0 < i → i < m.b → ∃ k, iter (bellAt lh) k (m.b - 1) = i) :
    ∃ N t, (∀ fuel, N ≤ fuel → falseCoursesC fuel m flags = .ok t) ∧ t.Pairwise LexLt ∧
      ∀ c, c ∈ t ↔ IsRow c ∧ c.length = m.b ∧ bellAt c 0 = 0 ∧ bellAt c (m.b - 1) = m.b - 1 ∧
        (flags.testBit 0 = true → Row.signC c = .ok 1) ∧
        (flags.testBit 1 = true → ∀ i, 6 ≤ i → bellAt c i = i) ∧
        ∃ x, InCourse m (roundsC m.b) x ∧ InCourse m c x := by
  have wm : m.WF := ⟨hb, hm⟩
  rw [wm.lhC_eq] at hlh
  injection hlh with hlh
  have hf : bellAt lh = fn lh := funext (bellAt_eq_fn lh)
  rw [hf] at hcyc
  rw [bellAt_eq_fn] at h0
  have hc : Cyc lh m.b := ⟨hlh ▸ wm.lh_valid, hlh ▸ wm.lh_length, h2, h0, hcyc⟩
  obtain ⟨o, o0, o1, o2⟩ := hc.exists_period
  have key : ∀ fuel, o ≤ fuel → ∃ fs', coursesOuterC fuel flags lh m m.ch (rounds m.b) [] = .ok fs' ∧ Group.Incr Row.lt fs' ∧
      ∀ x, x ∈ fs' ↔ x ∈ ([] : List Row) ∨ (fn x 0 = 0 ∧ ∃ i, i < m.ch.length ∧ ∃ j, j < m.ch.length ∧
        Gets flags lh m.b (Row.div (applyAll (rounds m.b) (m.ch.take i)) (applyAll (rounds m.b) (m.ch.take j))) x) :=
    fun fuel hfu => hc.outerC_spec hb o0 o1 o2 hfu (flags := flags) wm rfl m.ch (rounds m.b) [] hm
      (valid_rounds (by omega)) (by simp) (by simp [Group.Incr])
  obtain ⟨t, t1, t2, t3⟩ := key o le_rfl
  have va : ∀ i, ∀ c ∈ m.ch.take i, c.WF := fun i c hc => (hm c (List.mem_of_mem_take hc)).1
  have ra : ∀ i, Valid (applyAll (rounds m.b) (m.ch.take i)) := fun i => valid_applyAll (va i) (valid_rounds (by omega))
  have la : ∀ i, (applyAll (rounds m.b) (m.ch.take i)).length = m.b := fun i => by
    rw [length_applyAll (b := m.b) (fun c hc => (hm c (List.mem_of_mem_take hc)).2.le) (by simp)]; simp
  have tl : ∀ x ∈ t, x.length = m.b := by
    intro x hx
    rcases (t3 x).1 hx with h | ⟨-, i, -, j, -, -, -, a, b, rfl⟩
    · simp at h
    · simp [length_npow, hc.len, Row.div, la]
  refine ⟨o, t, ?_, incr_lex t2 tl, ?_⟩
  · intro fuel hfu
    obtain ⟨t', q1, q2, q3⟩ := key fuel hfu
    have : t' = t := by
      have hperm : t'.Perm t := (List.perm_ext_iff_of_nodup (q2.nodup Group.rowSTO) (t2.nodup Group.rowSTO)).2
        (fun x => by rw [q3, t3])
      exact hperm.eq_of_pairwise (le := fun a b => Row.lt a b = true)
        (fun a b _ _ h h' => by rw [lt_asymm' h] at h'; cases h') q2 t2
    rw [falseCoursesC, wm.lhC_eq, Out.ok_bind, hlh, roundsC_eq (by omega), q1, this]
  · intro c
    rw [t3]
    have wfr : ∀ k i, ∀ c ∈ (List.replicate k m.ch).flatten ++ m.ch.take i, c.WF := by
      intro k i c hc'
      rw [List.mem_append] at hc'
      rcases hc' with h | h
      · obtain ⟨l, hl, hcl⟩ := List.mem_flatten.1 h
        rw [(List.mem_replicate.1 hl).2] at hcl
        exact (hm c hcl).1
      · exact va i c h
    have hin : ∀ {c : Row}, c.length = m.b → ∀ x, InCourse m c x ↔ ∃ k i, i < m.ch.length ∧
        x = Row.mul c (Row.mul (npow lh k) (applyAll (rounds m.b) (m.ch.take i))) := by
      intro c hcl x
      unfold InCourse
      have e : ∀ k i, applyAll c ((List.replicate k m.ch).flatten ++ m.ch.take i) =
          Row.mul c (Row.mul (npow lh k) (applyAll (rounds m.b) (m.ch.take i))) := by
        intro k i
        rw [applyAll_append, ring_times wm k (by omega), hlh, ← mul_assoc', mul_applyAll (va i),
          mul_rounds (by simp [length_npow, hcl])]
      constructor
      · rintro ⟨k, i, hi, e'⟩
        rw [applyAllC_eq (wfr k i), e] at e'
        injection e' with e'
        exact ⟨k, i, hi, e'.symm⟩
      · rintro ⟨k, i, hi, rfl⟩
        exact ⟨k, i, hi, by rw [applyAllC_eq (wfr k i), e]⟩
    have vp := fun k => valid_npow hc.valid k
    have lp : ∀ k, (npow lh k).length = m.b := fun k => by rw [length_npow, hc.len]
    constructor
    · rintro (h | ⟨c0, i, hi, j, hj, ct, ck, a, b, e⟩)
      · simp at h
      · have hv : Valid c := e ▸ valid_mul (valid_mul (vp a) (valid_div (ra i) (ra j))) (vp b)
        have hl : c.length = m.b := by rw [e]; simp [lp, Row.div, la]
        refine ⟨(isRow_iff_valid _).2 hv, hl, by rw [bellAt_eq_fn, c0], by rw [bellAt_eq_fn, ct],
          fun h => by rw [signC_eq hv, ck.1 h], fun h k hk => by rw [bellAt_eq_fn]; exact ck.2 h k hk, ?_⟩
        rw [roundsC_eq (by omega)]
        refine ⟨Row.mul (npow lh a) (applyAll (rounds m.b) (m.ch.take i)), ?_, ?_⟩
        · rw [hin (by simp)]
          exact ⟨a, i, hi, by rw [rounds_mul]; simp [lp]⟩
        · rw [hin hl]
          -- c * lh^(o*b - b) * row j = lh^a * row i
          refine ⟨b * (o - 1), j, hj, ?_⟩
          have hone : npow lh (b + b * (o - 1)) = rounds m.b := by
            rw [hc.npow_mod' o1]
            have : b + b * (o - 1) = o * b := by
              cases o with
              | zero => omega
              | succ o => rw [Nat.add_sub_cancel, Nat.succ_mul, Nat.mul_comm, Nat.add_comm]
            rw [this, Nat.mul_mod_right, npow, hc.len]
          rw [e, mul_assoc', mul_assoc' (npow lh a), ← mul_assoc' (npow lh b), ← npow_add, hone]
          rw [rounds_mul (by rw [la])]
          congr 1
          refine ext_fn (by simp [Row.div, la]) ?_
          intro k _
          rw [fn_mul, fn_div (ra j), (ra j).find_fn]
    · rintro ⟨hv, hl, c0, ct, k1, k2, x, x1, x2⟩
      have hv' := (isRow_iff_valid _).1 hv
      rw [roundsC_eq (by omega), hin (by simp)] at x1
      rw [hin hl] at x2
      obtain ⟨a, i, hi, rfl⟩ := x1
      obtain ⟨b, j, hj, e⟩ := x2
      rw [rounds_mul (by simp [lp])] at e
      right
      refine ⟨by rw [← bellAt_eq_fn, c0], i, hi, j, hj, by rw [← bellAt_eq_fn, ct], ⟨?_, ?_⟩, a, b * (o - 1), ?_⟩
      · intro h
        have := k1 h
        rw [signC_eq hv'] at this
        injection this
      · intro h k hk; rw [← bellAt_eq_fn]; exact k2 h k hk
      · have hone : npow lh (b + b * (o - 1)) = rounds m.b := by
          rw [hc.npow_mod' o1]
          have : b + b * (o - 1) = o * b := by
            cases o with
            | zero => omega
            | succ o => rw [Nat.add_sub_cancel, Nat.succ_mul, Nat.mul_comm, Nat.add_comm]
          rw [this, Nat.mul_mod_right, npow, hc.len]
        refine ext_fn (by simp [lp, Row.div, la, hl]) ?_
        intro k _
        -- evaluate at a position of the form lh^b (row j)^..
        obtain ⟨p, hp⟩ : ∃ p, k = fn (npow lh b) (fn (applyAll (rounds m.b) (m.ch.take j)) p) :=
          ⟨find _ (find _ k), by rw [(ra j).fn_find, (vp b).fn_find]⟩
        have e1 := congrArg (fun r => fn r p) e
        simp only [fn_mul] at e1
        rw [hp, ← e1, fn_mul, fn_mul, ← fn_mul (a := npow lh (b * (o - 1))), ← npow_add, Nat.add_comm, hone, fn_rounds,
          fn_div (ra j), (ra j).find_fn]

/-! Non-termination -/

theorem inner_ot {lh : Row} {n : Nat} (hv : Valid lh) (hl : lh.length = n) (hn : 0 < n) (fuel flags : Nat) {r1 : Row}
    (hr1 : Valid r1 ∧ r1.length = n) : ∀ (cs : List Change) (r2 : Row) (fs : List Row),
    (∀ c ∈ cs, c.WF ∧ c.n = n) → Valid r2 → r2.length = n →
    OT (coursesInnerC fuel flags lh r1 cs r2 fs) ∧ ∀ fs', coursesInnerC fuel flags lh r1 cs r2 fs = .ok fs' →
      ∀ i, i < cs.length → ∃ gs gs', processC fuel flags lh (Row.div r1 (applyAll r2 (cs.take i))) gs = .ok gs' := by
  intro cs
  induction cs with
  | nil => intro r2 fs _ _ _; exact ⟨Or.inl ⟨_, rfl⟩, fun _ _ i hi => by simp at hi⟩
  | cons c cs ih =>
    intro r2 fs hc hv2 hl2
    have hcw := hc c (by simp)
    have ih' := fun gs => ih (apply r2 c) gs (fun d hd => hc d (by simp [hd])) (valid_apply hcw.1 hv2)
      (by rw [length_apply, hl2, hcw.2]; simp)
    rw [coursesInnerC, divC_eq hr1.1 hv2, Out.ok_bind]
    refine ⟨OT.bind (processC_ot hv hl hn fuel flags (valid_div hr1.1 hv2) (by simp [Row.div, hr1.2, hl2]) fs)
      (fun a _ => ?_), ?_⟩
    · rw [applyC_eq hcw.1, Out.ok_bind]; exact (ih' a).1
    · intro fs' h i hi
      obtain ⟨a, h1, h2⟩ := bind_ok h
      rw [applyC_eq hcw.1, Out.ok_bind] at h2
      cases i with
      | zero => exact ⟨fs, a, h1⟩
      | succ i => exact (ih' a).2 fs' h2 i (by simpa using hi)

theorem outer_ot {lh : Row} {m : Method} (hm : m.WF) (hv : Valid lh) (hl : lh.length = m.b) (hn : 0 < m.b)
    (fuel flags : Nat) : ∀ (cs : List Change) (r1 : Row) (fs : List Row),
    (∀ c ∈ cs, c.WF ∧ c.n = m.b) → Valid r1 → r1.length = m.b →
    OT (coursesOuterC fuel flags lh m cs r1 fs) ∧ ∀ fs', coursesOuterC fuel flags lh m cs r1 fs = .ok fs' →
      ∀ i, i < cs.length → ∀ j, j < m.ch.length → ∃ gs gs', processC fuel flags lh
        (Row.div (applyAll r1 (cs.take i)) (applyAll (rounds m.b) (m.ch.take j))) gs = .ok gs' := by
  intro cs
  induction cs with
  | nil => intro r1 fs _ _ _; exact ⟨Or.inl ⟨_, rfl⟩, fun _ _ i hi => by simp at hi⟩
  | cons c cs ih =>
    intro r1 fs hc hv2 hl2
    have hcw := hc c (by simp)
    have ih' := fun gs => ih (apply r1 c) gs (fun d hd => hc d (by simp [hd])) (valid_apply hcw.1 hv2)
      (by rw [length_apply, hl2, hcw.2]; simp)
    have hin := inner_ot hv hl hn fuel flags ⟨hv2, hl2⟩ m.ch (rounds m.b) fs hm.2
      (valid_rounds (by have := hm.1; omega)) (by simp)
    rw [coursesOuterC, roundsC_eq (by have := hm.1; omega)]
    refine ⟨OT.bind hin.1 (fun a _ => ?_), ?_⟩
    · rw [applyC_eq hcw.1, Out.ok_bind]; exact (ih' a).1
    · intro fs' h i hi j hj
      obtain ⟨a, h1, h2⟩ := bind_ok h
      rw [applyC_eq hcw.1, Out.ok_bind] at h2
      cases i with
      | zero => exact hin.2 _ h1 j hj
      | succ i => exact (ih' a).2 fs' h2 i (by simpa using hi) j hj

/-- C35: otherwise the constructor may not return.  Suppose two rows `x`, `y` of the lead have the
treble in the same position, and in `lh^d * (x / y)`, `d` leads on, the tenor is in a position from
which the lead head never takes it to its own.  Then (without `in_course_only`) no number of
iterations is enough. -/
theorem C35_diverges {m : Method} {flags : Nat} (h2 : 0 < m.b) (hb : m.b ≤ 255)
    (hm : ∀ c ∈ m.ch, IsChange c.n c.swaps ∧ c.n = m.b) {lh : Row} (hlh : Method.lhC m = .ok lh)
    (hfl : flags.testBit 0 = false) {i j d : Nat} (hi : i < m.ch.length) (hj : j < m.ch.length) {x y q : Row}
    (hx : Method.applyAllC (m.ch.take i) (roundsC m.b) = .ok x)
    (hy : Method.applyAllC (m.ch.take j) (roundsC m.b) = .ok y) (hq : Row.divC x y = .ok q)
    (hq0 : bellAt q 0 = 0)
    (hd : ∀ k, iter (bellAt lh) d (bellAt q (iter (bellAt lh) k (m.b - 1))) ≠ m.b - 1) (fuel : Nat) :
    falseCoursesC fuel m flags = .timeout := by
  have wm : m.WF := ⟨hb, hm⟩
  rw [wm.lhC_eq] at hlh
  injection hlh with hlh
  have hv : Valid lh := hlh ▸ wm.lh_valid
  have hl : lh.length = m.b := hlh ▸ wm.lh_length
  have va : ∀ i, ∀ c ∈ m.ch.take i, c.WF := fun i c hc => (hm c (List.mem_of_mem_take hc)).1
  have ra : ∀ i, Valid (applyAll (rounds m.b) (m.ch.take i)) := fun i => valid_applyAll (va i) (valid_rounds (by omega))
  have la : ∀ i, (applyAll (rounds m.b) (m.ch.take i)).length = m.b := fun i => by
    rw [length_applyAll (b := m.b) (fun c hc => (hm c (List.mem_of_mem_take hc)).2.le) (by simp)]; simp
  rw [roundsC_eq (by omega), applyAllC_eq (va _)] at hx hy
  injection hx with hx
  injection hy with hy
  rw [← hx, ← hy, divC_eq (ra i) (ra j)] at hq
  injection hq with hq
  have hout := outer_ot wm hv hl h2 fuel flags m.ch (rounds m.b) [] hm (valid_rounds (by omega)) (by simp)
  rw [falseCoursesC, wm.lhC_eq, Out.ok_bind, hlh, roundsC_eq (by omega)]
  rcases hout.1 with ⟨fs', h⟩ | h
  · exfalso
    obtain ⟨gs, gs', hp⟩ := hout.2 fs' h i hi j hj
    rw [hq] at hp
    have hqv : Valid q := hq ▸ valid_div (ra i) (ra j)
    have hql : q.length = m.b := by rw [← hq]; simp [Row.div, la]
    have e : vget q 0 = .ok (fn q 0) := by
      have : 0 < q.length := by omega
      unfold vget fn
      rw [List.getElem?_eq_getElem this, List.getD_eq_getElem?_getD, List.getElem?_eq_getElem this]; rfl
    rw [bellAt_eq_fn] at hq0
    unfold processC IN_COURSE_ONLY at hp
    rw [e, Out.ok_bind, show has flags 0x01 = flags.testBit 0 from has_pow flags 0, hfl, hq0] at hp
    obtain ⟨o, o1, o2, o3⟩ := leadsLoopC_ok hv hl h2 hqv hql fuel fuel 0 gs gs' hp
    obtain ⟨k, hk⟩ := o3 (d % o) (by omega) (Nat.mod_lt _ o1)
    have hmod : npow lh d = npow lh (d % o) := (npow_mod (by rw [o2, hl])).symm
    rw [← hmod, fn_mul, fn_mul, fn_npow, fn_npow] at hk
    apply hd k
    have hf : bellAt lh = fn lh := funext (bellAt_eq_fn lh)
    rw [hf, bellAt_eq_fn]; exact hk
  · exact h

/-- Plain Bob Minimus. -/
def Falseness.plainBob4 : Method :=
  ⟨4, [⟨4, [0, 2]⟩, ⟨4, [1]⟩, ⟨4, [0, 2]⟩, ⟨4, [1]⟩, ⟨4, [0, 2]⟩, ⟨4, [1]⟩, ⟨4, [0, 2]⟩, ⟨4, [2]⟩]⟩

/-- Grandsire Doubles. -/
def Falseness.grandsire5 : Method :=
  ⟨5, [⟨5, [0, 3]⟩, ⟨5, [1, 3]⟩, ⟨5, [0, 2]⟩, ⟨5, [1, 3]⟩, ⟨5, [0, 2]⟩, ⟨5, [1, 3]⟩, ⟨5, [0, 2]⟩, ⟨5, [1, 3]⟩,
    ⟨5, [0, 2]⟩, ⟨5, [1, 3]⟩]⟩

theorem plainBob4_ok : ∀ c ∈ plainBob4.ch, IsChange c.n c.swaps ∧ c.n = 4 := by
  simp only [plainBob4, List.forall_mem_cons, List.not_mem_nil, false_imp_iff, implies_true, and_true]
  refine ⟨?_, ?_, ?_, ?_, ?_, ?_, ?_, ?_⟩ <;> simp [IsChange]

theorem grandsire5_ok : ∀ c ∈ grandsire5.ch, IsChange c.n c.swaps ∧ c.n = 5 := by
  simp only [grandsire5, List.forall_mem_cons, List.not_mem_nil, false_imp_iff, implies_true, and_true]
  refine ⟨?_, ?_, ?_, ?_, ?_, ?_, ?_, ?_, ?_, ?_⟩ <;> simp [IsChange]

/-- The tables of Plain Bob Minimus: two rows of the lead with the treble in the same position differ
by 1324 at most. -/
example : ofMethodC plainBob4 0 = .ok [[0, 1, 2, 3], [0, 2, 1, 3]] := by decide +kernel
example : ofMethodC plainBob4 1 = .ok [[0, 1, 2, 3]] := by decide +kernel
example : ofMethodC plainBob4 8 = .ok [[0, 2, 1, 3]] := by decide +kernel
/-- With half the lead, only two rows are used. -/
example : ofMethodC plainBob4 6 = .ok [[0, 1, 2, 3], [1, 0, 3, 2]] := by decide +kernel
example : ∃ t, ofMethodsC plainBob4 plainBob4 0 = .ok t ∧ ((∃ i, i < 8 ∧ ∃ j, j < 8 ∧ ∃ x,
      Method.applyAllC (plainBob4.ch.take i) [0, 2, 3, 1] = .ok x ∧
      Method.applyAllC (plainBob4.ch.take j) [0, 1, 3, 2] = .ok x) ↔
    ∃ f ∈ t, Row.mulC [0, 2, 3, 1] f = .ok [0, 1, 3, 2]) :=
  C34_false (a := plainBob4) (b := plainBob4) (n := 4) (by decide) (by decide) plainBob4_ok plainBob4_ok rfl rfl rfl
    ((isRow_iff_valid _).2 (by decide)) ((isRow_iff_valid _).2 (by decide)) rfl rfl (Or.inr (by decide)) (by decide)
    (by decide)

/-- Plain Bob Minimus meets the hypotheses of `C35_courses`. -/
example : ∃ N t, (∀ fuel, N ≤ fuel → falseCoursesC fuel plainBob4 0 = .ok t) ∧ t.Pairwise LexLt ∧
      ∀ c, c ∈ t ↔ IsRow c ∧ c.length = 4 ∧ bellAt c 0 = 0 ∧ bellAt c 3 = 3 ∧
        (Nat.testBit 0 0 = true → Row.signC c = .ok 1) ∧ (Nat.testBit 0 1 = true → ∀ i, 6 ≤ i → bellAt c i = i) ∧
        ∃ x, InCourse plainBob4 (roundsC 4) x ∧ InCourse plainBob4 c x :=
  C35_courses (m := plainBob4) (lh := [0, 2, 3, 1]) (by decide) (by decide) plainBob4_ok (by decide +kernel) (by decide)
    (fun i h0 h4 => by
      have : i < 4 := h4
      interval_cases i
      · exact ⟨1, by decide⟩
      · exact ⟨2, by decide⟩
      · exact ⟨0, by decide⟩)
example : falseCoursesC 20 plainBob4 0 = .ok [[0, 1, 2, 3], [0, 2, 1, 3]] := by decide +kernel

/-- `false_courses` of Grandsire Doubles never returns. -/
example (fuel : Nat) : falseCoursesC fuel grandsire5 0 = .timeout :=
  C35_diverges (m := grandsire5) (lh := [0, 1, 4, 2, 3]) (i := 0) (j := 9) (d := 1) (x := [0, 1, 2, 3, 4])
    (y := [0, 4, 1, 3, 2]) (q := [0, 2, 4, 3, 1]) (by decide) (by decide) grandsire5_ok (by decide +kernel) (by decide)
    (by decide) (by decide) (by decide +kernel) (by decide +kernel) (by decide +kernel) (by decide)
    (fun k => by
      have h : ∀ k, iter (bellAt [0, 1, 4, 2, 3]) k 4 ∈ [2, 3, 4] := by
        intro k
        induction k with
        | zero => decide
        | succ k ih =>
          have : ∀ z ∈ [2, 3, 4], bellAt [0, 1, 4, 2, 3] z ∈ [2, 3, 4] := by decide
          exact this _ ih
      have h2 : ∀ z ∈ [2, 3, 4], iter (bellAt [0, 1, 4, 2, 3]) 1 (bellAt [0, 2, 4, 3, 1] z) ≠ 4 := by decide
      exact h2 _ (h k)) fuel

end Ringing
