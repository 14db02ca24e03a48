import Verif.Lemmas.TableSearch2
/-! `table_search`: what is output, in terms of the rows of the parts. -/
namespace Ringing
namespace TableSearch
open Search Spec Row

theorem sameRow_iff {n : Nat} (hn : n ≤ 256) {p q : Row} (hp : Valid p) (hpl : p.length ≤ n) (hq : Valid q) (hql : q.length ≤ n)
    {cs ds : List Change} (hc : ∀ x ∈ cs, x.WF ∧ x.n = n) (hd : ∀ x ∈ ds, x.WF ∧ x.n = n) :
    SameRow n p (cs.map Change.swaps) q (ds.map Change.swaps) ↔
      mul p (applyAll (rounds n) cs) = mul q (applyAll (rounds n) ds) := by
  have key : ∀ {cs : List Change}, (∀ x ∈ cs, x.WF ∧ x.n = n) → Valid (applyAll (rounds n) cs) ∧
      (applyAll (rounds n) cs).length = n ∧ ∀ x, fn (applyAll (rounds n) cs) (follow (cs.map Change.swaps) x) = x := by
    intro cs hc
    refine ⟨valid_applyAll (fun x hx => (hc x hx).1) (valid_rounds hn), ?_, fun x => ?_⟩
    · rw [length_applyAll (b := n) (fun x hx => (hc x hx).2.le) (by simp)]; simp
    · rw [fn_applyAll_follow (fun x hx => (hc x hx).1), fn_rounds]
  obtain ⟨va, la, fa⟩ := key hc
  obtain ⟨vb, lb, fb⟩ := key hd
  unfold SameRow
  simp only [bellAt_eq_fn]
  constructor
  · intro h
    refine ext_fn (by simp [la, lb]; omega) ?_
    intro i hi
    rw [length_mul, la] at hi
    have hi : i < n := by omega
    rw [fn_mul, fn_mul]
    have hx : fn (applyAll (rounds n) cs) i < n := va.fn_lt (by omega) hi
    have hfx : follow (cs.map Change.swaps) (fn (applyAll (rounds n) cs) i) = i := va.fn_inj (fa _)
    have hpx : fn p (fn (applyAll (rounds n) cs) i) < n := hp.fn_lt hpl hx
    have hyb := hq.fn_find (fn p (fn (applyAll (rounds n) cs) i))
    have hy : find q (fn p (fn (applyAll (rounds n) cs) i)) < n := by
      by_contra hge
      rw [fn_of_ge (by omega)] at hyb
      omega
    have := h _ _ hx hy hyb.symm
    rw [hfx] at this
    have hB : fn (applyAll (rounds n) ds) i = find q (fn p (fn (applyAll (rounds n) cs) i)) := by
      conv_lhs => rw [this]
      exact fb _
    rw [hB, hyb]
  · intro h x y _ _ e
    have e1 : fn (mul p (applyAll (rounds n) cs)) (follow (cs.map Change.swaps) x) = fn p x := by rw [fn_mul, fa]
    have e2 : fn (mul p (applyAll (rounds n) cs)) (follow (ds.map Change.swaps) y) = fn q y := by rw [h, fn_mul, fb]
    exact (valid_mul hp va).fn_inj (by rw [e1, e2, e])

section
variable {m : Method} {calls : List Change} {P : Group} (G : Given m calls) (H : Parts m calls P)

include H in
theorem Parts.row {p : Row} (hp : p ∈ P.v) : Valid p ∧ p.length ≤ m.b := by
  have := H.built.good.grp.rows p hp
  exact ⟨this.1, by rw [this.2]; exact H.bells⟩

/-- The parity of the part ends is what the falseness table supposes. -/
def EvenOk (m : Method) (calls : List Change) (P : Group) : Prop := InCourse m calls → ∀ p ∈ P.v, sign p = 1

include G H in
theorem inL_part {p r : Row} (hp : p ∈ P.v) (hr : InL m calls r) : InL m calls (mul p r) := by
  have h := H.row hp
  refine ⟨valid_mul h.1 hr.1, by rw [length_mul, hr.2.1]; omega, fun hf => ?_⟩
  rw [fn_mul, hr.2.2 hf, H.tr hf p hp]

include G H in
/-- Falseness of leads in different parts. -/
theorem false_iff_coin {fs : List Row} (hT : IsTable m (flagsT m calls) fs) {r s : Row} (hr : InL m calls r) (hs : InL m calls s)
    {p q : Row} (hp : p ∈ P.v) (hq : q ∈ P.v) (hev : EvenOk m calls P)
    (hsg : InCourse m calls → sign r = sign s) (hc : Coin m (mul p r) (mul q s)) :
    ∃ f ∈ fs, ∃ x ∈ P.v, s = mul x (mul r f) := by
  obtain ⟨b1, b0, b2, b3⟩ := flagsT_bits m calls
  have hg := H.built.good.grp
  have hqv := (H.row hq).1
  have hqi := hg.inv hq
  have hx := hg.mul _ hqi _ hp
  have hpr := inL_part G H hx hr
  have hb := H.bells
  have hc' : Coin m (mul (mul (inverse q) p) r) s := by
    obtain ⟨i, hi, j, hj, e⟩ := hc
    refine ⟨i, hi, j, hj, ?_⟩
    have := congrArg (mul (inverse q)) e
    rw [← mul_assoc', ← mul_assoc', ← mul_assoc', ← mul_assoc', inverse_mul hqv, (hg.rows q hq).2] at this
    rw [this]
    rw [rounds_mul (by rw [hs.2.1]; exact hb)]
  obtain ⟨f, hf, e⟩ := false_of_coin G hT b3 hpr.1 hpr.2.1 hs.1 hs.2.1 (by
    by_cases hft : FixedTreble m calls
    · right; rw [hpr.2.2 hft, hs.2.2 hft]
    · exact Or.inl (b1.2 hft)) (by
    intro h
    have hic := b0.1 h
    rw [sign_mul (H.row hx).1 hr.1, hev hic _ hx, one_mul, hsg hic]) hc'
  exact ⟨f, hf, _, hx, by rw [← e, mul_assoc']⟩

/-- No row occurs in two different leads of the parts: as rows. -/
def LeadsTrueR (m : Method) (calls : List Change) (P : Group) (c : List Nat) : Prop :=
  ∀ p ∈ P.v, ∀ q ∈ P.v, ∀ a b, a < c.length → b < c.length →
    Coin m (mul p (hd m calls (c.take a))) (mul q (hd m calls (c.take b))) → a = b

theorem lead_idx {L a i : Nat} (hi : i < L) : (a * L + i) / L = a ∧ (a * L + i) % L = i := by
  have hpos : 0 < L := by omega
  constructor
  · rw [Nat.add_comm, Nat.add_mul_div_right _ _ hpos, Nat.div_eq_of_lt hi]; omega
  · rw [Nat.add_comm, Nat.add_mul_mod_self_right, Nat.mod_eq_of_lt hi]

theorem lead_lt {L a i n : Nat} (hi : i < L) (ha : a < n) : a * L + i < n * L := by
  calc a * L + i < (a + 1) * L := by rw [Nat.succ_mul]; omega
    _ ≤ n * L := Nat.mul_le_mul_right _ ha

include G H in
/-- Rows of the parts. -/
theorem sameRow_at {c : List Nat} (hc : Dom (ends m calls).length c) {p q : Row} (hp : p ∈ P.v) (hq : q ∈ P.v)
    {a b i j : Nat} (ha : a < c.length) (hb : b < c.length) (hi : i < m.ch.length) (hj : j < m.ch.length) :
    SameRow m.b p (((tch m calls c).map Change.swaps).take (a * m.ch.length + i)) q
      (((tch m calls c).map Change.swaps).take (b * m.ch.length + j)) ↔
    mul (mul p (hd m calls (c.take a))) (lrow m i) = mul (mul q (hd m calls (c.take b))) (lrow m j) := by
  rw [← List.map_take, ← List.map_take, sameRow_iff (nle G.wf) (H.row hp).1 (H.row hp).2 (H.row hq).1 (H.row hq).2
    (take_wf G _) (take_wf G _), row_at G hc ha hi, row_at G hc hb hj, ← mul_assoc', ← mul_assoc']

include G H in
/-- A statement about all pairs of rows of the parts, in terms of leads. -/
theorem forall_rows {c : List Nat} (hc : Dom (ends m calls).length c) (Q : Row → Row → Nat → Nat → Prop) :
    (∀ p ∈ P.v, ∀ q ∈ P.v, ∀ i j, i < ((tch m calls c).map Change.swaps).length → j < ((tch m calls c).map Change.swaps).length →
      SameRow m.b p (((tch m calls c).map Change.swaps).take i) q (((tch m calls c).map Change.swaps).take j) → Q p q i j) ↔
    ∀ p ∈ P.v, ∀ q ∈ P.v, ∀ a b i j, a < c.length → b < c.length → i < m.ch.length → j < m.ch.length →
      mul (mul p (hd m calls (c.take a))) (lrow m i) = mul (mul q (hd m calls (c.take b))) (lrow m j) →
      Q p q (a * m.ch.length + i) (b * m.ch.length + j) := by
  have hpos : 0 < m.ch.length := List.length_pos_of_ne_nil G.ne
  rw [List.length_map, length_tch G hc]
  refine forall_congr' fun p => forall_congr' fun hp => forall_congr' fun q => forall_congr' fun hq => ?_
  constructor
  · intro h a b i j ha hb hi hj e
    exact h _ _ (lead_lt hi ha) (lead_lt hj hb) ((sameRow_at G H hc hp hq ha hb hi hj).2 e)
  · intro h i j hi hj e
    have hdi := Nat.div_add_mod i m.ch.length
    have hdj := Nat.div_add_mod j m.ch.length
    have hi' := Nat.mod_lt i hpos
    have hj' := Nat.mod_lt j hpos
    have hja : j / m.ch.length < c.length := Nat.div_lt_of_lt_mul (by rw [Nat.mul_comm]; exact hj)
    have hia : i / m.ch.length < c.length := Nat.div_lt_of_lt_mul (by rw [Nat.mul_comm]; exact hi)
    have e1 : i = i / m.ch.length * m.ch.length + i % m.ch.length := by rw [Nat.mul_comm]; omega
    have e2 : j = j / m.ch.length * m.ch.length + j % m.ch.length := by rw [Nat.mul_comm]; omega
    rw [e1, e2] at e ⊢
    exact h _ _ _ _ hia hja hi' hj' ((sameRow_at G H hc hp hq hia hja hi' hj').1 e)

include G H in
theorem leadsTrue_iff {c : List Nat} (hc : Dom (ends m calls).length c) :
    LeadsTrue m.b m.ch.length P.v ((tch m calls c).map Change.swaps) ↔ LeadsTrueR m calls P c := by
  unfold LeadsTrue
  rw [forall_rows G H hc (fun _ _ i j => i / m.ch.length = j / m.ch.length)]
  unfold LeadsTrueR
  refine forall_congr' fun p => forall_congr' fun hp => forall_congr' fun q => forall_congr' fun hq => ?_
  constructor
  · rintro h a b ha hb ⟨i, hi, j, hj, e⟩
    have := h a b i j ha hb hi hj e
    rwa [(lead_idx hi).1, (lead_idx hj).1] at this
  · intro h a b i j ha hb hi hj e
    rw [(lead_idx hi).1, (lead_idx hj).1]
    exact h a b ha hb ⟨i, hi, j, hj, e⟩

include G H in
/-- What it means that no node on the way is false. -/
theorem noFalse_iff {fs : List Row} (hT : IsTable m (flagsT m calls) fs) (hev : EvenOk m calls P) {c : List Nat}
    (hc : Dom (ends m calls).length c) :
    (∀ i, i < c.length → ¬ FalseP m calls P fs (c.take i)) ↔ LeadsTrueR m calls P c := by
  have hg := H.built.good.grp
  have hb := H.bells
  have hcd : ∀ i, Dom (ends m calls).length (c.take i) := fun i x hx => hc x (List.mem_of_mem_take hx)
  constructor
  · intro h
    have key : ∀ p ∈ P.v, ∀ q ∈ P.v, ∀ a b, a < b → b < c.length →
        ¬ Coin m (mul p (hd m calls (c.take b))) (mul q (hd m calls (c.take a))) := by
      intro p hp q hq a b hab hbc hcn
      obtain ⟨f, hf, x, hx, e⟩ := false_iff_coin G H hT (inL_hd G (hcd b)) (inL_hd G (hcd a)) hp hq hev
        (fun hi => by rw [hd_sign' G hi (hcd b), hd_sign' G hi (hcd a)]) hcn
      refine h b hbc ⟨f, hf, a, by simp; omega, x, hx, ?_⟩
      rw [List.take_take, Nat.min_eq_left (by omega), e]
    intro p hp q hq a b ha hb' hcn
    rcases Nat.lt_trichotomy a b with g | g | g
    · obtain ⟨i, hi, j, hj, e⟩ := hcn
      exact absurd ⟨j, hj, i, hi, e.symm⟩ (key q hq p hp a b g hb')
    · exact g
    · exact absurd hcn (key p hp q hq b a g ha)
  · rintro h i hi ⟨f, hf, a, ha, p, hp, e⟩
    have ha : a < i := by simpa using (lt_of_lt_of_le ha (List.length_take_le _ _))
    rw [List.take_take, Nat.min_eq_left (by omega), ← mul_assoc'] at e
    have hpr := inL_part G H hp (inL_hd G (hcd i))
    have hcn := coin_of_false G hT hpr.2.1 (valid_hd G (calls := calls) (c.take a)).2 hf e.symm
    have := h p hp _ hg.one i a hi (by omega) (by
      rw [rounds_mul (by rw [(valid_hd G _).2]; exact hb)]; exact hcn)
    omega

include G H in
/-- The lead after the touch is false. -/
theorem falseP_iff {fs : List Row} (hT : IsTable m (flagsT m calls) fs) (hev : EvenOk m calls P) {c : List Nat}
    (hc : Dom (ends m calls).length c) :
    FalseP m calls P fs c ↔ ∃ p ∈ P.v, ∃ q ∈ P.v, ∃ a, a < c.length ∧
      Coin m (mul p (hd m calls c)) (mul q (hd m calls (c.take a))) := by
  have hg := H.built.good.grp
  have hb := H.bells
  have hcd : ∀ i, Dom (ends m calls).length (c.take i) := fun i x hx => hc x (List.mem_of_mem_take hx)
  constructor
  · rintro ⟨f, hf, a, ha, p, hp, e⟩
    rw [← mul_assoc'] at e
    have hpr := inL_part G H hp (inL_hd G hc)
    have hcn := coin_of_false G hT hpr.2.1 (valid_hd G (calls := calls) (c.take a)).2 hf e.symm
    exact ⟨p, hp, _, hg.one, a, ha, by rw [rounds_mul (by rw [(valid_hd G _).2]; exact hb)]; exact hcn⟩
  · rintro ⟨p, hp, q, hq, a, ha, hcn⟩
    obtain ⟨f, hf, x, hx, e⟩ := false_iff_coin G H hT (inL_hd G hc) (inL_hd G (hcd a)) hp hq hev
      (fun hi => by rw [hd_sign' G hi hc, hd_sign' G hi (hcd a)]) hcn
    exact ⟨f, hf, a, ha, x, hx, e⟩

include G H in
theorem falseP_of_ends {fs : List Row} (hT : IsTable m (flagsT m calls) fs) {c : List Nat} (hne : c ≠ [])
    (he : Ends m calls P c) : FalseP m calls P fs c := by
  obtain ⟨p, hp, e⟩ := he
  have hg := H.built.good.grp
  have hb := H.bells
  refine ⟨_, rounds_mem G hT (flagsT_bits m calls).2.2.2, 0, List.length_pos_of_ne_nil hne, _, hg.inv hp, ?_⟩
  rw [mul_rounds (by rw [(valid_hd G _).2]), e, ← mul_assoc', inverse_mul (hg.rows p hp).1, (hg.rows p hp).2,
    rounds_mul (by simpa using hb), List.take_zero, hd_nil]

include G H in
theorem ends_iff {c : List Nat} : EndsIn m.b P.v ((tch m calls c).map Change.swaps) ↔ Ends m calls P c := by
  unfold EndsIn Ends
  refine exists_congr fun p => and_congr_right fun hp => ?_
  have hv := valid_hd G (calls := calls) c
  have hpv := H.row hp
  have hf : ∀ x, fn (hd m calls c) (follow ((tch m calls c).map Change.swaps) x) = x := by
    intro x
    unfold hd
    rw [fn_applyAll_follow (fun x hx => (tch_wf G c x hx).1), fn_rounds]
  simp only [bellAt_eq_fn]
  constructor
  · intro h
    refine ext_fn (by simp [hv.2]; omega) ?_
    intro i hi
    rw [hv.2] at hi
    rw [fn_mul, fn_rounds]
    have hx : fn (hd m calls c) i < m.b := hv.1.fn_lt (by rw [hv.2]) hi
    have := h _ hx
    rw [show follow ((tch m calls c).map Change.swaps) (fn (hd m calls c) i) = i from hv.1.fn_inj (hf _)] at this
    exact this.symm
  · intro h x _
    have := congrArg (fun r => fn r (follow ((tch m calls c).map Change.swaps) x)) h
    simp only [fn_mul, fn_rounds, hf] at this
    exact this.symm

theorem iter_inv {f g : Nat → Nat} (h : ∀ x, f (g x) = x) (k : Nat) (x : Nat) : iter f k (iter g k x) = x := by
  induction k generalizing x with
  | zero => rfl
  | succ k ih =>
    have hs : ∀ k x, iter g (k + 1) x = iter g k (g x) := by
      intro k
      induction k with
      | zero => intro x; rfl
      | succ k ih => intro x; rw [iter, ih, iter]
    rw [hs, iter, ih, h]

theorem iter_lt {f : Nat → Nat} {n : Nat} (h : ∀ x, x < n → f x < n) (k : Nat) : ∀ x, x < n → iter f k x < n := by
  induction k with
  | zero => intro x hx; exact hx
  | succ k ih => intro x hx; exact h _ (ih x hx)

theorem iter_ge {f : Nat → Nat} {n : Nat} (h : ∀ x, n ≤ x → f x = x) (k : Nat) : ∀ x, n ≤ x → iter f k x = x := by
  induction k with
  | zero => intro x _; rfl
  | succ k ih => intro x hx; rw [iter, ih x hx, h x hx]

include G in
theorem order_iff (h58 : m.b ≤ 58) {c : List Nat} {k : Nat} :
    ComesRound m.b ((tch m calls c).map Change.swaps) k ↔ order (hd m calls c) = k := by
  have hv := valid_hd G (calls := calls) c
  obtain ⟨-, h1, h2⟩ := order_spec hv.1 (by rw [hv.2]; exact h58)
  have hf : ∀ x, fn (hd m calls c) (follow ((tch m calls c).map Change.swaps) x) = x := by
    intro x
    unfold hd
    rw [fn_applyAll_follow (fun x hx => (tch_wf G c x hx).1), fn_rounds]
  have hlt : ∀ x, x < m.b → fn (hd m calls c) x < m.b := fun x hx => hv.1.fn_lt (by rw [hv.2]) hx
  have hge : ∀ x, m.b ≤ x → fn (hd m calls c) x = x := fun x hx => fn_of_ge (by rw [hv.2]; exact hx)
  have hflt : ∀ x, x < m.b → follow ((tch m calls c).map Change.swaps) x < m.b := by
    intro x hx
    by_contra hc
    have := hf x
    rw [hge _ (by omega)] at this
    omega
  have key : ∀ k, (∀ x, x < m.b → iter (follow ((tch m calls c).map Change.swaps)) k x = x) ↔ order (hd m calls c) ∣ k := by
    intro k
    rw [← h2]
    constructor
    · intro h i
      by_cases hi : i < m.b
      · have := iter_inv hf k i
        rwa [h i hi] at this
      · exact iter_ge hge k i (by omega)
    · intro h x hx
      have := iter_inv hf k x
      rw [h] at this
      exact this
  unfold ComesRound
  rw [key]
  constructor
  · rintro ⟨k0, k1, k2⟩
    by_contra hne
    have hle := Nat.le_of_dvd k0 k1
    obtain ⟨x, hx, h⟩ := k2 _ h1 (by omega)
    exact h ((key _).2 (dvd_refl _) x hx)
  · rintro rfl
    refine ⟨h1, dvd_refl _, fun j hj hjk => ?_⟩
    by_contra hc
    push Not at hc
    have := Nat.le_of_dvd hj ((key j).1 hc)
    omega

/-- The first lead is true against the first leads of the other parts, if the part ends are on all bells. -/
def StartTrueR (m : Method) (P : Group) : Prop :=
  ∀ p ∈ P.v, p.length = m.b → p ≠ rounds m.b → ¬ Coin m p (rounds m.b)

include G in
theorem isrounds_iff {f : Row} (hf : f.length = m.b) : Row.isrounds f = true ↔ f = rounds m.b := by
  unfold Row.isrounds
  rw [List.all_eq_true]
  constructor
  · intro h
    refine ext_fn (by simp [hf]) ?_
    intro i hi
    have := h i (List.mem_range.2 hi)
    rw [fn_rounds, fn_of_lt hi]
    rw [List.getD_eq_getElem _ _ hi] at this
    simpa using this
  · rintro rfl i hi
    simp [rounds] at hi ⊢
    simp [hi]

include G H in
theorem impossible_iff {fs : List Row} (hT : IsTable m (flagsT m calls) fs) (hev : EvenOk m calls P) :
    impossible P fs = false ↔ StartTrueR m P := by
  obtain ⟨b1, b0, b2, b3⟩ := flagsT_bits m calls
  have hR := inL_hd G (calls := calls) (c := []) (by intro x hx; cases hx)
  rw [hd_nil] at hR
  unfold impossible StartTrueR
  rw [List.any_eq_false]
  constructor
  · intro h p hp hl hne hcn
    obtain ⟨i, hi, j, hj, e⟩ := hcn
    have hpL : InL m calls p := ⟨(H.row hp).1, hl, fun hf => H.tr hf p hp⟩
    obtain ⟨f, hf, e⟩ := false_of_coin G hT b3 hR.1 hR.2.1 hpL.1 hpL.2.1 (by
      by_cases hft : FixedTreble m calls
      · right; rw [hR.2.2 hft, hpL.2.2 hft]
      · exact Or.inl (b1.2 hft)) (by
      intro h0
      rw [sign_rounds (nle G.wf), hev (b0.1 h0) p hp]) ⟨j, hj, i, hi, e.symm⟩
    have hfl := (table_valid G hT f hf).2
    rw [rounds_mul (by rw [hfl])] at e
    subst e
    refine h f hf ?_
    simp only [Bool.and_eq_true, Bool.not_eq_true', List.contains_iff_mem]
    refine ⟨?_, hp⟩
    rw [Bool.eq_false_iff, Ne, isrounds_iff G hl]
    exact hne
  · intro h f hf hcn
    simp only [Bool.and_eq_true, Bool.not_eq_true', List.contains_iff_mem] at hcn
    have hfl := (table_valid G hT f hf).2
    have hne : f ≠ rounds m.b := by
      intro e
      rw [(isrounds_iff G hfl).2 e] at hcn
      exact absurd hcn.1 (by simp)
    refine h f hcn.2 hfl hne ?_
    obtain ⟨i, hi, j, hj, e⟩ := coin_of_false G hT (r := rounds m.b) (s := f) (by simp) hfl hf (by rw [rounds_mul (by rw [hfl])])
    exact ⟨j, hj, i, hi, e.symm⟩

end
end TableSearch
end Ringing
