import Verif.Lemmas.TableSearch3
import Verif.Props.Search
import Verif.Props.RowCycles
/-! C41: `table_search`. -/
namespace Ringing
namespace TableSearch
open Search Spec Row

section
variable {m : Method} {calls : List Change} {P : Group}

/-! ### One part -/

theorem parts_one (hP : Group.Built P) (hb : P.b ≤ m.b) (h1 : P.v.length = 1) : P.v = [rounds P.b] ∧ Parts m calls P := by
  have hg := hP.good.grp
  have e : P.v = [rounds P.b] := by
    obtain ⟨x, hx⟩ := List.length_eq_one_iff.1 h1
    have := hg.one
    rw [hx] at this ⊢
    rw [List.mem_singleton.1 this]
  refine ⟨e, hP, hb, fun _ p hp => ?_⟩
  rw [e, List.mem_singleton] at hp
  subst hp
  rw [bellAt_eq_fn, fn_rounds]

theorem outP_one (G : Given m calls) (hP : Group.Built P) (hb : P.b ≤ m.b) (h1 : P.v.length = 1)
    {fs : List Row} (hT : IsTable m (flagsT m calls) fs) (lo hi : Nat) {f : Nat} (h3 : f.testBit 3 = false) :
    outP m calls P fs lo hi f = outCalls (tree m calls fs lo hi) m.b.factorial (f.testBit 0) := by
  obtain ⟨e, -⟩ := parts_one (calls := calls) hP hb h1
  have himp : impossible P fs = false := by
    unfold impossible
    rw [List.any_eq_false]
    intro g hg hc
    simp only [Bool.and_eq_true, Bool.not_eq_true', List.contains_iff_mem, e, List.mem_singleton] at hc
    have hl := (table_valid G hT g hg).2
    have hb' : P.b = m.b := by rw [← hl, hc.2]; simp
    have := (isrounds_iff G hl).2 (by rw [hc.2, hb'])
    rw [this] at hc
    exact absurd hc.1 (by simp)
  unfold outP outCalls
  rw [himp, if_neg (by simp)]
  have hT' : ptree m calls P fs lo hi (f.testBit 3) = tree m calls fs lo hi := by
    unfold ptree tree
    rw [h3, h1]
    congr 1
    · funext c
      rw [decide_eq_decide]
      unfold FalseP FalseAt
      refine exists_congr fun g => and_congr_right fun hg => exists_congr fun i => and_congr_right fun _ => ?_
      rw [e]
      simp only [List.mem_singleton, exists_eq_left]
      rw [rounds_mul (by rw [length_mul, (valid_hd G _).2]; omega), eq_comm]
    · funext c
      rw [Bool.false_or, decide_eq_decide]
      unfold Ends
      rw [e]
      simp only [List.mem_singleton, exists_eq_left]
      rw [rounds_mul (by simpa using hb)]
  rw [hT']
  apply List.flatMap_congr
  intro x _
  unfold emitP nPart
  rw [h1]
  simp

/-- The search that is run, with one part. -/
theorem run_one (G : Given m calls) (hP : Group.Built P) (hb : P.b ≤ m.b) (h1 : P.v.length = 1)
    (lo hi : Nat) {f : Nat} (h3 : f.testBit 3 = false) :
    ∃ fs, IsTable m (flagsT m calls) fs ∧ ∀ halt fuel, m.b.factorial < fuel →
      runC ⟨m, calls, P, lo, hi, f⟩ halt fuel = .ok (feed halt []
        ((outCalls (tree m calls fs lo hi) m.b.factorial (f.testBit 0)).map (touchOf m calls))).1 := by
  obtain ⟨fs, hT, hrun⟩ := runP_eq G (parts_one hP hb h1).2 ⟨m, calls, P, lo, hi, f⟩ rfl rfl rfl (by omega) (by omega)
  refine ⟨fs, hT, fun halt fuel hf => ?_⟩
  rw [hrun halt fuel hf, outP_one G hP hb h1 hT lo hi h3]

/-- C41, one part: whatever the outputer answers, every touch given to it is a true round touch whose number
of leads is in the range, if no row is repeated within a lead of the method. -/
theorem C41_single_sound (G : Given m calls) (h2 : 2 ≤ m.ch.length) (ht : TrueLead m.b (m.ch.map Change.swaps))
    (hP : Group.Built P) (hb : P.b ≤ m.b) (h1 : P.v.length = 1) (lo hi : Nat) {f : Nat} (h3 : f.testBit 3 = false)
    (halt : Outputer) :
    ∃ N out, (∀ fuel, N ≤ fuel → runC ⟨m, calls, P, lo, hi, f⟩ halt fuel = .ok out) ∧
      ∀ t ∈ out, ∃ c, InRange calls lo hi c ∧ Plays t (touchChanges m.ch (ends m calls) c) ∧
        TrueRound m.b ((touchChanges m.ch (ends m calls) c).map Change.swaps) := by
  obtain ⟨fs, hT, hrun⟩ := run_one G hP hb h1 lo hi h3
  obtain ⟨b1, b0, b2, b3⟩ := flagsT_bits m calls
  refine ⟨m.b.factorial + 1, _, fun fuel hf => hrun halt fuel hf, fun t ht' => ?_⟩
  obtain ⟨k, e, -⟩ := feed_prefix halt ((outCalls (tree m calls fs lo hi) m.b.factorial (f.testBit 0)).map (touchOf m calls)) []
  rw [e, List.nil_append] at ht'
  obtain ⟨d, hd, rfl⟩ := List.mem_map.1 (List.mem_of_mem_take ht')
  have hin := out_inRange G hT b3 hd
  refine ⟨d, hin, Plays_touchOf h2 (hin.dom' G.ne), ?_⟩
  obtain ⟨c, p, e1, e3⟩ := (mem_outCalls G hT b3).1 hd
  obtain ⟨k, hk, rfl⟩ := mem_emitCalls e3
  have hg := emit_good G hT b3 ht (by
    by_cases hft : FixedTreble m calls
    · exact Or.inr fun c hc => hd_treble' G hft hc
    · exact Or.inl (b1.2 hft)) (fun h c hc => hd_sign' G (b0.1 h) hc) e1
  exact (trueRound_iff G (hin.dom' G.ne)).2 (distinct_rotate G hg.1 hg.2 hk)

/-- C41, one part: every true round touch in the range is output, itself or with `ignore_rotations` a rotation
of it, by a search that is not halted; and when exactly once. -/
theorem C41_single_complete (G : Given m calls) (h2 : 2 ≤ m.ch.length) (hP : Group.Built P) (hb : P.b ≤ m.b)
    (h1 : P.v.length = 1) (lo hi : Nat) {f : Nat} (h3 : f.testBit 3 = false) :
    ∃ N out css, (∀ fuel, N ≤ fuel → runC ⟨m, calls, P, lo, hi, f⟩ (fun _ => false) fuel = .ok out) ∧
      List.Forall₂ (fun t c => Plays t (touchChanges m.ch (ends m calls) c)) out css ∧
      (f.testBit 0 = true → css.Nodup) ∧
      ∀ c, InRange calls lo hi c → TrueRound m.b ((touchChanges m.ch (ends m calls) c).map Change.swaps) →
        (if f.testBit 0 then ∃ i, c.rotate i ∈ css else ∀ i, c.rotate i ∈ css) ∧
        ((if f.testBit 0 then ∃! d, d ∈ css ∧ ∃ i, d = c.rotate i else ∀ i, css.count (c.rotate i) = 1) ↔
          ∀ i, Passes (c.rotate i) → LeastRotation (c.rotate i)) := by
  obtain ⟨fs, hT, hrun⟩ := run_one G hP hb h1 lo hi h3
  obtain ⟨b1, b0, b2, b3⟩ := flagsT_bits m calls
  refine ⟨m.b.factorial + 1, (outCalls (tree m calls fs lo hi) m.b.factorial (f.testBit 0)).map (touchOf m calls),
    outCalls (tree m calls fs lo hi) m.b.factorial (f.testBit 0),
    fun fuel hf => by rw [hrun _ fuel hf, feed_never, List.nil_append], ?_, ?_, fun c hc hr => ?_⟩
  · rw [List.forall₂_map_left_iff, List.forall₂_same]
    intro d hd
    exact Plays_touchOf h2 ((out_inRange G hT b3 hd).dom' G.ne)
  · intro h; rw [h]; exact once_nodup fs lo hi
  · exact once_core G hT b3 (f.testBit 0) hc hr

/-! ### Several parts -/

/-- The first lead of the method has no row in common with the first lead of another part, if the part ends
are on all bells. -/
def StartTrue (m : Method) (P : Group) : Prop :=
  ∀ p ∈ P.v, p.length = m.b → (∃ x, bellAt p x ≠ x) → ∀ i j, i < m.ch.length → j < m.ch.length →
    ¬ SameRow m.b p ((m.ch.map Change.swaps).take i) [] ((m.ch.map Change.swaps).take j)

/-- One more lead would repeat a row of some part. -/
def NextFalse (m : Method) (P : Group) (css : List (List Nat)) : Prop :=
  ∃ p ∈ P.v, ∃ q ∈ P.v, ∃ i j, i < m.ch.length ∧ j < css.length ∧
    SameRow m.b p (css ++ (m.ch.map Change.swaps).take i) q (css.take j)

theorem startTrue_iff (G : Given m calls) (H : Parts m calls P) : StartTrueR m P ↔ StartTrue m P := by
  unfold StartTrueR StartTrue
  refine forall_congr' fun p => forall_congr' fun hp => forall_congr' fun hl => ?_
  have hne : p ≠ rounds m.b ↔ ∃ x, bellAt p x ≠ x := by
    simp only [bellAt_eq_fn]
    constructor
    · intro h
      by_contra hc
      push Not at hc
      exact h (ext_fn (by simp [hl]) (by intro i _; rw [hc, fn_rounds]))
    · rintro ⟨x, hx⟩ rfl
      rw [fn_rounds] at hx; exact hx rfl
  rw [← hne]
  refine forall_congr' fun _ => ?_
  have key : ∀ i j, SameRow m.b p ((m.ch.map Change.swaps).take i) [] ((m.ch.map Change.swaps).take j) ↔
      mul p (lrow m i) = mul (rounds m.b) (lrow m j) := by
    intro i j
    rw [← List.map_take, ← List.map_take, sameRow_iff (nle G.wf) (H.row hp).1 (H.row hp).2 (by decide) (by simp)
      (fun x hx => G.wf.2 x (List.mem_of_mem_take hx)) (fun x hx => G.wf.2 x (List.mem_of_mem_take hx))]
    have hl := (valid_lrow G j).2
    rw [rounds_mul (by rw [hl]), show mul [] (applyAll (rounds m.b) (m.ch.take j)) = lrow m j from
      rounds_mul (n := 0) (by omega)]
    rfl
  unfold Coin
  constructor
  · intro h i j hi hj e
    exact h ⟨i, hi, j, hj, (key i j).1 e⟩
  · rintro h ⟨i, hi, j, hj, e⟩
    exact h i j hi hj ((key i j).2 e)

theorem nextFalse_iff (G : Given m calls) (H : Parts m calls P) {fs : List Row} (hT : IsTable m (flagsT m calls) fs)
    (hev : EvenOk m calls P) {c : List Nat} (hc : Dom (ends m calls).length c) :
    FalseP m calls P fs c ↔ NextFalse m P ((tch m calls c).map Change.swaps) := by
  have hpos : 0 < m.ch.length := List.length_pos_of_ne_nil G.ne
  rw [falseP_iff G H hT hev hc]
  unfold NextFalse
  rw [List.length_map, length_tch G hc]
  refine exists_congr fun p => and_congr_right fun hp => exists_congr fun q => and_congr_right fun hq => ?_
  have key : ∀ i a j, a < c.length → j < m.ch.length →
      (SameRow m.b p ((tch m calls c).map Change.swaps ++ (m.ch.map Change.swaps).take i) q
        (((tch m calls c).map Change.swaps).take (a * m.ch.length + j)) ↔
      mul (mul p (hd m calls c)) (lrow m i) = mul (mul q (hd m calls (c.take a))) (lrow m j)) := by
    intro i a j ha hj
    have hw : ∀ x ∈ tch m calls c ++ m.ch.take i, x.WF ∧ x.n = m.b := by
      intro x hx
      rcases List.mem_append.1 hx with h | h
      · exact tch_wf G c x h
      · exact G.wf.2 x (List.mem_of_mem_take h)
    rw [← List.map_take, ← List.map_take, ← List.map_append, sameRow_iff (nle G.wf) (H.row hp).1 (H.row hp).2 (H.row hq).1
      (H.row hq).2 hw (take_wf G _), row_at G hc ha hj, applyAll_append,
      show applyAll (rounds m.b) (tch m calls c) = hd m calls c from rfl,
      applyAll_from (m := m) (fun x hx => G.wf.2 x (List.mem_of_mem_take hx)) (valid_hd G (calls := calls) c).2,
      ← mul_assoc', ← mul_assoc']
    rfl
  constructor
  · rintro ⟨a, ha, i, hi, j, hj, e⟩
    exact ⟨i, a * m.ch.length + j, hi, lead_lt hj ha, (key i a j ha hj).2 e⟩
  · rintro ⟨i, j, hi, hj, e⟩
    have hja : j / m.ch.length < c.length := Nat.div_lt_of_lt_mul (by rw [Nat.mul_comm]; exact hj)
    have hdj := Nat.div_add_mod j m.ch.length
    have e2 : j = j / m.ch.length * m.ch.length + j % m.ch.length := by rw [Nat.mul_comm]; omega
    rw [e2] at e
    exact ⟨_, hja, i, hi, _, Nat.mod_lt j hpos, (key i _ _ hja (Nat.mod_lt j hpos)).1 e⟩

/-- The powers of a part end. -/
def pw (P : Group) (p : Row) : Nat → Row
  | 0 => rounds P.b
  | k + 1 => mul p (pw P p k)

theorem pw_spec (hP : Group.Built P) {p : Row} (hp : p ∈ P.v) (k : Nat) : pw P p k ∈ P.v ∧
    ∀ i, fn (pw P p k) i = iter (fn p) k i := by
  have hg := hP.good.grp
  induction k with
  | zero => exact ⟨hg.one, fun i => by rw [pw, fn_rounds]; rfl⟩
  | succ k ih => exact ⟨hg.mul _ hp _ ih.1, fun i => by rw [pw, fn_mul, ih.2]; rfl⟩

theorem fn_ends {c : List Nat} {p : Row} (e : hd m calls c = mul p (rounds m.b)) (i : Nat) : fn (hd m calls c) i = fn p i := by
  rw [e, fn_mul, fn_rounds]

theorem iter_congr {f g : Nat → Nat} (h : ∀ i, f i = g i) (k i : Nat) : iter f k i = iter g k i := by
  have : f = g := funext h
  rw [this]

theorem iter_add (f : Nat → Nat) (j k i : Nat) : iter f (j + k) i = iter f j (iter f k i) := by
  induction j with
  | zero => rw [Nat.zero_add]; rfl
  | succ j ih => rw [Nat.succ_add, iter, ih]; rfl

/-- The powers are different. -/
theorem pw_inj (G : Given m calls) (H : Parts m calls P) (h58 : m.b ≤ 58) {c : List Nat} {p : Row} (hp : p ∈ P.v)
    (e : hd m calls c = mul p (rounds m.b)) {j k : Nat} (hj : j < order (hd m calls c)) (hk : k < order (hd m calls c))
    (h : pw P p j = pw P p k) : j = k := by
  have hv := valid_hd G (calls := calls) c
  obtain ⟨-, o1, o2⟩ := order_spec hv.1 (by rw [hv.2]; exact h58)
  have key : ∀ j k, j < k → k < order (hd m calls c) → pw P p j ≠ pw P p k := by
    intro j k hjk hk h
    have hf : ∀ i, iter (fn p) j i = iter (fn p) k i := by
      intro i; rw [← (pw_spec H.built hp j).2, ← (pw_spec H.built hp k).2, h]
    have hinj : ∀ k x y, iter (fn p) k x = iter (fn p) k y → x = y := by
      intro k
      induction k with
      | zero => intro x y h; exact h
      | succ k ih => intro x y h; exact ih _ _ ((H.row hp).1.fn_inj h)
    have := (o2 (k - j)).1 (fun i => by
      rw [iter_congr (fn_ends e)]
      apply hinj j
      rw [← iter_add, show j + (k - j) = k by omega, hf])
    have := Nat.le_of_dvd (by omega) this
    omega
  rcases Nat.lt_trichotomy j k with g | g | g
  · exact absurd h (key j k g hk)
  · exact g
  · exact absurd h.symm (key k j g hj)

/-- If the head generates the part ends they have its parity. -/
theorem gen_even (G : Given m calls) (H : Parts m calls P) (h58 : m.b ≤ 58) {c : List Nat}
    (hc : Dom (ends m calls).length c) (he : Ends m calls P c) (ho : order (hd m calls c) = P.v.length) : EvenOk m calls P := by
  intro hic
  obtain ⟨p, hp, e⟩ := he
  have hg := H.built.good.grp
  have hsub : (List.range P.v.length).map (pw P p) ⊆ P.v := by
    intro x hx
    obtain ⟨k, -, rfl⟩ := List.mem_map.1 hx
    exact (pw_spec H.built hp k).1
  have hnd : ((List.range P.v.length).map (pw P p)).Nodup := by
    rw [List.nodup_map_iff_inj_on List.nodup_range]
    intro a ha b hb h
    rw [List.mem_range, ← ho] at ha hb
    exact pw_inj G H h58 hp e ha hb h
  have hperm := (hnd.subperm hsub).perm_of_length_le (by simp)
  have hps : sign p = 1 := by
    have := hd_sign' G hic hc
    rwa [e, sign_mul (H.row hp).1 (valid_rounds (nle G.wf)), sign_rounds (nle G.wf), mul_one] at this
  intro x hx
  obtain ⟨k, -, rfl⟩ := List.mem_map.1 (hperm.symm.subset hx)
  clear hx
  induction k with
  | zero => exact sign_rounds hg.le
  | succ k ih => rw [pw, sign_mul (H.row hp).1 (hg.rows _ (pw_spec H.built hp k).1).1, hps, ih]; rfl

/-- C41, several parts: what a search that is not halted outputs.  These are the touches, each once, whose
number of leads is in the range, such that
* no row occurs in different leads of the same or of different parts,
* the first leads of the parts are true against each other (this is only tested if the part ends are on all
  bells of the method),
* the touch ends in one of the part ends (with `non_round_blocks`: one more lead would be false),
* it comes round after as many repetitions as there are parts (not with `mutually_true_parts`).
With `mutually_true_parts` or `non_round_blocks` the part ends have to be even if all lead heads are. -/
theorem C41_parts (G : Given m calls) (H : Parts m calls P) (h2 : 2 ≤ m.ch.length) (h1 : 1 < P.v.length)
    (lo hi f : Nat) (h58 : f.testBit 1 = false → m.b ≤ 58)
    (hev : f.testBit 1 = true ∨ f.testBit 3 = true → InCourse m calls → ∀ p ∈ P.v, Row.signC p = .ok 1) :
    ∃ N out css, (∀ fuel, N ≤ fuel → runC ⟨m, calls, P, lo, hi, f⟩ (fun _ => false) fuel = .ok out) ∧
      List.Forall₂ (fun t c => Plays t (touchChanges m.ch (ends m calls) c)) out css ∧ css.Nodup ∧
      ∀ c, c ∈ css ↔ InRange calls lo hi c ∧
        LeadsTrue m.b m.ch.length P.v ((touchChanges m.ch (ends m calls) c).map Change.swaps) ∧ StartTrue m P ∧
        (if f.testBit 3 then NextFalse m P ((touchChanges m.ch (ends m calls) c).map Change.swaps)
          else EndsIn m.b P.v ((touchChanges m.ch (ends m calls) c).map Change.swaps)) ∧
        (f.testBit 1 = true ∨ ComesRound m.b ((touchChanges m.ch (ends m calls) c).map Change.swaps) P.v.length) := by
  obtain ⟨fs, hT, hrun⟩ := runP_eq G H ⟨m, calls, P, lo, hi, f⟩ rfl rfl rfl (fun _ _ => h2) (fun h _ => h58 h)
  obtain ⟨b1, b0, b2, b3⟩ := flagsT_bits m calls
  have hg := H.built.good.grp
  have hmul : (ptree m calls P fs lo hi (f.testBit 3)).multi = true := by
    show decide (P.v.length > 1) = true
    simpa using h1
  -- parity
  have hEv : ∀ c, Dom (ends m calls).length c → (if f.testBit 3 then True else Ends m calls P c) →
      (f.testBit 1 = true ∨ order (hd m calls c) = P.v.length) → EvenOk m calls P := by
    intro c hc he ho
    by_cases hfl : f.testBit 1 = true ∨ f.testBit 3 = true
    · intro hic p hp
      have := hev hfl hic p hp
      rw [signC_eq (H.row hp).1] at this
      injection this
    · push Not at hfl
      rw [if_neg hfl.2] at he
      exact gen_even G H (h58 (by simpa using hfl.1)) hc he (ho.resolve_left hfl.1)
  have hbnd : ∀ c p, (ptree m calls P fs lo hi (f.testBit 3)).Node c p → c.length ≤ m.b.factorial := by
    intro c p h
    refine ptree_bound G H hT b3 fun i hi => ?_
    have := h.facts.2.1 i hi
    simpa [ptree] using this
  have hnp : ∀ c, nPart m calls P f c = true ↔ (f.testBit 1 = true ∨ order (hd m calls c) = P.v.length) := by
    intro c
    unfold nPart
    by_cases h : f.testBit 1 = true
    · simp [h]
    · have hf : f.testBit 1 = false := by simpa using h
      simp [hf, h1]
  have hvis := fun c p => Tree.visit_iff hbnd (Nat.lt_succ_self _) c p
  have hem : ∀ c p, emitP m calls P f c p = if nPart m calls P f c then [c] else [] := by
    intro c p
    unfold emitP emitCalls
    rw [if_pos (show (f.testBit 0 || decide (P.v.length ≠ 1)) = true by
      simp only [Bool.or_eq_true, decide_eq_true_eq]; right; omega)]
  -- the touches output
  have hmem : ∀ c, c ∈ outP m calls P fs lo hi f ↔ impossible P fs = false ∧
      (∃ p, (ptree m calls P fs lo hi (f.testBit 3)).Emit c p) ∧ nPart m calls P f c = true := by
    intro c
    unfold outP
    by_cases himp : impossible P fs = true
    · simp [himp]
    · have himp : impossible P fs = false := by simpa using himp
      rw [himp, if_neg (by simp), List.mem_flatMap]
      simp only [true_and]
      constructor
      · rintro ⟨⟨d, p⟩, h3, h4⟩
        rw [hem] at h4
        split at h4
        · rename_i hn
          simp only [List.mem_singleton] at h4
          subst h4
          exact ⟨⟨p, (hvis c p).1 h3⟩, hn⟩
        · cases h4
      · rintro ⟨⟨p, h3⟩, h4⟩
        exact ⟨(c, p), (hvis c p).2 h3, by rw [hem, if_pos h4]; simp⟩
  have hdom : ∀ c p, (ptree m calls P fs lo hi (f.testBit 3)).Emit c p → InRange calls lo hi c := by
    intro c p h
    refine ⟨?_, fun k hk => ?_, h.2.2.1, h.1.facts.2.2.1⟩
    · rintro rfl
      have := h.2.1
      simp [ptree, FalseP] at this
    · have := h.1.facts.1 k hk
      change k < (ends m calls).length at this
      rw [length_ends G.ne] at this; omega
  refine ⟨m.b.factorial + 1, (outP m calls P fs lo hi f).map (touchOf m calls), outP m calls P fs lo hi f,
    fun fuel hf => by rw [hrun _ fuel hf, feed_never, List.nil_append], ?_, ?_, fun c => ?_⟩
  · rw [List.forall₂_map_left_iff, List.forall₂_same]
    intro d hd
    obtain ⟨-, ⟨p, h⟩, -⟩ := (hmem d).1 hd
    exact Plays_touchOf h2 ((hdom d p h).dom' G.ne)
  · unfold outP
    split
    · simp
    · have : ∀ l : List (List Nat × Nat), (l.flatMap fun x => emitP m calls P f x.1 x.2) =
          (l.map Prod.fst).filter (nPart m calls P f) := by
        intro l
        induction l with
        | nil => rfl
        | cons x l ih =>
          rw [List.flatMap_cons, ih, hem, List.map_cons, List.filter_cons]
          split <;> simp
      rw [this]
      exact (Tree.visit_nodup _ _ _).filter _
  · rw [hmem, hnp]
    have hO : ∀ c, (f.testBit 1 = true ∨ ComesRound m.b ((touchChanges m.ch (ends m calls) c).map Change.swaps) P.v.length) ↔
        (f.testBit 1 = true ∨ order (hd m calls c) = P.v.length) := by
      intro c
      by_cases h : f.testBit 1 = true
      · simp [h]
      · have := order_iff (c := c) (k := P.v.length) G (h58 (by simpa using h))
        exact or_congr Iff.rfl this
    rw [hO]
    constructor
    · rintro ⟨himp, ⟨p, hE⟩, hn⟩
      have hin := hdom c p hE
      have hc := hin.dom' G.ne
      have hrd : (f.testBit 3 || decide (Ends m calls P c)) = true := hE.2.2.2.1
      have hF : FalseP m calls P fs c := by simpa [ptree] using hE.2.1
      have hev' := hEv c hc (by
        by_cases h : f.testBit 3 = true
        · rw [if_pos h]; trivial
        · rw [if_neg h]; simpa [h] using hrd) hn
      refine ⟨hin, ?_, (startTrue_iff G H).1 ((impossible_iff G H hT hev').1 himp), ?_, hn⟩
      · refine (leadsTrue_iff G H hc).2 ((noFalse_iff G H hT hev' hc).1 fun i hi => ?_)
        have := hE.1.facts.2.1 i hi
        simpa [ptree] using this
      · by_cases h : f.testBit 3 = true
        · rw [if_pos h]; exact (nextFalse_iff G H hT hev' hc).1 hF
        · rw [if_neg h]; exact (ends_iff G H).2 (by simpa [h] using hrd)
    · rintro ⟨hin, hL, hS, hE, hn⟩
      have hc := hin.dom' G.ne
      have hEnd : (if f.testBit 3 then True else Ends m calls P c) := by
        by_cases h : f.testBit 3 = true
        · rw [if_pos h]; trivial
        · rw [if_neg h] at hE ⊢; exact (ends_iff G H).1 hE
      have hev' := hEv c hc hEnd hn
      refine ⟨(impossible_iff G H hT hev').2 ((startTrue_iff G H).2 hS), ?_, hn⟩
      have hnode := Tree.node_multi hmul (c := c) hc (by
        intro i hi
        have := (noFalse_iff G H hT hev' hc).2 ((leadsTrue_iff G H hc).1 hL) i hi
        simpa [ptree] using this) hin.hi
      refine ⟨_, hnode, ?_, hin.lo, ?_, ?_⟩
      · have : FalseP m calls P fs c := by
          by_cases h : f.testBit 3 = true
          · rw [if_pos h] at hE; exact (nextFalse_iff G H hT hev' hc).2 hE
          · rw [if_neg h] at hEnd; exact falseP_of_ends G H hT hin.ne hEnd
        simpa [ptree] using this
      · show (f.testBit 3 || decide (Ends m calls P c)) = true
        by_cases h : f.testBit 3 = true
        · simp [h]
        · rw [if_neg h] at hEnd; simp [hEnd]
      · unfold really; rw [hmul]; simp

end
end TableSearch
end Ringing
