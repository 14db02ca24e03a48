import Verif.Props.TableSearch
import Verif.Lemmas.Method3
/-! C41: `table_search`, what the touches output are in the whole, the length range, and where it fails. -/
namespace Ringing
namespace TableSearch
open Search Spec Row

/-! ### From the parts to the whole touch -/

theorem follow_flatten (css : List (List Nat)) (k x : Nat) :
    follow (List.replicate k css).flatten x = iter (follow css) k x := by
  induction k with
  | zero => rfl
  | succ k ih =>
    rw [List.replicate_succ', List.flatten_append, follow_append, ih]
    simp [iter]

theorem take_flatten (css : List (List Nat)) {k a i : Nat} (ha : a < k) (hi : i < css.length) :
    (List.replicate k css).flatten.take (a * css.length + i) = (List.replicate a css).flatten ++ css.take i := by
  obtain ⟨d, rfl⟩ : ∃ d, k = a + (d + 1) := ⟨k - a - 1, by omega⟩
  have hl : (List.replicate a css).flatten.length = a * css.length := by simp
  rw [List.replicate_add, List.flatten_append, ← hl, List.take_length_add_append, List.replicate_succ, List.flatten_cons,
    List.take_append_of_le_length hi.le]

/-- C41: if the parts of a touch are true and true against each other, it ends in a part end and comes round
after as many repetitions as there are part ends, then the whole touch is true and round. -/
theorem C41_true_touch {n : Nat} {P : Group} (hP : Group.Built P) (hb : P.b ≤ n) {css : List (List Nat)}
    (hT : TrueParts n P.v css) (hE : EndsIn n P.v css) (hC : ComesRound n css P.v.length) :
    TrueRound n (List.replicate P.v.length css).flatten := by
  obtain ⟨p, hp, hE⟩ := hE
  obtain ⟨-, c1, c2⟩ := hC
  have hg := hP.good.grp
  simp only [bellAt_eq_fn] at hE
  have hpl : ∀ {q}, q ∈ P.v → Valid q ∧ q.length ≤ n := fun hq => ⟨(hg.rows _ hq).1, by rw [(hg.rows _ hq).2]; exact hb⟩
  have hlt : ∀ x, x < n → follow css x < n := by
    intro x hx
    by_contra hge
    have := hE x hx
    rw [fn_of_ge (by have := (hpl hp).2; omega)] at this
    omega
  have hpw : ∀ a x, x < n → fn (pw P p a) (iter (follow css) a x) = x := by
    intro a
    induction a with
    | zero => intro x _; rw [pw, fn_rounds]; rfl
    | succ a ih =>
      intro x hx
      rw [(pw_spec hP hp _).2, show a + 1 = a + 1 from rfl, iter_add, ← (pw_spec hP hp a).2]
      show fn (pw P p a) (fn p (follow css (iter (follow css) a x))) = x
      rw [hE _ (iter_lt hlt a x hx), ih x hx]
  refine ⟨fun x hx => by rw [follow_flatten, c1 x hx], ?_⟩
  intro I J hIJ hJ
  have hfl : (List.replicate P.v.length css).flatten.length = P.v.length * css.length := by simp
  rw [hfl] at hJ
  by_contra hc
  push Not at hc
  have hL : 0 < css.length := by
    rcases Nat.eq_zero_or_pos css.length with h | h
    · rw [h] at hJ; omega
    · exact h
  have sp : ∀ I, I < P.v.length * css.length → ∃ a i, a < P.v.length ∧ i < css.length ∧ I = a * css.length + i := by
    intro I hI
    exact ⟨I / css.length, I % css.length, Nat.div_lt_of_lt_mul (by rwa [Nat.mul_comm]), Nat.mod_lt _ hL,
      by rw [Nat.mul_comm]; exact (Nat.div_add_mod _ _).symm⟩
  obtain ⟨a, i, ha, hi, rfl⟩ := sp I (by omega)
  obtain ⟨b, j, hb', hj, rfl⟩ := sp J (by omega)
  have hs : SameRow n (pw P p a) (css.take i) (pw P p b) (css.take j) := by
    intro x y hx hy e
    simp only [bellAt_eq_fn] at e
    have ea := pw_spec hP hp a
    have eb := pw_spec hP hp b
    have hz : fn (pw P p a) x < n := (hpl ea.1).1.fn_lt (hpl ea.1).2 hx
    have x1 : x = iter (follow css) a (fn (pw P p a) x) := (hpl ea.1).1.fn_inj (hpw a _ hz).symm
    have y1 : y = iter (follow css) b (fn (pw P p a) x) :=
      (hpl eb.1).1.fn_inj (by rw [← e]; exact (hpw b _ hz).symm)
    have := hc _ hz
    rw [take_flatten css ha hi, take_flatten css hb' hj, follow_append, follow_append, follow_flatten, follow_flatten,
      ← x1, ← y1] at this
    exact this
  obtain ⟨e1, e2⟩ := hT _ (pw_spec hP hp a).1 _ (pw_spec hP hp b).1 i j hi hj hs
  subst e2
  have hab : a < b := by
    by_contra h
    have := Nat.mul_le_mul_right css.length (Nat.le_of_not_lt h)
    omega
  obtain ⟨x, hx, hne⟩ := c2 (b - a) (by omega) (by omega)
  apply hne
  have h1 := hpw b x hx
  have e3 : iter (follow css) b x = iter (follow css) a (iter (follow css) (b - a) x) := by
    rw [← iter_add, show a + (b - a) = b by omega]
  have h2 := hpw a _ (iter_lt hlt (b - a) x hx)
  rw [e1, ← e3, h1] at h2
  exact h2.symm

variable {m : Method} {calls : List Change} {P : Group}

/-- C41: the parts are true against each other just if the leads are, and no row occurs in the same lead of
different parts or twice in a lead.  The last two are not tested, except for the first lead. -/
theorem C41_trueParts (len : Nat) (n : Nat) (P css : List (List Nat)) :
    TrueParts n P css ↔ LeadsTrue n len P css ∧
      ∀ p ∈ P, ∀ q ∈ P, ∀ i j, i < css.length → j < css.length → i / len = j / len →
        SameRow n p (css.take i) q (css.take j) → p = q ∧ i = j := by
  constructor
  · intro h
    exact ⟨fun p hp q hq i j hi hj e => by rw [(h p hp q hq i j hi hj e).2],
      fun p hp q hq i j hi hj _ e => h p hp q hq i j hi hj e⟩
  · rintro ⟨h1, h2⟩ p hp q hq i j hi hj e
    exact h2 p hp q hq i j hi hj (h1 p hp q hq i j hi hj e) e

theorem startTrue_of (G : Given m calls) (H : Parts m calls P) {c : List Nat} (hne : c ≠ []) (hc : Dom (ends m calls).length c)
    (hT : TrueParts m.b P.v ((touchChanges m.ch (ends m calls) c).map Change.swaps)) : StartTrue m P := by
  intro p hp hl hx i j hi hj e
  have hlen := length_tch G hc
  have hpos : 0 < c.length := List.length_pos_of_ne_nil hne
  have hlt : ∀ i, i < m.ch.length → i < ((tch m calls c).map Change.swaps).length := by
    intro i hi
    rw [List.length_map, hlen]
    exact lt_of_lt_of_le hi (Nat.le_mul_of_pos_left _ hpos)
  have hg := H.built.good.grp
  have htk : ∀ i, i < m.ch.length → ((tch m calls c).map Change.swaps).take i = (m.ch.map Change.swaps).take i := by
    intro i hi
    obtain ⟨k, c, rfl⟩ := List.exists_cons_of_ne_nil hne
    show ((touchChanges m.ch (ends m calls) (k :: c)).map Change.swaps).take i = _
    unfold touchChanges
    rw [List.flatMap_cons, ← List.map_take, ← List.map_take, List.append_assoc, List.take_append_of_le_length (by simp; omega),
      List.dropLast_eq_take, List.take_take, Nat.min_eq_left (by omega)]
  have hP' : P.b = m.b := by rw [← (hg.rows p hp).2, hl]
  have := hT p hp (rounds P.b) hg.one i j (hlt i hi) (hlt j hj) (by
    show SameRow m.b p (((tch m calls c).map Change.swaps).take i) (rounds P.b) (((tch m calls c).map Change.swaps).take j)
    rw [htk i hi, htk j hj]
    intro x y hx hy exy
    refine e x y hx hy ?_
    rw [exy]
    simp only [bellAt_eq_fn, fn_rounds]
    rw [fn_of_ge (by simp)])
  obtain ⟨x, hx⟩ := hx
  apply hx
  rw [this.1, bellAt_eq_fn, fn_rounds]

/-- C41, several parts: every touch in the range whose parts are true and true against each other, that ends in
a part end and comes round after as many repetitions as there are part ends, is output, once. -/
theorem C41_parts_complete (G : Given m calls) (H : Parts m calls P) (h2 : 2 ≤ m.ch.length) (h1 : 1 < P.v.length)
    (lo hi f : Nat) (h3 : f.testBit 3 = false) (h58 : f.testBit 1 = false → m.b ≤ 58)
    (hev : f.testBit 1 = true → InCourse m calls → ∀ p ∈ P.v, Row.signC p = .ok 1) :
    ∃ N out css, (∀ fuel, N ≤ fuel → runC ⟨m, calls, P, lo, hi, f⟩ (fun _ => false) fuel = .ok out) ∧
      List.Forall₂ (fun t c => Plays t (touchChanges m.ch (ends m calls) c)) out css ∧ css.Nodup ∧
      ∀ c, InRange calls lo hi c → TrueParts m.b P.v ((touchChanges m.ch (ends m calls) c).map Change.swaps) →
        EndsIn m.b P.v ((touchChanges m.ch (ends m calls) c).map Change.swaps) →
        (f.testBit 1 = true ∨ ComesRound m.b ((touchChanges m.ch (ends m calls) c).map Change.swaps) P.v.length) → c ∈ css := by
  obtain ⟨N, out, css, a1, a2, a3, a4⟩ := C41_parts G H h2 h1 lo hi f h58 (by rw [h3]; simpa using hev)
  refine ⟨N, out, css, a1, a2, a3, fun c hc hT hE hC => (a4 c).2 ⟨hc, ((C41_trueParts _ _ _ _).1 hT).1,
    startTrue_of G H hc.ne (hc.dom' G.ne) hT, ?_, hC⟩⟩
  rw [h3]
  exact hE

/-- C41, several parts: if no row occurs in the same lead of different parts, and none is repeated within a lead
of the method, the touches output, rung for as many parts as there are part ends, are true and round. -/
theorem C41_parts_sound (G : Given m calls) (H : Parts m calls P) (h2 : 2 ≤ m.ch.length) (h1 : 1 < P.v.length)
    (lo hi f : Nat) (h3 : f.testBit 3 = false) (hf : f.testBit 1 = false) (h58 : m.b ≤ 58) :
    ∃ N out css, (∀ fuel, N ≤ fuel → runC ⟨m, calls, P, lo, hi, f⟩ (fun _ => false) fuel = .ok out) ∧
      List.Forall₂ (fun t c => Plays t (touchChanges m.ch (ends m calls) c)) out css ∧
      ∀ c ∈ css, InRange calls lo hi c ∧
        ((∀ p ∈ P.v, ∀ q ∈ P.v, ∀ i j, i < c.length * m.ch.length → j < c.length * m.ch.length →
            i / m.ch.length = j / m.ch.length →
            SameRow m.b p (((touchChanges m.ch (ends m calls) c).map Change.swaps).take i) q
              (((touchChanges m.ch (ends m calls) c).map Change.swaps).take j) → p = q ∧ i = j) →
          TrueRound m.b (List.replicate P.v.length ((touchChanges m.ch (ends m calls) c).map Change.swaps)).flatten) := by
  obtain ⟨N, out, css, a1, a2, a3, a4⟩ := C41_parts G H h2 h1 lo hi f (fun _ => h58) (by rw [h3, hf]; simp)
  refine ⟨N, out, css, a1, a2, fun c hc => ?_⟩
  obtain ⟨b1, b2, b3, b4, b5⟩ := (a4 c).1 hc
  rw [hf] at b5
  rw [h3] at b4
  refine ⟨b1, fun h => C41_true_touch H.built H.bells ((C41_trueParts m.ch.length _ _ _).2 ⟨b2, ?_⟩) b4 (by simpa using b5)⟩
  intro p hp q hq i j hi hj
  have e : ((touchChanges m.ch (ends m calls) c).map Change.swaps).length = c.length * m.ch.length := by
    rw [List.length_map]; exact length_tch G (b1.dom' G.ne)
  rw [e] at hi hj
  exact h p hp q hq i j hi hj

/-! ### The outputer, and the length range -/

/-- C41: with any outputer, the touches given to it are the first of those given to one that never halts, up to
and including the first after which it says halt. -/
theorem C41_halting (G : Given m calls) (H : Parts m calls P) (h2 : 2 ≤ m.ch.length) (lo hi f : Nat)
    (h58 : f.testBit 1 = false → 1 < P.v.length → m.b ≤ 58) (halt : Outputer) :
    ∃ N full out, (∀ fuel, N ≤ fuel → runC ⟨m, calls, P, lo, hi, f⟩ (fun _ => false) fuel = .ok full ∧
        runC ⟨m, calls, P, lo, hi, f⟩ halt fuel = .ok out) ∧
      ∃ k, k ≤ full.length ∧ out = full.take k ∧ (∀ j, 0 < j → j < k → halt (full.take j) = false) ∧
        (k < full.length → 0 < k ∧ halt out = true) := by
  obtain ⟨fs, hT, hrun⟩ := runP_eq G H ⟨m, calls, P, lo, hi, f⟩ rfl rfl rfl (fun _ _ => h2) h58
  refine ⟨m.b.factorial + 1, (outP m calls P fs lo hi f).map (touchOf m calls), _,
    fun fuel hf => ⟨by rw [hrun _ fuel hf, feed_never, List.nil_append], hrun halt fuel hf⟩, ?_⟩
  obtain ⟨k, k1, k2, k3, k4⟩ := feed_halt halt ((outP m calls P fs lo hi f).map (touchOf m calls)) []
  simp only [List.nil_append] at k2 k3 k4
  exact ⟨k, k1, k2, k3, fun h => ⟨(k4 h).1, by rw [k2]; exact (k4 h).2⟩⟩

/-- C41: with `length_in_changes` a touch of `n` leads is in the range the constructor computes just if the
length of the whole touch, `n` leads in each part, is between the given lengths; the maximal value means that
there is no upper limit.  Without the flag the range is in leads. -/
theorem C41_length_range (m : Method) (calls : List Change) (P : Group) (lo hi f : Nat)
    (hpos : 0 < P.v.length * m.ch.length) (h64 : P.v.length * m.ch.length < 2 ^ 64) :
    ∃ s, newRangeC m calls P lo hi f = .ok s ∧ s.meth = m ∧ s.calls = calls ∧ s.partends = P ∧ s.f = f ∧
      ∀ n, n < 2 ^ 64 → ((s.lo ≤ n ∧ n ≤ s.hi) ↔
        if f.testBit 2 then lo ≤ n * (P.v.length * m.ch.length) ∧ (hi = 2 ^ 64 - 1 ∨ n * (P.v.length * m.ch.length) ≤ hi)
        else lo ≤ n ∧ n ≤ hi) := by
  have hu : u64 (P.v.length * m.length) = P.v.length * m.ch.length := Nat.mod_eq_of_lt h64
  unfold newRangeC rangeDivC
  by_cases h2 : f.testBit 2 = true
  · simp only [h2, if_true]
    rw [hu, if_neg (by omega), Out.ok_bind]
    refine ⟨_, rfl, rfl, rfl, rfl, rfl, fun n hn => ?_⟩
    simp only
    generalize P.v.length * m.ch.length = L at hpos
    have hlo : (if lo % L ≠ 0 then lo / L + 1 else lo / L) ≤ n ↔ lo ≤ n * L := by
      have hd := Nat.div_add_mod lo L
      have hm := Nat.mod_lt lo hpos
      split
      · rw [Nat.succ_le_iff, Nat.div_lt_iff_lt_mul hpos]
        rename_i hne
        constructor
        · exact fun h => h.le
        · intro h
          rcases Nat.lt_or_eq_of_le h with h | h
          · exact h
          · exact absurd (by rw [h, Nat.mul_mod_left]) hne
      · rename_i hz
        push Not at hz
        rw [hz, Nat.add_zero] at hd
        constructor
        · intro h
          rw [← hd, Nat.mul_comm]
          exact Nat.mul_le_mul_right L h
        · exact Nat.div_le_of_le_mul ∘ fun h => by rwa [Nat.mul_comm]
    rw [hlo]
    refine and_congr_right fun _ => ?_
    split
    · rename_i h
      simp [h]; omega
    · rename_i h
      rw [Nat.le_div_iff_mul_le hpos]
      constructor
      · exact Or.inr
      · rintro (h' | h')
        · exact absurd (by rw [h']; rfl) h
        · exact h'
  · have h2' : f.testBit 2 = false := by simpa using h2
    simp only [h2', Bool.false_eq_true, if_false]
    rw [if_neg (by omega), Out.ok_bind]
    refine ⟨_, rfl, rfl, rfl, rfl, rfl, fun n hn => ?_⟩
    simp only [Nat.mod_one, Nat.div_one, ne_eq, not_true_eq_false, if_false, ite_self]

/-- C41: the constructor without a range searches all lengths. -/
theorem C41_no_range (m : Method) (calls : List Change) (P : Group) (f n : Nat) (hn : n < 2 ^ 64) :
    (new m calls P f).lo ≤ n ∧ n ≤ (new m calls P f).hi := by
  simp only [new]; omega

/-! ### `non_round_blocks` with one part -/

/-- C41: with `non_round_blocks`, `ignore_rotations` and one part, every touch output is true, its number of
leads is in the range and one more lead would repeat a row, if no row is repeated within a lead of the method. -/
theorem C41_blocks_sound (G : Given m calls) (h2 : 2 ≤ m.ch.length) (ht : TrueLead m.b (m.ch.map Change.swaps))
    (hP : Group.Built P) (hb : P.b ≤ m.b) (h1 : P.v.length = 1) (lo hi : Nat) {f : Nat} (h3 : f.testBit 3 = true)
    (h0 : f.testBit 0 = true) :
    ∃ N out, (∀ fuel, N ≤ fuel → runC ⟨m, calls, P, lo, hi, f⟩ (fun _ => false) fuel = .ok out) ∧
      ∀ t ∈ out, ∃ c, InRange calls lo hi c ∧ Plays t (touchChanges m.ch (ends m calls) c) ∧
        TrueLead m.b ((touchChanges m.ch (ends m calls) c).map Change.swaps) ∧
        NextFalse m P ((touchChanges m.ch (ends m calls) c).map Change.swaps) := by
  obtain ⟨e, H⟩ := parts_one (m := m) (calls := calls) hP hb h1
  obtain ⟨fs, hT, hrun⟩ := runP_eq G H ⟨m, calls, P, lo, hi, f⟩ rfl rfl rfl (by omega) (by omega)
  obtain ⟨b1, b0, b2, b3⟩ := flagsT_bits m calls
  have hev : EvenOk m calls P := by
    intro _ p hp
    rw [e, List.mem_singleton] at hp
    rw [hp, sign_rounds (by have := nle G.wf; omega)]
  refine ⟨m.b.factorial + 1, (outP m calls P fs lo hi f).map (touchOf m calls),
    fun fuel hf => by rw [hrun _ fuel hf, feed_never, List.nil_append], fun t ht' => ?_⟩
  obtain ⟨c, hc', rfl⟩ := List.mem_map.1 ht'
  unfold outP at hc'
  split at hc'
  · cases hc'
  obtain ⟨⟨d, p⟩, h4, h5⟩ := List.mem_flatMap.1 hc'
  unfold emitP at h5
  split at h5
  swap
  · cases h5
  unfold emitCalls at h5
  rw [h0] at h5
  simp only [Bool.true_or, if_true, List.mem_singleton] at h5
  subst h5
  have hbnd : ∀ c p, (ptree m calls P fs lo hi (f.testBit 3)).Node c p → c.length ≤ m.b.factorial := by
    intro c p h
    refine ptree_bound G H hT b3 fun i hi => ?_
    have := h.facts.2.1 i hi
    simpa [ptree] using this
  have hE := (Tree.visit_iff hbnd (Nat.lt_succ_self _) c p).1 h4
  have hin : InRange calls lo hi c := by
    refine ⟨?_, fun k hk => ?_, hE.2.2.1, hE.1.facts.2.2.1⟩
    · rintro rfl
      have := hE.2.1
      simp [ptree, FalseP] at this
    · have := hE.1.facts.1 k hk
      change k < (ends m calls).length at this
      rw [length_ends G.ne] at this; omega
  have hc := hin.dom' G.ne
  have hL := (leadsTrue_iff G H hc).2 ((noFalse_iff G H hT hev hc).1 fun i hi => by
    have := hE.1.facts.2.1 i hi
    simpa [ptree] using this)
  refine ⟨c, hin, Plays_touchOf h2 hc, ?_, (nextFalse_iff G H hT hev hc).1 (by simpa [ptree] using hE.2.1)⟩
  have hpos : 0 < m.ch.length := by omega
  intro i j hij hj
  by_contra hcon
  push Not at hcon
  have hsame : SameRow m.b (rounds P.b) (((tch m calls c).map Change.swaps).take i) (rounds P.b)
      (((tch m calls c).map Change.swaps).take j) := by
    intro x y hx _ exy
    simp only [bellAt_eq_fn, fn_rounds] at exy
    subst exy
    exact hcon x hx
  have hlead := hL _ (hP.good.grp.one) _ (hP.good.grp.one) i j (by have : i < _ := hij.trans hj; exact this) hj hsame
  -- both rows are in the same lead
  have hlen := length_tch G hc
  have hjl : j < (tch m calls c).length := by rw [← List.length_map (f := Change.swaps)]; exact hj
  rw [hlen] at hjl
  have hja : j / m.ch.length < c.length := Nat.div_lt_of_lt_mul (by rw [Nat.mul_comm]; exact hjl)
  have hdi := Nat.div_add_mod i m.ch.length
  have hdj := Nat.div_add_mod j m.ch.length
  have hmi := Nat.mod_lt i hpos
  have hmj := Nat.mod_lt j hpos
  have hrow : applyAll (rounds m.b) ((tch m calls c).take i) = applyAll (rounds m.b) ((tch m calls c).take j) := by
    rw [rows_eq_iff (nle G.wf) (take_wf G i) (take_wf G j), List.map_take, List.map_take]
    exact hcon
  rw [← hdi, ← hdj, Nat.mul_comm _ (i / _), Nat.mul_comm _ (j / _), hlead, row_at G hc hja hmi, row_at G hc hja hmj] at hrow
  have hv := valid_hd G (calls := calls) (c.take (j / m.ch.length))
  have := lrow_inj G ht hmi hmj (mul_left_cancel hv.1 hv.2 (valid_lrow G _).2 (valid_lrow G _).2 hrow)
  rw [hlead, this] at hdi
  omega

/-! ### Where it fails -/

theorem leadsTrue_of {n len : Nat} {P css : List (List Nat)}
    (h : ∀ p ∈ P, ∀ q ∈ P, ∀ i, i < css.length → ∀ j, j < css.length → i / len = j / len ∨
      ∃ x, x < n ∧ ∃ y, y < n ∧ bellAt p x = bellAt q y ∧ follow (css.take i) x ≠ follow (css.take j) y) : LeadsTrue n len P css := by
  intro p hp q hq i j hi hj e
  rcases h p hp q hq i hi j hj with h | ⟨x, hx, y, hy, h1, h2⟩
  · exact h
  · exact absurd (e x y hx hy h1) h2

theorem comesRound_of {n k : Nat} {css : List (List Nat)} (h0 : 0 < k) (h1 : ∀ x, x < n → iter (follow css) k x = x)
    (h2 : ∀ j, j < k → 0 < j → ∃ x, x < n ∧ iter (follow css) j x ≠ x) : ComesRound n css k :=
  ⟨h0, h1, fun j hj hk => h2 j hk hj⟩

/-- A method on four bells and the cyclic part ends. -/
def hunt4 : Method := ⟨4, [⟨4, [0, 2]⟩, ⟨4, [1]⟩]⟩

def cyc4 : Group := ⟨4, [[0, 1, 2, 3], [1, 2, 3, 0], [2, 3, 0, 1], [3, 0, 1, 2]], [[0, 1, 2, 3]]⟩

theorem parts_cyc4 : Parts hunt4 [⟨4, [2]⟩] cyc4 where
  built := .ofRow (r := [1, 2, 3, 0]) ((isRow_iff_valid _).2 (by decide)) (by rfl)
  bells := by decide
  treble := fun h => absurd h (by decide)

/-- C41: with several parts a false touch may be output, because the leads of different parts are only
compared at the start: four bells, leads `x 1 4`, the call `1 2`, the four cyclic part ends, plain, bob, plain.
The whole touch, which has 24 rows, is round, but it repeats a row. -/
theorem C41_parts_false : Given hunt4 [⟨4, [2]⟩] ∧ Parts hunt4 [⟨4, [2]⟩] cyc4 ∧ TrueLead 4 (hunt4.ch.map Change.swaps) ∧
    ∃ N out css, (∀ fuel, N ≤ fuel → runC ⟨hunt4, [⟨4, [2]⟩], cyc4, 3, 3, 0⟩ (fun _ => false) fuel = .ok out) ∧
      List.Forall₂ (fun t c => Plays t (touchChanges hunt4.ch (ends hunt4 [⟨4, [2]⟩]) c)) out css ∧ [0, 1, 0] ∈ css ∧
      ¬ TrueRound 4 (List.replicate 4 ((touchChanges hunt4.ch (ends hunt4 [⟨4, [2]⟩]) [0, 1, 0]).map Change.swaps)).flatten := by
  have G : Given hunt4 [⟨4, [2]⟩] := ⟨⟨by decide, by decide⟩, by decide, by decide, by decide⟩
  refine ⟨G, parts_cyc4, trueLead_of (by decide +kernel), ?_⟩
  obtain ⟨N, out, css, a1, a2, a3, a4⟩ := C41_parts G parts_cyc4 (by decide) (by decide) 3 3 0 (fun _ => by decide)
    (by rintro (h | h) <;> exact absurd h (by decide))
  refine ⟨N, out, css, a1, a2, (a4 _).2 ⟨⟨by decide, by decide, by decide, by decide⟩, leadsTrue_of (by decide +kernel), ?_, ?_,
    Or.inr (comesRound_of (by decide) (by decide +kernel) (by decide +kernel))⟩, ?_⟩
  · intro p hp hl hx i j hi hj e
    have : ∀ p ∈ cyc4.v, ∀ i, i < 2 → ∀ j, j < 2 → (∀ x, x < 4 → bellAt p x = x) ∨ ∃ x, x < 4 ∧ ∃ y, y < 4 ∧ bellAt p x = bellAt [] y ∧
      follow ((hunt4.ch.map Change.swaps).take i) x ≠ follow ((hunt4.ch.map Change.swaps).take j) y := by decide +kernel
    rcases this p hp i hi j hj with h | ⟨x, hx, y, hy, h1, h2⟩
    · obtain ⟨x, hx⟩ := hx
      by_cases h4 : x < 4
      · exact hx (h x h4)
      · apply hx
        rw [bellAt_eq_fn, fn_of_ge (by rw [hl]; exact Nat.le_of_not_lt h4)]
    · exact h2 (e x y hx hy h1)
  · show EndsIn _ _ _
    unfold EndsIn
    decide +kernel
  · rintro ⟨-, h⟩
    have : ¬ ∀ i, i < 24 → ∀ j, j < 24 → i < j → ∃ p, p < 4 ∧
      follow ((List.replicate 4 ((touchChanges hunt4.ch (ends hunt4 [⟨4, [2]⟩]) [0, 1, 0]).map Change.swaps)).flatten.take i) p ≠
      follow ((List.replicate 4 ((touchChanges hunt4.ch (ends hunt4 [⟨4, [2]⟩]) [0, 1, 0]).map Change.swaps)).flatten.take j) p := by
      decide +kernel
    exact this fun i _ j hj hij => h i j hij (by
      have : ((List.replicate 4 ((touchChanges hunt4.ch (ends hunt4 [⟨4, [2]⟩]) [0, 1, 0]).map Change.swaps)).flatten).length = 24 := by decide
      omega)

/-- Three bells, the last two changing twice in a lead. -/
def dodge3 : Method := ⟨3, [⟨3, [1]⟩, ⟨3, [1]⟩]⟩

def swap3 : Group := ⟨3, [[0, 1, 2], [0, 2, 1]], [[0], [1, 2]]⟩

theorem parts_swap3 : Parts dodge3 [⟨3, [1]⟩] swap3 where
  built := .ofRow (r := [0, 2, 1]) ((isRow_iff_valid _).2 (by decide)) (by rfl)
  bells := by decide
  treble := fun _ => by decide

/-- C41: with `mutually_true_parts` and an odd part end, the parts of a touch output need not be true against
each other if all lead heads are even: the rows of the lead, 123 and 132, are those of the other part. -/
theorem C41_odd_part_end : Given dodge3 [⟨3, [1]⟩] ∧ Parts dodge3 [⟨3, [1]⟩] swap3 ∧ TrueLead 3 (dodge3.ch.map Change.swaps) ∧
    ∃ N out, (∀ fuel, N ≤ fuel → runC ⟨dodge3, [⟨3, [1]⟩], swap3, 1, 1, 2⟩ (fun _ => false) fuel = .ok out) ∧
      ∃ t ∈ out, Plays t (touchChanges dodge3.ch (ends dodge3 [⟨3, [1]⟩]) [0]) ∧
      ¬ TrueParts 3 swap3.v ((touchChanges dodge3.ch (ends dodge3 [⟨3, [1]⟩]) [0]).map Change.swaps) := by
  have G : Given dodge3 [⟨3, [1]⟩] := ⟨⟨by decide, by decide⟩, by decide, by decide, by decide⟩
  refine ⟨G, parts_swap3, trueLead_of (by decide +kernel), ?_⟩
  obtain ⟨fs, hT, hrun⟩ := runP_eq G parts_swap3 ⟨dodge3, [⟨3, [1]⟩], swap3, 1, 1, 2⟩ rfl rfl rfl (fun _ _ => by decide) (fun _ _ => by decide)
  have h7 : runC ⟨dodge3, [⟨3, [1]⟩], swap3, 1, 1, 2⟩ (fun _ => false) 7 =
    .ok [touchOf dodge3 [⟨3, [1]⟩] [0], touchOf dodge3 [⟨3, [1]⟩] [1]] := by rfl
  refine ⟨7, [touchOf dodge3 [⟨3, [1]⟩] [0], touchOf dodge3 [⟨3, [1]⟩] [1]], fun fuel hf => ?_, _, List.mem_cons_self .., ?_, ?_⟩
  · rw [hrun (fun _ => false) fuel (by show 6 < fuel; omega), ← h7, hrun (fun _ => false) 7 (by decide)]
  · exact Plays_touchOf (by decide) (by unfold Dom; decide)
  · intro h
    have := h [0, 1, 2] (by decide) [0, 2, 1] (by decide) 0 1 (by decide) (by decide) (by
      have : ∀ x, x < 3 → ∀ y, y < 3 → bellAt [0, 1, 2] x = bellAt [0, 2, 1] y →
        follow (((touchChanges dodge3.ch (ends dodge3 [⟨3, [1]⟩]) [0]).map Change.swaps).take 0) x =
        follow (((touchChanges dodge3.ch (ends dodge3 [⟨3, [1]⟩]) [0]).map Change.swaps).take 1) y := by decide +kernel
      exact fun x y hx hy => this x hx y hy)
    exact absurd this.1 (by decide)

theorem collect_mono {n : TouchNode} {l : List Change} {f : Nat} : ∀ {it : TouchIter}, TouchNode.collectC n f it = .ok l →
    ∀ f', f ≤ f' → TouchNode.collectC n f' it = .ok l := by
  induction f generalizing l with
  | zero => intro it h; cases h
  | succ f ih =>
    intro it h f' hf
    obtain ⟨f', rfl⟩ : ∃ g, f' = g + 1 := ⟨f' - 1, by omega⟩
    rw [TouchNode.collectC] at h ⊢
    split at h
    · rename_i ha; rw [if_pos ha]; exact h
    · rename_i ha
      rw [if_neg ha]
      cases h1 : TouchNode.derefC it n with
      | ok c =>
        simp only [h1, Out.ok_bind] at h ⊢
        cases h2 : TouchNode.incC it n with
        | ok it' =>
          simp only [h2, Out.ok_bind] at h ⊢
          cases h3 : TouchNode.collectC n f it' with
          | ok l' => rw [h3, Out.ok_bind] at h; rw [ih h3 f' (by omega), Out.ok_bind]; exact h
          | throw e => rw [h3] at h; cases h
          | ub => rw [h3] at h; cases h
          | timeout => rw [h3] at h; cases h
        | throw e => rw [h2] at h; cases h
        | ub => rw [h2] at h; cases h
        | timeout => rw [h2] at h; cases h
      | throw e => rw [h1] at h; cases h
      | ub => rw [h1] at h; cases h
      | timeout => rw [h1] at h; cases h

theorem plays_of {t : Touch} {l : List Change} {f : Nat} (h : t.collectC f = .ok l) : Plays t l := by
  refine ⟨f, fun f' hf => ?_⟩
  unfold Touch.collectC at h ⊢
  split at h
  · exact h
  · exact collect_mono h f' hf

/-- C41: with `non_round_blocks` and one part, but without `ignore_rotations`, the rotations of a block are also
output, and these may be false: on three bells, a bob and then a plain lead, 123, 213, 213, 123. -/
theorem C41_block_rotations : Given movesTreble [⟨3, []⟩] ∧ TrueLead 3 (movesTreble.ch.map Change.swaps) ∧
    ∃ N out, (∀ fuel, N ≤ fuel → runC ⟨movesTreble, [⟨3, []⟩], Group.trivial0, 2, 2, 8⟩ (fun _ => false) fuel = .ok out) ∧
      ∃ t ∈ out, Plays t (touchChanges movesTreble.ch (ends movesTreble [⟨3, []⟩]) [1, 0]) ∧
      ¬ TrueLead 3 ((touchChanges movesTreble.ch (ends movesTreble [⟨3, []⟩]) [1, 0]).map Change.swaps) := by
  have G : Given movesTreble [⟨3, []⟩] := ⟨⟨by decide, by decide⟩, by decide, by decide, by decide⟩
  refine ⟨G, trueLead_of (by decide +kernel), ?_⟩
  have H : Parts movesTreble [⟨3, []⟩] Group.trivial0 := (parts_one .default (by decide) (by decide)).2
  obtain ⟨fs, hT, hrun⟩ := runP_eq G H ⟨movesTreble, [⟨3, []⟩], Group.trivial0, 2, 2, 8⟩ rfl rfl rfl (fun _ _ => by decide) (fun _ _ => by decide)
  have h7 : (match runC ⟨movesTreble, [⟨3, []⟩], Group.trivial0, 2, 2, 8⟩ (fun _ => false) 7 with
      | .ok l => l.map fun t => t.collectC 20
      | _ => []) = [.ok (tch movesTreble [⟨3, []⟩] [0, 1]), .ok (tch movesTreble [⟨3, []⟩] [1, 0])] := by
    decide +kernel
  rw [hrun (fun _ => false) 7 (by decide), feed_never, List.nil_append] at h7
  simp only at h7
  have hm : (.ok (tch movesTreble [⟨3, []⟩] [1, 0]) : Out (List Change)) ∈
      ((outP movesTreble [⟨3, []⟩] Group.trivial0 fs 2 2 8).map (touchOf movesTreble [⟨3, []⟩])).map fun t => t.collectC 20 := by
    rw [h7]; simp
  obtain ⟨t, ht, hc⟩ := List.mem_map.1 hm
  refine ⟨7, _, fun fuel hf => by rw [hrun (fun _ => false) fuel (by show 6 < fuel; omega), feed_never, List.nil_append], t, ht,
    plays_of hc, ?_⟩
  · intro h
    obtain ⟨p, hp, h⟩ := h 1 2 (by decide) (by decide)
    revert h
    revert p
    decide +kernel

/-- C41: the deprecated constructor without a range searches only touches of no leads, so nothing is output. -/
theorem C41_old (G : Given m calls) (ign : Bool) (halt : Outputer) :
    ∃ N, ∀ fuel, N ≤ fuel → runC (newOld m calls ign) halt fuel = .ok [] := by
  have H : Parts m calls Group.trivial0 := (parts_one .default (by simp [Group.trivial0]) (by decide)).2
  obtain ⟨fs, hT, hrun⟩ := runP_eq G H (newOld m calls ign) rfl rfl rfl (fun _ h => absurd h (by decide)) (fun _ h => absurd h (by decide))
  refine ⟨m.b.factorial + 1, fun fuel hf => ?_⟩
  rw [hrun halt fuel hf]
  have : outP m calls Group.trivial0 fs (newOld m calls ign).lo (newOld m calls ign).hi (newOld m calls ign).f = [] := by
    unfold outP
    split
    · rfl
    rw [List.flatMap_eq_nil_iff]
    rintro ⟨c, p⟩ hx
    obtain ⟨b1, b0, b2, b3⟩ := flagsT_bits m calls
    have hbnd : ∀ c p, (ptree m calls Group.trivial0 fs (newOld m calls ign).lo (newOld m calls ign).hi ((newOld m calls ign).f.testBit 3)).Node c p → c.length ≤ m.b.factorial := by
      intro c p h
      refine ptree_bound G H hT b3 fun i hi => ?_
      have := h.facts.2.1 i hi
      simpa [ptree] using this
    have hE := (Tree.visit_iff hbnd (Nat.lt_succ_self _) c p).1 hx
    have h0 : c.length ≤ 0 := hE.1.facts.2.2.1
    have : c = [] := List.eq_nil_of_length_eq_zero (by omega)
    subst this
    have := hE.2.1
    simp [ptree, FalseP] at this
  rw [this]
  rfl

/-- C41: the deprecated constructor with a range reads an uninitialised member: undefined behaviour. -/
theorem C41_old_range (m : Method) (calls : List Change) (lo hi : Nat) (ign : Bool) : newOldRangeC m calls lo hi ign = .ub := rfl

/-- The part ends of the plain course of Plain Bob Minimus. -/
def bob3 : Group := ⟨4, [[0, 1, 2, 3], [0, 2, 3, 1], [0, 3, 1, 2]], [[0], [1, 2, 3]]⟩

/-- The hypotheses of C41_parts_sound and C41_parts_complete are met by the plain course of Plain Bob Minimus in
three parts. -/
example : Parts bobMinimus [⟨4, [1]⟩] bob3 ∧
    TrueParts 4 bob3.v ((touchChanges bobMinimus.ch (ends bobMinimus [⟨4, [1]⟩]) [0]).map Change.swaps) ∧
    EndsIn 4 bob3.v ((touchChanges bobMinimus.ch (ends bobMinimus [⟨4, [1]⟩]) [0]).map Change.swaps) ∧
    ComesRound 4 ((touchChanges bobMinimus.ch (ends bobMinimus [⟨4, [1]⟩]) [0]).map Change.swaps) 3 := by
  refine ⟨⟨.ofRow (r := [0, 2, 3, 1]) ((isRow_iff_valid _).2 (by decide)) (by rfl), by decide, fun _ => by decide⟩, ?_, ?_,
    comesRound_of (by decide) (by decide +kernel) (by decide +kernel)⟩
  · have : ∀ p ∈ bob3.v, ∀ q ∈ bob3.v, ∀ i, i < 8 → ∀ j, j < 8 → (∀ x, x < 4 → ∀ y, y < 4 → bellAt p x = bellAt q y →
        follow (((touchChanges bobMinimus.ch (ends bobMinimus [⟨4, [1]⟩]) [0]).map Change.swaps).take i) x =
        follow (((touchChanges bobMinimus.ch (ends bobMinimus [⟨4, [1]⟩]) [0]).map Change.swaps).take j) y) → p = q ∧ i = j := by
      decide +kernel
    intro p hp q hq i j hi hj h
    exact this p hp q hq i hi j hj (fun x hx y hy => h x y hx hy)
  · unfold EndsIn
    decide +kernel

end TableSearch
end Ringing
