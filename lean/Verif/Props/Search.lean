import Verif.Lemmas.Outputs
import Mathlib.Data.List.Forall2
/-! C38, C39, C40, C53: `basic_search`. -/
namespace Ringing
namespace Search
open Spec

/-- Iterating over the touch gives the changes `cs`. -/
def Plays (t : Touch) (cs : List Change) : Prop := ∃ N, ∀ fuel, N ≤ fuel → t.collectC fuel = .ok cs

/-- `c` has at least one lead, its calls are among those given (0 is the plain lead end), and its number of
leads is in the range. -/
structure InRange (calls : List Change) (lo hi : Nat) (c : List Nat) : Prop where
  ne : c ≠ []
  dom : ∀ k ∈ c, k ≤ calls.length
  lo : lo ≤ c.length
  hi : c.length ≤ hi

section
variable {m : Method} {calls : List Change}

theorem InRange.dom' (hne : m.ch ≠ []) {lo hi : Nat} {c : List Nat} (h : InRange calls lo hi c) :
    Dom (ends m calls).length c := by
  intro k hk
  have := h.dom k hk
  rw [length_ends hne]; omega

theorem emit_inRange (hne : m.ch ≠ []) {fs : List Row} {lo hi : Nat} {c : List Nat} {p : Nat}
    (h : (tree m calls fs lo hi).Emit c p) : InRange calls lo hi c := by
  refine ⟨emit_ne h, fun k hk => ?_, h.2.2.1, h.1.facts.2.2.1⟩
  have := h.1.facts.1 k hk
  change k < (ends m calls).length at this
  rw [length_ends hne] at this; omega

theorem InRange.rotate {lo hi : Nat} {c : List Nat} (h : InRange calls lo hi c) (k : Nat) :
    InRange calls lo hi (c.rotate k) :=
  ⟨by simpa using h.ne, fun x hx => h.dom x (List.mem_rotate.1 hx), by simpa using h.lo, by simpa using h.hi⟩

theorem out_inRange (G : Given m calls) {flags : Nat} {fs : List Row} (hT : IsTable m flags fs) (h3 : flags.testBit 3 = false) {lo hi : Nat} {ign : Bool} {d : List Nat}
    (h : d ∈ outCalls (tree m calls fs lo hi) m.b.factorial ign) : InRange calls lo hi d := by
  obtain ⟨c, p, h1, h2⟩ := (mem_outCalls G hT h3).1 h
  obtain ⟨k, -, rfl⟩ := mem_emitCalls h2
  exact (emit_inRange G.ne h1).rotate k

/-- C38: whatever the outputer answers, every touch given to it is a true round touch whose number of leads
is in the range, if no row is repeated within a lead of the method and all lead heads have the treble in
the lead. -/
theorem C38_sound (G : Given m calls) (h2 : 2 ≤ m.ch.length) (ht : TrueLead m.b (m.ch.map Change.swaps))
    (htr : ∀ k, k ≤ calls.length → follow ((touchChanges m.ch (ends m calls) [k]).map Change.swaps) 0 = 0)
    (lo hi : Nat) (ign : Bool) (halt : Outputer) :
    ∃ N out, (∀ fuel, N ≤ fuel → BasicSearch.runC m calls lo hi ign halt fuel = .ok out) ∧
      ∀ t ∈ out, ∃ c, InRange calls lo hi c ∧ Plays t (touchChanges m.ch (ends m calls) c) ∧
        TrueRound m.b ((touchChanges m.ch (ends m calls) c).map Change.swaps) := by
  obtain ⟨fs, hT, hrun⟩ := runC_calls G lo hi ign
  refine ⟨m.b.factorial + 1, _, fun fuel hf => hrun halt fuel hf, fun t ht' => ?_⟩
  obtain ⟨k, e, -⟩ := feed_prefix halt ((outCalls (tree m calls fs lo hi) m.b.factorial ign).map (touchOf m calls)) []
  rw [e, List.nil_append] at ht'
  obtain ⟨d, hd, rfl⟩ := List.mem_map.1 (List.mem_of_mem_take ht')
  have hin := out_inRange G hT (flags_bits m calls).2.2 hd
  refine ⟨d, hin, Plays_touchOf h2 (hin.dom' G.ne), ?_⟩
  obtain ⟨c, p, h1, h3⟩ := (mem_outCalls G hT (flags_bits m calls).2.2).1 hd
  obtain ⟨k, hk, rfl⟩ := mem_emitCalls h3
  have hg := emit_good G hT (flags_bits m calls).2.2 ht (Or.inr fun c hc => hd_treble G htr hc) (fun h c hc => hd_sign G h hc) h1
  exact (trueRound_iff G (hin.dom' G.ne)).2 (distinct_rotate G hg.1 hg.2 hk)

/-- C39: every true round touch in the range is output (by a search that is not halted): itself, or with
`ignore_rotations` a rotation of it. -/
theorem C39_complete (G : Given m calls) (h2 : 2 ≤ m.ch.length) (lo hi : Nat) (ign : Bool) :
    ∃ N out, (∀ fuel, N ≤ fuel → BasicSearch.runC m calls lo hi ign (fun _ => false) fuel = .ok out) ∧
      ∀ c, InRange calls lo hi c → TrueRound m.b ((touchChanges m.ch (ends m calls) c).map Change.swaps) →
        ∃ t ∈ out, ∃ k, Plays t (touchChanges m.ch (ends m calls) (c.rotate k)) ∧ (ign = false → k = 0) := by
  obtain ⟨fs, hT, hrun⟩ := runC_calls G lo hi ign
  refine ⟨m.b.factorial + 1, (outCalls (tree m calls fs lo hi) m.b.factorial ign).map (touchOf m calls),
    fun fuel hf => by rw [hrun _ fuel hf, feed_never, List.nil_append], fun c hc hr => ?_⟩
  obtain ⟨r1, r2⟩ := (trueRound_iff G (hc.dom' G.ne)).1 hr
  obtain ⟨k, hk, p, hE, hall⟩ := complete G hT (flags_bits m calls).2.2 hc.ne (hc.dom' G.ne) hc.lo hc.hi r1 r2
  cases ign with
  | false =>
    refine ⟨touchOf m calls c, List.mem_map.2 ⟨c, (mem_outCalls G hT (flags_bits m calls).2.2).2 ⟨_, p, hE, ?_⟩, rfl⟩, 0, ?_, fun _ => rfl⟩
    · have := hall 0; rwa [List.rotate_zero] at this
    · rw [List.rotate_zero]; exact Plays_touchOf h2 (hc.dom' G.ne)
  | true =>
    refine ⟨touchOf m calls (c.rotate k), List.mem_map.2 ⟨_, (mem_outCalls G hT (flags_bits m calls).2.2).2 ⟨_, p, hE, ?_⟩, rfl⟩, k,
      Plays_touchOf h2 ((hc.rotate k).dom' G.ne), fun h => by cases h⟩
    simp [emitCalls]

/-! ### Order of words -/

theorem less_iff {c d : List Nat} (h : c.length = d.length) : Less c d ↔ c < d := by
  rw [List.lt_iff_exists]
  unfold Less
  constructor
  · rintro ⟨j, hj, h1, h2⟩
    refine Or.inr ⟨j, hj, by omega, fun t ht => ?_, ?_⟩
    · have := h1 t ht
      rwa [lt, lt, List.getD_eq_getElem _ _ (by omega), List.getD_eq_getElem _ _ (by omega)] at this
    · rwa [lt, lt, List.getD_eq_getElem _ _ (by omega), List.getD_eq_getElem _ _ (by omega)] at h2
  · rintro (⟨-, h1⟩ | ⟨j, h1, h2, h3, h4⟩)
    · omega
    · refine ⟨j, h1, fun t ht => ?_, ?_⟩
      · rw [lt, lt, List.getD_eq_getElem _ _ (by omega), List.getD_eq_getElem _ _ (by omega)]; exact h3 t ht
      · rw [lt, lt, List.getD_eq_getElem _ _ (by omega), List.getD_eq_getElem _ _ (by omega)]; exact h4

/-- No rotation of `c` comes before `c` in the lexicographic order. -/
def LeastRotation (c : List Nat) : Prop := ∀ k, ¬ c.rotate k < c

theorem least_iff {c : List Nat} : Least c ↔ LeastRotation c := by
  by_cases h0 : c = []
  · subst h0; simp [Least, LeastRotation]
  have hpos := List.length_pos_of_ne_nil h0
  constructor
  · intro h k hk
    refine h (k % c.length) (Nat.mod_lt _ hpos) ?_
    rw [less_iff (by simp), List.rotate_mod]; exact hk
  · intro h k _ hk
    exact h k ((less_iff (by simp)).1 hk)

/-- No end of `c` comes before the beginning of `c` of the same length, and `c` does not end with the call
it begins with, unless all calls are the same. -/
def Passes (c : List Nat) : Prop :=
  (∀ i, ¬ c.drop i < c.take (c.length - i)) ∧
  ((∀ x ∈ c, some x = c.head?) ∨ c.getLast? ≠ c.head?)

theorem acc_iff {c : List Nat} : Acc c ↔ Passes c := by
  unfold Acc Passes
  refine and_congr ?_ ?_
  · constructor
    · intro h i hlt
      by_cases hi : i ≤ c.length
      · rw [← less_iff (by simp; )] at hlt
        obtain ⟨j, h1, h2, h3⟩ := hlt
        simp only [List.length_drop] at h1
        have hd : ∀ t, lt (c.drop i) t = lt c (i + t) := by
          intro t; simp [lt, List.getD_eq_getElem?_getD, List.getElem?_drop]
        have htk : ∀ t, t < c.length - i → lt (c.take (c.length - i)) t = lt c t := by
          intro t ht; rw [lt, lt, List.getD_eq_getElem?_getD, List.getD_eq_getElem?_getD, List.getElem?_take, if_pos ht]
        refine h i j (by omega) (fun t ht => ?_) ?_
        · rw [← hd, ← htk t (by omega)]; exact h2 t ht
        · rw [← hd, ← htk j (by omega)]; exact h3
      · rw [List.drop_eq_nil_of_le (by omega), show c.length - i = 0 by omega] at hlt
        simp at hlt
    · intro h i j hij h1 h2
      refine h i ?_
      rw [← less_iff (by simp)]
      have hd : ∀ t, lt (c.drop i) t = lt c (i + t) := by
        intro t; simp [lt, List.getD_eq_getElem?_getD, List.getElem?_drop]
      have htk : ∀ t, t < c.length - i → lt (c.take (c.length - i)) t = lt c t := by
        intro t ht; rw [lt, lt, List.getD_eq_getElem?_getD, List.getD_eq_getElem?_getD, List.getElem?_take, if_pos ht]
      refine ⟨j, by simp; omega, fun t ht => ?_, ?_⟩
      · rw [hd, htk t (by omega)]; exact h1 t ht
      · rw [hd, htk j (by omega)]; exact h2
  · unfold really
    simp only [Bool.false_or]
    by_cases h : (c.all fun x => decide (some x = c.head?)) = true
    · rw [if_pos h]
      simp only [List.all_eq_true, decide_eq_true_eq] at h
      simp only [true_iff]
      exact Or.inl h
    · rw [if_neg h]
      simp only [List.all_eq_true, decide_eq_true_eq] at h
      simp only [decide_eq_true_eq, h, false_or]

/-! ### How often -/

theorem once_nodup (fs : List Row) (lo hi : Nat) : (outCalls (tree m calls fs lo hi) m.b.factorial true).Nodup := by
  have : outCalls (tree m calls fs lo hi) m.b.factorial true =
      ((tree m calls fs lo hi).visit (m.b.factorial + 1) [] 0).map Prod.fst := by
    unfold outCalls emitCalls
    simp only [if_true]
    rw [List.map_eq_flatMap]
  rw [this]; exact Tree.visit_nodup _ _ _

theorem once_core (G : Given m calls) {flags : Nat} {fs : List Row} (hT : IsTable m flags fs) (h3 : flags.testBit 3 = false)
    {lo hi : Nat} (ign : Bool) {c : List Nat} (hc : InRange calls lo hi c)
    (hr : TrueRound m.b ((touchChanges m.ch (ends m calls) c).map Change.swaps)) :
    (if ign then ∃ i, c.rotate i ∈ outCalls (tree m calls fs lo hi) m.b.factorial ign
      else ∀ i, c.rotate i ∈ outCalls (tree m calls fs lo hi) m.b.factorial ign) ∧
    ((if ign then ∃! d, d ∈ outCalls (tree m calls fs lo hi) m.b.factorial ign ∧ ∃ i, d = c.rotate i
      else ∀ i, (outCalls (tree m calls fs lo hi) m.b.factorial ign).count (c.rotate i) = 1) ↔
      ∀ i, Passes (c.rotate i) → LeastRotation (c.rotate i)) := by
  obtain ⟨r1, r2⟩ := (trueRound_iff G (hc.dom' G.ne)).1 hr
  simp only [← acc_iff, ← least_iff]
  obtain ⟨k0, hk0, p0, hE0, hall0⟩ := complete G hT h3 hc.ne (hc.dom' G.ne) hc.lo hc.hi r1 r2
  cases ign with
  | false =>
    simp only [Bool.false_eq_true, if_false]
    refine ⟨fun i => (mem_outCalls G hT h3).2 ⟨_, _, hE0, hall0 i⟩, ?_⟩
    exact count_iff G hT h3 hc.ne (hc.dom' G.ne) hc.lo hc.hi r1 r2
  | true =>
    simp only [if_true]
    refine ⟨⟨k0, (mem_outCalls G hT h3).2 ⟨_, _, hE0, by simp [emitCalls]⟩⟩, ?_⟩
    have hmem : ∀ i, c.rotate i ∈ outCalls (tree m calls fs lo hi) m.b.factorial true ↔ Acc (c.rotate i) := by
      intro i
      have hpos := List.length_pos_of_ne_nil hc.ne
      have hd := distinct_rotate G r1 r2 (le_of_lt (Nat.mod_lt i hpos))
      rw [List.rotate_mod] at hd
      rw [← emit_iff G hT h3 (hc.rotate i).ne ((hc.rotate i).dom' G.ne) (hc.rotate i).lo (hc.rotate i).hi hd.1 hd.2,
        mem_outCalls G hT h3]
      constructor
      · rintro ⟨d, p, h1, h3⟩
        have : c.rotate i = d := by simpa [emitCalls] using h3
        exact ⟨p, this ▸ h1⟩
      · rintro ⟨p, h1⟩
        exact ⟨_, p, h1, by simp [emitCalls]⟩
    obtain ⟨k, hk, hL⟩ := exists_least c hc.ne
    constructor
    · rintro ⟨d, ⟨h1, j, rfl⟩, h3⟩ i hi
      have e1 := h3 _ ⟨(hmem i).2 hi, i, rfl⟩
      have e2 := h3 _ ⟨(hmem k).2 hL.acc, k, rfl⟩
      rw [e1, ← e2]; exact hL
    · intro h
      refine ⟨c.rotate k, ⟨(hmem k).2 hL.acc, k, rfl⟩, ?_⟩
      rintro d ⟨h1, j, rfl⟩
      have hj := h j ((hmem j).1 h1)
      have a1 : c.IsRotated (c.rotate k) := ⟨k, rfl⟩
      have a2 : c.IsRotated (c.rotate j) := ⟨j, rfl⟩
      obtain ⟨j', e⟩ := a1.symm.trans a2
      exact (least_unique hL hj e.symm).symm

/-- C40: what is output, for a search that is not halted, as a list of call sequences: with
`ignore_rotations` they are all different.  A true round touch `c` in the range and all its rotations are
output exactly once each (with `ignore_rotations`: exactly one of its rotations is output) if and only if
every rotation of it that passes the tests for canonical form is its least rotation. -/
theorem C40_once (G : Given m calls) (h2 : 2 ≤ m.ch.length) (lo hi : Nat) (ign : Bool) :
    ∃ N out css, (∀ fuel, N ≤ fuel → BasicSearch.runC m calls lo hi ign (fun _ => false) fuel = .ok out) ∧
      List.Forall₂ (fun t c => Plays t (touchChanges m.ch (ends m calls) c)) out css ∧
      (ign = true → css.Nodup) ∧
      ∀ c, InRange calls lo hi c → TrueRound m.b ((touchChanges m.ch (ends m calls) c).map Change.swaps) →
        (if ign then ∃ i, c.rotate i ∈ css else ∀ i, c.rotate i ∈ css) ∧
        ((if ign then ∃! d, d ∈ css ∧ ∃ i, d = c.rotate i else ∀ i, css.count (c.rotate i) = 1) ↔
          ∀ i, Passes (c.rotate i) → LeastRotation (c.rotate i)) := by
  obtain ⟨fs, hT, hrun⟩ := runC_calls G lo hi ign
  refine ⟨m.b.factorial + 1, (outCalls (tree m calls fs lo hi) m.b.factorial ign).map (touchOf m calls),
    outCalls (tree m calls fs lo hi) m.b.factorial ign,
    fun fuel hf => by rw [hrun _ fuel hf, feed_never, List.nil_append], ?_, ?_, fun c hc hr => ?_⟩
  · rw [List.forall₂_map_left_iff, List.forall₂_same]
    intro d hd
    exact Plays_touchOf h2 ((out_inRange G hT (flags_bits m calls).2.2 hd).dom' G.ne)
  · rintro rfl; exact once_nodup fs lo hi
  exact once_core G hT (flags_bits m calls).2.2 ign hc hr

/-- C40: the condition of `C40_once` holds for all touches of at most four leads, and for all touches made
of the same lead throughout. -/
theorem C40_short {c : List Nat} (h : c.length ≤ 4 ∨ ∀ x ∈ c, ∀ y ∈ c, x = y) :
    ∀ i, Passes (c.rotate i) → LeastRotation (c.rotate i) := by
  intro i hi
  rw [← acc_iff] at hi
  rw [← least_iff]
  have hl : (c.rotate i).length = c.length := by simp
  have hc : (c.rotate i).length ≤ 4 ∨ ∀ x ∈ c.rotate i, ∀ y ∈ c.rotate i, x = y := by
    rcases h with h | h
    · exact Or.inl (by rw [hl]; exact h)
    · exact Or.inr fun x hx y hy => h x (List.mem_rotate.1 hx) y (List.mem_rotate.1 hy)
  generalize c.rotate i = d at hi hc
  by_cases h0 : d = []
  · subst h0; simp [Least]
  obtain ⟨h1, h2⟩ := hi
  rcases hc with hc | hc
  · obtain ⟨p, hp⟩ := h1.cn'
    have hp := hp.pre
    refine hp.least ?_
    have hpp := hp.pos h0
    by_contra hne
    -- the last letter equals the one at `length % p - 1`
    have hlt := Nat.mod_lt d.length hpp
    have hdiv := Nat.div_add_mod d.length p
    have hdp : 1 ≤ d.length / p := Nat.div_pos hp.le hpp
    have hr1 : d.length % p = 1 := by
      by_contra h1'
      have : 3 ≤ p := by omega
      have : p * 1 ≤ p * (d.length / p) := Nat.mul_le_mul_left _ hdp
      omega
    have hlast : lt d (d.length - 1) = lt d 0 := by
      have := per_mul hp.per (d.length / p) 0 (by rw [Nat.mul_comm]; omega)
      rw [Nat.mul_comm] at this
      rw [show d.length - 1 = 0 + p * (d.length / p) by omega]; exact this
    unfold really at h2
    rw [Bool.false_or] at h2
    by_cases hall : (d.all fun x => decide (some x = d.head?)) = true
    · -- constant, so the period is 1
      simp only [List.all_eq_true, decide_eq_true_eq] at hall
      have hp1 : 1 < p := by
        by_contra hc'
        have : p = 1 := by omega
        subst this
        omega
      obtain ⟨j, hj1, hj2, hj3⟩ := hp.lyn 1 (by omega) hp1
      have hle := hp.le
      have a1 := hall d[j] (List.getElem_mem (by omega))
      have a2 := hall d[1 + j] (List.getElem_mem (by omega))
      rw [← a1] at a2
      rw [lt, lt, List.getD_eq_getElem _ _ (by omega), List.getD_eq_getElem _ _ (by omega)] at hj3
      simp at a2
      omega
    · rw [if_neg hall] at h2
      simp only [ne_eq, decide_eq_true_eq] at h2
      apply h2
      have hpos := List.length_pos_of_ne_nil h0
      rw [List.getLast?_eq_getElem?, List.head?_eq_getElem?, List.getElem?_eq_getElem (by omega), List.getElem?_eq_getElem hpos]
      rw [lt, lt, List.getD_eq_getElem _ _ (by omega), List.getD_eq_getElem _ _ hpos] at hlast
      rw [hlast]
  · intro k hk ⟨j, hj1, _, hj3⟩
    rw [List.length_rotate] at hj1
    rw [lt, lt, List.getD_eq_getElem _ _ (by simpa using hj1), List.getD_eq_getElem _ _ hj1] at hj3
    have := hc ((d.rotate k)[j]'(by simpa using hj1)) (List.mem_rotate.1 (List.getElem_mem _)) d[j] (List.getElem_mem _)
    omega

/-! ### The outputer -/

/-- C53: with any outputer, the touches given to it are the first of those given to one that never halts, up to
and including the first after which it says halt. -/
theorem C53_halting (G : Given m calls) (lo hi : Nat) (ign : Bool) (halt : Outputer) :
    ∃ N full out, (∀ fuel, N ≤ fuel → BasicSearch.runC m calls lo hi ign (fun _ => false) fuel = .ok full ∧
        BasicSearch.runC m calls lo hi ign halt fuel = .ok out) ∧
      ∃ k, k ≤ full.length ∧ out = full.take k ∧ (∀ j, 0 < j → j < k → halt (full.take j) = false) ∧
        (k < full.length → 0 < k ∧ halt out = true) := by
  obtain ⟨fs, hT, hrun⟩ := runC_calls G lo hi ign
  refine ⟨m.b.factorial + 1, (outCalls (tree m calls fs lo hi) m.b.factorial ign).map (touchOf m calls), _,
    fun fuel hf => ⟨by rw [hrun _ fuel hf, feed_never, List.nil_append], hrun halt fuel hf⟩, ?_⟩
  obtain ⟨k, k1, k2, k3, k4⟩ := feed_halt halt ((outCalls (tree m calls fs lo hi) m.b.factorial ign).map (touchOf m calls)) []
  simp only [List.nil_append] at k2 k3 k4
  exact ⟨k, k1, k2, k3, fun h => ⟨(k4 h).1, by rw [k2]; exact (k4 h).2⟩⟩

/-! ### Where the properties fail -/

/-- C38: for a method of one change the touches output cannot be iterated over: undefined behaviour. -/
theorem C38_one_change (G : Given m calls) (h1 : m.ch.length = 1) (lo hi : Nat) (ign : Bool) (halt : Outputer) :
    ∃ N out, (∀ fuel, N ≤ fuel → BasicSearch.runC m calls lo hi ign halt fuel = .ok out) ∧
      ∀ t ∈ out, ∀ fuel, 0 < fuel → t.collectC fuel = .ub := by
  obtain ⟨fs, hT, hrun⟩ := runC_calls G lo hi ign
  refine ⟨m.b.factorial + 1, _, fun fuel hf => hrun halt fuel hf, fun t ht' fuel hf => ?_⟩
  obtain ⟨k, e, -⟩ := feed_prefix halt ((outCalls (tree m calls fs lo hi) m.b.factorial ign).map (touchOf m calls)) []
  rw [e, List.nil_append] at ht'
  obtain ⟨d, hd, rfl⟩ := List.mem_map.1 (List.mem_of_mem_take ht')
  have hne := (out_inRange G hT (flags_bits m calls).2.2 hd).ne
  obtain ⟨f, rfl⟩ : ∃ f, fuel = f + 1 := ⟨fuel - 1, by omega⟩
  cases d with
  | nil => exact absurd rfl hne
  | cons x d =>
    have hdl : m.ch.dropLast = [] := List.eq_nil_of_length_eq_zero (by simp [h1])
    simp [Touch.collectC, touchOf, mkTouch, kids, TouchNode.collectC, TouchNode.begin, leadNode, TouchNode.atEnd,
      TouchNode.derefC, vget, hdl]

end

/-! ### Examples -/

/-- Plain Bob Minimus and its bob. -/
def bobMinimus : Method :=
  ⟨4, [⟨4, [0, 2]⟩, ⟨4, [1]⟩, ⟨4, [0, 2]⟩, ⟨4, [1]⟩, ⟨4, [0, 2]⟩, ⟨4, [1]⟩, ⟨4, [0, 2]⟩, ⟨4, [2]⟩]⟩

theorem given_bobMinimus : Given bobMinimus [⟨4, [1]⟩] :=
  ⟨⟨by decide, by decide⟩, by decide, by decide, by decide⟩

theorem trueLead_of {n : Nat} {css : List (List Nat)}
    (h : ∀ j, j < css.length → ∀ i, i < j → ∃ p, p < n ∧ follow (css.take i) p ≠ follow (css.take j) p) : TrueLead n css :=
  fun i j hij hj => h j hj i hij

/-- The hypotheses of C38 are met by Plain Bob Minimus with bobs. -/
example : TrueLead bobMinimus.b (bobMinimus.ch.map Change.swaps) ∧
    ∀ k, k ≤ [(⟨4, [1]⟩ : Change)].length →
      follow ((touchChanges bobMinimus.ch (ends bobMinimus [⟨4, [1]⟩]) [k]).map Change.swaps) 0 = 0 := by
  refine ⟨trueLead_of (by decide +kernel), ?_⟩
  intro k hk
  have : k = 0 ∨ k = 1 := by simp at hk; omega
  rcases this with rfl | rfl <;> decide +kernel

/-- Its plain course is a true round touch of three leads, which C39 says is output. -/
example : InRange [(⟨4, [1]⟩ : Change)] 0 10 [0, 0, 0] ∧ TrueRound 4 ((touchChanges bobMinimus.ch
    (ends bobMinimus [⟨4, [1]⟩]) [0, 0, 0]).map Change.swaps) :=
  ⟨⟨by decide, by decide, by decide, by decide⟩, by decide +kernel, trueLead_of (by decide +kernel)⟩

/-- A method on three bells whose plain lead head moves the treble, and a call. -/
def movesTreble : Method := ⟨3, [⟨3, [0]⟩, ⟨3, [1]⟩]⟩

/-- C38: if a lead head moves the treble, false touches may be output: the touch of two leads called with
the call `123`, whose rows are 123, 213, 213, 123. -/
theorem C38_needs_treble : Given movesTreble [⟨3, []⟩] ∧ TrueLead 3 (movesTreble.ch.map Change.swaps) ∧
    ∃ out, (∀ fuel, 7 ≤ fuel → BasicSearch.runC movesTreble [⟨3, []⟩] 2 2 true (fun _ => false) fuel = .ok out) ∧
      ∃ t ∈ out, Plays t (touchChanges movesTreble.ch (ends movesTreble [⟨3, []⟩]) [1, 1]) ∧
        ¬ TrueRound 3 ((touchChanges movesTreble.ch (ends movesTreble [⟨3, []⟩]) [1, 1]).map Change.swaps) := by
  have G : Given movesTreble [⟨3, []⟩] := ⟨⟨by decide, by decide⟩, by decide, by decide, by decide⟩
  refine ⟨G, trueLead_of (by decide +kernel), ?_⟩
  obtain ⟨fs, hT, hrun⟩ := runC_calls G 2 2 true
  have h7 : BasicSearch.runC movesTreble [⟨3, []⟩] 2 2 true (fun _ => false) 7 =
    .ok [touchOf movesTreble [⟨3, []⟩] [1, 1]] := by rfl
  refine ⟨[touchOf movesTreble [⟨3, []⟩] [1, 1]], fun fuel hf => ?_, _, List.mem_singleton.2 rfl, ?_, ?_⟩
  · rw [hrun (fun _ => false) fuel (by show 6 < fuel; omega), ← h7, hrun (fun _ => false) 7 (by decide)]
  · exact Plays_touchOf (by decide) (by unfold Dom; decide)
  · intro h
    obtain ⟨p, hp, h⟩ := h.2 1 2 (by decide) (by decide)
    revert h
    revert p
    decide +kernel

/-- C40: not every touch is output once.  On six bells, with leads of two changes, the touch
plain, bob, bob, plain, bob is true and round and keeps the treble in the lead; without `ignore_rotations`
some rotation of it is output at least twice, with it two rotations of it are output. -/
def sixBells : Method := ⟨6, [⟨6, [4]⟩, ⟨6, [1, 4]⟩]⟩

theorem C40_twice : Given sixBells [⟨6, [3]⟩] ∧ TrueLead 6 (sixBells.ch.map Change.swaps) ∧
    (∀ k, k ≤ 1 → follow ((touchChanges sixBells.ch (ends sixBells [⟨6, [3]⟩]) [k]).map Change.swaps) 0 = 0) ∧
    ∀ ign, ∃ N out css, (∀ fuel, N ≤ fuel → BasicSearch.runC sixBells [⟨6, [3]⟩] 5 5 ign (fun _ => false) fuel = .ok out) ∧
      List.Forall₂ (fun t c => Plays t (touchChanges sixBells.ch (ends sixBells [⟨6, [3]⟩]) c)) out css ∧
      if ign then ∃ i j, [0, 1, 1, 0, 1].rotate i ≠ [0, 1, 1, 0, 1].rotate j ∧ [0, 1, 1, 0, 1].rotate i ∈ css ∧
          [0, 1, 1, 0, 1].rotate j ∈ css
      else ∃ i, 2 ≤ css.count ([0, 1, 1, 0, 1].rotate i) := by
  have G : Given sixBells [⟨6, [3]⟩] := ⟨⟨by decide, by decide⟩, by decide, by decide, by decide⟩
  refine ⟨G, trueLead_of (by decide +kernel), ?_, fun ign => ?_⟩
  · intro k hk
    have : k = 0 ∨ k = 1 := by omega
    rcases this with rfl | rfl <;> decide +kernel
  obtain ⟨N, out, css, h1, h2, -, h3⟩ := C40_once G (by decide) 5 5 ign
  refine ⟨N, out, css, h1, h2, ?_⟩
  obtain ⟨h4, h5⟩ := h3 [0, 1, 1, 0, 1] ⟨by decide, by decide, by decide, by decide⟩
    ⟨by decide +kernel, trueLead_of (by decide +kernel)⟩
  have hnot : ¬ ∀ i, Passes ([0, 1, 1, 0, 1].rotate i) → LeastRotation ([0, 1, 1, 0, 1].rotate i) := by
    intro h
    have hp : Passes ([0, 1, 1, 0, 1].rotate 0) := by
      refine ⟨fun i => ?_, by decide⟩
      by_cases hi : i ≤ 5
      · revert hi; revert i; decide
      · rw [List.drop_eq_nil_of_le (by simp; omega), show ([0, 1, 1, 0, 1].rotate 0).length - i = 0 by simp; omega]
        simp
    exact h 0 hp 3 (by decide)
  have h6 := mt h5.1 hnot
  cases ign with
  | true =>
    simp only [if_true] at h4 h6 ⊢
    obtain ⟨i, hi⟩ := h4
    by_contra hc
    push Not at hc
    refine h6 ⟨_, ⟨hi, i, rfl⟩, ?_⟩
    rintro d ⟨hd, j, rfl⟩
    by_contra hne
    exact hc j i hne hd hi
  | false =>
    simp only [Bool.false_eq_true, if_false] at h4 h6 ⊢
    push Not at h6
    obtain ⟨i, hi⟩ := h6
    have := List.count_pos_iff.2 (h4 i)
    exact ⟨i, by omega⟩

end Search
end Ringing
