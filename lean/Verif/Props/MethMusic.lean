import Verif.Lemmas.MethMusic
import Verif.Props.Music

/-! C89: the music of methods found by methsearch. -/
namespace Ringing
namespace MethMusic
open Spec Row TableSearch

/-- C89: the rows of a course are those after each change of as many leads as it takes to come round. -/
theorem C89_course {m : Method} (hb : m.b ≤ 255) (hm : ∀ c ∈ m.ch, IsChange c.n c.swaps ∧ c.n = m.b) {start : Row} (hr : IsRow start)
    (hl : start.length = m.b) :
    ∃ N, ComesRound m.b (m.ch.map Change.swaps) N ∧ ∃ rs, (∀ fuel, N ≤ fuel → rowsC fuel m start .course = .ok rs) ∧
      rs.length = N * m.ch.length ∧ ∀ i (h : i < rs.length), After (List.replicate N m.ch).flatten start (i + 1) rs[i] := by
  have hw : m.WF := ⟨hb, hm⟩
  obtain ⟨N, hN⟩ := exists_comesRound hw
  refine ⟨N, hN, _, fun fuel hf => course_rows hw ((isRow_iff_valid _).1 hr) hl.ge hN hf, by simp, fun i h => ?_⟩
  rw [preP_get]
  exact after_applyAll (wf_flatten hw N) hl.ge _

/-- C89: the rows of a lead are those before each of its changes; so for the first half. -/
theorem C89_lead {m : Method} (hb : m.b ≤ 255) (hm : ∀ c ∈ m.ch, IsChange c.n c.swaps ∧ c.n = m.b) {start : Row} (hl : start.length = m.b)
    (fuel : Nat) :
    (∃ rs, rowsC fuel m start .lead = .ok rs ∧ rs.length = m.ch.length ∧ ∀ i (h : i < rs.length), After m.ch start i rs[i]) ∧
    (∃ rs, rowsC fuel m start .halfLead = .ok rs ∧ rs.length = m.ch.length / 2 ∧ ∀ i (h : i < rs.length), After m.ch start i rs[i]) := by
  have hw : m.WF := ⟨hb, hm⟩
  refine ⟨⟨postP m.ch start, ?_, by simp, fun i h => ?_⟩, ⟨postP (m.ch.take (m.ch.length / 2)) start, ?_, ?_, fun i h => ?_⟩⟩
  · rw [rowsC, postC_eq hw.wf]; rfl
  · rw [postP_get]; exact after_applyAll hw.2 hl.ge i
  · rw [rowsC, postC_eq fun c h => hw.wf c (List.mem_of_mem_take h)]; rfl
  · rw [length_postP, List.length_take]; omega
  · rw [postP_get, List.take_take]
    rw [length_postP, List.length_take] at h
    rw [show min i (m.ch.length / 2) = i by omega]
    exact after_applyAll hw.2 hl.ge i

/-- C89: the rows of the second half of a lead, given the row at the half lead, are those before each change of it. -/
theorem C89_second {m : Method} (hb : m.b ≤ 255) (hm : ∀ c ∈ m.ch, IsChange c.n c.swaps ∧ c.n = m.b) {lh start : Row} (hh : lh.length = m.b)
    (ha : After m.ch lh (m.ch.length / 2) start) (fuel : Nat) :
    ∃ rs, rowsC fuel m start .halfLead2 = .ok rs ∧ rs.length = m.ch.length - m.ch.length / 2 ∧
      ∀ i (h : i < rs.length), After m.ch lh (m.ch.length / 2 + i) rs[i] := by
  have hw : m.WF := ⟨hb, hm⟩
  rw [ha.eq hw.2 hh]
  refine ⟨postP (m.ch.drop (m.ch.length / 2)) (applyAll lh (m.ch.take (m.ch.length / 2))), ?_, ?_, fun i h => ?_⟩
  · rw [rowsC, postC_eq fun c h => hw.wf c (List.mem_of_mem_drop h)]; rfl
  · rw [length_postP, List.length_drop]
  · rw [postP_get, ← applyAll_append, ← List.take_add]
    exact after_applyAll hw.2 hh.ge _

/-- C89: with `rhalflead`, the row before the half-lead change given, the rows are those from there backwards to the lead head; with
`2rhalflead`, the row before the lead-end change given, as many as half the lead has changes from there backwards. -/
theorem C89_reverse {m : Method} (hb : m.b ≤ 255) (hm : ∀ c ∈ m.ch, IsChange c.n c.swaps ∧ c.n = m.b) {lh start : Row} (hr : IsRow lh)
    (hh : lh.length = m.b) (h0 : m.ch ≠ []) (fuel : Nat) :
    (After m.ch lh (m.ch.length - m.ch.length / 2 - 1) start → ∃ rs, rowsC fuel m start .halfLeadR = .ok rs ∧
      rs.length = m.ch.length - m.ch.length / 2 ∧ ∀ i (h : i < rs.length), After m.ch lh (m.ch.length - m.ch.length / 2 - 1 - i) rs[i]) ∧
    (After m.ch lh (m.ch.length - 1) start → ∃ rs, rowsC fuel m start .halfLead2R = .ok rs ∧
      rs.length = m.ch.length / 2 ∧ ∀ i (h : i < rs.length), After m.ch lh (m.ch.length - 1 - i) rs[i]) := by
  have hw : m.WF := ⟨hb, hm⟩
  have hL : 0 < m.ch.length := List.length_pos_iff.2 h0
  have hv := (isRow_iff_valid _).1 hr
  constructor
  · intro ha
    rw [ha.eq hw.2 hh]
    have hcs : ∀ c ∈ m.ch.take (m.ch.length - m.ch.length / 2 - 1), c.WF ∧ c.n = m.b := fun c hc => hw.2 c (List.mem_of_mem_take hc)
    have e := rev_rows hcs hh hv
    have erev : revC m.ch (m.ch.length / 2 + 1) m.ch.length = .ok (m.ch.take (m.ch.length - m.ch.length / 2 - 1)).reverse := by
      unfold revC
      rw [if_pos (by omega), List.take_of_length_le (by simp), List.drop_reverse, Nat.sub_add_eq]
    refine ⟨postP (m.ch.take (m.ch.length - m.ch.length / 2 - 1)).reverse (applyAll lh (m.ch.take (m.ch.length - m.ch.length / 2 - 1))) ++
      [applyAll (applyAll lh (m.ch.take (m.ch.length - m.ch.length / 2 - 1))) (m.ch.take (m.ch.length - m.ch.length / 2 - 1)).reverse],
      by rw [rowsC, erev, Out.ok_bind, postC_eq fun c hc => (hcs c (List.mem_reverse.1 hc)).1]; rfl, ?_, fun i h => ?_⟩
    · simp; omega
    · simp only [e, post_pre]
      simp only [List.length_append, length_postP, List.length_reverse, List.length_take, List.length_singleton] at h
      rw [List.getElem_reverse]
      have : ∀ k (hk : k < (lh :: preP (m.ch.take (m.ch.length - m.ch.length / 2 - 1)) lh).length), After m.ch lh k (lh :: preP (m.ch.take (m.ch.length - m.ch.length / 2 - 1)) lh)[k] := by
        intro k hk
        cases k with
        | zero => exact after_applyAll hw.2 hh.ge 0
        | succ k =>
          simp only [List.length_cons, length_preP, List.length_take] at hk
          rw [List.getElem_cons_succ, preP_get, List.take_take, show min (k + 1) (m.ch.length - m.ch.length / 2 - 1) = k + 1 by omega]
          exact after_applyAll hw.2 hh.ge _
      have h2 := this (m.ch.length - m.ch.length / 2 - 1 - i) (by simp; omega)
      convert h2 using 2
      simp; omega
  · intro ha
    rw [ha.eq hw.2 hh]
    obtain ⟨A, hA⟩ : ∃ A, A = m.ch.length - 1 - m.ch.length / 2 := ⟨_, rfl⟩
    obtain ⟨cs, hc⟩ : ∃ cs, cs = (m.ch.take (m.ch.length - 1)).drop A := ⟨_, rfl⟩
    have hcs : ∀ c ∈ cs, c.WF ∧ c.n = m.b := fun c h => hw.2 c (List.mem_of_mem_take (List.mem_of_mem_drop (hc ▸ h)))
    have e0 : applyAll lh (m.ch.take (m.ch.length - 1)) = applyAll (applyAll lh (m.ch.take A)) cs := by
      rw [← applyAll_append, hc, ← show (m.ch.take (m.ch.length - 1)).take A = m.ch.take A by rw [List.take_take]; congr 1; omega, List.take_append_drop]
    have hA1 : (applyAll lh (m.ch.take A)).length = m.b := applyAll_len (fun c h => hw.2 c (List.mem_of_mem_take h)) hh
    have e := rev_rows hcs hA1 (valid_applyAll (fun c h => hw.wf c (List.mem_of_mem_take h)) hv)
    rw [post_pre cs, List.reverse_cons] at e
    have e2 := (List.append_inj' e rfl).1
    have erev : revC m.ch 1 (m.ch.length / 2 + 1) = .ok cs.reverse := by
      unfold revC
      rw [if_pos (by omega), hc]
      congr 1
      apply List.ext_getElem
      · simp; omega
      · intro i h1 h2
        simp only [List.length_drop, List.length_take, List.length_reverse] at h1 h2
        simp only [List.getElem_drop, List.getElem_take, List.getElem_reverse, List.length_drop, List.length_take]
        congr 1
        omega
    refine ⟨postP cs.reverse (applyAll (applyAll lh (m.ch.take A)) cs), by rw [rowsC, erev, Out.ok_bind, e0, postC_eq fun c hc => (hcs c (List.mem_reverse.1 hc)).1]; rfl, ?_, fun i h => ?_⟩
    · rw [hc]; simp; omega
    · simp only [e2]
      rw [length_postP, List.length_reverse] at h
      have hlen : cs.length = m.ch.length / 2 := by rw [hc]; simp; omega
      rw [List.getElem_reverse, preP_get, ← applyAll_append, length_preP, hlen]
      have : m.ch.take A ++ cs.take (m.ch.length / 2 - 1 - i + 1) = m.ch.take (m.ch.length - 1 - i) := by
        rw [hc, List.take_drop, show A + (m.ch.length / 2 - 1 - i + 1) = m.ch.length - 1 - i by omega, List.take_take,
          show min (m.ch.length - 1 - i) (m.ch.length - 1) = m.ch.length - 1 - i by omega,
          ← show (m.ch.take (m.ch.length - 1 - i)).take A = m.ch.take A by rw [List.take_take]; congr 1; omega, List.take_append_drop]
      rw [this]
      exact after_applyAll hw.2 hh.ge _

/-- C89: the rows of a course are, in another order, those of its leads. -/
theorem C89_course_leads {m : Method} (hb : m.b ≤ 255) (hm : ∀ c ∈ m.ch, IsChange c.n c.swaps ∧ c.n = m.b) {start : Row} (hr : IsRow start)
    (hl : start.length = m.b) {N fuel : Nat} (hN : ComesRound m.b (m.ch.map Change.swaps) N) (hf : N ≤ fuel) :
    ∃ rs, rowsC fuel m start .course = .ok rs ∧ ∃ ls : List (List Row),
      List.Forall₂ (fun j l => ∃ x, After (List.replicate j m.ch).flatten start (j * m.ch.length) x ∧ rowsC fuel m x .lead = .ok l) (List.range N) ls ∧
      rs.Perm ls.flatten := by
  have hw : m.WF := ⟨hb, hm⟩
  have hv := (isRow_iff_valid _).1 hr
  refine ⟨_, course_rows hw hv hl.ge hN hf, (List.range N).map fun j => postP m.ch (applyAll start (List.replicate j m.ch).flatten), ?_, ?_⟩
  · rw [List.forall₂_map_right_iff, List.forall₂_same]
    intro j _
    refine ⟨_, ?_, by rw [rowsC, postC_eq hw.wf]; rfl⟩
    have := after_applyAll (wf_flatten hw j) hl.ge (j * m.ch.length)
    rwa [List.take_of_length_le (by simp)] at this
  · have e : ∀ n, ((List.range n).map fun j => postP m.ch (applyAll start (List.replicate j m.ch).flatten)).flatten =
        postP (List.replicate n m.ch).flatten start := by
      intro n
      induction n with
      | zero => rfl
      | succ n ih =>
        rw [List.range_succ, List.map_append, List.flatten_append, ih, List.replicate_succ', List.flatten_append, postP_append]
        simp
    rw [e]
    have h1 := post_pre (List.replicate N m.ch).flatten start
    rw [(round_iff hw hv hl.ge N).2 ((comesRound_iff hw N).1 hN.2.1)] at h1
    have h2 : (postP (List.replicate N m.ch).flatten start ++ [start]).Perm (start :: postP (List.replicate N m.ch).flatten start) := List.perm_append_singleton _ _
    rw [h1] at h2
    exact h2.cons_inv

/-- C89: backwards from the half lead or the lead end of a method without changes is undefined. -/
theorem C89_empty (fuel b : Nat) (start : Row) : rowsC fuel ⟨b, []⟩ start .halfLeadR = .ub ∧ rowsC fuel ⟨b, []⟩ start .halfLead2R = .ub := ⟨rfl, rfl⟩

/-! ### The score -/

/-- What is searched for in some of the rows: patterns, each with its scores at handstroke and backstroke. -/
structure Job where
  start : Row
  len : Len
  pats : List (List Tok × Int × Int)

/-- A block that does this. -/
structure Ready (b : Nat) (B : Block) (J : Job) : Prop where
  start : B.start = J.start
  len : B.len = J.len
  size : J.start.length = b
  reached : Reached b B.mus (J.pats.map (·.1))
  plain : ∀ p ∈ J.pats, PlainPat b p.1
  scores : B.mus.info.map (fun d => (d.scoreh, d.scoreb)) = J.pats.map (·.2)

/-- The matches of a pattern in the rows of one stroke, the first row being at handstroke. -/
def found (p : List Tok) (rs : List Row) (st : Bool) : Nat := tally (fun r => (readings (full p) r).length) st rs false

/-- The points for a pattern. -/
def points (rs : List Row) (p : List Tok × Int × Int) : Int := found p.1 rs false * p.2.1 + found p.1 rs true * p.2.2

/-- The points for the patterns of a block. -/
def jobPoints (rows : Job → List Row) (J : Job) : Int := (J.pats.map (points (rows J))).sum

theorem abs_sum_take (l : List Int) : ∀ i, |(l.take i).sum| ≤ (l.map (|·|)).sum := by
  induction l with
  | nil => intro i; simp
  | cons x l ih =>
    intro i
    cases i with
    | zero => simp only [List.take_zero, List.sum_nil, abs_zero]; exact List.sum_nonneg fun y hy => by obtain ⟨z, -, rfl⟩ := List.mem_map.1 hy; exact abs_nonneg z
    | succ i =>
      rw [List.take_succ_cons, List.sum_cons, List.map_cons, List.sum_cons]
      exact (abs_add_le _ _).trans (by have := ih i; omega)

theorem block_score {b : Nat} {B : Block} {J : Job} (h : Ready b B J) {rs : List Row} (hl : ∀ r ∈ rs, r.length = b)
    {g : Row → Nat → Nat} (hg : ∀ r i (h : i < r.length), g r i = r[i]) (h32 : ∀ p ∈ J.pats, ∀ st, found p.1 rs st < 2 ^ 32)
    (hs : ((J.pats.map (points rs)).map (|·|)).sum < 2 ^ 31) :
    ∃ mu, B.mus.processRowsC (fun r i => .ok (g r i)) rs false = .ok mu ∧ mu.getScoreC none = .ok (J.pats.map (points rs)).sum ∧
      Ready b { B with mus := mu } J := by
  obtain ⟨m', e, hR', hk⟩ := process_loop (ps := J.pats.map (·.1)) (fun p hp => by obtain ⟨q, hq, rfl⟩ := List.mem_map.1 hp; exact h.plain q hq) hg rs hl
    B.mus.reset false (.reset h.reached)
  have hlen0 : B.mus.info.length = J.pats.length := by rw [h.reached.inv.len, List.length_map]
  have hlen : m'.info.length = J.pats.length := by rw [hR'.inv.len, List.length_map]
  have key : ∀ k (h1 : k < m'.info.length) (h2 : k < J.pats.length), m'.info[k].counth = found J.pats[k].1 rs false ∧
      m'.info[k].countb = found J.pats[k].1 rs true ∧ m'.info[k].scoreh = J.pats[k].2.1 ∧ m'.info[k].scoreb = J.pats[k].2.2 := by
    intro k h1 h2
    have h3 : k < B.mus.info.length := by omega
    obtain ⟨d', d1, d2, d3, d4⟩ := hk k B.mus.info[k].clear J.pats[k].1 (by simp [Music.reset, h3]) (by simp [h2])
    rw [List.getElem?_eq_getElem h1] at d1
    injection d1 with d1
    have hsc := List.getElem_of_eq h.scores (i := k) (by simpa using h3)
    simp only [List.getElem_map] at hsc
    have ef := d2 false
    have et := d2 true
    simp only [MusicDetails.clear, MusicDetails.count, Nat.zero_add] at ef et d3 d4
    have hm := List.getElem_mem h2
    rw [d1]
    refine ⟨ef.trans (Nat.mod_eq_of_lt (h32 _ hm false)), et.trans (Nat.mod_eq_of_lt (h32 _ hm true)), ?_, ?_⟩
    · rw [d3, ← hsc]
    · rw [d4, ← hsc]
  have hmap : m'.info.map (worth · none) = J.pats.map (points rs) := by
    apply List.ext_getElem (by simp [hlen])
    intro k h1 h2
    rw [List.length_map] at h1 h2
    obtain ⟨k1, k2, k3, k4⟩ := key k h1 h2
    rw [List.getElem_map, List.getElem_map, worth, k1, k2, k3, k4]; rfl
  refine ⟨m', e, ?_, ⟨h.start, h.len, h.size, hR', h.plain, ?_⟩⟩
  · rw [← hmap]
    apply C42_score
    · intro d hd
      have hle : |worth d none| ≤ ((J.pats.map (points rs)).map (|·|)).sum := by
        rw [← hmap]
        exact List.single_le_sum (fun y hy => by obtain ⟨z, -, rfl⟩ := List.mem_map.1 hy; exact abs_nonneg z) _ (List.mem_map.2 ⟨_, List.mem_map.2 ⟨d, hd, rfl⟩, rfl⟩)
      have := abs_le.1 hle
      omega
    · intro i _
      have := abs_le.1 (abs_sum_take (m'.info.map (worth · none)) i)
      rw [hmap] at this
      rw [List.map_take, hmap]
      omega
  · apply List.ext_getElem (by simp [hlen])
    intro k h1 h2
    rw [List.length_map] at h1 h2
    obtain ⟨k1, k2, k3, k4⟩ := key k h1 h2
    simp only [List.getElem_map, k3, k4]

theorem analyse_go {m : Method} (hw : m.WF) {g : Row → Nat → Nat} (hg : ∀ r i (h : i < r.length), g r i = r[i]) {fuel : Nat} {rows : Job → List Row}
    {bl : List Block} {js : List Job} (hR : List.Forall₂ (Ready m.b) bl js) : (∀ J ∈ js, rowsC fuel m J.start J.len = .ok (rows J)) →
    (∀ J ∈ js, ∀ p ∈ J.pats, ∀ st, found p.1 (rows J) st < 2 ^ 32) → ∀ s : Int,
    |s| + ((js.flatMap fun J => J.pats.map (points (rows J))).map (|·|)).sum < 2 ^ 31 →
    ∃ bl', analyseC fuel m (fun r i => .ok (g r i)) bl s = .ok (bl', s + (js.map (jobPoints rows)).sum) ∧ List.Forall₂ (Ready m.b) bl' js := by
  induction hR with
  | nil => intro _ _ s _; exact ⟨[], by rw [analyseC]; simp, .nil⟩
  | @cons B J bl js hB hR ih =>
    intro hrows h32 s hs
    rw [List.flatMap_cons, List.map_append, List.sum_append] at hs
    have hnn : ∀ l : List Int, 0 ≤ (l.map (|·|)).sum := fun l => List.sum_nonneg fun y hy => by obtain ⟨z, -, rfl⟩ := List.mem_map.1 hy; exact abs_nonneg z
    have n1 := hnn (J.pats.map (points (rows J)))
    have n2 := hnn (js.flatMap fun J => J.pats.map (points (rows J)))
    have hrow := hrows J (by simp)
    have n3 := abs_nonneg s
    obtain ⟨mu, e1, e2, e3⟩ := block_score hB (rowsC_len hw hB.size hrow) hg (h32 J (by simp)) (by omega)
    have hj := abs_sum_take (J.pats.map (points (rows J))) (J.pats.map (points (rows J))).length
    rw [List.take_length] at hj
    have ht := abs_add_le s (J.pats.map (points (rows J))).sum
    obtain ⟨bl', e4, e5⟩ := ih (fun J hJ => hrows J (by simp [hJ])) (fun J hJ => h32 J (by simp [hJ])) (s + (J.pats.map (points (rows J))).sum) (by omega)
    refine ⟨{ B with mus := mu } :: bl', ?_, .cons e3 e5⟩
    have := abs_le.1 (show |s + (J.pats.map (points (rows J))).sum| ≤ 2 ^ 31 - 1 by omega)
    rw [analyseC, hB.start, hB.len, hrow, Out.ok_bind, e1, Out.ok_bind, e2, Out.ok_bind, if_pos (by omega), e4, Out.ok_bind, List.map_cons, List.sum_cons, jobPoints, add_assoc]

/-- C89: the score of a method is the sum, over the blocks and their patterns, of the matches in the rows of each stroke times the scores
of the strokes, if this fits into an `int`; what was analysed before makes no difference, as the blocks are ready for the next method. -/
theorem C89_score {m : Method} (hb : m.b ≤ 255) (hm : ∀ c ∈ m.ch, IsChange c.n c.swaps ∧ c.n = m.b) {g : Row → Nat → Nat}
    (hg : ∀ r i (h : i < r.length), g r i = r[i]) {fuel : Nat} {rows : Job → List Row} {bl : List Block} {js : List Job}
    (hR : List.Forall₂ (Ready m.b) bl js) (hrows : ∀ J ∈ js, rowsC fuel m J.start J.len = .ok (rows J))
    (h32 : ∀ J ∈ js, ∀ p ∈ J.pats, ∀ st, found p.1 (rows J) st < 2 ^ 32)
    (hs : ((js.flatMap fun J => J.pats.map (points (rows J))).map (|·|)).sum < 2 ^ 31) :
    ∃ bl', analyseC fuel m (fun r i => .ok (g r i)) bl 0 = .ok (bl', (js.map (jobPoints rows)).sum) ∧ List.Forall₂ (Ready m.b) bl' js := by
  obtain ⟨bl', h1, h2⟩ := analyse_go ⟨hb, hm⟩ hg hR hrows h32 0 (by simpa using hs)
  exact ⟨bl', by rw [h1, zero_add], h2⟩

/-- Plain hunt on four bells. -/
def plainHunt4 : Method := ⟨4, [⟨4, [0, 2]⟩, ⟨4, [1]⟩, ⟨4, [0, 2]⟩, ⟨4, [1]⟩, ⟨4, [0, 2]⟩, ⟨4, [1]⟩, ⟨4, [0, 2]⟩, ⟨4, [1]⟩]⟩

/-- Analysing for one pattern with a score for handstrokes only. -/
def handScore (len : Len) : Option Int :=
  match (MusicDetails.newC "123*".toList 1 0 >>= fun d => (Music.new 4).pushBackC d) >>= fun mu =>
    analyseC 2 plainHunt4 (fun r i => .ok (r.getD i 0)) [⟨[0, 1, 2, 3], len, mu⟩] 0 with
  | .ok x => some x.2
  | _ => none

/-- C89: the rows of a course start with the one after the first change, those of a lead with the lead head, but both are taken to start
at handstroke: in a course of one lead the rounds are at backstroke, in the lead at handstroke. -/
theorem C89_strokes : handScore .course = some 0 ∧ handScore .lead = some 1 := by decide +kernel

/-- A block with the pattern `123*`, which counts two at handstroke and one at backstroke, for the plain course on four bells. -/
example : ∃ mu, Ready 4 ⟨[0, 1, 2, 3], .course, mu⟩ ⟨[0, 1, 2, 3], .course, [([.bell 0, .bell 1, .bell 2, .star], 2, 1)]⟩ := by
  have hb : ∀ i, i < 33 → BellChar (Bell.toChar i) i := by
    intro i hi
    have : ∀ i : Fin 33, "1234567890ETABCDFGHJKLMNPQRSUVWYZ".toList[i.1]? = some (Bell.toChar i.1).toUpper := by decide
    exact Or.inl (this ⟨i, hi⟩)
  have hs : Spells [.bell 0, .bell 1, .bell 2, .star] "123*".toList :=
    .bell (hb 0 (by decide)) (.bell (hb 1 (by decide)) (.bell (hb 2 (by decide)) (.star .nil)))
  have hsc : (match MusicDetails.newC "123*".toList 2 1 >>= fun d => (Music.new 4).pushBackC d with
    | .ok mu => some (mu.info.map fun d => (d.scoreh, d.scoreb)) | _ => none) = some [((2 : Int), (1 : Int))] := by decide +kernel
  cases hd : MusicDetails.newC "123*".toList 2 1 with
  | ok d =>
    rw [hd, Out.ok_bind] at hsc
    cases hm : (Music.new 4).pushBackC d with
    | ok mu =>
      rw [hm] at hsc
      refine ⟨mu, rfl, rfl, rfl, .push .new hs hd hm, ?_, by injection hsc⟩
      intro p hp
      rw [List.mem_singleton] at hp
      subst hp
      refine Or.inr ⟨⟨[.bell 0, .bell 1, .bell 2], rfl⟩, fun z hz hst => ?_⟩
      simp only [List.suffix_cons_iff] at hz
      rcases hz with h | h | h | h | h
      · injection h with h _; cases h
      · injection h with h _; cases h
      · injection h with h _; cases h
      · injection h with _ h; subst h; simp at hst
      · simp at h
    | throw e => rw [hm] at hsc; cases hsc
    | ub => rw [hm] at hsc; cases hsc
    | timeout => rw [hm] at hsc; cases hsc
  | throw e => rw [hd] at hsc; cases hsc
  | ub => rw [hd] at hsc; cases hsc
  | timeout => rw [hd] at hsc; cases hsc

example : found [.bell 0, .bell 1, .bell 2, .star] [[0, 1, 3, 2], [0, 1, 2, 3]] true = 1 := by decide +kernel
example : (match rowsC 2 plainHunt4 [0, 1, 2, 3] .course with | .ok r => r.length | _ => 0) = 8 := by decide +kernel

/-- C89: of three changes, the first half has one row, the same half backwards two. -/
theorem C89_odd : (match rowsC 1 ⟨3, [⟨3, [0]⟩, ⟨3, [1]⟩, ⟨3, [0]⟩]⟩ [0, 1, 2] .halfLead with | .ok r => some r | _ => none) = some [[0, 1, 2]] ∧
    (match rowsC 1 ⟨3, [⟨3, [0]⟩, ⟨3, [1]⟩, ⟨3, [0]⟩]⟩ [1, 0, 2] .halfLeadR with | .ok r => some r | _ => none) = some [[1, 0, 2], [0, 1, 2]] := by decide +kernel

end MethMusic
end Ringing
