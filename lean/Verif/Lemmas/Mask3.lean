import Verif.Lemmas.Mask2

/-! The changes selected and merged at a position. -/
namespace Ringing
namespace Mask
open Spec Change MethodUtils

theorem wf_of {n : Nat} {c : Change} (hn : c.n = n) (h : IsChange n c.swaps) : c.WF := by subst hn; exact h

theorem count_eq {c : Change} (hc : c.WF) : c.countPlaces = ((List.range c.n).filter fun p => decide (moveTo c.swaps p = p)).length := by
  unfold countPlaces
  congr 1
  refine List.Perm.eq_of_pairwise (le := (· < ·)) (fun x y _ _ h1 h2 => by omega) (WF.sorted_places hc) (List.pairwise_lt_range.sublist List.filter_sublist) ?_
  rw [List.perm_ext_iff_of_nodup ((WF.sorted_places hc).imp (fun h => by omega)) (List.nodup_range.sublist List.filter_sublist)]
  intro p
  rw [WF.mem_places hc, List.mem_filter, List.mem_range, decide_eq_true_eq]

theorem count_all {c : Change} (hc : c.WF) : c.countPlaces = c.n ↔ c.swaps = [] := by
  rw [count_eq hc]
  constructor
  · intro h
    have h1 := List.length_filter_eq_length_iff.1 (show _ = (List.range c.n).length by rw [h, List.length_range])
    cases hs : c.swaps with
    | nil => rfl
    | cons s l =>
      exfalso
      have h2 := hc.2.2 s (by rw [hs]; simp)
      have h3 := h1 s (by rw [List.mem_range]; omega)
      rw [decide_eq_true_eq, moveTo_eq_self, hs] at h3
      exact h3.1 (by simp)
  · intro h
    rw [h]; simp [moveTo]

theorem commonOk_iff {A : Args} (hch : ∀ d ∈ A.changes, d.n = A.bells ∧ IsChange A.bells d.swaps) {c : Change} (hn : c.n = A.bells) (hc : c.WF) :
    commonOk A c = true ↔ Common A c.swaps := by
  have hany : A.changes.any (Change.eq c) = true ↔ (⟨A.bells, c.swaps⟩ : Change) ∈ A.changes := by
    rw [List.any_eq_true]
    have : c = ⟨A.bells, c.swaps⟩ := by rw [← hn]
    rw [← this]
    constructor
    · rintro ⟨d, h1, h2⟩
      rw [(eq_iff ⟨hc, hn⟩ ⟨wf_of (hch d h1).1 (hch d h1).2, (hch d h1).1⟩).1 h2]; exact h1
    · intro h; exact ⟨c, h, (eq_iff ⟨hc, hn⟩ ⟨hc, hn⟩).2 rfl⟩
  have hm : Change.eq c c.reverse = true ↔ ∀ s ∈ c.swaps, A.bells - 2 - s ∈ c.swaps := by
    rw [eq_iff (n := A.bells) ⟨hc, hn⟩ ⟨WF.reverse hc, hn⟩]
    constructor
    · intro h s hs
      rw [h, WF.mem_reverse hc, hn] at hs
      exact hs.2
    · intro h
      have : c.swaps = c.reverse.swaps := by
        apply gap_ext hc.2.1 (WF.reverse hc).2.1
        intro s
        rw [WF.mem_reverse hc, hn]
        constructor
        · intro hs
          have := hc.2.2 s hs
          exact ⟨by omega, h s hs⟩
        · rintro ⟨h1, h2⟩
          have := h _ h2
          rwa [show A.bells - 2 - (A.bells - 2 - s) = s by omega] at this
      obtain ⟨n, ss⟩ := c
      simp only [Change.reverse] at this ⊢
      rw [← this]
  have hcons := C77_consec_places (c := c) hc A.maxConsec
  have hcnt := count_eq hc
  have hall := count_all hc
  rw [hn] at hcons hcnt hall
  unfold commonOk
  simp only [Bool.and_eq_true, Bool.not_eq_true', Bool.and_eq_false_iff, decide_eq_false_iff_not, bne_eq_false_iff_eq]
  have e1 : A.changes.isEmpty = true ↔ A.changes = [] := List.isEmpty_iff
  constructor
  · rintro ⟨⟨⟨⟨h1, h2⟩, h3⟩, h4⟩, h5⟩
    refine ⟨fun h hs => ?_, fun h => ?_, fun h => ?_, fun h => ?_, fun h => ?_⟩
    · rcases h1 with h1 | h1
      · rw [h] at h1; cases h1
      · exact h1 (hall.2 hs)
    · rcases h2 with h2 | h2
      · simp only [Bool.not_eq_false'] at h2; exact absurd (e1.1 h2) h
      · rw [h2, hany]
    · rcases h3 with h3 | h3
      · exact absurd h h3
      · rw [← hcnt]; omega
    · rcases h4 with h4 | h4
      · exact absurd h h4
      · rw [← hcons, h4]; simp
    · rcases h5 with h5 | h5
      · rw [h] at h5; cases h5
      · rw [Bool.not_eq_false'] at h5; exact hm.1 h5
  · rintro ⟨h1, h2, h3, h4, h5⟩
    refine ⟨⟨⟨⟨?_, ?_⟩, ?_⟩, ?_⟩, ?_⟩
    · cases h : A.trueTrivial with
      | false => exact .inl rfl
      | true => exact .inr fun hc => h1 h (hall.1 hc)
    · by_cases h : A.changes = []
      · left; rw [e1.2 h]; rfl
      · right
        have := h2 h
        rw [← hany] at this
        exact Bool.eq_iff_iff.2 this
    · by_cases h : A.maxPlaces = 0
      · exact .inl (not_not.2 h)
      · right; have := h3 h; rw [← hcnt] at this; omega
    · by_cases h : A.maxConsec = 0
      · exact .inl (not_not.2 h)
      · right; have := h4 h; rw [← hcons] at this; simpa using this
    · cases h : A.mirrorsym with
      | false => exact .inl rfl
      | true => right; rw [Bool.not_eq_false']; exact hm.2 (h5 h)

theorem changesC_mem {nw nh nt : Nat} (h : nh + nw ≤ nt) (ht : nt ≤ 255) (fuel : Nat) (hf : Nat.fib (nw + 1) < fuel) :
    ∃ l, changesC fuel nw nh nt = .ok l ∧ ∀ c, c ∈ l ↔ c.n = nt ∧ IsChange nt c.swaps ∧ ∀ s ∈ c.swaps, nh ≤ s ∧ s + 2 ≤ nh + nw := by
  refine ⟨_, changesC_eq h ht fuel hf, fun c => ?_⟩
  rw [List.mem_map]
  constructor
  · rintro ⟨L, hL, rfl⟩
    have := (mem_enum nh nw L).1 hL
    exact ⟨rfl, ⟨ht, this.1, fun s hs => by have := this.2 s hs; omega⟩, this.2⟩
  · rintro ⟨h1, h2, h3⟩
    exact ⟨c.swaps, (mem_enum nh nw _).2 ⟨h2.2.1, h3⟩, by rw [← h1]⟩

theorem fib_lt {a b fuel : Nat} (h : a ≤ b) (hf : Nat.fib (b + 1) < fuel) : Nat.fib (a + 1) < fuel :=
  Nat.lt_of_le_of_lt (Nat.fib_mono (by omega)) hf

/-- The conditions on the part above the treble. -/
def FreeAbove (A : Args) (i : Nat) (ss : List Nat) : Prop :=
  (A.rightPlace = true → i % 2 = A.bells % 2 → ∀ p, hi A i < p → ¬ IsPlace A.bells ss p) ∧
    (A.no78 = true → hi A i + 2 < A.bells → ¬ IsPlace A.bells ss (A.bells - 2))

def FreeBelow (A : Args) (i : Nat) (ss : List Nat) : Prop :=
  (A.rightPlace = true → i % 2 = 0 → ∀ p, p < lo A i → ¬ IsPlace A.bells ss p) ∧
    (A.skewsym = true ∨ A.doubsym = true ∨ A.mirrorsym = true → A.no78 = true → 1 < lo A i → ¬ IsPlace A.bells ss 1)

theorem selectAbove_mem {A : Args} (h : Std A) (hb : A.bells ≤ 255) {i : Nat} (hi' : i < A.leadLen) {fuel : Nat} (hf : Nat.fib (A.bells + 1) < fuel) :
    ∃ l, selectAboveC fuel A i = .ok l ∧
      ∀ a, a ∈ l ↔ a.n = A.bells ∧ IsChange A.bells a.swaps ∧ (∀ s ∈ a.swaps, hi A i < s) ∧ FreeAbove A i a.swaps := by
  obtain ⟨f1, f2, f3, f4, f5, f6⟩ := std_facts h hi'
  have e1 : (activeAbove A i).toNat = A.bells - 1 - hi A i := by omega
  obtain ⟨l, h1, h2⟩ := changesC_mem (nw := A.bells - 1 - hi A i) (nh := A.bells - (A.bells - 1 - hi A i)) (nt := A.bells) (by omega) hb fuel (fib_lt (by omega) hf)
  unfold selectAboveC
  rw [e1, h1, Out.ok_bind]
  refine ⟨_, rfl, fun a => ?_⟩
  rw [List.mem_filter, h2, and_assoc, and_assoc]
  refine and_congr_right fun hn => and_congr_right fun hc => ?_
  have hw := wf_of hn hc
  have e2 : (∀ s ∈ a.swaps, A.bells - (A.bells - 1 - hi A i) ≤ s ∧ s + 2 ≤ A.bells - (A.bells - 1 - hi A i) + (A.bells - 1 - hi A i)) ↔ ∀ s ∈ a.swaps, hi A i < s := by
    constructor
    · intro hs s hm; have := hs s hm; omega
    · intro hs s hm; have := hs s hm; have := hc.2.2 s hm; omega
  rw [e2]
  refine and_congr_right fun hs => ?_
  have hp := places_above hw (hi := hi A i) (by omega) hs
  have hq := WF.findplace_eq hw (A.bells - 2)
  unfold aboveOk FreeAbove
  rw [f6]
  rw [hn] at hp
  simp only [Bool.and_eq_true, Bool.not_eq_true', Bool.and_eq_false_iff, decide_eq_false_iff_not]
  have e3 : (A.bells : Int) - a.countPlaces = ((A.bells - 1 - hi A i : Nat) : Int) ↔ a.countPlaces = hi A i + 1 := by
    have : a.countPlaces ≤ A.bells := by
      rw [count_eq hw, hn]
      exact (List.length_filter_le _ _).trans (by rw [List.length_range])
    omega
  constructor
  · rintro ⟨g1, g2⟩
    refine ⟨fun k1 k2 => ?_, fun k1 k2 k3 => ?_⟩
    · rcases g1 with (g1 | g1) | g1
      · rw [k1] at g1; cases g1
      · exact absurd k2 g1
      · rw [not_not] at g1
        exact hp.1 (e3.1 g1)
    · rcases g2 with (g2 | g2) | g2
      · rw [k1] at g2; cases g2
      · omega
      · rw [(hq).2 k3.2] at g2; cases g2
  · rintro ⟨g1, g2⟩
    constructor
    · cases k1 : A.rightPlace with
      | false => exact .inl (.inl rfl)
      | true =>
        by_cases k2 : i % 2 = A.bells % 2
        · right; rw [not_not]; exact e3.2 (hp.2 (g1 k1 k2))
        · exact .inl (.inr k2)
    · cases k1 : A.no78 with
      | false => exact .inl (.inl rfl)
      | true =>
        by_cases k2 : hi A i + 2 < A.bells
        · right
          have := g2 k1 k2
          cases k3 : a.findplace (A.bells - 2) with
          | false => rfl
          | true => exact absurd ⟨by omega, hq.1 k3⟩ this
        · left; right; omega

theorem selectBelow_mem {A : Args} (h : Std A) (hb : A.bells ≤ 255) {i : Nat} (hi' : i < A.leadLen) {fuel : Nat} (hf : Nat.fib (A.bells + 1) < fuel) :
    ∃ l, selectBelowC fuel A i = .ok l ∧
      ∀ a, a ∈ l ↔ a.n = A.bells ∧ IsChange A.bells a.swaps ∧ (∀ s ∈ a.swaps, s + 2 ≤ lo A i) ∧ FreeBelow A i a.swaps := by
  obtain ⟨f1, f2, f3, f4, f5, f6⟩ := std_facts h hi'
  have e1 : (activeBelow A i).toNat = lo A i := by omega
  obtain ⟨l, h1, h2⟩ := changesC_mem (nw := lo A i) (nh := 0) (nt := A.bells) (by omega) hb fuel (fib_lt (by omega) hf)
  unfold selectBelowC
  rw [e1, h1, Out.ok_bind]
  refine ⟨_, rfl, fun a => ?_⟩
  rw [List.mem_filter, h2, and_assoc, and_assoc]
  refine and_congr_right fun hn => and_congr_right fun hc => ?_
  have hw := wf_of hn hc
  have e2 : (∀ s ∈ a.swaps, 0 ≤ s ∧ s + 2 ≤ 0 + lo A i) ↔ ∀ s ∈ a.swaps, s + 2 ≤ lo A i := by
    simp
  rw [e2]
  refine and_congr_right fun hs => ?_
  have hp := places_below hw (lo := lo A i) (by omega) hs
  have hq := WF.findplace_eq hw 1
  unfold belowOk FreeBelow
  rw [f5]
  rw [hn] at hp
  simp only [Bool.and_eq_true, Bool.not_eq_true', Bool.and_eq_false_iff, decide_eq_false_iff_not, Bool.or_eq_false_iff]
  have e3 : (A.bells : Int) - a.countPlaces = (lo A i : Int) ↔ a.countPlaces = A.bells - lo A i := by
    have : a.countPlaces ≤ A.bells := by
      rw [count_eq hw, hn]
      exact (List.length_filter_le _ _).trans (by rw [List.length_range])
    omega
  constructor
  · rintro ⟨g1, g2⟩
    refine ⟨fun k1 k2 => ?_, fun k0 k1 k2 k3 => ?_⟩
    · rcases g1 with (g1 | g1) | g1
      · rw [k1] at g1; cases g1
      · exact absurd k2 g1
      · rw [not_not] at g1
        exact hp.1 (e3.1 g1)
    · rcases g2 with ((g2 | g2) | g2) | g2
      · rcases k0 with k0 | k0 | k0
        · rw [k0] at g2; cases g2.1.1
        · rw [k0] at g2; cases g2.1.2
        · rw [k0] at g2; cases g2.2
      · rw [k1] at g2; cases g2
      · omega
      · rw [(hq).2 k3.2] at g2; cases g2
  · rintro ⟨g1, g2⟩
    constructor
    · cases k1 : A.rightPlace with
      | false => exact .inl (.inl rfl)
      | true =>
        by_cases k2 : i % 2 = 0
        · right; rw [not_not]; exact e3.2 (hp.2 (g1 k1 k2))
        · exact .inl (.inr k2)
    · by_cases k0 : A.skewsym = true ∨ A.doubsym = true ∨ A.mirrorsym = true
      · cases k1 : A.no78 with
        | false => exact .inl (.inl (.inr rfl))
        | true =>
          by_cases k2 : 1 < lo A i
          · right
            have := g2 k0 k1 k2
            cases k3 : a.findplace 1 with
            | false => rfl
            | true => exact absurd ⟨by omega, hq.1 k3⟩ this
          · left; right; omega
      · left; left; left
        push Not at k0
        simp only [ne_eq, Bool.not_eq_true] at k0
        exact ⟨⟨k0.1, k0.2.1⟩, k0.2.2⟩

/-- What is asked of the changes to be merged. -/
def OkAbove (A : Args) (i : Nat) (a : Change) : Prop := a.n = A.bells ∧ a.WF ∧ FitsAbove a.swaps (lo A i) (hi A i)
def OkBelow (A : Args) (i : Nat) (b : Change) : Prop := b.n = A.bells ∧ b.WF ∧ FitsBelow b.swaps (lo A i) (hi A i)

theorem mergeInner_mem {A : Args} (h : Std A) {i : Nat} (hi' : i < A.leadLen) {a : Change} (ha : OkAbove A i a) :
    ∀ {below : List Change}, (∀ b ∈ below, OkBelow A i b) → ∃ l, mergeInnerC A i a below = .ok l ∧
      ∀ c, c ∈ l ↔ commonOk A c = true ∧ ∃ b ∈ below, c = ⟨A.bells, merged a.swaps b.swaps (lo A i) (hi A i)⟩ := by
  intro below
  induction below with
  | nil => intro _; exact ⟨[], rfl, by simp⟩
  | cons b bs ih =>
    intro hb
    obtain ⟨l, h1, h2⟩ := ih (fun c hc => hb c (by simp [hc]))
    have hb' := hb b (by simp)
    rw [mergeInnerC, merge2C_std h hi' ha.2.1 hb'.2.1 ha.1 hb'.1 ha.2.2 hb'.2.2, Out.ok_bind, h1, Out.ok_bind]
    refine ⟨_, rfl, fun c => ?_⟩
    split_ifs with hc
    · rw [List.mem_cons, h2]
      constructor
      · rintro (rfl | ⟨k1, d, k2, k3⟩)
        · exact ⟨hc, b, by simp, rfl⟩
        · exact ⟨k1, d, by simp [k2], k3⟩
      · rintro ⟨k1, d, k2, k3⟩
        rw [List.mem_cons] at k2
        rcases k2 with rfl | k2
        · exact .inl k3
        · exact .inr ⟨k1, d, k2, k3⟩
    · rw [h2]
      constructor
      · rintro ⟨k1, d, k2, k3⟩
        exact ⟨k1, d, by simp [k2], k3⟩
      · rintro ⟨k1, d, k2, k3⟩
        rw [List.mem_cons] at k2
        rcases k2 with rfl | k2
        · rw [k3] at k1; exact absurd k1 hc
        · exact ⟨k1, d, k2, k3⟩

theorem merge_mem {A : Args} (h : Std A) {i : Nat} (hi' : i < A.leadLen) {below : List Change} (hb : ∀ b ∈ below, OkBelow A i b) :
    ∀ {above : List Change}, (∀ a ∈ above, OkAbove A i a) → ∃ l, mergeC A i above below = .ok l ∧
      ∀ c, c ∈ l ↔ commonOk A c = true ∧ ∃ a ∈ above, ∃ b ∈ below, c = ⟨A.bells, merged a.swaps b.swaps (lo A i) (hi A i)⟩ := by
  intro above
  induction above with
  | nil => intro _; exact ⟨[], rfl, by simp⟩
  | cons a as ih =>
    intro ha
    obtain ⟨l, h1, h2⟩ := ih (fun c hc => ha c (by simp [hc]))
    obtain ⟨l', h3, h4⟩ := mergeInner_mem h hi' (ha a (by simp)) hb
    rw [mergeC, h3, Out.ok_bind, h1, Out.ok_bind]
    refine ⟨_, rfl, fun c => ?_⟩
    rw [List.mem_append, h2, h4]
    constructor
    · rintro (⟨k1, k2⟩ | ⟨k1, d, k2, k3⟩)
      · exact ⟨k1, a, by simp, k2⟩
      · exact ⟨k1, d, by simp [k2], k3⟩
    · rintro ⟨k1, d, k2, k3⟩
      rw [List.mem_cons] at k2
      rcases k2 with rfl | k2
      · exact .inl ⟨k1, k3⟩
      · exact .inr ⟨k1, d, k2, k3⟩

/-- A mask change or, without any, a selected one. -/
theorem above_list {A : Args} (h : Std A) (hb : A.bells ≤ 255) {i : Nat} (hi' : i < A.leadLen) {fuel : Nat} (hf : Nat.fib (A.bells + 1) < fuel)
    {above : List Change} (hr : ∀ a ∈ above, Right A i a) :
    ∃ l, (if above = [] then selectAboveC fuel A i else .ok above) = .ok l ∧ (∀ a ∈ l, OkAbove A i a) ∧
      ∀ ss, IsChange A.bells ss → Moves A i ss →
        (Above A above i ss ↔ ∃ a ∈ l, ∀ p, hi A i < p → moveTo ss p = moveTo a.swaps p) := by
  obtain ⟨f1, f2, f3, f4, f5, f6⟩ := std_facts h hi'
  by_cases he : above = []
  · obtain ⟨l, h1, h2⟩ := selectAbove_mem h hb hi' hf
    refine ⟨l, by rw [if_pos he, h1], fun a ha => ?_, fun ss hs hm => ?_⟩
    · obtain ⟨k1, k2, k3, -⟩ := (h2 a).1 ha
      refine ⟨k1, wf_of k1 k2, fun hc => ?_, fun _ h0 hc => ?_⟩
      · have := k3 _ hc; omega
      · have := k3 _ hc; omega
    · unfold Above
      rw [if_pos he]
      have hm' := ((moves_iff h hi' hs.2.1).1 hm).2.1.1
      constructor
      · intro hfree
        refine ⟨⟨A.bells, ss.filter fun s => decide (hi A i < s)⟩, ?_, ?_⟩
        · have hag : ∀ p, hi A i < p → moveTo ss p = moveTo (ss.filter fun s => decide (hi A i < s)) p := by
            refine (agree_above hm' ?_).2 fun s hs => ?_
            · rw [List.mem_filter, decide_eq_true_eq]; omega
            · rw [List.mem_filter, decide_eq_true_eq]; simp [hs]
          rw [h2]
          refine ⟨rfl, ⟨hb, List.Pairwise.sublist List.filter_sublist hs.2.1, fun s hm => hs.2.2 s (List.mem_filter.1 hm).1⟩, fun s hm => ?_, ?_⟩
          · have := (List.mem_filter.1 hm).2
            rwa [decide_eq_true_eq] at this
          · refine ⟨fun k1 k2 p hp hpl => ?_, fun k1 k2 hpl => ?_⟩
            · exact hfree.1 k1 k2 p hp ⟨hpl.1, by rw [hag p hp]; exact hpl.2⟩
            · exact hfree.2 k1 k2 ⟨hpl.1, by rw [hag _ (by omega)]; exact hpl.2⟩
        · refine (agree_above hm' ?_).2 fun s hs => ?_
          · rw [List.mem_filter, decide_eq_true_eq]; omega
          · rw [List.mem_filter, decide_eq_true_eq]; simp [hs]
      · rintro ⟨a, ha, hag⟩
        obtain ⟨-, -, -, k4, k5⟩ := (h2 a).1 ha
        refine ⟨fun k1 k2 p hp hpl => ?_, fun k1 k2 hpl => ?_⟩
        · exact k4 k1 k2 p hp ⟨hpl.1, by rw [← hag p hp]; exact hpl.2⟩
        · exact k5 k1 k2 ⟨hpl.1, by rw [← hag _ (by omega)]; exact hpl.2⟩
  · refine ⟨above, by rw [if_neg he], fun a ha => ?_, fun ss hs hm => ?_⟩
    · obtain ⟨k1, k2, k3⟩ := hr a ha
      exact ⟨k1, wf_of k1 k2, ((moves_iff h hi' k2.2.1).1 k3).2.1⟩
    · unfold Above
      rw [if_neg he]

theorem below_list {A : Args} (h : Std A) (hb : A.bells ≤ 255) {i : Nat} (hi' : i < A.leadLen) {fuel : Nat} (hf : Nat.fib (A.bells + 1) < fuel)
    {below : List Change} (hr : ∀ a ∈ below, Right A i a) :
    ∃ l, (if below = [] then selectBelowC fuel A i else .ok below) = .ok l ∧ (∀ a ∈ l, OkBelow A i a) ∧
      ∀ ss, IsChange A.bells ss → Moves A i ss →
        (Below A below i ss ↔ ∃ a ∈ l, ∀ p, p < lo A i → moveTo ss p = moveTo a.swaps p) := by
  obtain ⟨f1, f2, f3, f4, f5, f6⟩ := std_facts h hi'
  by_cases he : below = []
  · obtain ⟨l, h1, h2⟩ := selectBelow_mem h hb hi' hf
    refine ⟨l, by rw [if_pos he, h1], fun a ha => ?_, fun ss hs hm => ?_⟩
    · obtain ⟨k1, k2, k3, -⟩ := (h2 a).1 ha
      refine ⟨k1, wf_of k1 k2, fun h0 hc => ?_, fun _ hc => ?_⟩
      · have := k3 _ hc; omega
      · have := k3 _ hc; omega
    · unfold Below
      rw [if_pos he]
      have hm' := ((moves_iff h hi' hs.2.1).1 hm).2.2.1
      have hag : ∀ p, p < lo A i → moveTo ss p = moveTo (ss.filter fun s => decide (s + 1 < lo A i)) p := by
        refine (agree_below hm' ?_).2 fun s hs => ?_
        · intro _; rw [List.mem_filter, decide_eq_true_eq]; omega
        · rw [List.mem_filter, decide_eq_true_eq]; simp [hs]
      constructor
      · intro hfree
        refine ⟨⟨A.bells, ss.filter fun s => decide (s + 1 < lo A i)⟩, ?_, hag⟩
        rw [h2]
        refine ⟨rfl, ⟨hb, List.Pairwise.sublist List.filter_sublist hs.2.1, fun s hm => hs.2.2 s (List.mem_filter.1 hm).1⟩, fun s hm => ?_, ?_⟩
        · have := (List.mem_filter.1 hm).2
          rw [decide_eq_true_eq] at this; omega
        · refine ⟨fun k1 k2 p hp hpl => ?_, fun k0 k1 k2 hpl => ?_⟩
          · exact hfree.1 k1 k2 p hp ⟨hpl.1, by rw [hag p hp]; exact hpl.2⟩
          · exact hfree.2 k0 k1 k2 ⟨hpl.1, by rw [hag _ (by omega)]; exact hpl.2⟩
      · rintro ⟨a, ha, hag⟩
        obtain ⟨-, -, -, k4, k5⟩ := (h2 a).1 ha
        refine ⟨fun k1 k2 p hp hpl => ?_, fun k0 k1 k2 hpl => ?_⟩
        · exact k4 k1 k2 p hp ⟨hpl.1, by rw [← hag p hp]; exact hpl.2⟩
        · exact k5 k0 k1 k2 ⟨hpl.1, by rw [← hag _ (by omega)]; exact hpl.2⟩
  · refine ⟨below, by rw [if_neg he], fun a ha => ?_, fun ss hs hm => ?_⟩
    · obtain ⟨k1, k2, k3⟩ := hr a ha
      exact ⟨k1, wf_of k1 k2, ((moves_iff h hi' k2.2.1).1 k3).2.2⟩
    · unfold Below
      rw [if_neg he]

/-- The changes before they are sorted. -/
theorem found_mem {A : Args} (h : Std A) (hb : A.bells ≤ 255) (hch : ∀ d ∈ A.changes, d.n = A.bells ∧ IsChange A.bells d.swaps)
    {i : Nat} (hi' : i < A.leadLen) {fuel : Nat} (hf : Nat.fib (A.bells + 1) < fuel) {above below : List Change}
    (ha : ∀ a ∈ above, Right A i a) (hbl : ∀ b ∈ below, Right A i b) :
    ∃ l, ((if above = [] then selectAboveC fuel A i else .ok above) >>= fun a =>
      (if below = [] then selectBelowC fuel A i else .ok below) >>= fun b => mergeC A i a b) = .ok l ∧
      ∀ c, c ∈ l ↔ Allowed A above below i c := by
  obtain ⟨la, a1, a2, a3⟩ := above_list h hb hi' hf ha
  obtain ⟨lb, b1, b2, b3⟩ := below_list h hb hi' hf hbl
  obtain ⟨l, m1, m2⟩ := merge_mem h hi' b2 a2
  obtain ⟨f1, f2, f3, f4, f5, f6⟩ := std_facts h hi'
  refine ⟨l, by rw [a1, Out.ok_bind, b1, Out.ok_bind, m1], fun c => ?_⟩
  rw [m2]
  constructor
  · rintro ⟨hc, a, ha, b, hb', rfl⟩
    have ga := a2 a ha
    have gb := b2 b hb'
    have hg := gap_merged (lo := lo A i) (hi := hi A i) ga.2.1.2.1 gb.2.1.2.1 f1
    obtain ⟨k1, k2, k3⟩ := (merged_iff h hi' ga.2.1.2.1 gb.2.1.2.1 ga.2.2 gb.2.2 hg).1 rfl
    have hch' : IsChange A.bells (merged a.swaps b.swaps (lo A i) (hi A i)) := by
      refine ⟨hb, hg, fun s hs => ?_⟩
      rw [mem_merged] at hs
      rcases hs with hs | hs | hs
      · omega
      · omega
      · have := ga.2.1.2.2 s hs.1; rw [ga.1] at this; exact this
    exact ⟨rfl, hch', k1, (a3 _ hch' k1).2 ⟨a, ha, k2⟩, (b3 _ hch' k1).2 ⟨b, hb', k3⟩, (commonOk_iff (c := ⟨A.bells, merged a.swaps b.swaps (lo A i) (hi A i)⟩) hch rfl hch').1 hc⟩
  · rintro ⟨g1, g2, g3, g4, g5, g6⟩
    obtain ⟨a, ha, k2⟩ := (a3 _ g2 g3).1 g4
    obtain ⟨b, hb', k3⟩ := (b3 _ g2 g3).1 g5
    have ga := a2 a ha
    have gb := b2 b hb'
    refine ⟨(commonOk_iff hch g1 (wf_of g1 g2)).2 g6, a, ha, b, hb', ?_⟩
    rw [← (merged_iff h hi' ga.2.1.2.1 gb.2.1.2.1 ga.2.2 gb.2.2 g2.2.1).2 ⟨g3, k2, k3⟩, ← g1]

end Mask
end Ringing
