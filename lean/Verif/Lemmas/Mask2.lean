import Verif.Lemmas.Mask

/-! Merging the changes above and below the treble. -/
namespace Ringing
namespace Mask
open Spec Change MethodUtils

theorem swappairInt_new {n i : Nat} {L : List Nat} (hn : n ≤ 255) (hi : i + 2 ≤ n) (h : ∀ t ∈ L, t + 2 ≤ i) :
    swappairInt ⟨n, L⟩ (i : Int) = .ok ⟨n, L ++ [i]⟩ := by
  unfold swappairInt
  rw [show ((i : Int) % 256).toNat = i by omega]
  unfold swappairC
  rw [if_neg (by simp only; omega)]
  simp only
  rw [swappair_new h]
  rfl

theorem findswapInt_eq {x : Change} (hx : x.WF) {i : Nat} (hi : i < 256) : Method.findswapInt x (i : Int) = true ↔ i ∈ x.swaps := by
  unfold Method.findswapInt
  rw [show ((i : Int) % 256).toNat = i by omega, WF.findswap_eq hx]

theorem filter_step_mem {l : List Nat} (hl : Gap l) {i hi : Nat} (h1 : i < hi) (hm : i ∈ l) :
    l.filter (fun s => decide (i ≤ s ∧ s < hi)) = i :: l.filter (fun s => decide (i + 2 ≤ s ∧ s < hi)) := by
  apply gap_ext (List.Pairwise.sublist List.filter_sublist hl)
  · refine List.pairwise_cons.2 ⟨fun s hs => ?_, List.Pairwise.sublist List.filter_sublist hl⟩
    simp only [List.mem_filter, decide_eq_true_eq] at hs
    exact hs.2.1
  · intro s
    simp only [List.mem_cons, List.mem_filter, decide_eq_true_eq]
    constructor
    · rintro ⟨a, b, c⟩
      by_cases hs : s = i
      · exact .inl hs
      · right
        refine ⟨a, ?_, c⟩
        by_contra hc
        have hs1 : s = i + 1 := by omega
        subst hs1
        have : (i : Nat) + 2 ≤ i + 1 := by
          rcases List.pairwise_iff_getElem.1 hl with hp
          obtain ⟨p, hp1, hp2⟩ := List.getElem_of_mem hm
          obtain ⟨q, hq1, hq2⟩ := List.getElem_of_mem a
          rcases Nat.lt_trichotomy p q with h | h | h
          · have := hp p q hp1 hq1 h; omega
          · subst h; omega
          · have := hp q p hq1 hp1 h; omega
        omega
    · rintro (rfl | ⟨a, b, c⟩)
      · exact ⟨hm, Nat.le_refl _, h1⟩
      · exact ⟨a, by omega, c⟩

theorem filter_step_not {l : List Nat} {i hi : Nat} (hm : i ∉ l) :
    l.filter (fun s => decide (i ≤ s ∧ s < hi)) = l.filter (fun s => decide (i + 1 ≤ s ∧ s < hi)) := by
  apply List.filter_congr
  intro s hs
  rw [decide_eq_decide]
  constructor
  · rintro ⟨a, b⟩
    refine ⟨?_, b⟩
    rcases Nat.lt_or_eq_of_le a with h | h
    · omega
    · subst h; exact absurd hs hm
  · rintro ⟨a, b⟩; exact ⟨by omega, b⟩

theorem copyLoop_spec {x : Change} (hx : x.WF) {n hi : Nat} (hn : n ≤ 255) (hh : hi + 1 ≤ n) : ∀ {fuel i : Nat} {L : List Nat}, hi ≤ i + fuel →
    (∀ t ∈ L, ∀ s ∈ x.swaps, i ≤ s → s < hi → t + 2 ≤ s) →
    copyLoop x hi fuel i ⟨n, L⟩ = .ok ⟨n, L ++ x.swaps.filter (fun s => decide (i ≤ s ∧ s < hi))⟩ := by
  intro fuel
  induction fuel using Nat.strong_induction_on with
  | _ fuel ih =>
    intro i L hf hL
    have hend : hi ≤ i → x.swaps.filter (fun s => decide (i ≤ s ∧ s < hi)) = [] := by
      intro h
      rw [List.filter_eq_nil_iff]
      intro s _
      simp only [decide_eq_true_eq]; omega
    cases fuel with
    | zero => rw [copyLoop, hend (by omega), List.append_nil]
    | succ fuel =>
      rw [copyLoop]
      by_cases h : i < hi
      · rw [if_pos (by omega)]
        by_cases hm : i ∈ x.swaps
        · rw [if_pos ((findswapInt_eq hx (by omega)).2 hm), swappairInt_new hn (by omega) (fun t ht => hL t ht i hm (Nat.le_refl _) h), Out.ok_bind,
            filter_step_mem hx.2.1 h hm]
          have := ih fuel (by omega) (i := i + 2) (L := L ++ [i]) (by omega) (by
            intro t ht s hs h1 h2
            rw [List.mem_append, List.mem_singleton] at ht
            rcases ht with ht | rfl
            · exact hL t ht s hs (by omega) h2
            · omega)
          rw [show ((i : Int) + 2) = ((i + 2 : Nat) : Int) by omega, this]
          simp
        · rw [if_neg (fun hc => hm ((findswapInt_eq hx (by omega)).1 hc)), filter_step_not hm]
          have := ih fuel (by omega) (i := i + 1) (L := L) (by omega) (fun t ht s hs h1 h2 => hL t ht s hs (by omega) h2)
          rw [show ((i : Int) + 1) = ((i + 1 : Nat) : Int) by omega, this]
      · rw [if_neg (by omega), hend (by omega), List.append_nil]

/-- The swaps of the merged change. -/
def merged (a b : List Nat) (lo hi : Nat) : List Nat :=
  b.filter (fun s => decide (s + 1 < lo)) ++ (if lo < hi then [lo] else []) ++ a.filter (fun s => decide (hi < s))

/-- The change above does not move the treble to a third place. -/
def FitsAbove (a : List Nat) (lo hi : Nat) : Prop := hi ∉ a ∧ (lo = hi → 0 < hi → hi - 1 ∉ a)

def FitsBelow (b : List Nat) (lo hi : Nat) : Prop := (0 < lo → lo - 1 ∉ b) ∧ (lo = hi → lo ∉ b)

theorem mem_merged {a b : List Nat} {lo hi s : Nat} : s ∈ merged a b lo hi ↔
    s ∈ b ∧ s + 1 < lo ∨ lo < hi ∧ s = lo ∨ s ∈ a ∧ hi < s := by
  unfold merged
  rw [List.mem_append, List.mem_append, List.mem_filter, List.mem_filter, decide_eq_true_eq, decide_eq_true_eq]
  split_ifs with h
  · rw [List.mem_singleton]; simp only [h, true_and, or_assoc]
  · simp [h]

theorem gap_merged {a b : List Nat} (ha : Gap a) (hb : Gap b) {lo hi : Nat} (h : hi = lo ∨ hi = lo + 1) : Gap (merged a b lo hi) := by
  unfold merged Gap
  rw [List.pairwise_append, List.pairwise_append]
  refine ⟨⟨List.Pairwise.sublist List.filter_sublist hb, by split_ifs <;> simp, ?_⟩, List.Pairwise.sublist List.filter_sublist ha, ?_⟩
  · intro s hs t ht
    simp only [List.mem_filter, decide_eq_true_eq] at hs
    split_ifs at ht with h1
    · rw [List.mem_singleton] at ht; omega
    · cases ht
  · intro s hs t ht
    simp only [List.mem_filter, decide_eq_true_eq] at ht
    rw [List.mem_append, List.mem_filter, decide_eq_true_eq] at hs
    rcases hs with hs | hs
    · omega
    · split_ifs at hs with h1
      · rw [List.mem_singleton] at hs; omega
      · cases hs

theorem merge_filter {a b : Change} (ha : a.WF) (hb : b.WF) {lo hi x y : Nat} (hbn : b.n = a.n)
    (fa : FitsAbove a.swaps lo hi) (fb : FitsBelow b.swaps lo hi) (hh : hi < a.n)
    (h : hi = lo + 1 ∧ x = lo ∧ y = hi ∨ hi = lo ∧ (x = lo + 1 ∧ y = lo ∨ x = lo ∧ y + 1 = lo)) :
    b.swaps.filter (fun s => decide (0 ≤ s ∧ s < min x (a.n - 1))) ++ (if x < min y (a.n - 1) then [x] else []) ++
      a.swaps.filter (fun s => decide (y ≤ s ∧ s < a.n - 1)) = merged a.swaps b.swaps lo hi := by
  unfold merged
  have f1 : b.swaps.filter (fun s => decide (0 ≤ s ∧ s < min x (a.n - 1))) = b.swaps.filter (fun s => decide (s + 1 < lo)) := by
    apply List.filter_congr
    intro s hs
    rw [decide_eq_decide]
    have h1 := hb.2.2 s hs
    have h2 : lo = hi → s ≠ lo := fun hl he => fb.2 hl (he ▸ hs)
    have h3 : 0 < lo → s ≠ lo - 1 := fun hl he => fb.1 hl (he ▸ hs)
    omega
  have f2 : a.swaps.filter (fun s => decide (y ≤ s ∧ s < a.n - 1)) = a.swaps.filter (fun s => decide (hi < s)) := by
    apply List.filter_congr
    intro s hs
    rw [decide_eq_decide]
    have h1 := ha.2.2 s hs
    have h2 : s ≠ hi := fun he => fa.1 (he ▸ hs)
    have h3 : lo = hi → 0 < hi → s ≠ hi - 1 := fun hl h0 he => fa.2 hl h0 (he ▸ hs)
    omega
  rw [f1, f2]
  congr 2
  rcases h with ⟨h1, rfl, rfl⟩ | ⟨h1, ⟨rfl, rfl⟩ | ⟨rfl, h2⟩⟩
  · rw [if_pos (by omega), if_pos (by omega)]
  · rw [if_neg (by omega), if_neg (by omega)]
  · rw [if_neg (by omega), if_neg (by omega)]

theorem merge2C_spec {a b : Change} (ha : a.WF) (hb : b.WF) {lo hi x y : Nat} (hbn : b.n = a.n)
    (fa : FitsAbove a.swaps lo hi) (fb : FitsBelow b.swaps lo hi) (hh : hi < a.n)
    (h : hi = lo + 1 ∧ x = lo ∧ y = hi ∨ hi = lo ∧ (x = lo + 1 ∧ y = lo ∨ x = lo ∧ y + 1 = lo)) :
    merge2C a b ((x : Int), (y : Int)) = .ok ⟨a.n, merged a.swaps b.swaps lo hi⟩ := by
  have hn := ha.1
  have hm := merge_filter ha hb hbn fa fb hh h
  have g := gap_merged (lo := lo) (hi := hi) ha.2.1 hb.2.1 (by omega)
  rw [← hm] at g ⊢
  unfold Gap at g
  rw [List.pairwise_append, List.pairwise_append] at g
  obtain ⟨⟨-, -, g1⟩, -, g2⟩ := g
  unfold merge2C
  simp only
  rw [show (a.n : Int) - 1 = ((a.n - 1 : Nat) : Int) by omega, show min (x : Int) ((a.n - 1 : Nat) : Int) = ((min x (a.n - 1) : Nat) : Int) by omega,
    show min (y : Int) ((a.n - 1 : Nat) : Int) = ((min y (a.n - 1) : Nat) : Int) by omega, Int.toNat_natCast]
  have c1 := copyLoop_spec hb (n := a.n) (hi := min x (a.n - 1)) hn (by omega) (fuel := min x (a.n - 1)) (i := 0) (L := []) (by omega) (by simp)
  rw [Nat.cast_zero] at c1
  rw [c1, Out.ok_bind, List.nil_append]
  have c2 : huntLoop ((min y (a.n - 1) : Nat) : Int) ((((min y (a.n - 1) : Nat) : Int) - (x : Int)).toNat) x
      ⟨a.n, b.swaps.filter (fun s => decide (0 ≤ s ∧ s < min x (a.n - 1)))⟩ =
      .ok ⟨a.n, b.swaps.filter (fun s => decide (0 ≤ s ∧ s < min x (a.n - 1))) ++ (if x < min y (a.n - 1) then [x] else [])⟩ := by
    by_cases hx : x < min y (a.n - 1)
    · have : (((min y (a.n - 1) : Nat) : Int) - (x : Int)).toNat = 1 := by omega
      rw [this, huntLoop, if_pos (by omega), swappairInt_new hn (by omega) (fun t ht => g1 t ht x (by rw [if_pos hx]; simp)), Out.ok_bind, huntLoop, if_pos hx]
    · have : (((min y (a.n - 1) : Nat) : Int) - (x : Int)).toNat = 0 := by omega
      rw [this, huntLoop, if_neg hx, List.append_nil]
  rw [c2, Out.ok_bind]
  have c3 := copyLoop_spec ha (n := a.n) (hi := a.n - 1) hn (by omega) (fuel := (((a.n - 1 : Nat) : Int) - (y : Int)).toNat) (i := y)
    (L := b.swaps.filter (fun s => decide (0 ≤ s ∧ s < min x (a.n - 1))) ++ (if x < min y (a.n - 1) then [x] else [])) (by omega)
    (fun t ht s hs h1 h2 => g2 t ht s (by rw [List.mem_filter, decide_eq_true_eq]; exact ⟨hs, h1, h2⟩))
  rw [c3]

theorem merge2C_spec0 {a b : Change} (ha : a.WF) (hbn : b.n = a.n) (fa : FitsAbove a.swaps 0 0) (hh : 0 < a.n) :
    merge2C a b (0, -1) = .ok ⟨a.n, merged a.swaps b.swaps 0 0⟩ := by
  have hn := ha.1
  unfold merge2C
  simp only
  rw [show (a.n : Int) - 1 = ((a.n - 1 : Nat) : Int) by omega, show min (0 : Int) ((a.n - 1 : Nat) : Int) = 0 by omega,
    show min (-1 : Int) ((a.n - 1 : Nat) : Int) = -1 by omega]
  rw [show (0 : Int).toNat = 0 from rfl, show ((-1 : Int) - 0).toNat = 0 from rfl, copyLoop, Out.ok_bind, huntLoop, Out.ok_bind,
    show (((a.n - 1 : Nat) : Int) - -1).toNat = a.n - 1 + 1 by omega, copyLoop, if_pos (by omega)]
  have : ¬ Method.findswapInt a (-1) = true := by
    unfold Method.findswapInt
    rw [show ((-1 : Int) % 256).toNat = 255 by decide, WF.findswap_eq ha]
    intro h
    have := ha.2.2 _ h; omega
  rw [if_neg this, show (-1 : Int) + 1 = ((0 : Nat) : Int) by omega,
    copyLoop_spec ha (n := a.n) (hi := a.n - 1) hn (by omega) (by omega) (by simp)]
  rw [List.nil_append]
  have e1 : merged a.swaps b.swaps 0 0 = a.swaps.filter (fun s => decide (0 < s)) := by
    unfold merged
    rw [if_neg (by omega)]
    have : b.swaps.filter (fun s => decide (s + 1 < 0)) = [] := by
      rw [List.filter_eq_nil_iff]; intro s _; simp
    rw [this]; rfl
  rw [e1]
  congr 2
  apply List.filter_congr
  intro s hs
  rw [decide_eq_decide]
  have h1 := ha.2.2 s hs
  have h2 : s ≠ 0 := fun he => fa.1 (he ▸ hs)
  omega

theorem std_facts {A : Args} (h : Std A) {i : Nat} (hi' : i < A.leadLen) :
    (hi A i = lo A i ∨ hi A i = lo A i + 1) ∧ hi A i < A.bells ∧ A.trebleFront - 1 ≤ lo A i ∧ hi A i < A.trebleBack ∧
      activeBelow A i = lo A i ∧ activeAbove A i = (A.bells - 1 - hi A i : Nat) := by
  have f1 := h.front; have f2 := h.range; have f3 := h.back
  unfold hi lo
  rcases posn_cases h hi' with ⟨l, a, b, c, d, e, -⟩ | ⟨a, b, d, e, -⟩ | ⟨a, b, d, e, -⟩
  · rw [d, e]
    rcases c with ⟨c1, c2⟩ | ⟨c1, c2⟩ <;> rw [c1, c2] <;> refine ⟨?_, ?_, ?_, ?_, ?_, ?_⟩ <;> omega
  · rw [a, b, d, e]
    refine ⟨?_, ?_, ?_, ?_, ?_, ?_⟩ <;> omega
  · rw [a, b, d, e]
    refine ⟨?_, ?_, ?_, ?_, ?_, ?_⟩ <;> omega

theorem merge2C_std {A : Args} (h : Std A) {i : Nat} (hi' : i < A.leadLen) {a b : Change} (ha : a.WF) (hb : b.WF) (han : a.n = A.bells) (hbn : b.n = A.bells)
    (fa : FitsAbove a.swaps (lo A i) (hi A i)) (fb : FitsBelow b.swaps (lo A i) (hi A i)) :
    merge2C a b (mergePosn A i) = .ok ⟨A.bells, merged a.swaps b.swaps (lo A i) (hi A i)⟩ := by
  have f1 := h.front; have f2 := h.range; have f3 := h.back
  have fh := (std_facts h hi').2.1
  have hbn' : b.n = a.n := by rw [hbn, han]
  rw [← han] at fh ⊢
  have key : ∀ (x : Nat) (y : Int), mergePosn A i = ((x : Int), y) →
      (∀ y' : Nat, y = (y' : Int) → hi A i = lo A i + 1 ∧ x = lo A i ∧ y' = hi A i ∨ hi A i = lo A i ∧ (x = lo A i + 1 ∧ y' = lo A i ∨ x = lo A i ∧ y' + 1 = lo A i)) →
      (y < 0 → x = 0 ∧ y = -1 ∧ lo A i = 0 ∧ hi A i = 0) →
      merge2C a b (mergePosn A i) = .ok ⟨a.n, merged a.swaps b.swaps (lo A i) (hi A i)⟩ := by
    intro x y e k1 k2
    rw [e]
    by_cases hy : y < 0
    · obtain ⟨rfl, rfl, q1, q2⟩ := k2 hy
      rw [q1, q2] at fa ⊢
      rw [q2] at fh
      exact merge2C_spec0 ha hbn' fa fh
    · obtain ⟨y', rfl⟩ : ∃ y' : Nat, y = (y' : Int) := ⟨y.toNat, by omega⟩
      exact merge2C_spec ha hb hbn' fa fb fh (k1 y' rfl)
  rcases posn_cases h hi' with ⟨l, p1, p2, p3, -, -, p4⟩ | ⟨p1, p2, -, -, p4⟩ | ⟨p1, p2, -, -, p4⟩
  · have e : lo A i = l ∧ hi A i = l + 1 := by unfold lo hi; omega
    exact key l _ p4 (fun y' hy => by omega) (fun hy => by omega)
  · have e : lo A i = A.trebleFront - 1 ∧ hi A i = A.trebleFront - 1 := by unfold lo hi; omega
    exact key A.trebleFront _ p4 (fun y' hy => by omega) (fun hy => by omega)
  · have e : lo A i = A.trebleBack - 1 ∧ hi A i = A.trebleBack - 1 := by unfold lo hi; omega
    exact key (A.trebleBack - 1) ((A.trebleBack : Int) - 2) (by rw [p4]; exact Prod.ext (by simp only; omega) rfl) (fun y' hy => by omega) (fun hy => by omega)

theorem moveTo_up {ss : List Nat} {p : Nat} : moveTo ss p = p + 1 ↔ p ∈ ss := by
  unfold moveTo
  split_ifs with h1 h2
  · simp [h1]
  · simp only [h1, iff_false]; omega
  · simp [h1]

theorem moveTo_down {ss : List Nat} (hs : Gap ss) {p : Nat} : moveTo ss (p + 1) = p ↔ p ∈ ss := by
  unfold moveTo
  split_ifs with h1 h2
  · constructor
    · intro h; omega
    · intro h
      exfalso
      obtain ⟨a, ha1, ha2⟩ := List.getElem_of_mem h1
      obtain ⟨b, hb1, hb2⟩ := List.getElem_of_mem h
      rcases Nat.lt_trichotomy a b with h | h | h
      · have := List.pairwise_iff_getElem.1 hs a b ha1 hb1 h; omega
      · subst h; omega
      · have := List.pairwise_iff_getElem.1 hs b a hb1 ha1 h; omega
  · simp only [Nat.add_sub_cancel] at h2; simp [h2.2]
  · simp only [Nat.add_sub_cancel] at h2
    constructor
    · intro h; omega
    · intro h; exact absurd ⟨by omega, h⟩ h2

theorem gap_not {ss : List Nat} (hs : Gap ss) {p : Nat} (h : p ∈ ss) : p + 1 ∉ ss := by
  intro h1
  obtain ⟨a, ha1, ha2⟩ := List.getElem_of_mem h1
  obtain ⟨b, hb1, hb2⟩ := List.getElem_of_mem h
  rcases Nat.lt_trichotomy a b with h | h | h
  · have := List.pairwise_iff_getElem.1 hs a b ha1 hb1 h; omega
  · subst h; omega
  · have := List.pairwise_iff_getElem.1 hs b a hb1 ha1 h; omega

/-- What it means for the swaps that the treble moves as it should. -/
theorem moves_iff {A : Args} (h : Std A) {i : Nat} (hi' : i < A.leadLen) {ss : List Nat} (hs : Gap ss) :
    Moves A i ss ↔ (lo A i < hi A i → lo A i ∈ ss) ∧ FitsAbove ss (lo A i) (hi A i) ∧ FitsBelow ss (lo A i) (hi A i) := by
  have f := (std_facts h hi').1
  unfold Moves FitsAbove FitsBelow
  have hl : lo A i = min (treblePos A i) (treblePos A (i + 1)) := rfl
  have hr : hi A i = max (treblePos A i) (treblePos A (i + 1)) := rfl
  rcases Nat.lt_trichotomy (treblePos A i) (treblePos A (i + 1)) with e | e | e
  · obtain ⟨e1, e2⟩ : treblePos A i = lo A i ∧ treblePos A (i + 1) = lo A i + 1 := by omega
    have e3 : hi A i = lo A i + 1 := by omega
    rw [e1, e2, e3, moveTo_up]
    constructor
    · intro hm
      refine ⟨fun _ => hm, ⟨gap_not hs hm, by omega⟩, fun h0 hc => ?_, by omega⟩
      exact gap_not hs hc (by rw [show lo A i - 1 + 1 = lo A i by omega]; exact hm)
    · exact fun hc => hc.1 (by omega)
  · obtain ⟨e1, e2⟩ : treblePos A i = lo A i ∧ treblePos A (i + 1) = lo A i := by omega
    have e3 : hi A i = lo A i := by omega
    rw [e1, e2, e3, moveTo_eq_self]
    constructor
    · rintro ⟨a, b⟩
      refine ⟨by omega, ⟨a, fun _ h0 => ?_⟩, fun h0 => ?_, fun _ => a⟩
      · rcases b with b | b
        · omega
        · exact b
      · rcases b with b | b
        · omega
        · exact b
    · rintro ⟨-, ⟨a, b⟩, -⟩
      refine ⟨a, ?_⟩
      by_cases h0 : lo A i = 0
      · exact .inl h0
      · exact .inr (b rfl (by omega))
  · obtain ⟨e1, e2⟩ : treblePos A i = lo A i + 1 ∧ treblePos A (i + 1) = lo A i := by omega
    have e3 : hi A i = lo A i + 1 := by omega
    rw [e1, e2, e3, moveTo_down hs]
    constructor
    · intro hm
      refine ⟨fun _ => hm, ⟨gap_not hs hm, by omega⟩, fun h0 hc => ?_, by omega⟩
      exact gap_not hs hc (by rw [show lo A i - 1 + 1 = lo A i by omega]; exact hm)
    · exact fun hc => hc.1 (by omega)

/-- Two changes agree above a place. -/
theorem agree_above {c a : List Nat} {hi : Nat} (h1 : hi ∉ c) (h2 : hi ∉ a) :
    (∀ p, hi < p → moveTo c p = moveTo a p) ↔ ∀ s, hi < s → (s ∈ c ↔ s ∈ a) := by
  constructor
  · intro h s hs
    rw [← moveTo_up, h s hs, moveTo_up]
  · intro h p hp
    unfold moveTo
    have e : p - 1 ∈ c ↔ p - 1 ∈ a := by
      by_cases hq : p - 1 = hi
      · rw [hq]; exact ⟨fun x => absurd x h1, fun x => absurd x h2⟩
      · exact h _ (by omega)
    rw [if_congr (h p hp) rfl rfl, if_congr (and_congr_right fun _ => e) rfl rfl]

/-- Two changes agree below a place. -/
theorem agree_below {c b : List Nat} {lo : Nat} (h1 : 0 < lo → lo - 1 ∉ c) (h2 : 0 < lo → lo - 1 ∉ b) :
    (∀ p, p < lo → moveTo c p = moveTo b p) ↔ ∀ s, s + 1 < lo → (s ∈ c ↔ s ∈ b) := by
  constructor
  · intro h s hs
    rw [← moveTo_up, h s (by omega), moveTo_up]
  · intro h p hp
    unfold moveTo
    have e : ∀ q, q < lo → (q ∈ c ↔ q ∈ b) := by
      intro q hq
      by_cases hq' : q = lo - 1
      · rw [hq']; exact ⟨fun x => absurd x (h1 (by omega)), fun x => absurd x (h2 (by omega))⟩
      · exact h _ (by omega)
    rw [if_congr (e p hp) rfl rfl, if_congr (and_congr_right fun _ => e (p - 1) (by omega)) rfl rfl]

/-- The merged change is the one change which takes the treble right and agrees with the two. -/
theorem merged_iff {A : Args} (h : Std A) {i : Nat} (hi' : i < A.leadLen) {a b c : List Nat} (ha : Gap a) (hb : Gap b)
    (fa : FitsAbove a (lo A i) (hi A i)) (fb : FitsBelow b (lo A i) (hi A i)) (hc : Gap c) :
    c = merged a b (lo A i) (hi A i) ↔ Moves A i c ∧ (∀ p, hi A i < p → moveTo c p = moveTo a p) ∧ (∀ p, p < lo A i → moveTo c p = moveTo b p) := by
  have f := (std_facts h hi').1
  constructor
  · intro e
    have hm : ∀ s, s ∈ c ↔ s ∈ b ∧ s + 1 < lo A i ∨ lo A i < hi A i ∧ s = lo A i ∨ s ∈ a ∧ hi A i < s := fun s => by rw [e, mem_merged]
    have g1 : hi A i ∉ c := by rw [hm]; omega
    have g2 : 0 < lo A i → lo A i - 1 ∉ c := by intro _; rw [hm]; omega
    refine ⟨(moves_iff h hi' hc).2 ⟨fun hl => ?_, ⟨g1, fun hl h0 => ?_⟩, g2, fun hl => ?_⟩, (agree_above g1 fa.1).2 fun s hs => ?_, (agree_below g2 fb.1).2 fun s hs => ?_⟩
    · rw [hm]; exact .inr (.inl ⟨hl, rfl⟩)
    · rw [← hl]; exact g2 (by omega)
    · rw [hl]; exact g1
    · rw [hm]
      constructor
      · rintro (h | h | h)
        · omega
        · omega
        · exact h.1
      · exact fun h => .inr (.inr ⟨h, hs⟩)
    · rw [hm]
      constructor
      · rintro (h | h | h)
        · exact h.1
        · omega
        · omega
      · exact fun h => .inl ⟨h, hs⟩
  · rintro ⟨hm, h1, h2⟩
    obtain ⟨m1, m2, m3⟩ := (moves_iff h hi' hc).1 hm
    have h1 := (agree_above m2.1 fa.1).1 h1
    have h2 := (agree_below m3.1 fb.1).1 h2
    apply gap_ext hc (gap_merged ha hb f)
    intro s
    rw [mem_merged]
    by_cases c1 : s + 1 < lo A i
    · rw [h2 s c1]
      constructor
      · exact fun h => .inl ⟨h, c1⟩
      · rintro (h | h | h)
        · exact h.1
        · omega
        · omega
    · by_cases c2 : hi A i < s
      · rw [h1 s c2]
        constructor
        · exact fun h => .inr (.inr ⟨h, c2⟩)
        · rintro (h | h | h)
          · omega
          · omega
          · exact h.1
      · constructor
        · intro hs
          by_cases c3 : s = lo A i
          · subst c3
            by_cases c4 : lo A i < hi A i
            · exact .inr (.inl ⟨c4, rfl⟩)
            · exact absurd hs (by have := m2.1; rwa [show hi A i = lo A i by omega] at this)
          · by_cases c4 : s + 1 = lo A i
            · exact absurd hs (by rw [show s = lo A i - 1 by omega]; exact m3.1 (by omega))
            · have : s = hi A i := by omega
              rw [this] at hs; exact absurd hs m2.1
        · rintro (h | h | h)
          · omega
          · rw [h.2]; exact m1 h.1
          · omega

end Mask
end Ringing
