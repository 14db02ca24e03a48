import Verif.Lemmas.Change3
import Verif.Props.RowCycles

/-! C11-C16: changes; the parts of C06 and C49 about changes. -/
namespace Ringing
open Spec Row

theorem odds_iff (l : Nat) (ps : List Nat) :
    Change.Odds l ps ↔ (l :: ps).IsChain (fun p q => p < q ∧ (q - p) % 2 = 1) := by
  induction ps generalizing l with
  | nil => simp [Change.Odds]
  | cons p ps ih => simp only [Change.Odds, ih, List.isChain_cons_cons]; tauto

theorem placesOK_iff (n : Nat) (ps : List Nat) : Change.PlacesOK n ps ↔ PlacesOK n ps := by
  unfold Change.PlacesOK PlacesOK
  cases ps with
  | nil => simp
  | cons p ps => simp only [odds_iff]

theorem lastOr_eq (l : Nat) (ps : List Nat) : (l :: ps).getLast? = some (Change.lastOr l ps) := by
  induction ps generalizing l with
  | nil => rfl
  | cons p ps ih => rw [List.getLast?_cons_cons, ih]; rfl

/-- C11: construction from a list of places. The accepted lists are exactly those of the
specification, and the places of the resulting change are exactly the listed and implied ones; as
all other bells are swapped in neighbouring pairs, this determines the change. -/
theorem C11_places {n : Nat} (hn : n ≤ 255) (ps : List Nat) :
    (PlacesOK n ps → ∃ ss, Change.ofPlacesC n ps = .ok ⟨n, ss⟩ ∧ IsChange n ss ∧
      ∀ i, IsPlace n ss i ↔ i < n ∧ PlaceMade n ps i) ∧
    (¬ PlacesOK n ps → Change.ofPlacesC n ps = .throw .changeInvalid) := by
  rw [← placesOK_iff]
  obtain ⟨h1, h2⟩ := Change.ofPlacesC_spec hn ps
  refine ⟨fun h => ?_, h2⟩
  obtain ⟨T, t1, t2, t3⟩ := h1 h
  refine ⟨T, t1, t2, ?_⟩
  intro i
  unfold IsPlace PlaceMade
  refine and_congr_right fun hi => ?_
  rw [t3 i hi]
  cases ps with
  | nil => simp
  | cons p ps => simp [lastOr_eq]

/-- C11: a change is determined by its places: two changes on the same bells with the same places
are equal. -/
theorem C11_places_determine {n : Nat} {ss tt : List Nat} (hs : IsChange n ss) (ht : IsChange n tt)
    (h : ∀ i, IsPlace n ss i ↔ IsPlace n tt i) : ss = tt := by
  have h1 := Change.WF.ofPlacesC_places (c := ⟨n, ss⟩) hs
  have h2 := Change.WF.ofPlacesC_places (c := ⟨n, tt⟩) ht
  have e : Change.places ⟨n, ss⟩ = Change.places ⟨n, tt⟩ := by
    obtain ⟨s1, -⟩ := Change.sorted_placesFrom (n := n) (b := 0) hs.2.1 (by simp)
    obtain ⟨s2, -⟩ := Change.sorted_placesFrom (n := n) (b := 0) ht.2.1 (by simp)
    unfold Change.places
    have hp : (Change.placesFrom n ss 0).Perm (Change.placesFrom n tt 0) := by
      rw [List.perm_ext_iff_of_nodup (s1.imp (fun h => Nat.ne_of_lt h)) (s2.imp (fun h => Nat.ne_of_lt h))]
      intro i
      have := h i
      unfold IsPlace at this
      rw [Change.mem_placesFrom hs.2.1 hs.2.2 (by simp), Change.mem_placesFrom ht.2.1 ht.2.2 (by simp)]
      simpa using this
    exact hp.eq_of_pairwise (fun a b _ _ h1 h2 => absurd h1 (by omega)) s1 s2
  simp only at h1 h2
  rw [e, h2] at h1
  cases h1; rfl

/-- C11: a place notation string spelling a list of bells makes the change with these places; one
that does not spell bells is rejected. `X`, `x` and `-` are the change with no listed place. -/
theorem C11_string (n : Nat) (pn : List Char) :
    (pn = ['X'] ∨ pn = ['x'] ∨ pn = ['-'] → Change.ofStringC n pn = Change.ofPlacesC n []) ∧
    (pn ≠ [] → pn ≠ ['X'] → pn ≠ ['x'] → pn ≠ ['-'] → ∀ ps, Row.readBells pn.length pn = .ok ps →
      Change.ofStringC n pn = Change.ofPlacesC n ps) ∧
    (Row.readBells pn.length pn = .throw .bellInvalid → pn ≠ ['X'] → pn ≠ ['x'] → pn ≠ ['-'] →
      Change.ofStringC n pn = .throw .bellInvalid ∨ Change.ofStringC n pn = .throw .changeInvalid) ∧
    (pn = [] → Change.ofStringC n pn = if n = 0 then .ok ⟨0, []⟩ else .throw .changeInvalid) := by
  refine ⟨?_, ?_, ?_, ?_⟩
  · intro h
    have : pn.isEmpty = false := by rcases h with rfl | rfl | rfl <;> rfl
    simp [Change.ofStringC, this, h, Change.ofPlacesC, Change.ofPlacesLoop]
  · intro h0 h1 h2 h3 ps hr
    unfold Change.ofStringC
    rw [if_neg (by simp [h0]), if_neg (by simp [h1, h2, h3]), Change.ofStringLoop_eq _ _ _ _ _ hr]
    rfl
  · intro hr h1 h2 h3
    have h0 : pn ≠ [] := by rintro rfl; cases hr
    unfold Change.ofStringC
    rw [if_neg (by simp [h0]), if_neg (by simp [h1, h2, h3])]
    exact Change.ofStringLoop_bad _ _ _ _ le_rfl hr
  · rintro rfl
    by_cases hn : n = 0
    · simp [Change.ofStringC, hn]
    · simp [Change.ofStringC, hn]

example : PlacesOK 8 [1, 4, 7] := ⟨by decide, by simp⟩
example : Change.ofPlacesC 8 [3] = .ok ⟨8, [1, 4, 6]⟩ := by decide
example : Change.ofStringC 8 "36".toList = .ok ⟨8, [0, 3, 6]⟩ := by decide
example : Change.ofStringC 8 "35".toList = .throw .changeInvalid := by decide

/-- C12: the places of a change make the change again. -/
theorem C12_places {n : Nat} {ss : List Nat} (h : IsChange n ss) :
    Change.ofPlacesC n (Change.places ⟨n, ss⟩) = .ok ⟨n, ss⟩ :=
  Change.WF.ofPlacesC_places (c := ⟨n, ss⟩) h

/-- C12: a printed change parses back to itself, in every style. -/
theorem C12_print {n : Nat} {ss : List Nat} (h : IsChange n ss) (style : Change.Cross) :
    Change.ofStringC n (Change.print ⟨n, ss⟩ style) = .ok ⟨n, ss⟩ :=
  Change.WF.ofStringC_print (c := ⟨n, ss⟩) h style

example : IsChange 8 [1, 4, 6] := by unfold IsChange; decide
example : Change.print ⟨8, [1, 4, 6]⟩ .dash = "14".toList := by decide
example : Change.print ⟨8, [0, 2, 4, 6]⟩ .dash = "-".toList := by decide

/-- C13: the position map of a change exchanges the positions of each of its pairs and keeps the
others; it is an involution, moving each position by at most one. -/
theorem C13_pos {c : Change} (h : IsChange c.n c.swaps) (i : Nat) :
    c.pos i = moveTo c.swaps i ∧ c.pos (c.pos i) = i ∧ c.pos i ≤ i + 1 ∧ i ≤ c.pos i + 1 := by
  have hw : c.WF := h
  refine ⟨hw.pos_eq i, hw.pos_pos i, ?_⟩
  rw [hw.pos_eq]; unfold moveTo; split
  · omega
  · split <;> omega

/-- C13: applying a change to a row never fails, and moves each bell as the change says. -/
theorem C13_apply {r : Row} {c : Change} (hr : IsRow r) (h : IsChange c.n c.swaps) :
    ∃ s, Row.applyC r c = .ok s ∧ IsRow s ∧ s.length = max r.length c.n ∧
      ∀ i, bellAt s i = bellAt r (moveTo c.swaps i) := by
  have hw : c.WF := h
  refine ⟨apply r c, applyC_eq hw r, ?_, length_apply r c, ?_⟩
  · exact (isRow_iff_valid _).2 (valid_apply hw ((isRow_iff_valid _).1 hr))
  · intro i; rw [bellAt_eq_fn, bellAt_eq_fn, fn_apply hw, hw.pos_eq]

/-- C13: applying a change twice gives the row back (on the larger number of bells). -/
theorem C13_involution {r s t : Row} {c : Change} (h : IsChange c.n c.swaps)
    (h1 : Row.applyC r c = .ok s) (h2 : Row.applyC s c = .ok t) :
    t.length = max r.length c.n ∧ ∀ i, bellAt t i = bellAt r i := by
  have hw : c.WF := h
  rw [applyC_eq hw] at h1 h2
  cases h1; cases h2
  rw [apply_apply hw]
  exact ⟨by simp, fun i => by rw [bellAt_eq_fn, bellAt_eq_fn, fn_mul, fn_rounds]⟩

/-- C13: applying a change is multiplying by the row of the change. -/
theorem C13_multiply {r s t : Row} {c : Change} (hr : IsRow r) (h : IsChange c.n c.swaps)
    (h1 : Row.applyC r c = .ok s) (h2 : Row.applyC (rounds c.n) c = .ok t) : mulC r t = .ok s := by
  have hw : c.WF := h
  have hv := (isRow_iff_valid _).1 hr
  rw [applyC_eq hw] at h1 h2
  cases h1; cases h2
  rw [mulC_eq hv (valid_apply hw (valid_rounds (by have := h.1; omega)))]
  rw [apply_eq_mul hw r]

example : Row.applyC [1, 0, 3, 2] ⟨4, [1]⟩ = .ok [1, 3, 0, 2] := by decide

/-- C06: a change multiplies the sign of a row by the sign of the change. -/
theorem C06_change {r s : Row} {c : Change} (hr : IsRow r) (h : IsChange c.n c.swaps)
    (h1 : Row.applyC r c = .ok s) : ∃ x, signC r = .ok x ∧ signC s = .ok (x * c.sign) := by
  have hw : c.WF := h
  have hv := (isRow_iff_valid _).1 hr
  rw [applyC_eq hw] at h1
  cases h1
  exact ⟨_, signC_eq hv, by rw [signC_eq (valid_apply hw hv), hw.sign_apply hv]⟩

/-- C49: applying a change to a row of any kind, and reading positions, is memory safe. -/
theorem C49_change {r : Row} {c : Change} (h : IsChange c.n c.swaps) : ∃ s, Row.applyC r c = .ok s :=
  ⟨_, applyC_eq (c := c) h r⟩

/-- C14: `swappair` throws exactly when the pair is out of range; it removes the pair if present;
otherwise it adds the pair, removing the pairs overlapping it; except that when the pair just below
is the last one of the change the behaviour is undefined. -/
theorem C14_swappair {c : Change} (h : IsChange c.n c.swaps) (w : Nat) :
    (w + 2 > c.n → c.swappairC w = .throw .changeRange) ∧
    (w + 2 ≤ c.n → w ∈ c.swaps → ∃ d, c.swappairC w = .ok (false, d) ∧ d.n = c.n ∧
      IsChange d.n d.swaps ∧ ∀ x, x ∈ d.swaps ↔ x ∈ c.swaps ∧ x ≠ w) ∧
    (w + 2 ≤ c.n → w ∉ c.swaps → ¬ (∃ s ∈ c.swaps, s + 1 = w ∧ ∀ t ∈ c.swaps, t ≤ s) →
      ∃ d, c.swappairC w = .ok (true, d) ∧ d.n = c.n ∧ IsChange d.n d.swaps ∧
        ∀ x, x ∈ d.swaps ↔ x = w ∨ (x ∈ c.swaps ∧ x + 1 ≠ w ∧ x ≠ w + 1)) := by
  obtain ⟨h1, h2, h3⟩ := Change.swappairLoop_spec w (ss := c.swaps) h.2.1
  unfold Change.swappairC
  refine ⟨fun hw => by rw [if_pos hw], fun hw hm => ?_, fun hw hm hno => ?_⟩
  · obtain ⟨l, l1, l2, l3⟩ := h1 hm
    rw [if_neg (by omega), l1]
    refine ⟨⟨c.n, l⟩, rfl, rfl, ⟨h.1, l2, ?_⟩, l3⟩
    intro s hs; exact h.2.2 s ((l3 s).1 hs).1
  · obtain ⟨l, l1, l2, l3⟩ := h3 hm hno
    rw [if_neg (by omega), l1]
    refine ⟨⟨c.n, l⟩, rfl, rfl, ⟨h.1, l2, ?_⟩, l3⟩
    intro s hs
    rcases (l3 s).1 hs with rfl | h'
    · omega
    · exact h.2.2 s h'.1

/-- C14, refutation: undefined behaviour (the end iterator is dereferenced) for every change whose
last pair is the one just below. -/
theorem C14_ub {c : Change} (h : IsChange c.n c.swaps) (w : Nat) (hw : w + 2 ≤ c.n)
    (hl : ∃ s ∈ c.swaps, s + 1 = w ∧ ∀ t ∈ c.swaps, t ≤ s) : c.swappairC w = .ub := by
  obtain ⟨h1, h2, h3⟩ := Change.swappairLoop_spec w (ss := c.swaps) h.2.1
  unfold Change.swappairC
  rw [if_neg (by omega), h2 hl]; rfl

example : Change.swappairC ⟨6, [0]⟩ 1 = .ub := by decide
example : Change.swappairC ⟨6, [0, 2]⟩ 1 = .ok (true, ⟨6, [1]⟩) := by decide
example : Change.swappairC ⟨6, [0, 2]⟩ 2 = .ok (false, ⟨6, [0]⟩) := by decide

/-- C15: `findswap` and `findplace`. -/
theorem C15_find {c : Change} (h : IsChange c.n c.swaps) (i : Nat) :
    (c.findswap i = true ↔ i ∈ c.swaps) ∧
    (i < c.n → (c.findplace i = true ↔ IsPlace c.n c.swaps i)) := by
  have hw : c.WF := h
  refine ⟨hw.findswap_eq i, fun hi => ?_⟩
  rw [hw.findplace_eq]; unfold IsPlace; simp [hi]

/-- C15: `places` lists the places in increasing order; `count_places` counts them. -/
theorem C15_places {c : Change} (h : IsChange c.n c.swaps) :
    (Change.places c).Pairwise (· < ·) ∧ (∀ i, i ∈ Change.places c ↔ IsPlace c.n c.swaps i) ∧
    Change.countPlaces c = (Change.places c).length ∧
    Change.countPlaces c + 2 * c.swaps.length = c.n := by
  have hw : c.WF := h
  obtain ⟨s1, -⟩ := Change.sorted_placesFrom (n := c.n) (b := 0) h.2.1 (by simp)
  refine ⟨s1, ?_, rfl, ?_⟩
  · intro i
    unfold Change.places IsPlace
    rw [Change.mem_placesFrom h.2.1 h.2.2 (by simp)]; simp
  · have key : ∀ (ss : List Nat) (b n : Nat), Change.Gap ss → (∀ s ∈ ss, s + 2 ≤ n) → (∀ s ∈ ss, b ≤ s) →
        b ≤ n → (Change.placesFrom n ss b).length + 2 * ss.length + b = n := by
      intro ss
      induction ss with
      | nil => intro b n _ _ _ hb; simp [Change.placesFrom]; omega
      | cons s ss ih =>
        intro b n hg hn hb hbn
        have := ih (s + 2) n hg.tail (fun t ht => hn t (by simp [ht])) hg.le (hn s (by simp))
        have := hb s (by simp)
        simp only [Change.placesFrom, List.length_append, List.length_range', List.length_cons]
        omega
    have := key c.swaps 0 c.n h.2.1 h.2.2 (by simp) (by omega)
    simpa [Change.countPlaces, Change.places] using this

/-- C15: `internal` says whether a place other than lead and last is made. -/
theorem C15_internal {c : Change} (h : IsChange c.n c.swaps) :
    c.internal = true ↔ ∃ i, IsPlace c.n c.swaps i ∧ i ≠ 0 ∧ i + 1 ≠ c.n := by
  have hw : c.WF := h
  rw [hw.internal_eq]
  constructor
  · rintro ⟨i, h1, h2, h3⟩; exact ⟨i, ⟨by omega, h3⟩, by omega, by omega⟩
  · rintro ⟨i, ⟨h1, h2⟩, h3, h4⟩; exact ⟨i, by omega, by omega, h2⟩

/-- C15: `have_same_places` throws on different numbers of bells and otherwise says whether there
is a common place. -/
theorem C15_same {a b : Change} (ha : IsChange a.n a.swaps) (hb : IsChange b.n b.swaps) :
    (a.n ≠ b.n → Change.haveSamePlacesC a b = .throw .logicError) ∧
    (a.n = b.n → ∃ x, Change.haveSamePlacesC a b = .ok x ∧
      (x = true ↔ ∃ i, IsPlace a.n a.swaps i ∧ IsPlace b.n b.swaps i)) := by
  have wa : a.WF := ha
  have wb : b.WF := hb
  unfold Change.haveSamePlacesC
  refine ⟨fun h => by rw [if_pos h], fun h => ?_⟩
  rw [if_neg (by simpa using h)]
  refine ⟨_, rfl, ?_⟩
  simp only [List.any_eq_true, List.mem_range, Bool.and_eq_true, wa.findplace_eq, wb.findplace_eq, IsPlace]
  constructor
  · rintro ⟨i, h1, h2, h3⟩; exact ⟨i, ⟨h1, h2⟩, by omega, h3⟩
  · rintro ⟨i, ⟨h1, h2⟩, -, h3⟩; exact ⟨i, h1, h2, h3⟩

example : Change.internal ⟨6, [0, 4]⟩ = true ∧ Change.internal ⟨6, [1, 3]⟩ = false := by decide

/-- C16: the reverse of a change is a change whose pairs are those of the change read from the back;
it moves positions as the change does, seen from the back. -/
theorem C16_reverse {c : Change} (h : IsChange c.n c.swaps) :
    (c.reverse).n = c.n ∧ IsChange (c.reverse).n (c.reverse).swaps ∧
    (∀ i, i ∈ (c.reverse).swaps ↔ ∃ j ∈ c.swaps, i + j + 2 = c.n) ∧
    (∀ i, i < c.n → (c.reverse).pos i + c.pos (c.n - 1 - i) + 1 = c.n) := by
  have hw : c.WF := h
  refine ⟨rfl, hw.reverse, ?_, ?_⟩
  · intro i
    rw [hw.mem_reverse]
    constructor
    · rintro ⟨h1, h2⟩; exact ⟨_, h2, by omega⟩
    · rintro ⟨j, hj, e⟩; exact ⟨by omega, by rw [show c.n - 2 - i = j by omega]; exact hj⟩
  · intro i hi
    rw [hw.pos_reverse hi]
    have := hw.pos_lt (m := c.n) le_rfl (i := c.n - 1 - i) (by omega)
    omega

/-- C16: reversing twice gives the change back, and reversing keeps the sign. -/
theorem C16_involution {c : Change} (h : IsChange c.n c.swaps) :
    c.reverse.reverse = c ∧ c.reverse.sign = c.sign :=
  ⟨Change.WF.reverse_reverse h, Change.sign_reverse c⟩

/-- C16: the row of the reversed change is the conjugate of the row of the change by reverse
rounds. -/
theorem C16_conjugate {c : Change} (h : IsChange c.n c.swaps) {b s t u v : Row}
    (hb : b = (List.range c.n).map fun i => c.n - 1 - i)
    (hs : Row.applyC (rounds c.n) c = .ok s) (ht : Row.applyC (rounds c.n) c.reverse = .ok t)
    (hu : mulC b s = .ok u) (hv : mulC u b = .ok v) : v = t := by
  have hw : c.WF := h
  have hn := h.1
  rw [applyC_eq hw] at hs
  rw [applyC_eq hw.reverse] at ht
  cases hs; cases ht
  have vb : Valid b := by
    subst hb
    exact valid_map_range (by omega) (fun i hi => by omega) (fun i j hi hj e => by omega)
  have lb : b.length = c.n := by simp [hb]
  have fb : ∀ i, i < c.n → fn b i = c.n - 1 - i := fun i hi => by rw [hb]; exact fn_map_range hi
  have vs := valid_apply hw (valid_rounds (show c.n ≤ 256 by omega))
  rw [mulC_eq vb vs] at hu
  cases hu
  rw [mulC_eq (valid_mul vb vs) vb] at hv
  cases hv
  apply ext_fn
  · simp [length_apply, lb, Change.reverse]
  · intro i hi
    have hi' : i < c.n := by simpa [length_apply, lb] using hi
    have := hw.pos_lt (m := c.n) le_rfl (i := c.n - 1 - i) (by omega)
    rw [fn_mul, fn_mul, fn_apply hw, fn_apply hw.reverse, fn_rounds, fn_rounds, fb i hi', fb _ this,
      hw.pos_reverse hi']

example : Change.reverse ⟨7, [0, 3]⟩ = ⟨7, [2, 5]⟩ := by decide

end Ringing
