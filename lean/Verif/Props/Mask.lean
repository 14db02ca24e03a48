import Verif.Lemmas.Mask3

/-! C84, C85: the changes `methsearch` may use at each position of the lead. -/
namespace Ringing
namespace Mask
open Spec Change MethodUtils

theorem sort_uniq {A : Args} (hb : A.bells ≤ 33) {l : List Change} (hw : ∀ c ∈ l, c.WF ∧ c.n = A.bells) :
    ∃ l', sortC l = .ok l' ∧ (∀ c, c ∈ uniq l' ↔ c ∈ l) ∧ (uniq l').Pairwise (fun a b => Row.lt a.places b.places = true) := by
  obtain ⟨l', h1, h2, h3⟩ := sortC_spec hb hw
  obtain ⟨h4, -, h5⟩ := uniq_spec (n := A.bells) (fun c hc => hw c (h2.mem_iff.1 hc)) h3
  exact ⟨l', h1, fun c => by rw [h4, h2.mem_iff], h5⟩

/-- C84: with one hunt bell on at most 33 bells, whatever its path and dodges, the changes found for a position of the lead
are, each once and in the order of their places, exactly those which take the treble along its path, agree with a change of the
mask above and with one below the treble where it has any, and satisfy the other arguments; if there are none, `mask_error` is
thrown. -/
theorem C84_position {A : Args} (h : Std A) (hb : A.bells ≤ 33) (hch : ∀ d ∈ A.changes, d.n = A.bells ∧ IsChange A.bells d.swaps)
    {i : Nat} (hi' : i < A.leadLen) {fuel : Nat} (hf : Nat.fib (A.bells + 1) < fuel) {above below : List Change}
    (ha : ∀ a ∈ above, Right A i a) (hbl : ∀ b ∈ below, Right A i b) :
    (∃ l, positionC fuel A above below i = .ok l ∧ l ≠ [] ∧ (∀ c, c ∈ l ↔ Allowed A above below i c) ∧
      l.Pairwise (fun a b => Row.lt a.places b.places = true)) ∨
    (positionC fuel A above below i = .throw .invalidArgument ∧ ∀ c, ¬ Allowed A above below i c) := by
  obtain ⟨l, h1, h2⟩ := found_mem h (by omega) hch hi' hf ha hbl
  obtain ⟨l', h3, h4, h5⟩ := sort_uniq hb (l := l) (fun c hc => by
    have := (h2 c).1 hc; exact ⟨wf_of this.bells this.change, this.bells⟩)
  have e : positionC fuel A above below i = if uniq l' = [] then .throw .invalidArgument else .ok (uniq l') := by
    unfold positionC
    rw [if_pos (by rw [h.one]; decide), h1, Out.ok_bind, h3, Out.ok_bind]
  by_cases he : uniq l' = []
  · right
    refine ⟨by rw [e, if_pos he], fun c hc => ?_⟩
    have := (h4 c).2 ((h2 c).2 hc)
    rw [he] at this; cases this
  · left
    refine ⟨uniq l', by rw [e, if_neg he], he, fun c => by rw [h4, h2], h5⟩

/-- The lists are those of the allowed changes. -/
def Lists (A : Args) (above below : List (List Change)) (k : Nat) (ls : List (List Change)) : Prop :=
  ls.length = above.length ∧ ∀ j l a b, ls[j]? = some l → above[j]? = some a → below[j]? = some b →
    l ≠ [] ∧ (∀ c, c ∈ l ↔ Allowed A a b (k + j) c) ∧ l.Pairwise (fun a b => Row.lt a.places b.places = true)

theorem allowedLoop_spec {A : Args} (h : Std A) (hb : A.bells ≤ 33) (hch : ∀ d ∈ A.changes, d.n = A.bells ∧ IsChange A.bells d.swaps)
    {fuel : Nat} (hf : Nat.fib (A.bells + 1) < fuel) : ∀ {above below acc : List (List Change)}, above.length = below.length →
    acc.length + above.length = A.leadLen →
    (∀ j l, above[j]? = some l → ∀ a ∈ l, Right A (acc.length + j) a) → (∀ j l, below[j]? = some l → ∀ a ∈ l, Right A (acc.length + j) a) →
    (∃ ls, allowedLoop fuel A above below acc = .ok (acc ++ ls) ∧ Lists A above below acc.length ls) ∨
    (allowedLoop fuel A above below acc = .throw .invalidArgument ∧ ∃ j a b, above[j]? = some a ∧ below[j]? = some b ∧ ∀ c, ¬ Allowed A a b (acc.length + j) c) := by
  intro above
  induction above with
  | nil =>
    intro below acc h1 h2 _ _
    have : below = [] := List.length_eq_zero_iff.1 (by rw [← h1]; rfl)
    subst this
    exact .inl ⟨[], by rw [allowedLoop]; simp; simp, rfl, by simp⟩
  | cons a as ih =>
    intro below acc h1 h2 ha hbl
    cases below with
    | nil => simp at h1
    | cons b bs =>
      rw [allowedLoop, if_pos (.inl (by rw [h.one]; decide))]
      rw [List.length_cons] at h2
      rcases C84_position h hb hch (i := acc.length) (by omega) hf (ha 0 a rfl) (hbl 0 b rfl) with ⟨l, e1, e2, e3, e4⟩ | ⟨e1, e2⟩
      · rw [e1, Out.ok_bind]
        have hl : (acc ++ [l]).length = acc.length + 1 := by simp
        have sh : ∀ j, acc.length + (j + 1) = (acc ++ [l]).length + j := fun j => by rw [hl]; omega
        rcases ih (below := bs) (acc := acc ++ [l]) (by simpa using h1) (by rw [hl]; omega)
          (fun j m hm => by rw [← sh]; exact ha (j + 1) m (by simpa using hm)) (fun j m hm => by rw [← sh]; exact hbl (j + 1) m (by simpa using hm)) with
          ⟨ls, k1, k2, k3⟩ | ⟨k1, j, x, y, k2, k3, k4⟩
        · left
          refine ⟨l :: ls, by rw [k1]; simp, by simp [k2], fun j m x y hm hx hy => ?_⟩
          cases j with
          | zero =>
            simp only [List.getElem?_cons_zero, Option.some.injEq] at hm hx hy
            subst hm; subst hx; subst hy
            exact ⟨e2, e3, e4⟩
          | succ j =>
            rw [sh]
            exact k3 j m x y (by simpa using hm) (by simpa using hx) (by simpa using hy)
        · exact .inr ⟨k1, j + 1, x, y, by simpa using k2, by simpa using k3, fun c => by rw [sh]; exact k4 c⟩
      · rw [e1]
        exact .inr ⟨rfl, 0, a, b, rfl, rfl, e2⟩

/-- C84: `parse_mask` finds these changes for every position of the lead, or throws `mask_error` if at some position there are
none. -/
theorem C84_lead {A : Args} (h : Std A) (hb : A.bells ≤ 33) (hch : ∀ d ∈ A.changes, d.n = A.bells ∧ IsChange A.bells d.swaps)
    {fuel : Nat} (hf : Nat.fib (A.bells + 1) < fuel) {above below : List (List Change)} (h1 : above.length = A.leadLen) (h2 : below.length = A.leadLen)
    (ha : ∀ j l, above[j]? = some l → ∀ a ∈ l, Right A j a) (hbl : ∀ j l, below[j]? = some l → ∀ a ∈ l, Right A j a) :
    (∃ ls, allowedLoop fuel A above below [] = .ok ls ∧ ls.length = A.leadLen ∧
      ∀ j l a b, ls[j]? = some l → above[j]? = some a → below[j]? = some b →
        l ≠ [] ∧ (∀ c, c ∈ l ↔ Allowed A a b j c) ∧ l.Pairwise (fun a b => Row.lt a.places b.places = true)) ∨
    (allowedLoop fuel A above below [] = .throw .invalidArgument ∧
      ∃ j a b, above[j]? = some a ∧ below[j]? = some b ∧ ∀ c, ¬ Allowed A a b j c) := by
  rcases allowedLoop_spec h hb hch hf (acc := []) (h1.trans h2.symm) (by simpa using h1) (by simpa using ha) (by simpa using hbl) with ⟨ls, k1, k2, k3⟩ | ⟨k1, k2⟩
  · exact .inl ⟨ls, k1, k2.trans h1, by simpa using k3⟩
  · exact .inr ⟨k1, by simpa using k2⟩

/-- The place to which the changes take a bell. -/
def follow : List Change → Nat → Nat
  | [], p => p
  | c :: cs, p => follow cs (moveTo c.swaps p)

theorem follow_append (cs ds : List Change) (p : Nat) : follow (cs ++ ds) p = follow ds (follow cs p) := by
  induction cs generalizing p with
  | nil => rfl
  | cons c cs ih => exact ih _

/-- C84: so in any lead made of the changes found the treble is, before each change, where its path says. -/
theorem C84_path {A : Args} (h : Std A) (hb : A.bells ≤ 33) (hch : ∀ d ∈ A.changes, d.n = A.bells ∧ IsChange A.bells d.swaps)
    {fuel : Nat} (hf : Nat.fib (A.bells + 1) < fuel) {above below : List (List Change)} (h1 : above.length = A.leadLen) (h2 : below.length = A.leadLen)
    (ha : ∀ j l, above[j]? = some l → ∀ a ∈ l, Right A j a) (hbl : ∀ j l, below[j]? = some l → ∀ a ∈ l, Right A j a)
    {ls : List (List Change)} (hls : allowedLoop fuel A above below [] = .ok ls)
    {cs : List Change} (hlen : cs.length ≤ A.leadLen) (hcs : ∀ (j : Nat) (c : Change), cs[j]? = some c → ∃ l, ls[j]? = some l ∧ c ∈ l) :
    follow cs (A.trebleFront - 1) = treblePos A cs.length := by
  have h0 : treblePos A 0 = A.trebleFront - 1 := by
    have hpos : 0 < (1 + A.trebleDodges) * (A.trebleBack - A.trebleFront + 1) := Nat.mul_pos (by omega) (by omega)
    unfold treblePos
    simp only
    rw [Nat.zero_mod, if_pos hpos]; simp
  obtain ⟨k1, k2⟩ : ls.length = A.leadLen ∧ ∀ j l a b, ls[j]? = some l → above[j]? = some a → below[j]? = some b → ∀ c ∈ l, Allowed A a b j c := by
    rcases C84_lead h hb hch hf h1 h2 ha hbl with ⟨ls', q1, q2, q3⟩ | ⟨q1, -⟩
    · rw [hls] at q1
      injection q1 with q1
      subst q1
      exact ⟨q2, fun j l a b x y z c hc => ((q3 j l a b x y z).2.1 c).1 hc⟩
    · rw [hls] at q1; cases q1
  have key : ∀ k, k ≤ cs.length → follow (cs.take k) (A.trebleFront - 1) = treblePos A k := by
    intro k
    induction k with
    | zero => intro _; exact h0.symm
    | succ k ih =>
      intro hk
      have hc : cs[k]? = some cs[k] := List.getElem?_eq_getElem (by omega)
      obtain ⟨l, h3, h4⟩ := hcs k _ hc
      have h5 := k2 k l _ _ h3 (List.getElem?_eq_getElem (by omega)) (List.getElem?_eq_getElem (by omega)) _ h4
      rw [List.take_add_one, hc, Option.toList_some, follow_append, ih (by omega)]
      exact h5.moves
  have := key cs.length (Nat.le_refl _)
  rwa [List.take_length] at this

/-- C84: the path begins and ends at the front of its range, stays within it, moves at most one place at a time and is the same
backwards. -/
theorem C84_treble {A : Args} (h : Std A) {i : Nat} (hi' : i < A.leadLen) :
    treblePos A 0 = A.trebleFront - 1 ∧ treblePos A A.leadLen = A.trebleFront - 1 ∧
    A.trebleFront ≤ treblePos A i + 1 ∧ treblePos A i + 1 ≤ A.trebleBack ∧
    (treblePos A (i + 1) ≤ treblePos A i + 1 ∧ treblePos A i ≤ treblePos A (i + 1) + 1) ∧
    treblePos A (A.leadLen - 1 - i) = treblePos A i := by
  obtain ⟨f1, f2, f3, f4, f5, f6⟩ := std_facts h hi'
  have f7 := h.front
  have hlen : A.leadLen = 2 * ((1 + A.trebleDodges) * (A.trebleBack - A.trebleFront + 1)) := by rw [h.len, Nat.mul_comm]
  have hpos : 0 < (1 + A.trebleDodges) * (A.trebleBack - A.trebleFront + 1) := Nat.mul_pos (by omega) (by omega)
  have hl : lo A i = min (treblePos A i) (treblePos A (i + 1)) := rfl
  have hr : hi A i = max (treblePos A i) (treblePos A (i + 1)) := rfl
  refine ⟨?_, by rw [hlen]; exact treble_wrap rfl, by omega, by omega, by omega, ?_⟩
  · unfold treblePos
    simp only
    rw [Nat.zero_mod, if_pos hpos]; simp
  · unfold treblePos
    simp only
    generalize (1 + A.trebleDodges) * (A.trebleBack - A.trebleFront + 1) = half at hlen hpos
    rw [Nat.mod_eq_of_lt (show A.leadLen - 1 - i < 2 * half by omega), Nat.mod_eq_of_lt (show i < 2 * half by omega)]
    have : (if A.leadLen - 1 - i < half then A.leadLen - 1 - i else 2 * half - 1 - (A.leadLen - 1 - i)) = if i < half then i else 2 * half - 1 - i := by
      split_ifs <;> omega
    rw [this]

theorem cross_mem {n : Nat} (hn : n ≤ 255) (he : n % 2 = 0) :
    ∃ x : Change, Change.ofStringC n ['-'] = .ok x ∧ ∀ c : Change, c = x ↔ c.n = n ∧ IsChange n c.swaps ∧ ∀ p, ¬ IsPlace n c.swaps p := by
  have hx : Change.ofStringC n ['-'] = .ok ⟨n, swapsBetween 256 0 n⟩ := by
    unfold Change.ofStringC
    rw [if_neg (by simp), if_pos (by simp), show toBell n = n from Nat.mod_eq_of_lt (by omega)]
  have hw : IsChange n (swapsBetween 256 0 n) := ⟨hn, (gap_swapsBetween 256 0 n).1, fun s hs => ((gap_swapsBetween 256 0 n).2 s hs).2⟩
  have hp : ∀ p, ¬ IsPlace n (swapsBetween 256 0 n) p := by
    rintro p ⟨h1, h2⟩
    have := (moveTo_swapsBetween (fuel := 256) (s := 0) (te := n) (by omega) (Nat.zero_le p) h1).1 h2
    omega
  refine ⟨_, hx, fun c => ?_⟩
  constructor
  · rintro rfl; exact ⟨rfl, hw, hp⟩
  · rintro ⟨h1, h2, h3⟩
    have := C11_places_determine h2 hw (fun i => ⟨fun hc => absurd hc (h3 i), fun hc => absurd hc (hp i)⟩)
    obtain ⟨m, ss⟩ := c
    simp only at h1 this
    rw [h1, this]

/-- C85: for a principle on 2 to 33 bells the changes found afresh for a position are, each once and in the order of their places,
those of the mask or, without any, those satisfying the arguments; if there are none, `mask_error` is thrown. -/
theorem C85_position {A : Args} (h0 : A.huntBells = 0) (hb2 : 2 ≤ A.bells) (hb : A.bells ≤ 33)
    (hch : ∀ d ∈ A.changes, d.n = A.bells ∧ IsChange A.bells d.swaps) (i : Nat) {fuel : Nat} (hf : Nat.fib (A.bells + 1) < fuel)
    {above : List Change} (below : List Change) (ha : ∀ a ∈ above, a.n = A.bells ∧ IsChange A.bells a.swaps) :
    (∃ l, positionC fuel A above below i = .ok l ∧ l ≠ [] ∧ (∀ c, c ∈ l ↔ AllowedPrin A above i c) ∧
      l.Pairwise (fun a b => Row.lt a.places b.places = true)) ∨
    (positionC fuel A above below i = .throw .invalidArgument ∧ ∀ c, ¬ AllowedPrin A above i c) := by
  have hl : ∃ l, (if above = [] then selectPrinC fuel A i else .ok above) = .ok l ∧ ∀ c, c ∈ l ↔ AllowedPrin A above i c := by
    unfold AllowedPrin
    by_cases he : above = []
    · rw [if_pos he]
      simp only [ne_eq, he, not_true_eq_false, if_false]
      unfold selectPrinC
      by_cases hw : A.rightPlace = true ∧ A.bells % 2 = 0 ∧ i % 2 = 0
      · simp only [if_pos hw]
        obtain ⟨x, x1, x2⟩ := cross_mem (n := A.bells) (by omega) hw.2.1
        exact ⟨[x], by rw [x1, Out.ok_bind], fun c => by rw [List.mem_singleton, x2]⟩
      · simp only [if_neg hw]
        obtain ⟨l, l1, l2⟩ := changesC_mem (nw := A.bells) (nh := 0) (nt := A.bells) (by omega) (by omega) fuel hf
        refine ⟨_, by rw [l1, Out.ok_bind], fun c => ?_⟩
        rw [List.mem_filter, l2, and_assoc, and_assoc]
        refine and_congr_right fun hn => and_congr_right fun hc => ?_
        have hs : ∀ s ∈ c.swaps, 0 ≤ s ∧ s + 2 ≤ 0 + A.bells := fun s hs => by have := hc.2.2 s hs; omega
        have hwf := wf_of hn hc
        have q1 := WF.findplace_eq hwf (A.bells - 2)
        have q2 := WF.findplace_eq hwf 1
        have q3 := commonOk_iff hch hn hwf
        have p1 : c.findplace (A.bells - 2) = true ↔ IsPlace A.bells c.swaps (A.bells - 2) :=
          ⟨fun hx => ⟨by omega, q1.1 hx⟩, fun hx => q1.2 hx.2⟩
        have p2 : c.findplace 1 = true ↔ IsPlace A.bells c.swaps 1 := ⟨fun hx => ⟨by omega, q2.1 hx⟩, fun hx => q2.2 hx.2⟩
        rw [Bool.and_eq_true, Bool.and_eq_true, q3, ← p1, ← p2]
        simp only [Bool.not_eq_true', Bool.and_eq_false_iff, Bool.or_eq_false_iff, Bool.not_eq_true]
        constructor
        · rintro ⟨-, ⟨g1, g2⟩, g3⟩
          refine ⟨g1, fun k => ?_, fun k k' => ?_⟩
          · rw [k] at g2; simpa using g2
          · rcases k with k | k <;> · rw [k, k'] at g3; simpa using g3
        · rintro ⟨g1, g2, g3⟩
          refine ⟨hs, ⟨g1, ?_⟩, ?_⟩
          · cases k : A.no78 with
            | false => exact .inl rfl
            | true => exact .inr (g2 k)
          · cases k' : A.no78 with
            | false => exact .inl (.inr rfl)
            | true =>
              by_cases k : A.skewsym = true ∨ A.doubsym = true
              · exact .inr (g3 k k')
              · push Not at k
                simp only [ne_eq, Bool.not_eq_true] at k
                exact .inl (.inl k)
    · rw [if_neg he]
      simp only [ne_eq, he, not_false_eq_true, if_true]
      exact ⟨above, rfl, fun c => ⟨fun hc => ⟨(ha c hc).1, (ha c hc).2, hc⟩, fun hc => hc.2.2⟩⟩
  obtain ⟨l, h1, h2⟩ := hl
  obtain ⟨l', h3, h4, h5⟩ := sort_uniq hb (l := l) (fun c hc => by
    have := (h2 c).1 hc; exact ⟨wf_of this.1 this.2.1, this.1⟩)
  have e : positionC fuel A above below i = if uniq l' = [] then .throw .invalidArgument else .ok (uniq l') := by
    unfold positionC
    rw [if_neg (not_not.2 h0), h1, Out.ok_bind, h3, Out.ok_bind]
  by_cases he : uniq l' = []
  · right
    refine ⟨by rw [e, if_pos he], fun c hc => ?_⟩
    have := (h4 c).2 ((h2 c).2 hc)
    rw [he] at this; cases this
  · left
    refine ⟨uniq l', by rw [e, if_neg he], he, fun c => by rw [h4, h2], h5⟩

/-- The changes are kept from the first position on (with -w, from the first two in turn). -/
def Kept (A : Args) (acc : List (List Change)) : Prop :=
  (if A.rightPlace then 2 else 1) ≤ acc.length ∧
  (∀ l ∈ acc, l ≠ []) ∧ ∀ j l, acc[j]? = some l → acc[if A.rightPlace then j % 2 else 0]? = some l

theorem allowedLoop_kept {A : Args} (h0 : A.huntBells = 0) (fuel : Nat) : ∀ {above below acc : List (List Change)}, above.length = below.length →
    Kept A acc → ∃ ls, allowedLoop fuel A above below acc = .ok (acc ++ ls) ∧ ls.length = above.length ∧ Kept A (acc ++ ls) := by
  intro above
  induction above with
  | nil =>
    intro below acc h1 hk
    have : below = [] := List.length_eq_zero_iff.1 (by rw [← h1]; rfl)
    subst this
    exact ⟨[], by rw [allowedLoop]; simp; simp, rfl, by simpa using hk⟩
  | cons a as ih =>
    intro below acc h1 hk
    cases below with
    | nil => simp at h1
    | cons b bs =>
      obtain ⟨k1, k2, k3⟩ := hk
      rw [allowedLoop, if_neg (by rintro (hc | hc); exacts [hc h0, by omega])]
      have hidx : (if A.rightPlace then acc.length % 2 else 0) < acc.length := by
        split_ifs at k1 ⊢ <;> omega
      have hg := List.getElem?_eq_getElem hidx
      rw [hg]
      simp only
      rw [if_neg (k2 _ (List.getElem_mem hidx))]
      obtain ⟨ls, e1, e2, e3⟩ := ih (below := bs) (acc := acc ++ [acc[if A.rightPlace then acc.length % 2 else 0]]) (by simpa using h1) (by
        refine ⟨by rw [List.length_append]; omega, fun l hl => ?_, fun j l hl => ?_⟩
        · rw [List.mem_append, List.mem_singleton] at hl
          rcases hl with hl | rfl
          · exact k2 l hl
          · exact k2 _ (List.getElem_mem hidx)
        · by_cases hj : j < acc.length
          · rw [List.getElem?_append_left hj] at hl
            have := k3 j l hl
            rw [List.getElem?_append_left]
            · exact this
            · split_ifs at hidx ⊢ <;> omega
          · have hj' : j = acc.length := by
              by_contra hne
              rw [List.getElem?_eq_none (by rw [List.length_append, List.length_singleton]; omega)] at hl
              cases hl
            subst hj'
            rw [List.getElem?_append_left hidx, hg]
            rw [List.getElem?_append_right (Nat.le_refl _)] at hl
            simpa using hl)
      refine ⟨_, by rw [e1, List.append_assoc], by simp [e2], by rw [List.append_assoc] at e3; exact e3⟩

/-- C85: for a principle the changes found for the first position (with -w, for the first two in turn) are used at all positions
of the lead, whatever the mask says about the others. -/
theorem C85_mask_ignored {A : Args} (h0 : A.huntBells = 0) (hw : A.rightPlace = false) (fuel : Nat)
    {a b : List Change} {as bs : List (List Change)} (h1 : as.length = bs.length) {l : List Change} (hl : positionC fuel A a b 0 = .ok l) (hne : l ≠ []) :
    ∃ ls, allowedLoop fuel A (a :: as) (b :: bs) [] = .ok ls ∧ ls.length = as.length + 1 ∧ ∀ m ∈ ls, m = l := by
  rw [allowedLoop, if_pos (.inr (by rw [hw]; decide)), show ([] : List (List Change)).length = 0 from rfl, hl, Out.ok_bind]
  obtain ⟨ls, e1, e2, e3⟩ := allowedLoop_kept h0 fuel (above := as) (below := bs) (acc := [] ++ [l]) h1 (by
    refine ⟨by rw [hw]; simp, by simpa using hne, fun j m hm => ?_⟩
    cases j with
    | zero => rw [hw]; exact hm
    | succ j => simp at hm)
  refine ⟨_, e1, by rw [List.length_append, e2]; simp; omega, fun m hm => ?_⟩
  obtain ⟨j, hj, rfl⟩ := List.getElem_of_mem hm
  have := e3.2.2 j _ (List.getElem?_eq_getElem hj)
  rw [hw] at this
  simpa using this.symm

/-- C85: with -w. -/
theorem C85_mask_ignored_right_place {A : Args} (h0 : A.huntBells = 0) (hw : A.rightPlace = true) (fuel : Nat)
    {a b a' b' : List Change} {as bs : List (List Change)} (h1 : as.length = bs.length) {l l' : List Change} (hl : positionC fuel A a b 0 = .ok l) (hne : l ≠ [])
    (hl' : positionC fuel A a' b' 1 = .ok l') (hne' : l' ≠ []) :
    ∃ ls, allowedLoop fuel A (a :: a' :: as) (b :: b' :: bs) [] = .ok ls ∧ ls.length = as.length + 2 ∧
      ∀ j m, ls[j]? = some m → m = if j % 2 = 0 then l else l' := by
  rw [allowedLoop, if_pos (.inr (by rw [hw]; decide)), show ([] : List (List Change)).length = 0 from rfl, hl, Out.ok_bind, List.nil_append,
    allowedLoop, if_pos (.inr (by rw [hw]; simp)), show [l].length = 1 from rfl, hl', Out.ok_bind]
  obtain ⟨ls, e1, e2, e3⟩ := allowedLoop_kept h0 fuel (above := as) (below := bs) (acc := [l] ++ [l']) h1 (by
    refine ⟨by rw [hw]; simp, by simp [hne, hne'], fun j m hm => ?_⟩
    rw [hw]
    rcases j with - | - | j
    · exact hm
    · exact hm
    · simp at hm)
  refine ⟨_, e1, by rw [List.length_append, e2]; simp; omega, fun j m hm => ?_⟩
  have := e3.2.2 j m hm
  rw [hw, if_pos rfl] at this
  rcases Nat.mod_two_eq_zero_or_one j with hj | hj
  · rw [hj] at this; rw [if_pos hj]; simpa using this.symm
  · rw [hj] at this; rw [if_neg (by omega)]; simpa using this.symm

/-! ### Examples -/

/-- Six bells, the treble plain hunting. -/
def exPlain : Args :=
  { bells := 6, leadLen := 12, huntBells := 1, trebleDodges := 0, trebleFront := 1, trebleBack := 6, rightPlace := false, no78 := false,
    sym := true, skewsym := false, doubsym := false, mirrorsym := false, trueTrivial := false, maxPlaces := 2, maxConsec := 0,
    includeChanges := false, changes := [] }

/-- The treble dodging once in each pair of places. -/
def exDodge : Args := { exPlain with leadLen := 24, trebleDodges := 1, rightPlace := true, no78 := true }

/-- Little: the treble hunting from seconds to fourths. -/
def exLittle : Args := { exPlain with leadLen := 6, trebleFront := 2, trebleBack := 4 }

theorem exPlain_std : Std exPlain := by constructor <;> decide
theorem exDodge_std : Std exDodge := by constructor <;> decide
theorem exLittle_std : Std exLittle := by constructor <;> decide

example : (List.range 13).map (treblePos exPlain) = [0, 1, 2, 3, 4, 5, 5, 4, 3, 2, 1, 0, 0] := by decide +kernel
example : (List.range 25).map (treblePos exDodge) =
    [0, 1, 0, 1, 2, 3, 2, 3, 4, 5, 4, 5, 5, 4, 5, 4, 3, 2, 3, 2, 1, 0, 1, 0, 0] := by decide +kernel
example : (List.range 7).map (treblePos exLittle) = [1, 2, 3, 3, 2, 1, 1] := by decide +kernel

/-- At the first change: -, 34, 36 and 56, the treble swapping with the bell in second's place. -/
example : positionC 100 exPlain [] [] 0 = .ok [⟨6, [0, 2, 4]⟩, ⟨6, [0, 4]⟩, ⟨6, [0, 3]⟩, ⟨6, [0, 2]⟩] := by decide +kernel

/-- With -w only the cross is left here. -/
example : positionC 100 exDodge [] [] 0 = .ok [⟨6, [0, 2, 4]⟩] := by decide +kernel

/-- With the treble in 3-4, -f and -w leave above only the swap of the last two bells; below, -w asks for nothing at this change. -/
example : positionC 100 exDodge [] [] 5 = .ok [⟨6, [0, 2, 4]⟩, ⟨6, [2, 4]⟩] := by decide +kernel

/-- The mask asks for 36. -/
example : positionC 100 exPlain [⟨6, [0, 3]⟩] [] 0 = .ok [⟨6, [0, 3]⟩] := by decide +kernel
example : Right exPlain 0 ⟨6, [0, 3]⟩ := ⟨rfl, by show Change.WF ⟨6, [0, 3]⟩; decide, by unfold Moves; decide⟩

/-- A change of the mask which stops the treble, here 16 as the first change, makes `merge_changes` swap overlapping pairs. -/
example : positionC 100 exPlain [⟨6, [1, 3]⟩] [] 0 = .ub := by decide +kernel

/-- While the treble lies behind, another place is made at the lead: with -l1 there is no change left. -/
example : positionC 100 { exPlain with maxPlaces := 1 } [] [] 5 = .throw .invalidArgument := by decide +kernel

/-- A principle on five bells. -/
def exPrin : Args := { exPlain with bells := 5, leadLen := 5, huntBells := 0, maxPlaces := 1 }

example : positionC 100 exPrin [] [] 0 = .ok [⟨5, [1, 3]⟩, ⟨5, [0, 3]⟩, ⟨5, [0, 2]⟩] := by decide +kernel

/-- The mask 3.1.5.3.1 of a principle is read as if it were 3.3.3.3.3. -/
example : allowedLoop 100 exPrin [[⟨5, [0, 3]⟩], [⟨5, [1, 3]⟩], [⟨5, [0, 2]⟩], [⟨5, [0, 3]⟩], [⟨5, [1, 3]⟩]]
    [[⟨5, [0, 3]⟩], [⟨5, [1, 3]⟩], [⟨5, [0, 2]⟩], [⟨5, [0, 3]⟩], [⟨5, [1, 3]⟩]] [] =
    .ok [[⟨5, [0, 3]⟩], [⟨5, [0, 3]⟩], [⟨5, [0, 3]⟩], [⟨5, [0, 3]⟩], [⟨5, [0, 3]⟩]] := by decide +kernel

end Mask
end Ringing
