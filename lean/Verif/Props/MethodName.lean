import Verif.Lemmas.MethodName
import Verif.Props.MethodClass
/-
C54: the names of methods.  C55: the codes of lead heads.
-/
namespace Ringing
open Spec
namespace Method

/-- What the lead end of a method with `h` hunt bells must look like for a code to exist: with one hunt bell
the last change makes 2nds place or 1sts place, with two the first change makes 3rds place or none (apart from
the places that the number of bells makes necessary). -/
def LeadEnd (m : Method) (h : Nat) (seconds : Bool) : Prop :=
  ∃ c, (if h = 1 then m.ch.getLast? else m.ch.head?) = some c ∧
    ∀ i, IsPlace m.b c.swaps i ↔ i < m.b ∧
      PlaceMade m.b (if h = 1 then (if seconds then [0, 1] else [0]) else (if seconds then [2] else [])) i

/-- The method has a lead head code: its lead head is the `k`-th power of the first plain bob lead head with
one or two hunt bells, all leads of the course are different, and it has the right lead end. -/
def HasCode (m : Method) (h k : Nat) (seconds : Bool) : Prop :=
  (h = 1 ∨ h = 2) ∧ 1 ≤ k ∧ k + h < m.b ∧ Nat.Coprime k (m.b - h) ∧
  (∃ r l, lhC m = .ok r ∧ Row.pblhC m.b h = .ok l ∧ ∀ i, bellAt r i = iter (bellAt l) k i) ∧
  LeadEnd m h seconds

theorem eq_places {b : Nat} (hb : b ≤ 255) (h0 : b ≠ 0) {ps : List Nat} (hps : PlacesOK b ps) {c : Change}
    (hc : IsChange c.n c.swaps) (hcn : c.n = b) : ∃ x, Change.ofPlacesC b ps = .ok x ∧
      (Change.eq c x = true ↔ ∀ i, IsPlace b c.swaps i ↔ i < b ∧ PlaceMade b ps i) := by
  obtain ⟨ss, h1, h2, h3⟩ := (C11_places hb ps).1 hps
  refine ⟨_, h1, ?_⟩
  unfold Change.eq
  subst hcn
  have : decide (c.n = 0) = false := by simpa using h0
  simp only [this, decide_true, Bool.true_and, Bool.false_or, decide_eq_true_eq]
  constructor
  · rintro e i; rw [e]; exact h3 i
  · intro e
    apply C11_places_determine hc h2
    intro i; rw [e, h3]

theorem lhplace_spec {m : Method} (hm : m.WF) {h : Nat} (hh : h = 1 ∨ h = 2) (hb : h + 2 ≤ m.b) (hne : m.ch ≠ []) :
    ∃ p, lhplaceC m (decide (h = 2)) = .ok p ∧ p ≤ 2 ∧ (p = 1 ↔ LeadEnd m h false) ∧ (p = 2 ↔ LeadEnd m h true) := by
  have h255 := hm.1
  have h0 : m.b ≠ 0 := by omega
  have hx : Change.ofStringC m.b ['X'] = Change.ofPlacesC m.b [] := (C11_string m.b ['X']).1 (Or.inl rfl)
  have h3 : Change.ofStringC m.b ['3'] = Change.ofPlacesC m.b [2] :=
    (C11_string m.b ['3']).2.1 (by simp) (by decide) (by decide) (by decide) _ (by decide)
  have h1 : Change.ofStringC m.b ['1'] = Change.ofPlacesC m.b [0] :=
    (C11_string m.b ['1']).2.1 (by simp) (by decide) (by decide) (by decide) _ (by decide)
  have h12 : Change.ofStringC m.b ['1', '2'] = Change.ofPlacesC m.b [0, 1] :=
    (C11_string m.b ['1', '2']).2.1 (by simp) (by decide) (by decide) (by decide) _ (by decide)
  unfold lhplaceC LeadEnd
  rcases hh with rfl | rfl
  · have hd : decide (1 = 2) = false := by decide
    have hlen : m.length ≠ 0 := by unfold length; simpa using hne
    obtain ⟨c, hc⟩ : ∃ c, m.ch.getLast? = some c := by
      rw [List.getLast?_eq_some_getLast hne]; exact ⟨_, rfl⟩
    have hat : at' m (m.length - 1) = .ok c := by
      unfold at' vget length
      rw [← List.getLast?_eq_getElem?, hc]
    obtain ⟨hcc, hcn⟩ := hm.2 c (List.mem_of_getLast? hc)
    obtain ⟨x, x1, x2⟩ := eq_places h255 h0 (ps := [0]) ⟨by simp; omega, by simp⟩ hcc hcn
    obtain ⟨y, y1, y2⟩ := eq_places h255 h0 (ps := [0, 1]) ⟨by simp; omega, by simp⟩ hcc hcn
    simp only [hd, Bool.false_eq_true, if_false, if_neg hlen, hat, Out.ok_bind, h1, h12, x1, y1, if_true, hc]
    have hxy : ¬ (Change.eq c x = true ∧ Change.eq c y = true) := by
      rintro ⟨a, a'⟩
      have e1 := (x2.1 a 1).1 ((y2.1 a' 1).2 ⟨by omega, Or.inl (by simp)⟩)
      rcases e1.2 with e | ⟨e, -⟩ | ⟨e, -⟩
      · simp at e
      · omega
      · omega
    by_cases ex : Change.eq c x = true
    · refine ⟨1, by rw [if_pos ex], by omega, ?_, ?_⟩
      · simp only [true_iff]; exact ⟨c, rfl, x2.1 ex⟩
      · refine ⟨fun h => by omega, ?_⟩
        rintro ⟨c', e, h⟩; cases e; exact absurd ⟨ex, y2.2 h⟩ hxy
    · rw [if_neg ex]
      refine ⟨_, rfl, by split <;> omega, ?_, ?_⟩
      · constructor
        · intro h; split at h <;> omega
        · rintro ⟨c', e, h⟩; cases e; exact absurd (x2.2 h) ex
      · constructor
        · intro h
          split at h
          · exact ⟨c, rfl, y2.1 ‹_›⟩
          · omega
        · rintro ⟨c', e, h⟩; cases e; rw [if_pos (y2.2 h)]
  · obtain ⟨c, hc⟩ : ∃ c, m.ch.head? = some c := by
      rw [List.head?_eq_some_head hne]; exact ⟨_, rfl⟩
    have hat : at' m 0 = .ok c := by
      unfold at' vget
      rw [← List.head?_eq_getElem?, hc]
    obtain ⟨hcc, hcn⟩ := hm.2 c (List.mem_of_head? hc)
    obtain ⟨x, x1, x2⟩ := eq_places h255 h0 (ps := []) ⟨by simp, by simp⟩ hcc hcn
    obtain ⟨y, y1, y2⟩ := eq_places h255 h0 (ps := [2]) ⟨by simp; omega, by simp⟩ hcc hcn
    simp only [decide_true, if_true, hat, Out.ok_bind, hx, h3, x1, y1, hc, show ¬ (2 = 1) by omega, if_false]
    have hxy : ¬ (Change.eq c x = true ∧ Change.eq c y = true) := by
      rintro ⟨a, a'⟩
      have e1 := (x2.1 a 2).1 ((y2.1 a' 2).2 ⟨by omega, Or.inl (by simp)⟩)
      rcases e1.2 with e | ⟨e, -⟩ | ⟨e, -⟩
      · simp at e
      · omega
      · omega
    by_cases ex : Change.eq c x = true
    · refine ⟨1, by rw [if_pos ex], by omega, ?_, ?_⟩
      · simp only [true_iff]; exact ⟨c, rfl, x2.1 ex⟩
      · refine ⟨fun h => by omega, ?_⟩
        rintro ⟨c', e, h⟩; cases e; exact absurd ⟨ex, y2.2 h⟩ hxy
    · rw [if_neg ex]
      refine ⟨_, rfl, by split <;> omega, ?_, ?_⟩
      · constructor
        · intro h; split at h <;> omega
        · rintro ⟨c', e, h⟩; cases e; exact absurd (x2.2 h) ex
      · constructor
        · intro h
          split at h
          · exact ⟨c, rfl, y2.1 ‹_›⟩
          · omega
        · rintro ⟨c', e, h⟩; cases e; rw [if_pos (y2.2 h)]

theorem vget_bellAt {r : Row} {i : Nat} (h : i < r.length) : vget r i = .ok (bellAt r i) := by
  unfold vget bellAt; rw [dif_pos h]; simp [h]

/-- The whole of `lhcode`. -/
theorem lhcode_spec {m : Method} (hm : m.WF) (hb : m.b ≠ 0) :
    (∃ h k s, HasCode m h k s ∧ lhcodeC m = .ok (leadHeadCode (m.b - h) (if h = 1 then k else m.b - h - k) s)) ∨
    ((¬ ∃ h k s, HasCode m h k s) ∧ lhcodeC m = .ok ['z']) := by
  have h255 := hm.1
  have hlh := hm.lhC_eq
  have hlen := hm.lh_length
  obtain ⟨r, hr⟩ : ∃ r, r = lh m := ⟨_, rfl⟩
  rw [← hr] at hlh hlen
  have hrne : r ≠ [] := by rintro rfl; simp at hlen; omega
  obtain ⟨-, hz2, hz3⟩ := C46_ispblh0 r
  -- what a code says about the lead head
  have hfix : ∀ {h k s}, HasCode m h k s → bellAt r 0 = 0 ∧ ∃ l, Row.pblhC m.b h = .ok l ∧ (∀ i, bellAt r i = iter (bellAt l) k i) ∧
      (∀ i, i < h → bellAt r i = i) ∧ ∀ i, h ≤ i → i < m.b → bellAt r i ≠ i := by
    rintro h k s ⟨hh, hk, hkb, hco, ⟨r', l, e1, e2, e3⟩, -⟩
    rw [hlh] at e1
    injection e1 with e1
    subst e1
    obtain ⟨q1, q2⟩ := pblh_iter h255 (by omega) e2
    have : ∀ i, i < h → bellAt r i = i := fun i hi => by rw [e3, q1 k i hi]
    refine ⟨this 0 (by rcases hh with rfl | rfl <;> omega), l, e2, e3, this, ?_⟩
    intro i h1 h2 e
    rw [e3] at e
    have := q2 k 0 i h1 h2 hkb (by omega) e
    omega
  by_cases h0 : bellAt r 0 = 0
  swap
  · right
    refine ⟨fun ⟨h, k, s, H⟩ => h0 (hfix H).1, ?_⟩
    unfold lhcodeC
    rw [hlh, Out.ok_bind, hz2 hrne h0, Out.ok_bind, if_pos rfl]
  obtain ⟨h, hh1, hh2, hh3, hh4, hh5⟩ := hz3 hrne h0
  rw [hlen] at hh2 hh4
  obtain ⟨l, hl⟩ : ∃ l, Row.pblhC m.b h = .ok l := ⟨_, Row.pblhC_eq h255⟩
  obtain ⟨k, hk1, hk2⟩ := C46_ispblh (r := r) (by omega) h (by rw [hlen]; exact hl)
  rw [hlen] at hk2
  -- the number of hunt bells is the right one
  have hhu : ∀ {h' k' s}, HasCode m h' k' s → h' = h := by
    intro h' k' s H
    obtain ⟨-, l', -, -, a, b⟩ := hfix H
    rcases Nat.lt_trichotomy h' h with c | c | c
    · exact absurd (hh3 h' c) (b h' le_rfl (by have := H.2.2.1; omega))
    · exact c
    · exact absurd (a h c) (hh4 (by have := H.2.2.1; omega))
  unfold lhcodeC
  rw [hlh, Out.ok_bind, hh5, hk1, Out.ok_bind]
  rcases hk2 with ⟨k1, k2, k3, k4⟩ | ⟨k0, kk⟩
  swap
  · right
    rw [if_pos k0]
    refine ⟨?_, rfl⟩
    rintro ⟨h', k', s, H⟩
    obtain rfl := hhu H
    obtain ⟨-, l', e1, e2, -⟩ := hfix H
    rw [hl] at e1
    injection e1 with e1
    subst e1
    obtain ⟨i, hi⟩ := kk k' H.2.1 H.2.2.1
    exact hi (e2 i)
  obtain ⟨q1, q2⟩ := pblh_iter h255 (by omega) hl
  have hmv : ∀ i, h ≤ i → i < m.b → bellAt r i ≠ i := by
    intro i h1 h2 e
    rw [k3] at e
    have := q2 k 0 i h1 h2 k2 (by omega) e
    omega
  have hku : ∀ {h' k' s}, HasCode m h' k' s → k' = k := by
    intro h' k' s H
    obtain rfl := hhu H
    obtain ⟨-, l', e1, e2, -⟩ := hfix H
    rw [hl] at e1
    injection e1 with e1
    subst e1
    have := e2 h'
    rw [k3] at this
    exact (q2 k k' h' le_rfl (by omega) k2 H.2.2.1 this).symm
  rw [if_neg (by omega), vget_bellAt (by omega), Out.ok_bind, h0]
  simp only [ne_eq, not_true, if_false]
  rw [vget_bellAt (by omega), Out.ok_bind]
  by_cases h3 : 3 ≤ h
  · right
    rw [if_pos (hh3 2 (by omega))]
    refine ⟨?_, rfl⟩
    rintro ⟨h', k', s, H⟩
    have := hhu H
    rcases H.1 with e | e <;> omega
  have h12 : h = 1 ∨ h = 2 := by omega
  rw [if_neg (hmv 2 (by omega) (by omega)), vget_bellAt (by omega), Out.ok_bind]
  have htw : decide (bellAt r 1 = 1) = decide (h = 2) := by
    rcases h12 with rfl | rfl
    · have := hmv 1 (by omega) (by omega)
      simp [this]
    · have := hh3 1 (by omega)
      simp [this]
  have hne : m.ch ≠ [] := by
    intro e
    apply hmv h le_rfl (by omega)
    rw [hr, bellAt_eq_fn]
    unfold lh
    rw [e]
    exact Row.fn_rounds _ _
  obtain ⟨p, p1, p2, p3, p4⟩ := lhplace_spec hm h12 (by omega) hne
  simp only [htw, p1, Out.ok_bind]
  have ho : (if decide (h = 2) = true then m.b - 2 else m.b - 1) = m.b - h := by
    rcases h12 with rfl | rfl <;> rfl
  rw [ho]
  have hn : (if decide (h = 2) = true then m.b - h - k else k) = if h = 1 then k else m.b - h - k := by
    rcases h12 with rfl | rfl <;> rfl
  rw [hn]
  obtain ⟨n, hnn⟩ : ∃ n, n = if h = 1 then k else m.b - h - k := ⟨_, rfl⟩
  rw [← hnn]
  have hn1 : 1 ≤ n ∧ n < m.b - h := by rw [hnn]; split <;> omega
  have hgcd : Nat.gcd n (m.b - h) = Nat.gcd k (m.b - h) := by
    rw [hnn]; split
    · rfl
    · exact Nat.gcd_self_sub_left (by omega)
  by_cases hp0 : p = 0
  · right
    rw [if_pos hp0]
    refine ⟨?_, rfl⟩
    rintro ⟨h', k', s, H⟩
    obtain rfl := hhu H
    have hle := H.2.2.2.2.2
    cases s
    · have := p3.2 hle; omega
    · have := p4.2 hle; omega
  rw [if_neg hp0, Row.hcfC_spec (by omega) (by omega), Out.ok_bind, hgcd]
  by_cases hg : Nat.gcd k (m.b - h) > 1
  · right
    rw [if_pos hg]
    refine ⟨?_, rfl⟩
    rintro ⟨h', k', s, H⟩
    obtain rfl := hhu H
    obtain rfl := hku H
    have : Nat.gcd k' (m.b - h') = 1 := H.2.2.2.1
    omega
  · left
    rw [if_neg hg]
    have hco : Nat.Coprime k (m.b - h) := by
      have := Nat.gcd_pos_of_pos_left (m.b - h) (show 0 < k by omega)
      show Nat.gcd k (m.b - h) = 1
      omega
    have hcode : ∀ s, LeadEnd m h s → HasCode m h k s := fun s hs => ⟨h12, k1, k2, hco, ⟨r, l, hlh, hl, k3⟩, hs⟩
    rcases (by omega : p = 1 ∨ p = 2) with rfl | rfl
    · refine ⟨h, k, false, hcode _ (p3.1 rfl), ?_⟩
      rw [← hnn, ← codeText_eq hn1.1 hn1.2]; rfl
    · refine ⟨h, k, true, hcode _ (p4.1 rfl), ?_⟩
      rw [← hnn, ← codeText_eq hn1.1 hn1.2]; rfl

theorem HasCode.unique {m : Method} (hm : m.WF) {h k h' k' : Nat} {s s' : Bool} (H : HasCode m h k s)
    (H' : HasCode m h' k' s') : h = h' ∧ k = k' ∧ s = s' := by
  have key : ∀ {h k s}, HasCode m h k s → ∀ i, h ≤ i → i < m.b → ∀ r, lhC m = .ok r → bellAt r i ≠ i := by
    rintro h k s ⟨hh, hk, hkb, hco, ⟨r', l, e1, e2, e3⟩, -⟩ i h1 h2 r hr e
    rw [hr] at e1
    injection e1 with e1
    subst e1
    obtain ⟨q1, q2⟩ := pblh_iter hm.1 (by omega) e2
    rw [e3] at e
    have := q2 k 0 i h1 h2 hkb (by omega) e
    omega
  have key2 : ∀ {h k s}, HasCode m h k s → ∀ i, i < h → ∀ r, lhC m = .ok r → bellAt r i = i := by
    rintro h k s ⟨hh, hk, hkb, hco, ⟨r', l, e1, e2, e3⟩, -⟩ i h1 r hr
    rw [hr] at e1
    injection e1 with e1
    subst e1
    obtain ⟨q1, q2⟩ := pblh_iter hm.1 (by omega) e2
    rw [e3, q1 _ _ h1]
  have hh : h = h' := by
    rcases Nat.lt_trichotomy h h' with c | c | c
    · exact absurd (key2 H' h c _ hm.lhC_eq) (key H h le_rfl (by have := H.2.2.1; omega) _ hm.lhC_eq)
    · exact c
    · exact absurd (key2 H h' c _ hm.lhC_eq) (key H' h' le_rfl (by have := H'.2.2.1; omega) _ hm.lhC_eq)
  subst hh
  obtain ⟨h12, k1, k2, -, ⟨r, l, e1, e2, e3⟩, le⟩ := H
  obtain ⟨-, k1', k2', -, ⟨r', l', e1', e2', e3'⟩, le'⟩ := H'
  rw [e1] at e1'; injection e1' with e1'; subst e1'
  rw [e2] at e2'; injection e2' with e2'; subst e2'
  obtain ⟨q1, q2⟩ := pblh_iter hm.1 (by omega) e2
  refine ⟨rfl, q2 k k' h le_rfl (by omega) k2 k2' (by rw [← e3, ← e3']), ?_⟩
  have hne : m.ch ≠ [] := by
    obtain ⟨c, hc, -⟩ := le
    intro e
    rw [e] at hc
    split at hc <;> simp at hc
  obtain ⟨p, -, -, p1, p2⟩ := lhplace_spec hm h12 (by omega) hne
  cases s <;> cases s'
  · rfl
  · have := p1.2 le; have := p2.2 le'; omega
  · have := p1.2 le'; have := p2.2 le; omega
  · rfl

end Method

open Method

/-- C55: the code of a method whose lead head is the `k`-th of the plain bob lead heads.  With two hunt bells
they are counted from the end. -/
theorem C55_code {m : Method} (hb : m.b ≤ 255) (hm : ∀ c ∈ m.ch, IsChange c.n c.swaps ∧ c.n = m.b)
    {h k : Nat} {seconds : Bool} (H : HasCode m h k seconds) :
    lhcodeC m = .ok (leadHeadCode (m.b - h) (if h = 1 then k else m.b - h - k) seconds) := by
  have hwf : m.WF := ⟨hb, hm⟩
  rcases lhcode_spec hwf (by have := H.2.2.1; omega) with ⟨h', k', s', H', e⟩ | ⟨h1, -⟩
  · obtain ⟨rfl, rfl, rfl⟩ := H.unique hwf H'
    exact e
  · exact absurd ⟨_, _, _, H⟩ h1

/-- C55: every other method has the code `z`. -/
theorem C55_irregular {m : Method} (h0 : m.b ≠ 0) (hb : m.b ≤ 255)
    (hm : ∀ c ∈ m.ch, IsChange c.n c.swaps ∧ c.n = m.b) (H : ¬ ∃ h k s, HasCode m h k s) :
    lhcodeC m = .ok ['z'] := by
  have hwf : m.WF := ⟨hb, hm⟩
  rcases lhcode_spec hwf h0 with ⟨h', k', s', H', e⟩ | ⟨-, e⟩
  · exact absurd ⟨_, _, _, H'⟩ H
  · exact e

/-- C55, refutation for the method on no bells: the code reads behind the end of the lead head. -/
theorem C55_empty : lhcodeC ⟨0, []⟩ = .ub := by decide

theorem digitChar_inj : ∀ a, a < 10 → ∀ b, b < 10 → Nat.digitChar a = Nat.digitChar b → a = b := by decide

theorem digits_inj {a b : Nat} (h : Spec.digits a = Spec.digits b) : a = b := by
  unfold Spec.digits at h
  have h := List.reverse_injective h
  apply (Nat.digits_inj_iff (b := 10)).1
  have hl : (Nat.digits 10 a).length = (Nat.digits 10 b).length := by
    have := congrArg List.length h; simpa using this
  apply List.ext_getElem hl
  intro i h1 h2
  have e := congrArg (fun l => l[i]?) h
  simp only [List.getElem?_map, List.getElem?_eq_getElem h1, List.getElem?_eq_getElem h2, Option.map_some,
    Option.some.injEq] at e
  exact digitChar_inj _ (Nat.digits_lt_base (by omega) (List.getElem_mem h1)) _
    (Nat.digits_lt_base (by omega) (List.getElem_mem h2)) e

theorem digits_ne_nil {a : Nat} (h : a ≠ 0) : Spec.digits a ≠ [] := by
  unfold Spec.digits
  simpa [Nat.digits_eq_nil_iff_eq_zero] using h

/-- C55: on a given number of bells the code determines the lead head and the lead end, and no such code is
`z`. -/
theorem C55_injective {o k k' : Nat} {s s' : Bool} (h1 : 1 ≤ k) (h2 : k < o) (h1' : 1 ≤ k') (h2' : k' < o) :
    leadHeadCode o k s ≠ ['z'] ∧ (leadHeadCode o k s = leadHeadCode o k' s' → k = k' ∧ s = s') := by
  have d0 : ∀ a, a ≠ 0 → ∃ c t, Spec.digits a = c :: t := fun a ha => List.exists_cons_of_ne_nil (digits_ne_nil ha)
  have cod : ∀ {k : Nat} {s : Bool}, 1 ≤ k → k < o → ∃ f m, f = decide (o < 2 * k) ∧ 1 ≤ m ∧ m = (if f then o - k else k) ∧
      leadHeadCode o k s = if o % 2 = 1 then
        (if m ≤ 3 then [(if f then (if s then ['f', 'e', 'd'] else ['m', 'l', 'k']) else (if s then ['a', 'b', 'c'] else ['g', 'h', 'j'])).getD (m - 1) 'z']
          else (if f then (if s then ['f', 'e', 'd'] else ['m', 'l', 'k']) else (if s then ['a', 'b', 'c'] else ['g', 'h', 'j'])).getD 2 'z' :: Spec.digits (m - 3))
        else (if f then (if s then 'q' else 's') else (if s then 'p' else 'r')) :: (if m = 1 then [] else Spec.digits (m - 1)) := by
    intro k s h1 h2
    refine ⟨_, _, rfl, ?_, rfl, rfl⟩
    split <;> omega
  obtain ⟨f, m, hf, hm1, hm, e⟩ := cod (s := s) h1 h2
  obtain ⟨f', m', hf', hm1', hm', e'⟩ := cod (s := s') h1' h2'
  rw [e, e']
  clear e e' cod
  have fin : f = f' → m = m' → k = k' := by
    rintro rfl rfl
    rw [hm] at hm'
    cases f <;> simp at hm' <;> omega
  by_cases ho : o % 2 = 1
  · simp only [if_pos ho]
    by_cases hm3 : m ≤ 3
    · simp only [if_pos hm3]
      have hmm : m = 1 ∨ m = 2 ∨ m = 3 := by omega
      constructor
      · rcases hmm with rfl | rfl | rfl <;> cases f <;> cases s <;> decide
      · by_cases hm3' : m' ≤ 3
        · simp only [if_pos hm3']
          have hmm' : m' = 1 ∨ m' = 2 ∨ m' = 3 := by omega
          intro h
          have : f = f' ∧ m = m' ∧ s = s' := by
            clear hf hf' hm hm' fin hm1 hm1' hm3 hm3'
            rcases hmm with rfl | rfl | rfl <;> rcases hmm' with rfl | rfl | rfl <;> revert h <;> revert f f' s s' <;> decide
          exact ⟨fin this.1 this.2.1, this.2.2⟩
        · simp only [if_neg hm3']
          intro h
          obtain ⟨c, t, ht⟩ := d0 (m' - 3) (by omega)
          rw [ht] at h
          simp at h
    · simp only [if_neg hm3]
      obtain ⟨c, t, ht⟩ := d0 (m - 3) (by omega)
      constructor
      · rw [ht]; simp
      · by_cases hm3' : m' ≤ 3
        · simp only [if_pos hm3']
          intro h
          rw [ht] at h
          simp at h
        · simp only [if_neg hm3']
          intro h
          injection h with ha hb
          have hmm := digits_inj hb
          have : f = f' ∧ s = s' := by
            clear hf hf' hm hm' fin
            revert ha
            revert f f' s s'
            decide
          exact ⟨fin this.1 (by omega), this.2⟩
  · simp only [if_neg ho]
    constructor
    · intro h
      injection h with h _
      revert h
      cases f <;> cases s <;> decide
    · intro h
      injection h with ha hb
      have : f = f' ∧ s = s' := by
        clear hf hf' hm hm' fin hb
        revert ha
        revert f f' s s'
        decide
      refine ⟨fin this.1 ?_, this.2⟩
      by_cases g : m = 1 <;> by_cases g' : m' = 1
      · omega
      · obtain ⟨c, t, ht⟩ := d0 (m' - 1) (by omega)
        rw [if_pos g, if_neg g', ht] at hb
        simp at hb
      · obtain ⟨c, t, ht⟩ := d0 (m - 1) (by omega)
        rw [if_neg g, if_pos g', ht] at hb
        simp at hb
      · rw [if_neg g, if_neg g'] at hb
        have := digits_inj hb
        omega

end Ringing
