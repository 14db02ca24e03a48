import Verif.Lemmas.MaskSym

/-! C87: the symmetries of masks and of --changes in `methsearch`. -/
namespace Ringing
namespace Mask

theorem getElem?_getD {l : List (List Change)} {d : Nat} (h : d < l.length) : l[d]? = some (l.getD d []) := by
  rw [List.getD_eq_getElem?_getD, List.getElem?_eq_getElem h]; rfl

theorem pickC_eq {above below : List (List Change)} {d j : Nat} (h1 : d < above.length) (h2 : d < below.length) (h3 : j < above.length) (h4 : j < below.length)
    (f : List Change → List Change → List Change → List Change → Bool) :
    pickC above below d j f = .ok (f (above.getD d []) (below.getD d []) (above.getD j []) (below.getD j [])) := by
  unfold pickC
  rw [getElem?_getD h1, getElem?_getD h2, getElem?_getD h3, getElem?_getD h4]

/-- The middle of the half lead. -/
def halfLead (A : Args) : Nat := A.leadLen / 2 - 1 + (if A.huntBells ≠ 0 ∧ A.huntBells % 2 = 0 then 1 else 0)

/-- C87: without --skewsym the check finds whether the mask has the symmetries asked for, whatever the number of hunt bells:
with --doubsym, that what it says above the treble it says reversed below it half a lead later; with --sym, that it says the
same at positions as far before the half lead as after it - where it says anything at both. -/
theorem C87_consistent {A : Args} {n : Nat} {above below : List (List Change)} (hs : A.skewsym = false) (hl : 2 ≤ A.leadLen)
    (ha : above.length = A.leadLen) (hb : below.length = A.leadLen) (fa : Fine n above) (fb : Fine n below) :
    ∃ b, consistentC A above below = .ok b ∧ (b = true ↔
      (A.doubsym = true → Rotational (A.leadLen / 2) above below) ∧ (A.sym = true → Palindromic (A.leadLen / 2) (halfLead A) above below)) := by
  obtain ⟨hl', hhl⟩ : ∃ x, x = A.leadLen / 2 := ⟨_, rfl⟩
  obtain ⟨off, hoff⟩ : ∃ x, x = if A.huntBells ≠ 0 ∧ A.huntBells % 2 = 0 then 1 else 0 := ⟨_, rfl⟩
  have hoff1 : off ≤ 1 := by rw [hoff]; split <;> omega
  unfold consistentC halfLead
  rw [← hhl, ← hoff]
  have hlen : ∀ d, d < 2 * hl' → d < above.length ∧ d < below.length := by intro d hd; omega
  let tD : Nat → Nat → Bool := fun d j => crossOk (above.getD d []) (below.getD d []) (above.getD j []) (below.getD j [])
  let tS : Nat → Nat → Bool := fun d j => mirrorOk (above.getD d []) (below.getD d []) (above.getD j []) (below.getD j [])
  let out : Nat → Bool := fun d => decide (2 * ((hl' : Int) - 1 + off) - d < 0 ∨ 2 * ((hl' : Int) - 1 + off) - d ≥ 2 * hl')
  let t : Nat → Bool := fun d => (!A.doubsym || tD d ((d + hl') % (2 * hl'))) && (!A.sym || out d || tS d (2 * ((hl' : Int) - 1 + off) - d).toNat)
  have hat : ∀ d, 0 ≤ d → d < 0 + 2 * hl' → consistentAtC A above below d = .ok (t d) := by
    intro d _ hd
    have hd := hlen d (by omega)
    have hj := hlen ((d + hl') % (2 * hl')) (Nat.mod_lt _ (by omega))
    unfold consistentAtC
    simp only [hs, Bool.false_eq_true, false_and, if_false, Out.ok_bind, ← hhl, pickC_eq hd.1 hd.2 hj.1 hj.2]
    rw [if_neg (by simp)]
    have hcast : ((if A.huntBells ≠ 0 ∧ A.huntBells % 2 = 0 then (1 : Int) else 0)) = (off : Int) := by rw [hoff]; split <;> rfl
    rw [hcast]
    have hS : (if A.sym = true then if 2 * ((hl' : Int) - 1 + off) - d < 0 ∨ 2 * ((hl' : Int) - 1 + off) - d ≥ 2 * hl' then Out.ok true else
          pickC above below d (2 * ((hl' : Int) - 1 + off) - d).toNat mirrorOk else Out.ok true) = .ok (!A.sym || out d || tS d (2 * ((hl' : Int) - 1 + off) - d).toNat) := by
      cases hsym : A.sym with
      | false => rfl
      | true =>
        rw [if_pos rfl]
        by_cases ho : 2 * ((hl' : Int) - 1 + off) - d < 0 ∨ 2 * ((hl' : Int) - 1 + off) - d ≥ 2 * hl'
        · rw [if_pos ho]; have : out d = true := decide_eq_true ho
          rw [this]; rfl
        · rw [if_neg ho]; have : out d = false := decide_eq_false ho
          have hj := hlen (2 * ((hl' : Int) - 1 + off) - d).toNat (by omega)
          rw [this, pickC_eq hd.1 hd.2 hj.1 hj.2]; rfl
    cases hdb : A.doubsym with
    | false =>
      simp only [Bool.false_eq_true, if_false, Out.ok_bind]
      rw [if_neg (by simp)]
      rw [hS]
      show _ = Out.ok (_ && _)
      rw [hdb]; rfl
    | true =>
      simp only [if_true, Out.ok_bind]
      rw [hS]
      show _ = Out.ok (_ && _)
      rw [hdb]
      show (if tD d ((d + hl') % (2 * hl')) = false then Out.ok false else _) = _
      cases tD d ((d + hl') % (2 * hl')) <;> simp
  obtain ⟨b, hb1, hb2⟩ := consistentLoop_spec t hat
  refine ⟨b, hb1, hb2.trans ?_⟩
  have hD := crossed_iff fa fb (fun d j => d < 2 * hl' ∧ j = (d + hl') % (2 * hl')) (by
    rintro d j ⟨h1, rfl⟩
    refine ⟨Nat.mod_lt _ (by omega), ?_⟩
    rcases Nat.lt_or_ge d hl' with h | h
    · rw [Nat.mod_eq_of_lt (a := d + hl') (by omega), show d + hl' + hl' = d + 2 * hl' by omega, Nat.add_mod_right, Nat.mod_eq_of_lt h1]
    · rw [show d + hl' = (d - hl') + 2 * hl' by omega, Nat.add_mod_right, Nat.mod_eq_of_lt (a := d - hl') (by omega),
        Nat.sub_add_cancel h, Nat.mod_eq_of_lt h1])
  have hSa := mirrored_iff fa (fun d j => d < 2 * hl' ∧ j < 2 * hl' ∧ d + j = 2 * (hl' - 1 + off)) (by rintro d j ⟨h1, h2, h3⟩; exact ⟨h2, h1, by omega⟩)
  have hSb := mirrored_iff fb (fun d j => d < 2 * hl' ∧ j < 2 * hl' ∧ d + j = 2 * (hl' - 1 + off)) (by rintro d j ⟨h1, h2, h3⟩; exact ⟨h2, h1, by omega⟩)
  constructor
  · intro h
    constructor
    · intro hd d hdl
      refine hD.1 ?_ d _ ⟨hdl, rfl⟩
      rintro d j ⟨h1, rfl⟩
      have := h d (by omega) (by omega)
      simp only [t, hd, Bool.not_true, Bool.false_or, Bool.and_eq_true] at this
      exact this.1
    · intro hsy
      have key : ∀ d j, (d < 2 * hl' ∧ j < 2 * hl' ∧ d + j = 2 * (hl' - 1 + off)) → tS d j = true := by
        rintro d j ⟨h1, h2, h3⟩
        have := h d (by omega) (by omega)
        have ho : out d = false := decide_eq_false (by omega)
        simp only [t, hsy, ho, Bool.not_true, Bool.false_or, Bool.and_eq_true] at this
        rw [show j = (2 * ((hl' : Int) - 1 + off) - d).toNat by omega]
        exact this.2
      have k2 := fun d j hh => (Bool.and_eq_true _ _).mp (key d j hh)
      simp only [guard_iff] at k2
      intro d d2 h1 h2 h3
      exact ⟨hSa.1 (fun d j hh => (k2 d j hh).1) d d2 ⟨h1, h2, h3⟩, hSb.1 (fun d j hh => (k2 d j hh).2) d d2 ⟨h1, h2, h3⟩⟩
  · rintro ⟨h1, h2⟩ d _ hdl
    show (_ && _) = true
    rw [Bool.and_eq_true]
    constructor
    · cases hdb : A.doubsym with
      | false => rfl
      | true =>
        exact hD.2 (by rintro d j ⟨g, rfl⟩; exact h1 hdb d g) d _ ⟨by omega, rfl⟩
    · cases hsy : A.sym with
      | false => rfl
      | true =>
        by_cases ho : 2 * ((hl' : Int) - 1 + off) - d < 0 ∨ 2 * ((hl' : Int) - 1 + off) - d ≥ 2 * hl'
        · have : out d = true := decide_eq_true ho
          rw [this]; rfl
        · have : out d = false := decide_eq_false ho
          rw [this]
          show tS d _ = true
          have hj : d < 2 * hl' ∧ (2 * ((hl' : Int) - 1 + off) - d).toNat < 2 * hl' ∧ d + (2 * ((hl' : Int) - 1 + off) - d).toNat = 2 * (hl' - 1 + off) := by omega
          refine (Bool.and_eq_true _ _).mpr ⟨(guard_iff _ _ _).2 (hSa.2 (fun d j hh => (h2 hsy d j hh.1 hh.2.1 hh.2.2).1) d _ hj), (guard_iff _ _ _).2 (hSb.2 (fun d j hh => (h2 hsy d j hh.1 hh.2.1 hh.2.2).2) d _ hj)⟩

/-- C87: with --skewsym alone and an even number of hunt bells the check finds whether the mask has that symmetry, of which the
changes at the quarter leads are not looked at. -/
theorem C87_skew {A : Args} {n : Nat} {above below : List (List Change)} (hs : A.skewsym = true) (hd : A.doubsym = false) (hy : A.sym = false)
    (he : A.huntBells % 2 = 0) (ha : above.length = A.leadLen) (hb : below.length = A.leadLen) (fa : Fine n above) (fb : Fine n below) :
    ∃ b, consistentC A above below = .ok b ∧ (b = true ↔ Skew (A.leadLen / 2) above below) := by
  obtain ⟨hl', hhl⟩ : ∃ x, x = A.leadLen / 2 := ⟨_, rfl⟩
  unfold consistentC
  rw [← hhl]
  have hlen : ∀ d, d < 2 * hl' → d < above.length ∧ d < below.length := by intro d hd; omega
  let tD : Nat → Nat → Bool := fun d j => crossOk (above.getD d []) (below.getD d []) (above.getD j []) (below.getD j [])
  let j : Nat → Int := fun d => (if d > hl' then 3 else 1) * (hl' : Int) - d
  let out : Nat → Bool := fun d => decide (j d < 0 ∨ j d ≥ hl' * 2 ∨ j d = d)
  have hjd : ∀ d, j d = (if d > hl' then 3 else 1) * (hl' : Int) - d := fun _ => rfl
  have hat : ∀ d, 0 ≤ d → d < 0 + 2 * hl' → consistentAtC A above below d = .ok (out d || tD d (j d).toNat) := by
    intro d _ hdl
    have hd' := hlen d (by omega)
    unfold consistentAtC
    simp only [hs, hd, hy, true_and, if_true, Bool.false_eq_true, if_false, Out.ok_bind, ← hhl]
    have e0 : (A.huntBells : Int) % 2 * 2 = 0 := by omega
    rw [e0, Int.sub_zero, ← hjd]
    by_cases ho : j d < 0 ∨ j d ≥ hl' * 2 ∨ j d = d
    · rw [if_pos ho]; have : out d = true := decide_eq_true ho
      rw [this]; rfl
    · rw [if_neg ho]; have : out d = false := decide_eq_false ho
      have hj := hlen (j d).toNat (by omega)
      simp only [pickC_eq hd'.1 hd'.2 hj.1 hj.2, Out.ok_bind, this]
      show (if tD d (j d).toNat = false then Out.ok false else _) = _
      cases tD d (j d).toNat <;> simp
  obtain ⟨b, hb1, hb2⟩ := consistentLoop_spec _ hat
  refine ⟨b, hb1, hb2.trans ?_⟩
  have hD := crossed_iff fa fb (fun d k => d < 2 * hl' ∧ k < 2 * hl' ∧ d ≠ k ∧ (d + k = hl' ∨ d + k = 3 * hl')) (by
    rintro d k ⟨h1, h2, h3, h4⟩; exact ⟨h2, h1, Ne.symm h3, by omega⟩)
  have hrel : ∀ d k, d < 2 * hl' → k < 2 * hl' → d ≠ k → (d + k = hl' ∨ d + k = 3 * hl') → (j d).toNat = k ∧ out d = false := by
    intro d k h1 h2 h3 h4
    have : j d = k := by
      rw [hjd]; split <;> omega
    refine ⟨by omega, decide_eq_false ?_⟩
    rw [this]; omega
  constructor
  · intro h d d2 h1 h2 h3 h4
    refine hD.1 ?_ d d2 ⟨h1, h2, h3, h4⟩
    rintro d k ⟨h1, h2, h3, h4⟩
    have := h d (by omega) (by omega)
    rw [(hrel d k h1 h2 h3 h4).1, (hrel d k h1 h2 h3 h4).2, Bool.false_or] at this
    exact this
  · intro h d _ hdl
    by_cases ho : j d < 0 ∨ j d ≥ hl' * 2 ∨ j d = d
    · have : out d = true := decide_eq_true ho
      rw [this]; rfl
    · rw [show out d = false from decide_eq_false ho]
      refine hD.2 (fun d k hh => h d k hh.1 hh.2.1 hh.2.2.1 hh.2.2.2) d _ ⟨by omega, by omega, by omega, ?_⟩
      have := hjd d
      split at this <;> omega

theorem any_eq_mem {n : Nat} {l : List Change} (hl : ∀ c ∈ l, c.WF ∧ c.n = n) {c : Change} (hc : c.WF ∧ c.n = n) : l.any (Change.eq c) = true ↔ c ∈ l := by
  rw [List.any_eq_true]
  constructor
  · rintro ⟨y, hy, he⟩; rw [(eq_iff hc (hl y hy)).1 he]; exact hy
  · intro h; exact ⟨c, h, (eq_iff hc hc).2 rfl⟩

/-- The changes of --changes that stay: without `!` those whose reverse is one too, with `!` those of which either is one. -/
def KeptChange (A : Args) (c : Change) : Prop :=
  if A.includeChanges then c ∈ A.changes ∧ c.reverse ∈ A.changes else c.WF ∧ (c ∈ A.changes ∨ c.reverse ∈ A.changes)

/-- C87: with --skewsym or --doubsym the set of --changes becomes the part of it that is the same reversed (with `!`, the least set
containing it that is); if nothing is left an exception is thrown. Without either it stays as it is. -/
theorem C87_restrict {A : Args} {n : Nat} (hc : ∀ c ∈ A.changes, c.WF ∧ c.n = n) (hne : A.changes ≠ []) :
    ((A.skewsym = false ∧ A.doubsym = false) → restrictC A = .ok A) ∧
    ((A.skewsym = true ∨ A.doubsym = true) →
      (∃ cs, restrictC A = .ok { A with changes := cs } ∧ cs ≠ [] ∧ ∀ c, c ∈ cs ↔ KeptChange A c) ∨ (restrictC A = .throw .invalidArgument ∧ ∀ c, ¬KeptChange A c)) := by
  unfold restrictC
  rw [if_pos hne]
  constructor
  · rintro ⟨h1, h2⟩
    have hor : (A.skewsym || A.doubsym) = false := by rw [h1, h2]; rfl
    simp only [hor, Bool.false_eq_true, if_false]
    rw [if_neg hne]
  · intro h
    have hor : (A.skewsym || A.doubsym) = true := by rcases h with h | h <;> simp [h]
    simp only [hor, if_true]
    have hrev : ∀ c ∈ A.changes, c.reverse.WF ∧ c.reverse.n = n := fun c h => ⟨(hc c h).1.reverse, (hc c h).2⟩
    have hasym : ∀ c, c ∈ (A.changes.filter fun c => !A.changes.any (Change.eq c.reverse)) ↔ c ∈ A.changes ∧ c.reverse ∉ A.changes := by
      intro c
      rw [List.mem_filter]
      refine and_congr_right fun h => ?_
      rw [Bool.not_eq_true', ← Bool.not_eq_true, any_eq_mem hc (hrev c h)]
    have hmem : ∀ c, c ∈ doubleSymmetry A.includeChanges A.changes ↔ KeptChange A c := by
      intro c
      unfold doubleSymmetry
      unfold KeptChange
      cases A.includeChanges with
      | true =>
        rw [if_pos rfl, if_pos rfl, List.mem_filter]
        refine and_congr_right fun h => ?_
        rw [Bool.not_eq_true', ← Bool.not_eq_true, any_eq_mem (n := n) (fun c h => hc c ((hasym c).1 h).1) (hc c h), hasym]
        constructor
        · intro g; by_contra g'; exact g ⟨h, g'⟩
        · rintro g ⟨_, g'⟩; exact g' g
      | false =>
        rw [if_neg (by simp), if_neg (by simp), List.mem_append, List.mem_map]
        constructor
        · rintro (h | ⟨x, hx, rfl⟩)
          · exact ⟨(hc c h).1, .inl h⟩
          · have := (hasym x).1 hx
            exact ⟨(hrev x this.1).1, .inr (by rw [(hc x this.1).1.reverse_reverse]; exact this.1)⟩
        · rintro ⟨hw, h | h⟩
          · exact .inl h
          · by_cases g : c ∈ A.changes
            · exact .inl g
            · exact .inr ⟨c.reverse, (hasym _).2 ⟨h, by rw [hw.reverse_reverse]; exact g⟩, hw.reverse_reverse⟩
    by_cases hnil : doubleSymmetry A.includeChanges A.changes = []
    · right
      rw [if_pos hnil]
      exact ⟨rfl, fun c hk => by have := (hmem c).2 hk; rw [hnil] at this; cases this⟩
    · left
      rw [if_neg hnil]
      exact ⟨_, rfl, hnil, hmem⟩

/-- The arguments of the examples. -/
def symArgs (hunts : Nat) (sym doub skew : Bool) : Args :=
  { bells := 6, sym := sym, doubsym := doub, skewsym := skew, leadLen := 12, huntBells := hunts, trebleDodges := 0,
    trebleFront := 0, trebleBack := 5, rightPlace := false, no78 := false, mirrorsym := false, trueTrivial := false, maxPlaces := 0, maxConsec := 0,
    includeChanges := false, changes := [] }

def xc : Change := ⟨6, [0, 2, 4]⟩
def pc (s : List Nat) : Change := ⟨6, s⟩

/-- A lead of a palindromic method, and one with one change altered. -/
def goodMask : List (List Change) := [[xc], [pc [0, 4]], [], [pc [0, 2]], [xc], [pc [2, 4]], [xc], [pc [0, 2]], [], [pc [0, 4]], [xc], [pc [2, 4]]]
def badMask : List (List Change) := [[xc], [pc [0, 4]], [], [pc [0, 2]], [xc], [pc [2, 4]], [xc], [pc [0, 2]], [], [pc [2, 4]], [xc], [pc [2, 4]]]

example : consistentC (symArgs 1 true false false) goodMask goodMask = .ok true ∧ consistentC (symArgs 1 true false false) badMask badMask = .ok false := by
  decide +kernel

example : consistentC (symArgs 2 false false true) goodMask (goodMask.map fun _ => []) = .ok true := by decide +kernel

example : Fine 6 goodMask := by
  intro x hx c hc
  simp only [goodMask, List.mem_cons, List.not_mem_nil, or_false] at hx
  rcases hx with rfl | rfl | rfl | rfl | rfl | rfl | rfl | rfl | rfl | rfl | rfl | rfl <;>
    simp only [List.mem_cons, List.not_mem_nil, or_false] at hc <;> subst hc <;> refine ⟨?_, rfl⟩ <;> unfold Change.WF <;> decide

/-- With one hunt bell --skewsym compares the first position of the second half lead with the last but one in one direction only, and
misses that the other direction names a change more. -/
def skewAbove : List (List Change) := [[], [], [], [], [], [], [], [], [], [], [pc [0, 4]], []]
def skewBelow : List (List Change) := [[], [], [], [], [], [], [pc [0, 4], pc [0, 2]], [], [], [], [], []]

example : consistentC (symArgs 1 false false true) skewAbove skewBelow = .ok true ∧ ¬Agree (skewAbove.getD 10 []) ((skewBelow.getD 6 []).map Change.reverse) := by
  refine ⟨by decide +kernel, ?_⟩
  unfold Agree
  simp only [skewAbove, skewBelow, List.getD_cons_succ, List.getD_cons_zero]
  rintro (h | h | h)
  · cases h
  · cases h
  · have := (h (pc [0, 2]).reverse).2 (by simp)
    revert this; decide

example : restrictC { symArgs 1 false true false with includeChanges := true, changes := [pc [0], pc [4], pc [2, 4]] } =
    .ok { symArgs 1 false true false with includeChanges := true, changes := [pc [0], pc [4]] } := by rfl

example : restrictC { symArgs 1 false true false with includeChanges := true, changes := [pc [0]] } = .throw .invalidArgument := by rfl

end Mask
end Ringing
