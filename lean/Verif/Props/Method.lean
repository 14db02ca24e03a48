import Verif.Lemmas.Method2
import Verif.Lemmas.PlaceNotation2

/-! C17-C20: place notation of methods, lead heads, symmetry. -/
namespace Ringing
open Spec Row

theorem endOk_nul : PN.EndOk (.ok '\x00') := ⟨_, rfl, by decide⟩

/-- C18: a C string is accepted as place notation exactly when it follows the grammar, and then means
what the grammar says. -/
theorem C18_meaning (n : Nat) (s : List Char) (cs : List Change) :
    PN.ofCStr n s = .ok cs ↔ ∃ w t, White w ∧ s = w ++ t ∧ PNText n t cs := by
  unfold PN.ofCStr PN.interpret
  constructor
  · intro h
    obtain ⟨w, hw, e, -⟩ := PN.skipWs_split s
    have hl : (PN.skipWs s).length ≤ s.length := by
      have := congrArg List.length e; simp at this; omega
    rcases PN.blocks_cases endOk_nul n s.length (PN.skipWs s) [] hl with ⟨ds, h1, h2⟩ | h1
    · rw [h] at h2; cases h2
      exact ⟨w, _, hw, e, h1⟩
    · rw [h] at h1; rcases h1 with h | h | h <;> cases h
  · rintro ⟨w, t, hw, rfl, ht⟩
    rw [PN.skipWs_white hw (PN.pnText_head ht), PN.blocks_complete ht (.inl endOk_nul) (by simp)]
    rfl

/-- C18: a text that does not follow the grammar is rejected with an exception; parsing always ends
and has no undefined behaviour. -/
theorem C18_rejects (n : Nat) (s : List Char) : (∃ cs, PN.ofCStr n s = .ok cs) ∨
    PN.ofCStr n s = .throw .bellInvalid ∨ PN.ofCStr n s = .throw .changeInvalid ∨
    PN.ofCStr n s = .throw .pnInvalid := by
  unfold PN.ofCStr PN.interpret
  obtain ⟨w, hw, e, -⟩ := PN.skipWs_split s
  have hl : (PN.skipWs s).length ≤ s.length := by
    have := congrArg List.length e; simp at this; omega
  rcases PN.blocks_cases endOk_nul n s.length (PN.skipWs s) [] hl with ⟨ds, h1, h2⟩ | h1
  · left; exact ⟨_, h2⟩
  · right; exact h1

/-- C18: text without braces is treated the same by the constructor from a `std::string`. -/
theorem C18_string (n : Nat) (s : List Char) (h : '{' ∉ s) : PN.ofString n s = PN.ofCStr n s := by
  unfold PN.ofString PN.ofCStr PN.interpret
  obtain ⟨w, hw, e, -⟩ := PN.skipWs_split s
  exact PN.blocks_nobrace n _ _ _ _ _ (PN.nobrace_suffix (by rw [← e]; exact h))

/-- C18, refutation for `std::string`: a bracketed bell makes the code dereference the end
iterator. -/
theorem C18_string_ub : PN.ofString 34 "{34}".toList = .ub ∧ ∃ cs, PN.ofCStr 34 "{34}".toList = .ok cs :=
  ⟨by decide +kernel, (C18_rejects _ _).resolve_right (by decide +kernel)⟩

theorem ofStringC_wf {n : Nat} (hn : n ≤ 255) {s : List Char} {c : Change}
    (h : Change.ofStringC n s = .ok c) : c.n = n ∧ IsChange c.n c.swaps := by
  have key : ∀ ps, Change.ofPlacesC n ps = .ok c → c.n = n ∧ IsChange c.n c.swaps := by
    intro ps hp
    by_cases hok : PlacesOK n ps
    · obtain ⟨ss, h1, h2, -⟩ := (C11_places hn ps).1 hok
      rw [h1] at hp; cases hp; exact ⟨rfl, h2⟩
    · rw [(C11_places hn ps).2 hok] at hp; cases hp
  obtain ⟨h1, h2, h3, h4⟩ := C11_string n s
  by_cases hs : s = []
  · rw [h4 hs] at h
    split at h
    · cases h; rename_i hn0; subst hn0; exact ⟨rfl, by unfold IsChange; decide⟩
    · cases h
  by_cases hx : s = ['X'] ∨ s = ['x'] ∨ s = ['-']
  · rw [h1 hx] at h; exact key _ h
  · simp only [not_or] at hx
    rcases readBells_cases s.length s le_rfl with ⟨ps, hr, -⟩ | hr
    · rw [h2 hs hx.1 hx.2.1 hx.2.2 ps hr] at h; exact key _ h
    · rcases h3 hr hx.1 hx.2.1 hx.2.2 with h' | h' <;> rw [h'] at h <;> cases h

/-- C18: all changes parsed are well-formed and on the right number of bells. -/
theorem C18_wellformed {n : Nat} (hn : n ≤ 255) {s : List Char} {cs : List Change}
    (h : PN.ofCStr n s = .ok cs) : ∀ c ∈ cs, c.n = n ∧ IsChange c.n c.swaps := by
  obtain ⟨w, t, -, -, h'⟩ := (C18_meaning n s cs).1 h
  clear h
  have hb : ∀ {s cs}, BlockText n s cs → ∀ c ∈ cs, c.n = n ∧ IsChange c.n c.swaps := by
    intro s cs h
    induction h with
    | nil => simp
    | cross _ h2 _ _ ih =>
      intro c hc
      rcases List.mem_cons.1 hc with rfl | hc
      · exact ofStringC_wf hn h2
      · exact ih c hc
    | place _ _ h2 _ _ _ ih =>
      intro c hc
      rcases List.mem_cons.1 hc with rfl | hc
      · exact ofStringC_wf hn h2
      · exact ih c hc
  have hp : ∀ {s cs}, BlockPN n s cs → ∀ c ∈ cs, c.n = n ∧ IsChange c.n c.swaps := by
    intro s cs h
    cases h with
    | plain h => exact hb h
    | plus _ h => exact hb h
    | sym _ h =>
      intro c hc
      rcases List.mem_append.1 hc with hc | hc
      · exact hb h c hc
      · exact hb h c (List.mem_of_mem_dropLast (List.mem_reverse.1 hc))
  induction h' with
  | nil => simp
  | one h => exact hp h
  | more h1 _ _ ih =>
    intro c hc
    rcases List.mem_append.1 hc with hc | hc
    · exact hp h1 c hc
    · exact ih c hc

example : PN.ofCStr 6 " & -3-4 .2, +2".toList =
    .ok [⟨6, [0, 2, 4]⟩, ⟨6, [0, 3]⟩, ⟨6, [0, 2, 4]⟩, ⟨6, [1, 4]⟩, ⟨6, [2, 4]⟩, ⟨6, [1, 4]⟩,
      ⟨6, [0, 2, 4]⟩, ⟨6, [0, 3]⟩, ⟨6, [0, 2, 4]⟩, ⟨6, [2, 4]⟩] := by decide +kernel
example : PN.ofCStr 6 "-3;4".toList = .throw .pnInvalid := by decide +kernel

/-- C17: parsing the formatted place notation of a method gives its changes (without the last one if
the flags ask to omit it), whatever the flags. -/
theorem C17_roundtrip {m : Method} (hb : m.b ≤ 255)
    (hm : ∀ c ∈ m.ch, IsChange c.n c.swaps ∧ c.n = m.b) (flags : Nat)
    (h0 : m.ch ≠ [] ∨ Method.has flags Method.M_OMIT_LH = false) :
    ∃ s, Method.formatC m flags = .ok s ∧
      Method.ofCStrC s m.b =
        .ok ⟨m.b, if Method.has flags Method.M_OMIT_LH then m.ch.dropLast else m.ch⟩ ∧
      (m.b ≤ 33 → Method.ofStringC s m.b = Method.ofCStrC s m.b) := by
  have hw : m.WF := ⟨hb, hm⟩
  obtain ⟨s, h1, h2, h3⟩ := hw.format_text flags (by
    rintro ⟨e, ho⟩
    rcases h0 with h | h
    · exact h (List.length_eq_zero_iff.1 e)
    · rw [ho] at h; cases h)
  refine ⟨s, h1, ?_, ?_⟩
  · unfold Method.ofCStrC
    rw [(C18_meaning m.b s _).2 ⟨[], s, by simp [White], rfl, h2⟩]; rfl
  · intro h33
    unfold Method.ofCStrC Method.ofStringC
    rw [C18_string _ _ (h3 h33)]

/-- C17, refutation at the excluded point: formatting an empty method with the last change omitted
reads outside the method. -/
theorem C17_empty_ub (b flags : Nat) (h : Method.has flags Method.M_OMIT_LH = true) :
    Method.formatC ⟨b, []⟩ flags = .ub := by
  unfold Method.formatC Method.formatSym
  rw [if_neg (by simp [Method.length])]
  simp [h, Method.sectionC, Method.length]

example : Method.formatC ⟨6, [⟨6, [0, 2, 4]⟩, ⟨6, [1, 3]⟩, ⟨6, [0, 2, 4]⟩, ⟨6, [2, 4]⟩]⟩
    (Method.M_SYMMETRY + Method.M_DASH) = .ok "&-1,2".toList := by decide +kernel
example : Method.formatC ⟨6, [⟨6, [1, 3]⟩, ⟨6, [0, 2, 4]⟩, ⟨6, [2, 4]⟩, ⟨6, [0, 2, 4]⟩]⟩
    (Method.M_FULL_SYMMETRY + Method.M_PLUS) = .ok "+1,&X2".toList := by decide +kernel

/-! ### C19 -/

theorem applyAllC_eq {cs : List Change} (h : ∀ c ∈ cs, c.WF) : ∀ (r : Row),
    Method.applyAllC cs r = .ok (applyAll r cs) := by
  induction cs with
  | nil => intro r; rfl
  | cons c cs ih =>
    intro r
    rw [Method.applyAllC, applyC_eq (h c (by simp))]
    exact ih (fun d hd => h d (by simp [hd])) _

theorem applyAll_cons (r : Row) (c : Change) (cs : List Change) :
    applyAll r (c :: cs) = applyAll (apply r c) cs := rfl

theorem applyAll_append (r : Row) (cs ds : List Change) :
    applyAll r (cs ++ ds) = applyAll (applyAll r cs) ds := by unfold applyAll; rw [List.foldl_append]

theorem valid_applyAll {cs : List Change} (h : ∀ c ∈ cs, c.WF) : ∀ {r : Row}, Valid r → Valid (applyAll r cs) := by
  induction cs with
  | nil => intro r hr; exact hr
  | cons c cs ih =>
    intro r hr
    exact ih (fun d hd => h d (by simp [hd])) (valid_apply (h c (by simp)) hr)

theorem length_applyAll {cs : List Change} {b : Nat} (h : ∀ c ∈ cs, c.n ≤ b) : ∀ {r : Row},
    b ≤ r.length → (applyAll r cs).length = r.length := by
  induction cs with
  | nil => intro r _; rfl
  | cons c cs ih =>
    intro r hr
    have := h c (by simp)
    rw [applyAll_cons, ih (fun d hd => h d (by simp [hd])) (by rw [length_apply]; omega), length_apply]
    omega

theorem fn_applyAll_follow {cs : List Change} (h : ∀ c ∈ cs, c.WF) : ∀ (r : Row) (p : Nat),
    fn (applyAll r cs) (follow (cs.map Change.swaps) p) = fn r p := by
  induction cs with
  | nil => intro r p; rfl
  | cons c cs ih =>
    intro r p
    have hc := h c (by simp)
    rw [applyAll_cons, List.map_cons, follow, ih (fun d hd => h d (by simp [hd])), fn_apply hc, hc.pos_eq,
      Change.moveTo_moveTo hc.gap]

theorem mul_applyAll {cs : List Change} (h : ∀ c ∈ cs, c.WF) : ∀ (a r : Row),
    Row.mul a (applyAll r cs) = applyAll (Row.mul a r) cs := by
  induction cs with
  | nil => intro a r; rfl
  | cons c cs ih =>
    intro a r
    rw [applyAll_cons, applyAll_cons, ih (fun d hd => h d (by simp [hd])), mul_apply (h c (by simp))]

/-- The row of a method. -/
def Method.lh (m : Method) : Row := applyAll (rounds m.b) m.ch

theorem Method.WF.wf {m : Method} (h : m.WF) : ∀ c ∈ m.ch, c.WF := fun c hc => (h.2 c hc).1

theorem Method.WF.lhC_eq {m : Method} (h : m.WF) : Method.lhC m = .ok (Method.lh m) := by
  unfold Method.lhC Method.lh
  rw [roundsC_eq (by have := h.1; omega), applyAllC_eq h.wf]

theorem Method.WF.lh_valid {m : Method} (h : m.WF) : Valid (Method.lh m) :=
  valid_applyAll h.wf (valid_rounds (by have := h.1; omega))

theorem Method.WF.lh_length {m : Method} (h : m.WF) : (Method.lh m).length = m.b := by
  unfold Method.lh
  rw [length_applyAll (b := m.b) (fun c hc => by rw [(h.2 c hc).2]) (by simp)]; simp

/-- C19: the lead head is the row reached from rounds: the bell starting in any position is found
where following the changes leads. -/
theorem C19_lead_head {m : Method} (hb : m.b ≤ 255)
    (hm : ∀ c ∈ m.ch, IsChange c.n c.swaps ∧ c.n = m.b) :
    ∃ r, Method.lhC m = .ok r ∧ IsRow r ∧ r.length = m.b ∧
      ∀ p, bellAt r (follow (m.ch.map Change.swaps) p) = p := by
  have hw : m.WF := ⟨hb, hm⟩
  refine ⟨_, hw.lhC_eq, (isRow_iff_valid _).2 hw.lh_valid, hw.lh_length, fun p => ?_⟩
  rw [bellAt_eq_fn]; unfold Method.lh
  rw [fn_applyAll_follow hw.wf, fn_rounds]

theorem ring_times {m : Method} (h : m.WF) : ∀ (k : Nat) {r : Row}, m.b ≤ r.length →
    applyAll r (List.replicate k m.ch).flatten = Row.mul r (npow (Method.lh m) k) := by
  intro k
  induction k with
  | zero =>
    intro r hr
    simp only [List.replicate_zero, List.flatten_nil, npow]
    rw [mul_rounds (by rw [h.lh_length]; omega)]; rfl
  | succ k ih =>
    intro r hr
    have e : applyAll r m.ch = Row.mul r (Method.lh m) := by
      unfold Method.lh
      rw [mul_applyAll h.wf, mul_rounds hr]
    rw [List.replicate_succ, List.flatten_cons, applyAll_append, e, ih (by simp; omega), npow, mul_assoc']

/-- C19: the number of leads is the least positive number of times the method must be rung, from any
row, to come back to it.  (Up to 58 bells, where the order of a row fits an `int`.) -/
theorem C19_leads {m : Method} (hb : m.b ≤ 58)
    (hm : ∀ c ∈ m.ch, IsChange c.n c.swaps ∧ c.n = m.b) {r : Row} (hr : IsRow r) (hrl : m.b ≤ r.length) :
    ∃ k, Method.leadsC m = .ok k ∧ 0 < k ∧
      Method.applyAllC (List.replicate k m.ch).flatten r = .ok r ∧
      ∀ j, 0 < j → j < k → Method.applyAllC (List.replicate j m.ch).flatten r ≠ .ok r := by
  have hw : m.WF := ⟨by omega, hm⟩
  obtain ⟨h1, h2, h3⟩ := order_spec hw.lh_valid (by rw [hw.lh_length]; exact hb)
  have hv := (isRow_iff_valid r).1 hr
  have wfr : ∀ j, ∀ c ∈ (List.replicate j m.ch).flatten, c.WF := by
    intro j c hc
    rw [List.mem_flatten] at hc
    obtain ⟨l, hl, hc⟩ := hc
    rw [(List.mem_replicate.1 hl).2] at hc
    exact hw.wf c hc
  have key : ∀ j, Method.applyAllC (List.replicate j m.ch).flatten r = .ok r ↔
      order (Method.lh m) ∣ j := by
    intro j
    rw [applyAllC_eq (wfr j), ring_times hw j hrl, ← h3 j]
    constructor
    · intro e i
      have e' : Row.mul r (npow (Method.lh m) j) = r := by injection e
      have := congrArg (fun x => fn x i) e'
      simp only [fn_mul] at this
      rw [← fn_npow]
      exact hv.fn_inj this
    · intro e
      congr 1
      apply ext_fn
      · simp [length_npow, hw.lh_length]; omega
      · intro i _; rw [fn_mul, fn_npow, e]
  refine ⟨order (Method.lh m), by unfold Method.leadsC; rw [hw.lhC_eq]; exact h1, h2, ?_, ?_⟩
  · exact (key _).2 (dvd_refl _)
  · intro j h4 h5 e
    have := Nat.le_of_dvd h4 ((key j).1 e)
    omega

example : Method.leadsC ⟨4, [⟨4, [0, 2]⟩, ⟨4, [1]⟩, ⟨4, [0, 2]⟩, ⟨4, [1]⟩, ⟨4, [0, 2]⟩, ⟨4, [1]⟩,
    ⟨4, [0, 2]⟩, ⟨4, [2]⟩]⟩ = .ok 3 := by decide +kernel

/-! ### C20 -/

/-- C20: `is_palindromic_about` recognises mirror symmetry about an index. -/
theorem C20_about {m : Method} (hb : m.b ≤ 255) (hm : ∀ c ∈ m.ch, IsChange c.n c.swaps ∧ c.n = m.b)
    {i : Nat} (hi : i < m.ch.length) :
    ∃ b, Method.isPalindromicAboutC m i = .ok b ∧ (b = true ↔ MirrorAbout m.ch i) :=
  Method.WF.isPalindromicAbout (m := m) ⟨hb, hm⟩ hi

/-- C20: `issym` holds for even lengths with mirror symmetry about the half lead. -/
theorem C20_issym {m : Method} (hb : m.b ≤ 255) (hm : ∀ c ∈ m.ch, IsChange c.n c.swaps ∧ c.n = m.b) :
    ∃ b, Method.issymC m = .ok b ∧ (b = true ↔
      m.ch.length % 2 = 0 ∧ (m.ch = [] ∨ MirrorAbout m.ch (m.ch.length / 2 - 1))) := by
  obtain ⟨b, h1, h2⟩ := Method.WF.issym (m := m) ⟨hb, hm⟩
  exact ⟨b, h1, h2.trans (by rw [List.length_eq_zero_iff])⟩

/-- C20: `symmetry_point` is the least index in the first half about which an even-length method is
symmetrical, or -1; `ispalindromic` says whether there is one. -/
theorem C20_symmetry_point {m : Method} (hb : m.b ≤ 255)
    (hm : ∀ c ∈ m.ch, IsChange c.n c.swaps ∧ c.n = m.b) :
    ∃ p : Int, Method.symmetryPointC m = .ok p ∧ Method.ispalindromicC m = .ok (decide (p ≠ -1)) ∧
      (p = -1 ↔ ¬ (m.ch.length % 2 = 0 ∧ ∃ i, i < m.ch.length / 2 ∧ MirrorAbout m.ch i)) ∧
      (∀ i : Nat, p = i ↔ m.ch.length % 2 = 0 ∧ i < m.ch.length / 2 ∧ MirrorAbout m.ch i ∧
        ∀ j, j < i → ¬ MirrorAbout m.ch j) := by
  have hw : m.WF := ⟨hb, hm⟩
  rcases hw.symmetryPoint with ⟨h1, h2⟩ | ⟨i, h1, h2, h3, h4, h5⟩
  · refine ⟨-1, h1, by unfold Method.ispalindromicC; rw [h1]; rfl, ?_, ?_⟩
    · simp only [true_iff]; rintro ⟨h3, i, h4, h5⟩; exact h2 h3 i h4 h5
    · intro i
      constructor
      · intro h; omega
      · rintro ⟨h3, h4, h5, -⟩; exact absurd h5 (h2 h3 i h4)
  · refine ⟨i, h1, by unfold Method.ispalindromicC; rw [h1]; rfl, ?_, ?_⟩
    · constructor
      · intro h; omega
      · intro h; exact absurd ⟨h2, i, h3, h4⟩ h
    · intro k
      constructor
      · intro h
        have : i = k := by omega
        subst this
        exact ⟨h2, h3, h4, h5⟩
      · rintro ⟨-, -, k4, k5⟩
        rcases Nat.lt_trichotomy i k with h | h | h
        · exact absurd h4 (k5 i h)
        · rw [h]
        · exact absurd k4 (h5 k h)

/-- C20: the lead head of a method symmetrical about its half lead is the product of two
involutions. -/
theorem C20_involutions {m : Method} (hb : m.b ≤ 255)
    (hm : ∀ c ∈ m.ch, IsChange c.n c.swaps ∧ c.n = m.b) (hs : Method.issymC m = .ok true) :
    ∃ x y r, Method.lhC m = .ok r ∧ IsRow x ∧ IsRow y ∧ x.length = m.b ∧ y.length = m.b ∧
      mulC x x = .ok (rounds m.b) ∧ mulC y y = .ok (rounds m.b) ∧ mulC x y = .ok r := by
  have hw : m.WF := ⟨hb, hm⟩
  have h256 : m.b ≤ 256 := by omega
  obtain ⟨b, h1, h2⟩ := hw.issym
  rw [hs] at h1; cases h1
  obtain ⟨he, hor⟩ := h2.1 rfl
  by_cases h0 : m.ch = []
  · have hl : Method.lh m = rounds m.b := by unfold Method.lh; rw [h0]; rfl
    have hv := valid_rounds h256
    have hmul : mulC (rounds m.b) (rounds m.b) = .ok (rounds m.b) := by
      rw [mulC_eq hv hv, mul_rounds (by simp)]
    exact ⟨rounds m.b, rounds m.b, rounds m.b, by rw [hw.lhC_eq, hl], (isRow_iff_valid _).2 hv,
      (isRow_iff_valid _).2 hv, by simp, by simp, hmul, hmul, hmul⟩
  have hlen : 0 < m.ch.length := List.length_pos_iff.2 h0
  have hmir : MirrorAbout m.ch (m.ch.length / 2 - 1) := by
    rcases hor with h | h
    · exact absurd (List.length_eq_zero_iff.1 h) h0
    · exact h
  have hsplit := Method.mirror_split he (s := m.ch.length / 2 - 1) (by
    have : m.length = m.ch.length := rfl
    omega) hmir
  -- first half: the changes before the half lead and the half lead change
  have hhalf : m.ch.length / 2 - 1 < m.ch.length := by omega
  obtain ⟨c, hc⟩ : ∃ c, c = m.ch[m.ch.length / 2 - 1] := ⟨_, rfl⟩
  obtain ⟨A, hA⟩ : ∃ A, A = m.ch.take (m.ch.length / 2 - 1) := ⟨_, rfl⟩
  have e1 : m.ch.take (m.ch.length / 2 - 1 + 1) = A ++ [c] := by
    rw [hA, hc, List.take_append_getElem]
  have he' : m.ch.length % 2 = 0 := he
  obtain ⟨d, hd⟩ : ∃ d, (m.ch.take (m.ch.length / 2 + (m.ch.length / 2 - 1) + 1)).drop
      (2 * (m.ch.length / 2 - 1) + 1) = [d] := by
    apply List.length_eq_one_iff.1
    rw [List.length_drop, List.length_take]; omega
  rw [e1, hd] at hsplit
  simp only [List.dropLast_concat, List.dropLast_singleton, List.reverse_nil, List.append_nil] at hsplit
  have hcm : c ∈ m.ch := by rw [hc]; exact List.getElem_mem _
  have hdm : d ∈ m.ch := by rw [← hsplit]; simp
  have hAm : ∀ a ∈ A, a ∈ m.ch := by intro a ha; rw [← hsplit]; simp [ha]
  obtain ⟨wc, nc⟩ := hw.2 c hcm
  obtain ⟨wd, nd⟩ := hw.2 d hdm
  have wA : ∀ a ∈ A, a.WF := fun a ha => hw.wf a (hAm a ha)
  have nA : ∀ a ∈ A, a.n ≤ m.b := fun a ha => by rw [(hw.2 a (hAm a ha)).2]
  -- x: the first half, the half lead change, the first half backwards
  have undo : ∀ (A : List Change), (∀ a ∈ A, a.WF) → (∀ a ∈ A, a.n ≤ m.b) → ∀ r : Row, m.b ≤ r.length →
      applyAll (applyAll r A) A.reverse = r := by
    intro A
    induction A with
    | nil => intro _ _ r _; rfl
    | cons a A ih =>
      intro wA nA r hr
      have ha := nA a (by simp)
      rw [applyAll_cons, List.reverse_cons, applyAll_append,
        ih (fun b hb => wA b (by simp [hb])) (fun b hb => nA b (by simp [hb])) _
          (by rw [length_apply]; omega)]
      show apply (apply r a) a = r
      rw [apply_apply (wA a (by simp)), mul_rounds (by omega)]
  let x := applyAll (rounds m.b) (A ++ [c] ++ A.reverse)
  let y := apply (rounds m.b) d
  have wx : ∀ a ∈ A ++ [c] ++ A.reverse, a.WF := by
    intro a ha
    simp only [List.mem_append, List.mem_singleton, List.mem_reverse] at ha
    rcases ha with (h | h) | h
    · exact wA a h
    · rw [h]; exact wc
    · exact wA a h
  have vx : Valid x := valid_applyAll wx (valid_rounds h256)
  have vy : Valid y := valid_apply wd (valid_rounds h256)
  have lx : x.length = m.b := by
    have : x.length = (rounds m.b).length := length_applyAll (b := m.b) (by
      intro a ha
      simp only [List.mem_append, List.mem_singleton, List.mem_reverse] at ha
      rcases ha with (h | h) | h
      · exact nA a h
      · rw [h, nc]
      · exact nA a h) (by simp)
    rw [this]; simp
  have ly : y.length = m.b := by show (apply (rounds m.b) d).length = m.b; rw [length_apply]; simp [nd]
  have hxx : Row.mul x x = rounds m.b := by
    show Row.mul x (applyAll (rounds m.b) (A ++ [c] ++ A.reverse)) = rounds m.b
    rw [mul_applyAll wx, mul_rounds (by omega)]
    show applyAll (applyAll (rounds m.b) (A ++ [c] ++ A.reverse)) (A ++ [c] ++ A.reverse) = _
    rw [applyAll_append _ (A ++ [c]), applyAll_append _ (A ++ [c]), applyAll_append _ A [c], applyAll_append _ A [c]]
    have := undo A.reverse (fun a ha => wA a (List.mem_reverse.1 ha)) (fun a ha => nA a (List.mem_reverse.1 ha))
      (applyAll (applyAll (rounds m.b) A) [c]) (by
        show m.b ≤ (apply _ c).length
        rw [length_apply, nc]; omega)
    rw [List.reverse_reverse] at this
    rw [this]
    show applyAll (apply (apply (applyAll (rounds m.b) A) c) c) A.reverse = _
    have lA : (applyAll (rounds m.b) A).length = m.b := by
      rw [length_applyAll (b := m.b) nA (by simp)]; simp
    rw [apply_apply wc, mul_rounds (by omega)]
    exact undo A wA nA _ (by simp)
  have hyy : Row.mul y y = rounds m.b := by
    show Row.mul y (apply (rounds m.b) d) = rounds m.b
    rw [mul_apply wd, mul_rounds (by omega)]
    show apply (apply (rounds m.b) d) d = _
    rw [apply_apply wd, mul_rounds (by simp [nd])]
  have hxy : Row.mul x y = Method.lh m := by
    show Row.mul x (apply (rounds m.b) d) = _
    rw [mul_apply wd, mul_rounds (by omega)]
    unfold Method.lh
    conv_rhs => rw [← hsplit]
    rw [applyAll_append _ _ [d]]
    rfl
  exact ⟨x, y, Method.lh m, hw.lhC_eq, (isRow_iff_valid _).2 vx, (isRow_iff_valid _).2 vy, lx, ly,
    by rw [mulC_eq vx vx, hxx], by rw [mulC_eq vy vy, hyy], by rw [mulC_eq vx vy, hxy]⟩

example : Method.issymC ⟨4, [⟨4, [0, 2]⟩, ⟨4, [1]⟩, ⟨4, [0, 2]⟩, ⟨4, [2]⟩]⟩ = .ok true := by decide +kernel
example : Method.symmetryPointC ⟨4, [⟨4, [1]⟩, ⟨4, [0, 2]⟩, ⟨4, [2]⟩, ⟨4, [0, 2]⟩]⟩ = .ok 0 := by decide +kernel

end Ringing
