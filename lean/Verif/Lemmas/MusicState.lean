import Verif.Lemmas.MusicHits
import Verif.Lemmas.Bell
import Verif.Props.Bell
/-! The states of a `music`, and what `process_row` does to them. -/
namespace Ringing
open Spec

/-! ### Valid patterns -/

theorem toUpper_nul {c : Char} (h : c.toUpper = '\x00') : c = '\x00' := by
  by_cases hc : c.val ≥ 'a'.val ∧ c.val ≤ 'z'.val
  · exfalso
    have h1 : c.toUpper.val.toNat = c.val.toNat - 32 := by
      have h2 : c.val.toNat ≤ 122 := hc.2
      have h3 : 97 ≤ c.val.toNat := hc.1
      unfold Char.toUpper
      rw [dif_pos hc]
      show (c.val + ('A'.val - 'a'.val)).toNat = _
      rw [UInt32.toNat_add]
      have : ('A'.val - 'a'.val).toNat = 2 ^ 32 - 32 := by decide
      rw [this]; omega
    have h3 : 97 ≤ c.val.toNat := hc.1
    rw [h] at h1
    have : '\x00'.val.toNat = 0 := by decide
    omega
  · have : c.toUpper = c := by unfold Char.toUpper; rw [dif_neg hc]
    rwa [this] at h

theorem symbol_bellChar {c : Char} (h0 : c ≠ '\x00') (h : Bell.isSymbol c = true) : ∃ b, BellChar c b := by
  by_cases hI : c.toUpper = 'I'
  · exact ⟨0, Or.inr (Or.inl ⟨hI, rfl⟩)⟩
  by_cases hO : c.toUpper = 'O'
  · exact ⟨9, Or.inr (Or.inr ⟨hO, rfl⟩)⟩
  by_cases hs : c.toUpper ∈ defaultSymbols
  · obtain ⟨i, hi, e⟩ := List.getElem_of_mem hs
    refine ⟨i, Or.inl ?_⟩
    have : "1234567890ETABCDFGHJKLMNPQRSUVWYZ".toList = defaultSymbols := by decide
    rw [this, List.getElem?_eq_getElem hi, e]
  · have := (C09_reject c (fun h => h0 (toUpper_nul h)) hI hO hs).2
    rw [this] at h; simp at h

theorem checkLoop_spec (s : List Char) (h0 : '\x00' ∉ s) :
    ((Wildcard.checkLoop s false = .ok () ↔ ∃ p, Spells p s) ∧
      (Wildcard.checkLoop s true = .ok () ↔ ∃ cs l p t, s = cs ++ ']' :: t ∧ List.Forall₂ BellChar cs l ∧ Spells p t)) ∧
    ∀ br, Wildcard.checkLoop s br = .ok () ∨ Wildcard.checkLoop s br = .throw .invalidArgument := by
  induction s with
  | nil =>
    refine ⟨⟨⟨fun _ => ⟨[], .nil⟩, fun _ => rfl⟩, ⟨fun h => by simp [Wildcard.checkLoop] at h, ?_⟩⟩, fun br => by cases br <;> simp [Wildcard.checkLoop]⟩
    rintro ⟨cs, l, p, t, e, -⟩
    simp at e
  | cons c s ih =>
    have ih := ih (fun h => h0 (List.mem_cons_of_mem _ h))
    have hc0 : c ≠ '\x00' := fun e => h0 (by rw [e]; simp)
    have ht : ∀ br, Wildcard.checkLoop (c :: s) br = .ok () ∨ Wildcard.checkLoop (c :: s) br = .throw .invalidArgument := by
      intro br
      rw [Wildcard.checkLoop]
      repeat' split
      all_goals first | exact ih.2 _ | exact Or.inr rfl
    refine ⟨?_, ht⟩
    by_cases hsy : Bell.isSymbol c = true
    · obtain ⟨b, hb⟩ := symbol_bellChar hc0 hsy
      have hsp := (bellChar hb).2.2.1
      rw [Wildcard.checkLoop, if_pos hsy, Wildcard.checkLoop, if_pos hsy]
      refine ⟨ih.1.1.trans ?_, ih.1.2.trans ?_⟩
      · constructor
        · rintro ⟨p, hp⟩; exact ⟨_, .bell hb hp⟩
        · rintro ⟨p, hp⟩
          cases hp with
          | bell _ h => exact ⟨_, h⟩
          | any => exact absurd (Or.inl rfl) hsp
          | set => exact absurd (Or.inr (Or.inl rfl)) hsp
          | star => exact absurd (Or.inr (Or.inr (Or.inr (Or.inl rfl)))) hsp
      · constructor
        · rintro ⟨cs, l, p, t, rfl, h1, h2⟩; exact ⟨c :: cs, b :: l, p, t, rfl, .cons hb h1, h2⟩
        · rintro ⟨cs, l, p, t, e, h1, h2⟩
          cases h1 with
          | nil =>
            injection e with e1 e2
            exact absurd (Or.inr (Or.inr (Or.inl e1))) hsp
          | cons hx h1 =>
            injection e with e1 e2
            exact ⟨_, _, p, t, e2, h1, h2⟩
    · have hnb : ∀ b, ¬ BellChar c b := fun b hb => hsy (bellChar hb).1
      have hno : ∀ {c' : Char}, c = c' → c' ≠ ']' →
          ¬ ∃ cs l p t, c :: s = cs ++ ']' :: t ∧ List.Forall₂ BellChar cs l ∧ Spells p t := by
        rintro c' hc' hne ⟨cs, l, p, t, e, h1, h2⟩
        cases h1 with
        | nil => injection e with e1 e2; exact hne (hc'.symm.trans e1)
        | cons hx h1 => injection e with e1 e2; subst e1; exact hnb _ hx
      rw [Wildcard.checkLoop, if_neg hsy, Wildcard.checkLoop, if_neg hsy]
      simp only [Bool.false_eq_true, if_false, if_true]
      by_cases h1 : c = '?'
      · subst h1
        rw [if_pos (Or.inl rfl), if_pos (Or.inl rfl)]
        refine ⟨ih.1.1.trans ⟨fun ⟨p, hp⟩ => ⟨_, .any hp⟩, fun ⟨p, hp⟩ => ?_⟩, ⟨fun h => (by simp at h), fun h => absurd h (hno rfl (by decide))⟩⟩
        cases hp with
        | bell hb => exact absurd hb (hnb _)
        | any h => exact ⟨_, h⟩
      by_cases h2 : c = '*'
      · subst h2
        rw [if_pos (Or.inr rfl), if_pos (Or.inr rfl)]
        refine ⟨ih.1.1.trans ⟨fun ⟨p, hp⟩ => ⟨_, .star hp⟩, fun ⟨p, hp⟩ => ?_⟩, ⟨fun h => (by simp at h), fun h => absurd h (hno rfl (by decide))⟩⟩
        cases hp with
        | bell hb => exact absurd hb (hnb _)
        | star h => exact ⟨_, h⟩
      have hq : ¬ (c = '?' ∨ c = '*') := by simp [h1, h2]
      rw [if_neg hq, if_neg hq]
      by_cases h3 : c = '['
      · subst h3
        rw [if_pos rfl, if_pos rfl]
        refine ⟨ih.1.2.trans ⟨?_, fun ⟨p, hp⟩ => ?_⟩, ⟨fun h => (by simp at h), fun h => absurd h (hno rfl (by decide))⟩⟩
        · rintro ⟨cs, l, p, t, rfl, h1, h2⟩; exact ⟨_, .set h1 h2⟩
        · cases hp with
          | bell hb => exact absurd hb (hnb _)
          | set h1 h2 => exact ⟨_, _, _, _, rfl, h1, h2⟩
      rw [if_neg h3, if_neg h3]
      by_cases h4 : c = ']'
      · subst h4
        rw [if_pos rfl, if_pos rfl]
        refine ⟨⟨fun h => (by simp at h), fun ⟨p, hp⟩ => ?_⟩, ih.1.1.trans ⟨fun ⟨p, hp⟩ => ⟨[], [], p, s, rfl, .nil, hp⟩, ?_⟩⟩
        · cases hp with
          | bell hb => exact absurd hb (hnb _)
        · rintro ⟨cs, l, p, t, e, h1, h2⟩
          cases h1 with
          | nil => injection e with e1 e2; subst e2; exact ⟨p, h2⟩
          | cons hx h1 => injection e with e1 e2; subst e1; exact absurd hx (hnb _)
      · rw [if_neg h4, if_neg h4]
        refine ⟨⟨fun h => (by simp at h), fun ⟨p, hp⟩ => ?_⟩, ⟨fun h => (by simp at h), fun h => absurd h (hno rfl h4)⟩⟩
        cases hp with
        | bell hb => exact absurd hb (hnb _)
        | any => exact absurd rfl h1
        | set => exact absurd rfl h3
        | star => exact absurd rfl h2

theorem bellsLoop_step {b : Nat} {c : Char} {x : Nat} (h : BellChar c x) (s : List Char) :
    Wildcard.bellsLoop b (c :: s) = if x ≥ b then .throw .invalidArgument else Wildcard.bellsLoop b s := by
  obtain ⟨h1, h2, -, -⟩ := bellChar h
  rw [Wildcard.bellsLoop, if_pos h1, h2, Out.ok_bind]

theorem bellsLoop_spec {p : List Tok} {s : List Char} (h : Spells p s) (b : Nat) :
    Wildcard.bellsLoop b s = if ∀ x ∈ named p, x < b then .ok () else .throw .invalidArgument := by
  induction h with
  | nil => simp [Wildcard.bellsLoop, named]
  | @bell c x p s hc _ ih =>
    rw [bellsLoop_step hc, ih, named]
    simp only [List.mem_cons, forall_eq_or_imp]
    by_cases hx : x ≥ b
    · rw [if_pos hx, if_neg (fun h => by omega)]
    · rw [if_neg hx]
      by_cases h : ∀ x ∈ named p, x < b
      · rw [if_pos h, if_pos ⟨by omega, h⟩]
      · rw [if_neg h, if_neg (fun h' => h h'.2)]
  | any _ ih => rw [Wildcard.bellsLoop, if_neg (by decide), ih, named]
  | star _ ih => rw [Wildcard.bellsLoop, if_neg (by decide), ih, named]
  | @set cs l p s hl _ ih =>
    rw [Wildcard.bellsLoop, if_neg (by decide), named]
    induction hl with
    | nil => rw [List.nil_append, Wildcard.bellsLoop, if_neg (by decide), ih]; rfl
    | @cons c x cs l hc _ ih2 =>
      rw [List.cons_append, bellsLoop_step hc, ih2]
      simp only [List.cons_append, List.mem_cons, forall_eq_or_imp]
      by_cases hx : x ≥ b
      · rw [if_pos hx, if_neg (fun h => by omega)]
      · rw [if_neg hx]
        by_cases h : ∀ x ∈ l ++ named p, x < b
        · rw [if_pos h, if_pos ⟨by omega, h⟩]
        · rw [if_neg h, if_neg (fun h' => h h'.2)]

theorem newC_spells {p : List Tok} {s : List Char} (h : Spells p s) (sh sb : Int) :
    MusicDetails.newC s sh sb = .ok ⟨⟨s, 0⟩, 0, 0, sh, sb, []⟩ := by
  have h0 : '\x00' ∉ s := by
    have hb : ∀ {c b}, BellChar c b → c ≠ '\x00' := by
      intro c b h e
      subst e
      have := (bellChar h).2.1
      rw [show Bell.readChar '\x00' = .ok 33 by decide] at this
      injection this with e
      have := (bellChar h).2.2.2
      omega
    induction h with
    | nil => simp
    | bell h _ ih => simp [(hb h).symm, ih]
    | any _ ih => simpa using ih
    | star _ ih => simpa using ih
    | @set cs l p s hl _ ih =>
      have hc : '\x00' ∉ cs := by
        intro hm
        obtain ⟨i, hi, e⟩ := List.getElem_of_mem hm
        have := hl.get hi (by rw [← hl.length_eq]; exact hi)
        simp only [List.get_eq_getElem, e] at this
        exact hb this rfl
      simp [hc, ih]
  rw [MusicDetails.newC, Wildcard.newC, Wildcard.checkExpression, (checkLoop_spec s h0).1.1.2 ⟨p, h⟩]
  rfl

/-! ### The states -/

/-- The states of a `music` on `b` bells: made empty, patterns added, rows processed, counts reset.  The
patterns are listed in the order in which they were added. -/
inductive Reached (b : Nat) : Music → List (List Tok) → Prop
  | new : Reached b (Music.new b) []
  | push {m ps p s sh sb d m'} : Reached b m ps → Spells p s → MusicDetails.newC s sh sb = .ok d → m.pushBackC d = .ok m' →
      Reached b m' (ps ++ [p])
  | row {m ps r back m' x} {g : Nat → Nat} : Reached b m ps → m.processC (fun i => .ok (g i)) r back = .ok (m', x) → Reached b m' ps
  | reset {m ps} : Reached b m ps → Reached b m.reset ps

/-- What is found for all patterns. -/
def allHits (b : Nat) (g : Nat → Nat) (tl : Nat → List Nat) (w : List Nat) (ps : List (List Tok)) (n : Nat) : List (Nat × List Nat) :=
  (ps.zipIdx n).flatMap fun x => (MNode.hits b g tl (b + 2) x.1 0 w).map (x.2, ·)

theorem allHits_key (b : Nat) (g tl w ps) : ∀ n k,
    ((allHits b g tl w ps n).filter (fun x => x.1 = n + k)).map Prod.snd = (match ps[k]? with
      | some p => MNode.hits b g tl (b + 2) p 0 w
      | none => []) := by
  induction ps with
  | nil => intro n k; simp [allHits]
  | cons p ps ih =>
    intro n k
    have e : allHits b g tl w (p :: ps) n = (MNode.hits b g tl (b + 2) p 0 w).map (n, ·) ++ allHits b g tl w ps (n + 1) := by
      simp [allHits, List.zipIdx_cons]
    rw [e, List.filter_append, List.map_append]
    cases k with
    | zero =>
      rw [List.filter_eq_self.2 (by simp), List.map_map]
      have : (allHits b g tl w ps (n + 1)).filter (fun x => x.1 = n + 0) = [] := by
        rw [List.filter_eq_nil_iff]
        intro x hx
        unfold allHits at hx
        obtain ⟨⟨q, j⟩, hq, hx⟩ := List.mem_flatMap.1 hx
        obtain ⟨v, -, rfl⟩ := List.mem_map.1 hx
        have := (List.mem_zipIdx hq).1
        simp at this ⊢; omega
      rw [this]
      simp [Function.comp_def]
    | succ k =>
      have : ((MNode.hits b g tl (b + 2) p 0 w).map (n, ·)).filter (fun x => decide (x.1 = n + (k + 1))) = [] := by
        rw [List.filter_eq_nil_iff]
        intro x hx
        obtain ⟨v, -, rfl⟩ := List.mem_map.1 hx
        simp
      rw [this]
      have := ih (n + 1) k
      rw [List.map_nil, List.nil_append, show n + (k + 1) = n + 1 + k by omega, this]
      simp

/-- What is known of a state. -/
structure MInv (b : Nat) (m : Music) (ps : List (List Tok)) : Prop where
  bells : m.b = b
  len : m.info.length = ps.length
  pats : ∀ (k : Nat) d p, m.info[k]? = some d → ps[k]? = some p → Spells p d.pat.pat
  small : ∀ d ∈ m.info, d.counth < 2 ^ 32 ∧ d.countb < 2 ^ 32
  vis : ∀ g tl w, (MNode.visits g tl m.top 0 w).Perm (allHits b g tl w ps 0)

/-- What a number of matches does to a pattern. -/
def bump (back : Bool) (d : MusicDetails) (ws : List (List Nat)) : MusicDetails :=
  ws.foldl (fun d w => { d.increment back with wilds := w }) d

theorem records_at (back : Bool) (k : Nat) (vs : List (Nat × List Nat)) : ∀ res : List MusicDetails,
    (vs.foldl (MNode.record back) res)[k]? = (res[k]?).map fun d => bump back d ((vs.filter (fun v => v.1 = k)).map Prod.snd) := by
  induction vs with
  | nil => intro res; cases h : res[k]? <;> simp [bump, h]
  | cons v vs ih =>
    intro res
    rw [List.foldl_cons, ih, MNode.record, List.getElem?_modify]
    by_cases h : v.1 = k
    · subst h
      rw [List.filter_cons_of_pos (by simp), List.map_cons]
      cases h : res[v.1]? <;> simp [bump]
    · rw [List.filter_cons_of_neg (by simpa using h)]
      simp only [if_neg h]
      cases res[k]? <;> rfl

theorem u32_add_u32 (a c : Nat) : u32 (u32 a + c) = u32 (a + c) := by simp [u32, Nat.add_mod]

/-- The effect of matches on the counts. -/
theorem bump_spec (back : Bool) (ws : List (List Nat)) : ∀ d : MusicDetails, d.counth < 2 ^ 32 ∧ d.countb < 2 ^ 32 →
    (bump back d ws).count (some back) = u32 (d.count (some back) + ws.length) ∧
    (bump back d ws).count (some !back) = d.count (some !back) ∧ (bump back d ws).pat = d.pat ∧
    (bump back d ws).scoreh = d.scoreh ∧ (bump back d ws).scoreb = d.scoreb ∧
    (bump back d ws).wilds = ws.getLast?.getD d.wilds ∧
    (bump back d ws).counth < 2 ^ 32 ∧ (bump back d ws).countb < 2 ^ 32 := by
  induction ws with
  | nil =>
    intro d hd
    refine ⟨?_, rfl, rfl, rfl, rfl, rfl, hd⟩
    cases back <;> simp only [bump, List.foldl_nil, MusicDetails.count, u32, List.length_nil, Nat.add_zero]
    · exact (Nat.mod_eq_of_lt hd.1).symm
    · exact (Nat.mod_eq_of_lt hd.2).symm
  | cons w ws ih =>
    intro d hd
    have hlt : ∀ x, u32 x < 2 ^ 32 := fun x => Nat.mod_lt _ (by decide)
    obtain ⟨h1, h2, h3, h4, h5, h6, h7⟩ := ih { d.increment back with wilds := w } (by
      cases back <;> exact ⟨by first | exact hlt _ | exact hd.1, by first | exact hlt _ | exact hd.2⟩)
    have hb : bump back d (w :: ws) = bump back { d.increment back with wilds := w } ws := rfl
    rw [hb]
    refine ⟨?_, ?_, ?_, ?_, ?_, ?_, h7⟩
    · rw [h1]
      cases back <;> simp only [MusicDetails.count, MusicDetails.increment, List.length_cons, Bool.false_eq_true, if_false, if_true] <;>
        rw [u32_add_u32] <;> congr 1 <;> omega
    · rw [h2]; cases back <;> rfl
    · rw [h3]; cases back <;> rfl
    · rw [h4]; cases back <;> rfl
    · rw [h5]; cases back <;> rfl
    · rw [h6]; cases ws <;> simp [List.getLast?_cons]

theorem visits_lt {b : Nat} {m : Music} {ps} (h : MInv b m ps) (g tl w) : ∀ v ∈ MNode.visits g tl m.top 0 w, v.1 < m.info.length := by
  intro v hv
  have := (h.vis g tl w).subset hv
  obtain ⟨⟨q, j⟩, hq, hx⟩ := List.mem_flatMap.1 this
  obtain ⟨u, -, rfl⟩ := List.mem_map.1 hx
  have := (List.mem_zipIdx hq).2.1
  rw [h.len]; simp at this ⊢; omega

/-- Whatever the row, the state after it. -/
theorem process_eq {b : Nat} {m : Music} {ps} (h : MInv b m ps) (g : Nat → Nat) (r : Row) (back : Bool) :
    m.processC (fun i => .ok (g i)) r back =
      .ok (⟨(MNode.visits g (fun i => r.drop i) m.top 0 []).foldl (MNode.record back)
        (m.info.map fun d => { d with wilds := [] }), m.top, m.b⟩, !(MNode.visits g (fun i => r.drop i) m.top 0 []).isEmpty) := by
  rw [Music.processC, MNode.matchC_eq _ _ _ _ _ _ _ (by rw [List.length_map]; exact visits_lt h _ _ _), Out.ok_bind]

theorem pushBackC_spec {b : Nat} {m : Music} {ps} (h : MInv b m ps) {p : List Tok} {s : List Char} (hs : Spells p s) (sh sb : Int) :
    (∀ x ∈ named p, b ≠ 0 → x < b) ∧ (∃ t w, m.pushBackC ⟨⟨s, 0⟩, 0, 0, sh, sb, []⟩ = .ok ⟨m.info ++ [⟨⟨s, w⟩, 0, 0, sh, sb, []⟩], t, b⟩ ∧
      ∀ g tl w, (MNode.visits g tl t 0 w).Perm (allHits b g tl w (ps ++ [p]) 0)) ∨
    ¬ (∀ x ∈ named p, b ≠ 0 → x < b) ∧ m.pushBackC ⟨⟨s, 0⟩, 0, 0, sh, sb, []⟩ = .throw .invalidArgument := by
  have key : ∃ t, MNode.addC m.b (m.b + 2) s m.info.length 0 m.top = .ok t ∧
      ∀ g tl w, (MNode.visits g tl t 0 w).Perm (allHits b g tl w (ps ++ [p]) 0) := by
    rw [h.bells]
    obtain ⟨t, e, ht⟩ := MNode.addC_spec (b := b) (fuel := b + 2) (pos := 0) (by omega) (by omega) hs m.info.length m.top
    refine ⟨t, e, fun g tl w => (ht g tl w).trans ?_⟩
    have : allHits b g tl w (ps ++ [p]) 0 = allHits b g tl w ps 0 ++ (MNode.hits b g tl (b + 2) p 0 w).map (m.info.length, ·) := by
      simp [allHits, List.zipIdx_append, h.len]
    rw [this]
    exact (h.vis g tl w).append_right _
  obtain ⟨t, e, ht⟩ := key
  rw [Music.pushBackC]
  by_cases hb : b = 0
  · left
    refine ⟨fun x _ hb' => absurd hb hb', t, 0, ?_, ht⟩
    rw [if_neg (by simpa [h.bells] using hb), Out.ok_bind, e, h.bells]; rfl
  · rw [if_pos (by simpa [h.bells] using hb), MusicDetails.checkBellsC, Wildcard.setBellsC, h.bells, if_neg hb, bellsLoop_spec hs]
    by_cases hx : ∀ x ∈ named p, x < b
    · left
      refine ⟨fun x hx' _ => hx x hx', t, b, ?_, ht⟩
      rw [if_pos hx]
      rw [h.bells] at e
      simp only [Out.ok_bind, e]
    · right
      refine ⟨fun hx' => hx fun x hm => hx' x hm hb, ?_⟩
      rw [if_neg hx]; rfl

theorem Reached.inv {b : Nat} {m : Music} {ps} (h : Reached b m ps) : MInv b m ps := by
  induction h with
  | new => exact ⟨rfl, rfl, by simp [Music.new], by simp [Music.new], fun g tl w => by
      rw [Music.new, MNode.visits_new]; exact List.Perm.refl _⟩
  | @push m ps p s sh sb d m' _ hs hd hm ih =>
    rw [newC_spells hs] at hd
    injection hd with hd
    subst hd
    rcases pushBackC_spec ih hs sh sb with ⟨-, t, w, e, ht⟩ | ⟨-, e⟩
    · rw [e] at hm
      injection hm with hm
      subst hm
      refine ⟨rfl, by simp [ih.len], ?_, ?_, ht⟩
      · intro k d' q h1 h2
        rw [List.getElem?_append] at h1 h2
        rw [ih.len] at h1
        split at h1
        · rename_i hk
          rw [if_pos hk] at h2
          exact ih.pats k d' q h1 h2
        · rename_i hk
          rw [if_neg hk] at h2
          have hk0 : k - ps.length = 0 := by
            by_contra hne
            rw [List.getElem?_eq_none (by simp; omega)] at h1
            simp at h1
          rw [hk0] at h1 h2
          simp at h1 h2
          subst h1 h2
          exact hs
      · intro d hd
        rcases List.mem_append.1 hd with hd | hd
        · exact ih.small d hd
        · simp at hd; subst hd; exact ⟨by simp, by simp⟩
    · rw [e] at hm; simp at hm
  | @row m ps r back m' x g _ hm ih =>
    rw [process_eq ih] at hm
    injection hm with hm
    injection hm with hm _
    subst hm
    have hat : ∀ (k : Nat) (d' : MusicDetails), ((MNode.visits g (fun i => r.drop i) m.top 0 []).foldl (MNode.record back)
        (m.info.map fun d => { d with wilds := [] }))[k]? = some d' → ∃ (d : MusicDetails) (ws : List (List Nat)), m.info[k]? = some d ∧
        d' = bump back { d with wilds := [] } ws := by
      intro k d' h
      rw [records_at, List.getElem?_map] at h
      cases hk : m.info[k]? with
      | none => rw [hk] at h; simp at h
      | some d => rw [hk] at h; simp at h; exact ⟨d, _, rfl, h.symm⟩
    refine ⟨ih.bells, by simp [MNode.length_records, ih.len], ?_, ?_, ih.vis⟩
    · intro k d' p h1 h2
      obtain ⟨d, ws, hd, rfl⟩ := hat k d' h1
      have := ih.small d (List.mem_of_getElem? hd)
      rw [(bump_spec back ws { d with wilds := [] } this).2.2.1]
      exact ih.pats k d p hd h2
    · intro d' hd'
      obtain ⟨k, hk⟩ := List.mem_iff_getElem?.1 hd'
      obtain ⟨d, ws, hd, rfl⟩ := hat k d' hk
      have := ih.small d (List.mem_of_getElem? hd)
      exact (bump_spec back ws { d with wilds := [] } this).2.2.2.2.2.2
  | @reset m ps _ ih =>
    refine ⟨ih.bells, by simp [Music.reset, ih.len], ?_, ?_, ih.vis⟩
    · intro k d p h1 h2
      simp only [Music.reset, List.getElem?_map] at h1
      cases hk : m.info[k]? with
      | none => rw [hk] at h1; simp at h1
      | some d0 => rw [hk] at h1; simp at h1; subst h1; exact ih.pats k d0 p hk h2
    · intro d hd
      simp only [Music.reset, List.mem_map] at hd
      obtain ⟨d0, -, rfl⟩ := hd
      exact ⟨by simp [MusicDetails.clear], by simp [MusicDetails.clear]⟩

/-- What happens to each pattern when a row is processed. -/
theorem process_at {b : Nat} {m : Music} {ps} (h : MInv b m ps) (g : Nat → Nat) (r : Row) (back : Bool) :
    ∃ (m' : Music) (x : Bool) (found : Nat → List (List Nat)), m.processC (fun i => .ok (g i)) r back = .ok (m', x) ∧ (x = true ↔ ∃ k, k < ps.length ∧ found k ≠ []) ∧
      ∀ (k : Nat) d p, m.info[k]? = some d → ps[k]? = some p →
        (found k).Perm (MNode.hits b g (fun i => r.drop i) (b + 2) p 0 []) ∧
        m'.info[k]? = some (bump back { d with wilds := [] } (found k)) := by
  refine ⟨_, _, fun k => ((MNode.visits g (fun i => r.drop i) m.top 0 []).filter (fun v => v.1 = k)).map Prod.snd,
    process_eq h g r back, ?_, ?_⟩
  · rw [Bool.not_eq_true', ← Bool.not_eq_true, List.isEmpty_iff]
    constructor
    · intro hne
      obtain ⟨v, hv⟩ := List.exists_mem_of_ne_nil _ hne
      refine ⟨v.1, by rw [← h.len]; exact visits_lt h _ _ _ v hv, ?_⟩
      exact List.ne_nil_of_mem (List.mem_map.2 ⟨v, List.mem_filter.2 ⟨hv, by simp⟩, rfl⟩)
    · rintro ⟨k, -, hk⟩ e
      exact hk (by rw [e]; rfl)
  · intro k d p hd hp
    refine ⟨?_, ?_⟩
    · have h1 := ((h.vis g (fun i => r.drop i) []).filter (fun v => decide (v.1 = k))).map Prod.snd
      have h2 := allHits_key b g (fun i => r.drop i) [] ps 0 k
      rw [Nat.zero_add, hp] at h2
      rwa [h2] at h1
    · show (List.foldl _ _ _)[k]? = _
      rw [records_at, List.getElem?_map, hd]
      rfl

theorem Out.bind_eq_ok {α β : Type} {x : Out α} {f : α → Out β} {y : β} : (x >>= f) = .ok y ↔ ∃ a, x = .ok a ∧ f a = .ok y := by
  cases x <;> simp [Bind.bind, Out.bind]

mutual
/-- A reader that is defined in more places gives the same. -/
theorem matchC_mono {rd rd' : Nat → Out Nat} (h : ∀ i x, rd i = .ok x → rd' i = .ok x) (tl : Nat → List Nat) (back : Bool) :
    (n : MNode) → (pos : Nat) → (w : List Nat) → (res : List MusicDetails) → ∀ y, n.matchC rd tl back pos w res = .ok y →
    n.matchC rd' tl back pos w res = .ok y
  | .node subs dm, pos, w, res, y, hy => by
    rw [MNode.matchC] at hy ⊢
    obtain ⟨a, ha, hy⟩ := Out.bind_eq_ok.1 hy
    rw [ha, Out.ok_bind]
    obtain ⟨c, hc, hy⟩ := Out.bind_eq_ok.1 hy
    obtain ⟨x, hx, hy⟩ := Out.bind_eq_ok.1 hy
    obtain ⟨e, he, hy⟩ := Out.bind_eq_ok.1 hy
    have hc' : (if MNode.hasKey 0 subs then rd' pos >>= fun x => MNode.matchSub rd' tl back 0 subs (pos + 1) (w ++ [x]) a
     else .ok (a, false)) = .ok c := by
      split at hc
      · rw [if_pos (by assumption)]
        obtain ⟨x, hx, hc⟩ := Out.bind_eq_ok.1 hc
        rw [h _ _ hx, Out.ok_bind]
        exact matchSub_mono h tl back 0 subs _ _ _ _ hc
      · rw [if_neg (by assumption)]; exact hc
    rw [hc', Out.ok_bind, h _ _ hx, Out.ok_bind, matchSub_mono h tl back _ subs _ _ _ _ he]
    exact hy
theorem matchSub_mono {rd rd' : Nat → Out Nat} (h : ∀ i x, rd i = .ok x → rd' i = .ok x) (tl : Nat → List Nat) (back : Bool)
    (place : Nat) : (subs : List (Nat × MNode)) → (pos : Nat) → (w : List Nat) → (res : List MusicDetails) → ∀ y,
    MNode.matchSub rd tl back place subs pos w res = .ok y → MNode.matchSub rd' tl back place subs pos w res = .ok y
  | [], _, _, _, y, hy => by rw [MNode.matchSub] at hy ⊢; exact hy
  | (k, n) :: subs, pos, w, res, y, hy => by
    rw [MNode.matchSub] at hy ⊢
    split at hy
    · rw [if_pos (by assumption)]; exact matchC_mono h tl back n _ _ _ _ hy
    · rw [if_neg (by assumption)]; exact matchSub_mono h tl back place subs _ _ _ _ hy
end

end Ringing
