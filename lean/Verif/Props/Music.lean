import Verif.Lemmas.MusicState
/-! C42: music patterns. -/
namespace Ringing
open Spec

/-! ### Patterns -/

/-- C42: `music_details` accepts just the patterns made of bells, `?`, `*` and sets `[...]` of bells (which
may be empty); anything else throws. -/
theorem C42_valid (s : List Char) (h0 : '\x00' ∉ s) (sh sb : Int) :
    ((∃ d, MusicDetails.newC s sh sb = .ok d) ↔ ∃ p, Spells p s) ∧
    ((¬ ∃ p, Spells p s) → MusicDetails.newC s sh sb = .throw .invalidArgument) := by
  have key : (¬ ∃ p, Spells p s) → MusicDetails.newC s sh sb = .throw .invalidArgument := by
    intro h
    rcases (checkLoop_spec s h0).2 false with e | e
    · exact absurd ((checkLoop_spec s h0).1.1.1 e) h
    · rw [MusicDetails.newC, Wildcard.newC, Wildcard.checkExpression, e]; rfl
  refine ⟨⟨?_, fun ⟨p, hp⟩ => ⟨_, newC_spells hp sh sb⟩⟩, key⟩
  rintro ⟨d, hd⟩
  by_contra h
  rw [key h] at hd
  cases hd

/-- C42: a pattern is added to a `music` just if the bells it names are in range (any are, if the number of
bells is not set). -/
theorem C42_push {b : Nat} {m : Music} {ps : List (List Tok)} (hR : Reached b m ps) {p : List Tok} {s : List Char} (hs : Spells p s)
    {sh sb : Int} {d : MusicDetails} (hd : MusicDetails.newC s sh sb = .ok d) :
    ((∃ m', m.pushBackC d = .ok m') ↔ b = 0 ∨ ∀ x ∈ named p, x < b) ∧
    ((∃ m', m.pushBackC d = .ok m') ∨ m.pushBackC d = .throw .invalidArgument) := by
  rw [newC_spells hs] at hd
  injection hd with hd
  subst hd
  rcases pushBackC_spec hR.inv hs sh sb with ⟨h, t, w, e, -⟩ | ⟨h, e⟩
  · refine ⟨⟨fun _ => ?_, fun _ => ⟨_, e⟩⟩, Or.inl ⟨_, e⟩⟩
    by_cases hb : b = 0
    · exact Or.inl hb
    · exact Or.inr fun x hx => h x hx hb
  · refine ⟨⟨?_, ?_⟩, Or.inr e⟩
    · rintro ⟨m', e'⟩; rw [e] at e'; cases e'
    · rintro (hb | hb)
      · exact absurd (fun x _ hb' => absurd hb hb') h
      · exact absurd (fun x hx _ => hb x hx) h

/-! ### Matches -/

theorem lastNonempty_star (q : List Tok) : lastNonempty (q ++ [.star]) = q ++ [.star] := by
  induction q with
  | nil => rfl
  | cons t q ih =>
    cases t with
    | star => rw [List.cons_append, lastNonempty, if_pos (by simp), ih]
    | bell b => rw [List.cons_append, lastNonempty, ih]; simp
    | any => rw [List.cons_append, lastNonempty, ih]; simp
    | set l => rw [List.cons_append, lastNonempty, ih]; simp

theorem hits_tooLong {b : Nat} {g tl} {p : List Tok} (hp : Tok.star ∉ p) : ∀ {fuel pos : Nat} (w : List Nat), b + 1 < pos + p.length → pos ≤ b + 1 →
    MNode.hits b g tl fuel p pos w = [] := by
  induction p with
  | nil => intro fuel pos w h h'; simp at h; omega
  | cons t p ih =>
    intro fuel pos w h h'
    have hp' : Tok.star ∉ p := fun h => hp (List.mem_cons_of_mem _ h)
    cases fuel with
    | zero => rfl
    | succ k =>
      rw [MNode.hits]
      by_cases hpos : pos > b
      · cases t <;> rw [MNode.hitGo, if_pos hpos]
      · have IH := fun w => @ih hp' k (pos + 1) w (by simp at h; omega) (by omega)
        cases t with
        | bell x => rw [MNode.hitGo, if_neg hpos, IH]; simp
        | any => rw [MNode.hitGo, if_neg hpos, IH]
        | set l => rw [MNode.hitGo, if_neg hpos, IH]; simp
        | star => exact absurd (List.mem_cons_self) hp

/-- C42: what `process_row` does to each pattern.  Some readings of the row by the pattern are found; their
number is added to the count for the stroke, and the count for the other stroke stays.  All the matches found
are matches, if the pattern has a star or is not longer than the row; all matches are found if the pattern
is in the window, except that a last star followed by something stands for at least one bell.  The result is
whether there were any.  `g` is how the row is read, with whatever is behind its end. -/
theorem C42_process {b : Nat} {m : Music} {ps : List (List Tok)} (hR : Reached b m ps) {r : Row} (hr : r.length = b) {g : Nat → Nat}
    (hg : ∀ i (h : i < r.length), g i = r[i]) (back : Bool) :
    ∃ (m' : Music) (x : Bool) (found : Nat → List (List Nat)),
      m.processC (fun i => .ok (g i)) r back = .ok (m', x) ∧ (x = true ↔ ∃ k, k < ps.length ∧ found k ≠ []) ∧
      ∀ (k : Nat) d p, m.info[k]? = some d → ps[k]? = some p → ∃ d', m'.info[k]? = some d' ∧
        d'.count (some back) = u32 (d.count (some back) + (found k).length) ∧
        d'.count (some !back) = d.count (some !back) ∧
        d'.pat = d.pat ∧ d'.scoreh = d.scoreh ∧ d'.scoreb = d.scoreb ∧
        (found k = [] → d'.wilds = []) ∧ (found k ≠ [] → d'.wilds ∈ found k) ∧
        (Tok.star ∈ p ∨ p.length ≤ b → (found k).Subperm (readings (lastNonempty (full p)) r) ∧
          (Window b p → (found k).Perm (readings (lastNonempty (full p)) r))) ∧
        (Tok.star ∉ p → b + 1 < p.length → found k = []) := by
  have hI := hR.inv
  obtain ⟨m', x, found, e, hx, h⟩ := process_at hI g r back
  refine ⟨m', x, found, e, hx, ?_⟩
  intro k d p hd hp
  obtain ⟨h1, h2⟩ := h k d p hd hp
  obtain ⟨c1, c2, c3, c4, c5, c6, -⟩ := bump_spec back (found k) { d with wilds := [] } (hI.small d (List.mem_of_getElem? hd))
  refine ⟨_, h2, ?_, ?_, c3, c4, c5, ?_, ?_, ?_, ?_⟩
  · rw [c1]; cases back <;> rfl
  · rw [c2]; cases back <;> rfl
  · intro hf; rw [c6, hf]; rfl
  · intro hf
    rw [c6, List.getLast?_eq_getLast_of_ne_nil hf, Option.getD_some]
    exact List.getLast_mem hf
  · intro hp
    have hid : ∀ l : List (List Nat), l.map (fun x => [] ++ x) = l := fun l => by simp
    by_cases hs : Tok.star ∈ p
    · rw [full, if_pos hs]
      refine ⟨?_, fun hw => ?_⟩
      · have := MNode.hits_sound hr hg (fuel := b + 2) (pos := 0) [] hs (by omega) (by omega)
        rw [List.drop_zero, hid] at this
        exact h1.subperm.trans this.subperm
      · have := MNode.hits_exact hr hg (fuel := b + 2) (pos := 0) [] hs hw (by omega) (by omega)
        rw [List.drop_zero, hid] at this
        rwa [this] at h1
    · rw [full, if_neg hs, lastNonempty_star]
      have hl : p.length ≤ b := hp.resolve_left hs
      have := MNode.hits_noStar hr hg hs (fuel := b + 2) (pos := 0) [] (by omega) (by omega)
      rw [List.drop_zero, hid] at this
      rw [this] at h1
      exact ⟨h1.subperm, fun _ => h1⟩
  · intro hs hl
    rw [hits_tooLong hs _ (by omega) (by omega)] at h1
    exact h1.eq_nil

/-- C42: a row that is counted for a pattern, even once, matches it. -/
theorem C42_sound {b : Nat} {m m' : Music} {ps : List (List Tok)} (hR : Reached b m ps) {r : Row} (hr : r.length = b) {g : Nat → Nat}
    (hg : ∀ i (h : i < r.length), g i = r[i]) {back x : Bool} (he : m.processC (fun i => .ok (g i)) r back = .ok (m', x))
    {k : Nat} {d d' : MusicDetails} {p : List Tok} (hp : ps[k]? = some p) (hd : m.info[k]? = some d) (hd' : m'.info[k]? = some d')
    (hl : Tok.star ∈ p ∨ p.length ≤ b) (hc : d'.count (some back) ≠ d.count (some back)) : Matches (full p) r := by
  obtain ⟨m1, x1, found, e, -, h⟩ := C42_process hR hr hg back
  rw [he] at e
  injection e with e
  injection e with e _
  subst e
  obtain ⟨d1, h1, h2, -, -, -, -, -, -, h3, -⟩ := h k d p hd hp
  rw [hd'] at h1
  injection h1 with h1
  subst h1
  have hne : found k ≠ [] := by
    intro e
    rw [e] at h2
    apply hc
    rw [h2]
    have hs := hR.inv.small d (List.mem_of_getElem? hd)
    cases back
    · exact Nat.mod_eq_of_lt hs.1
    · exact Nat.mod_eq_of_lt hs.2
  rw [← readings_ne_nil]
  obtain ⟨v, hv⟩ := List.exists_mem_of_ne_nil _ hne
  exact List.ne_nil_of_mem ((lastNonempty_sub _ r).subset ((h3 hl).1.subset hv))

/-- The patterns for which every match is found: without a star and not longer than the row, or ending in a
star and in the window. -/
def PlainPat (b : Nat) (p : List Tok) : Prop :=
  (Tok.star ∉ p ∧ p.length ≤ b) ∨ (∃ q, p = q ++ [.star]) ∧ Window b p

/-- At most one star, and no set names a bell twice. -/
def OneWay (p : List Tok) : Prop := p.count .star ≤ 1 ∧ ∀ l, Tok.set l ∈ p → l.Nodup

theorem plain_found {b : Nat} {p : List Tok} (h : PlainPat b p) :
    (Tok.star ∈ p ∨ p.length ≤ b) ∧ Window b p ∧ lastNonempty (full p) = full p := by
  rcases h with ⟨h1, h2⟩ | ⟨⟨q, rfl⟩, hw⟩
  · refine ⟨Or.inr h2, ?_, ?_⟩
    · intro z hz; exact absurd (hz.subset (by simp)) h1
    · rw [full, if_neg h1, lastNonempty_star]
  · refine ⟨Or.inl (by simp), hw, ?_⟩
    rw [full, if_pos (by simp), lastNonempty_star]

theorem readings_tail_noStar {p : List Tok} (hp : ∀ l, Tok.set l ∈ p → l.Nodup) (hs : Tok.star ∉ p) :
    ∀ r, (readings p r).length ≤ 1 := by
  induction p with
  | nil => intro r; rw [readings]; split <;> simp
  | cons t p ih =>
    have ih := ih (fun l hl => hp l (List.mem_cons_of_mem _ hl)) (fun h => hs (List.mem_cons_of_mem _ h))
    intro r
    cases r with
    | nil => cases t <;> first | exact absurd List.mem_cons_self hs | simp [readings]
    | cons x r =>
      cases t with
      | bell b => rw [readings]; split; exact ih r; simp
      | any => rw [readings, List.length_map]; exact ih r
      | star => exact absurd List.mem_cons_self hs
      | set l =>
        have hn := hp l List.mem_cons_self
        rw [readings]
        have : ∀ l : List Nat, l.Nodup → (l.flatMap fun b => if x = b then readings p r else []).length ≤ 1 := by
          intro l hn
          by_cases hx : x ∈ l
          · obtain ⟨a, c, rfl⟩ := List.append_of_mem hx
            have ha : x ∉ a := fun h => by
              rw [List.nodup_append] at hn
              exact hn.2.2 x h x (by simp) rfl
            have hc : x ∉ c := by
              rw [List.nodup_append] at hn
              exact (List.nodup_cons.1 hn.2.1).1
            have z : ∀ a : List Nat, x ∉ a → (a.flatMap fun b => if x = b then readings p r else []) = [] := by
              intro a ha
              rw [List.flatMap_eq_nil_iff]
              intro b hb
              rw [if_neg (fun e => ha (by rw [e]; exact hb))]
            rw [List.flatMap_append, List.flatMap_cons, z a ha, z c hc, if_pos rfl]
            simpa using ih r
          · rw [List.flatMap_eq_nil_iff.2]
            · simp
            · intro b hb
              rw [if_neg (fun e => hx (by rw [e]; exact hb))]
        exact this l hn

theorem readings_once {p : List Tok} (hp : OneWay p) : ∀ r, (readings p r).length ≤ 1 := by
  induction p with
  | nil => intro r; rw [readings]; split <;> simp
  | cons t p ih =>
    intro r
    have hset : ∀ l, Tok.set l ∈ p → l.Nodup := fun l hl => hp.2 l (List.mem_cons_of_mem _ hl)
    by_cases ht : t = .star
    · subst ht
      have hs : Tok.star ∉ p := by
        have := hp.1
        rw [List.count_cons_self] at this
        exact List.count_eq_zero.1 (by omega)
      rw [readings]
      have hl := readings_tail_noStar hset hs
      induction r with
      | nil => exact hl []
      | cons x r ih2 =>
        rw [starReadings, List.length_append, List.length_map]
        by_cases he : (x :: r).length = p.length
        · rw [star_short (t := r)]
          · rw [readings_long hs (r := r) (by simp at he; omega)]
            simpa using hl (x :: r)
          · intro t' ht'
            exact readings_long hs (by simp at he; omega)
        · rw [readings_long hs he]
          simpa using ih2
    · have hs : OneWay p := ⟨by have := hp.1; rwa [List.count_cons_of_ne ht] at this, hset⟩
      have ih := ih hs
      cases r with
      | nil => cases t <;> first | exact absurd rfl ht | simp [readings]
      | cons x r =>
        cases t with
        | bell b => rw [readings]; split; exact ih r; simp
        | any => rw [readings, List.length_map]; exact ih r
        | star => exact absurd rfl ht
        | set l =>
          have hn := hp.2 l List.mem_cons_self
          rw [readings]
          have z : ∀ a : List Nat, x ∉ a → (a.flatMap fun b => if x = b then readings p r else []) = [] := by
            intro a ha
            rw [List.flatMap_eq_nil_iff]
            intro b hb
            rw [if_neg (fun e => ha (by rw [e]; exact hb))]
          by_cases hx : x ∈ l
          · obtain ⟨a, c, rfl⟩ := List.append_of_mem hx
            have ha : x ∉ a := fun h => by
              rw [List.nodup_append] at hn
              exact hn.2.2 x h x (by simp) rfl
            have hc : x ∉ c := by
              rw [List.nodup_append] at hn
              exact (List.nodup_cons.1 hn.2.1).1
            rw [List.flatMap_append, List.flatMap_cons, z a ha, z c hc, if_pos rfl]
            simpa using ih r
          · rw [z l hx]; simp

theorem oneWay_full {p : List Tok} (hp : OneWay p) : OneWay (full p) := by
  unfold full
  split
  · exact hp
  · rename_i h
    refine ⟨?_, ?_⟩
    · rw [List.count_append, List.count_eq_zero.2 h]; simp
    · intro l hl
      rcases List.mem_append.1 hl with h | h
      · exact hp.2 l h
      · simp at h

/-- C42: a row is a match for a plain pattern just if the pattern describes it, and a simple pattern counts it
once. -/
theorem C42_readings {p : List Tok} (r : Row) : (0 < (readings (full p) r).length ↔ Matches (full p) r) ∧
    (OneWay p → (readings (full p) r).length ≤ 1) :=
  ⟨by rw [← readings_ne_nil, List.length_pos_iff], fun h => readings_once (oneWay_full h) r⟩

/-- C42: for plain patterns, `process_row` adds to the count of each pattern for the stroke the number of ways
in which the row matches it, and says whether the row matches any of them. -/
theorem C42_row {b : Nat} {m : Music} {ps : List (List Tok)} (hR : Reached b m ps) (hP : ∀ p ∈ ps, PlainPat b p) {r : Row}
    (hr : r.length = b) {g : Nat → Nat} (hg : ∀ i (h : i < r.length), g i = r[i]) (back : Bool) :
    ∃ (m' : Music) (x : Bool), m.processC (fun i => .ok (g i)) r back = .ok (m', x) ∧ Reached b m' ps ∧
      (x = true ↔ ∃ p ∈ ps, Matches (full p) r) ∧
      ∀ (k : Nat) d p, m.info[k]? = some d → ps[k]? = some p → ∃ d', m'.info[k]? = some d' ∧
        d'.count (some back) = u32 (d.count (some back) + (readings (full p) r).length) ∧
        d'.count (some !back) = d.count (some !back) ∧ d'.scoreh = d.scoreh ∧ d'.scoreb = d.scoreb := by
  obtain ⟨m', x, found, e, hx, h⟩ := C42_process hR hr hg back
  have hf : ∀ (k : Nat) d p, m.info[k]? = some d → ps[k]? = some p → (found k).Perm (readings (full p) r) := by
    intro k d p hd hp
    obtain ⟨-, -, -, -, -, -, -, -, -, h3, -⟩ := h k d p hd hp
    obtain ⟨q1, q2, q3⟩ := plain_found (hP p (List.mem_of_getElem? hp))
    have := (h3 q1).2 q2
    rwa [q3] at this
  refine ⟨m', x, e, .row hR e, ?_, ?_⟩
  · rw [hx]
    constructor
    · rintro ⟨k, hk, hne⟩
      refine ⟨ps[k], List.getElem_mem _, ?_⟩
      rw [← readings_ne_nil]
      have hk' : k < m.info.length := by rw [hR.inv.len]; exact hk
      have := hf k m.info[k] ps[k] (List.getElem?_eq_getElem hk') (List.getElem?_eq_getElem hk)
      intro e
      rw [e] at this
      exact hne this.eq_nil
    · rintro ⟨p, hp, hm⟩
      obtain ⟨k, hk, rfl⟩ := List.getElem_of_mem hp
      refine ⟨k, hk, ?_⟩
      rw [← readings_ne_nil] at hm
      have hk' : k < m.info.length := by rw [hR.inv.len]; exact hk
      have := hf k m.info[k] ps[k] (List.getElem?_eq_getElem hk') (List.getElem?_eq_getElem hk)
      intro e
      rw [e] at this
      exact hm this.symm.eq_nil
  · intro k d p hd hp
    obtain ⟨d', h1, h2, h3, -, h4, h5, -⟩ := h k d p hd hp
    exact ⟨d', h1, by rw [h2, (hf k d p hd hp).length_eq], h3, h4, h5⟩

/-- The total of `f` over the rows of one stroke, of rows of which the first has the given stroke. -/
def tally (f : Row → Nat) (st : Bool) : List Row → Bool → Nat
  | [], _ => 0
  | r :: rs, back => (if back = st then f r else 0) + tally f st rs (!back)

theorem process_loop {b : Nat} {ps : List (List Tok)} (hP : ∀ p ∈ ps, PlainPat b p) {g : Row → Nat → Nat}
    (hg : ∀ r i (h : i < r.length), g r i = r[i]) : ∀ (rs : List Row), (∀ r ∈ rs, r.length = b) → ∀ (m : Music) (back : Bool), Reached b m ps →
    ∃ m', m.processLoop (fun r i => .ok (g r i)) rs back = .ok m' ∧ Reached b m' ps ∧
      ∀ (k : Nat) d p, m.info[k]? = some d → ps[k]? = some p → ∃ d', m'.info[k]? = some d' ∧
        (∀ st, d'.count (some st) = u32 (d.count (some st) + tally (fun r => (readings (full p) r).length) st rs back)) ∧
        d'.scoreh = d.scoreh ∧ d'.scoreb = d.scoreb := by
  intro rs
  induction rs with
  | nil =>
    intro _ m back hR
    refine ⟨m, rfl, hR, fun k d p hd hp => ⟨d, hd, fun st => ?_, rfl, rfl⟩⟩
    have hs := hR.inv.small d (List.mem_of_getElem? hd)
    cases st
    · exact (Nat.mod_eq_of_lt hs.1).symm
    · exact (Nat.mod_eq_of_lt hs.2).symm
  | cons r rs ih =>
    intro hl m back hR
    obtain ⟨m1, x, e1, hR1, -, h1⟩ := C42_row hR hP (hl r (by simp)) (hg r) back
    obtain ⟨m2, e2, hR2, h2⟩ := ih (fun r h => hl r (by simp [h])) m1 (!back) hR1
    refine ⟨m2, by rw [Music.processLoop, e1, Out.ok_bind]; exact e2, hR2, ?_⟩
    intro k d p hd hp
    obtain ⟨d1, hd1, c1, c2, c3, c4⟩ := h1 k d p hd hp
    obtain ⟨d2, hd2, c5, c6, c7⟩ := h2 k d1 p hd1 hp
    refine ⟨d2, hd2, fun st => ?_, c6.trans c3, c7.trans c4⟩
    rw [c5 st, tally]
    by_cases hst : back = st
    · subst hst
      rw [if_pos rfl, c1, u32_add_u32, Nat.add_assoc]
    · rw [if_neg hst]
      have : st = !back := by cases back <;> cases st <;> simp_all
      rw [this, c2, Nat.zero_add]

/-- C42: after `process_rows`, the count of each plain pattern for each stroke is the number of matches in
the rows of that stroke. -/
theorem C42_rows {b : Nat} {m : Music} {ps : List (List Tok)} (hR : Reached b m ps) (hP : ∀ p ∈ ps, PlainPat b p) {rs : List Row}
    (hl : ∀ r ∈ rs, r.length = b) {g : Row → Nat → Nat} (hg : ∀ r i (h : i < r.length), g r i = r[i]) (back : Bool) :
    ∃ m', m.processRowsC (fun r i => .ok (g r i)) rs back = .ok m' ∧ Reached b m' ps ∧ m'.info.length = ps.length ∧
      ∀ (k : Nat) d' p, m'.info[k]? = some d' → ps[k]? = some p → ∀ st,
        d'.count (some st) = u32 (tally (fun r => (readings (full p) r).length) st rs back) := by
  obtain ⟨m', e, hR', h⟩ := process_loop hP hg rs hl m.reset back (.reset hR)
  refine ⟨m', e, hR', hR'.inv.len, ?_⟩
  intro k d' p hd' hp st
  have hk : k < m.info.length := by
    rw [hR.inv.len]
    exact (List.getElem?_eq_some_iff.1 hp).1
  obtain ⟨d1, h1, h2, -, -⟩ := h k m.info[k].clear p (by simp [Music.reset, hk]) hp
  rw [hd'] at h1
  injection h1 with h1
  subst h1
  rw [h2]
  cases st <;> simp [MusicDetails.clear, MusicDetails.count]

/-- C42: what is counted for a pattern does not depend on the other patterns of the `music`. -/
theorem C42_independent {b : Nat} {m₁ m₂ : Music} {ps₁ ps₂ : List (List Tok)} (h₁ : Reached b m₁ ps₁) (h₂ : Reached b m₂ ps₂)
    (g : Nat → Nat) (r : Row) (back : Bool) {i j : Nat} {p : List Tok} (hi : ps₁[i]? = some p) (hj : ps₂[j]? = some p)
    {d₁ d₂ : MusicDetails} (hd₁ : m₁.info[i]? = some d₁) (hd₂ : m₂.info[j]? = some d₂) :
    ∃ m₁' m₂' x₁ x₂ d₁' d₂' n, m₁.processC (fun i => .ok (g i)) r back = .ok (m₁', x₁) ∧
      m₂.processC (fun i => .ok (g i)) r back = .ok (m₂', x₂) ∧ m₁'.info[i]? = some d₁' ∧ m₂'.info[j]? = some d₂' ∧
      d₁'.count (some back) = u32 (d₁.count (some back) + n) ∧ d₂'.count (some back) = u32 (d₂.count (some back) + n) := by
  obtain ⟨m1, x1, f1, e1, -, q1⟩ := process_at h₁.inv g r back
  obtain ⟨m2, x2, f2, e2, -, q2⟩ := process_at h₂.inv g r back
  obtain ⟨a1, a2⟩ := q1 i d₁ p hd₁ hi
  obtain ⟨b1, b2⟩ := q2 j d₂ p hd₂ hj
  have c1 := (bump_spec back (f1 i) { d₁ with wilds := [] } (h₁.inv.small d₁ (List.mem_of_getElem? hd₁))).1
  have c2 := (bump_spec back (f2 j) { d₂ with wilds := [] } (h₂.inv.small d₂ (List.mem_of_getElem? hd₂))).1
  refine ⟨m1, m2, x1, x2, _, _, (f1 i).length, e1, e2, a2, b2, ?_, ?_⟩
  · rw [c1]; cases back <;> rfl
  · rw [c2, (a1.trans b1.symm).length_eq]; cases back <;> rfl

/-! ### Scores -/

theorem i32_id {x : Int} (h : -2147483648 ≤ x ∧ x < 2147483648) : i32 x = x := by
  unfold i32
  rw [Int.emod_eq_of_lt (by omega) (by omega)]
  omega

theorem sumC_ok : ∀ (l : List Int) (t : Int), (∀ i, i ≤ l.length → -2147483648 ≤ t + (l.take i).sum ∧ t + (l.take i).sum < 2147483648) →
    Music.sumC l t = .ok (t + l.sum)
  | [], t, _ => by simp [Music.sumC]
  | x :: l, t, h => by
    have h1 := h 1 (by simp)
    simp at h1
    rw [Music.sumC, if_pos h1, sumC_ok l (t + x)]
    · rw [List.sum_cons, add_assoc]
    · intro i hi
      have := h (i + 1) (by simpa using hi)
      rw [List.take_succ_cons, List.sum_cons] at this
      rw [add_assoc]; exact this

/-- The score of a pattern. -/
def worth (d : MusicDetails) : Option Bool → Int
  | some false => d.counth * d.scoreh
  | some true => d.countb * d.scoreb
  | none => d.counth * d.scoreh + d.countb * d.scoreb

/-- C42: the score is the sum, over the patterns, of the counts times the scores of the strokes, as long as
this and the partial sums are in the range of an `int`. -/
theorem C42_score (m : Music) (st : Option Bool)
    (h : ∀ d ∈ m.info, -2147483648 ≤ worth d st ∧ worth d st < 2147483648)
    (hs : ∀ i, i ≤ m.info.length → -2147483648 ≤ ((m.info.take i).map (worth · st)).sum ∧ ((m.info.take i).map (worth · st)).sum < 2147483648) :
    m.getScoreC st = .ok (m.info.map (worth · st)).sum := by
  have e : m.info.map (fun d => d.total st) = m.info.map (worth · st) := by
    apply List.map_congr_left
    intro d hd
    have := h d hd
    rcases st with _ | _ | _ <;> exact i32_id this
  rw [Music.getScoreC, e, sumC_ok]
  · simp
  · intro i hi
    rw [List.length_map] at hi
    rw [← List.map_take, zero_add]
    exact hs i hi

/-! ### Reading past the end of the row -/

/-- C42: `process_row`, if it reads nothing behind the row, is what was described above. -/
theorem C42_strict {m : Music} {r : Row} {back : Bool} {y : Music × Bool} (h : m.processRowC r back = .ok y) {g : Nat → Nat}
    (hg : ∀ i (h : i < r.length), g i = r[i]) : m.processC (fun i => .ok (g i)) r back = .ok y := by
  unfold Music.processRowC Music.processC at *
  obtain ⟨a, ha, h⟩ := Out.bind_eq_ok.1 h
  rw [matchC_mono (rd' := fun i => .ok (g i)) _ _ _ _ _ _ _ _ ha, Out.ok_bind]
  · exact h
  · intro i x hx
    rw [vget] at hx
    cases hi : r[i]? with
    | none => rw [hi] at hx; cases hx
    | some y =>
      rw [hi] at hx
      injection hx with hx
      obtain ⟨h1, h2⟩ := List.getElem?_eq_some_iff.1 hi
      rw [hg i h1, h2, hx]

namespace MNode

/-- A tree of at most the given height. -/
def fits : Nat → MNode → Prop
  | 0, .node subs _ => subs = []
  | h + 1, .node subs _ => ∀ x ∈ subs, fits h x.2

theorem fits_new (h : Nat) : fits h new := by cases h <;> simp [fits, new]

theorem fits_pushKey {h : Nat} {n : MNode} (hn : fits h n) (key : Nat) : fits h (n.pushKey key) := by
  obtain ⟨subs, dm⟩ := n
  cases h <;> exact hn

theorem fits_updC {h : Nat} {n n' : MNode} {f : MNode → Out MNode} {place : Nat} (hn : fits (h + 1) n)
    (hf : ∀ n n', fits h n → f n = .ok n' → fits h n') (e : updC place f n = .ok n') : fits (h + 1) n' := by
  obtain ⟨subs, dm⟩ := n
  rw [updC] at e
  obtain ⟨s, hs, e⟩ := Out.bind_eq_ok.1 e
  injection e with e
  subst e
  clear e
  replace hn : ∀ x ∈ subs, fits h x.2 := hn
  show ∀ x ∈ s, fits h x.2
  induction subs generalizing s with
  | nil =>
    rw [updSubs] at hs
    obtain ⟨a, ha, hs⟩ := Out.bind_eq_ok.1 hs
    injection hs with hs
    subst hs
    intro x hx
    simp at hx
    subst hx
    exact hf _ _ (fits_new h) ha
  | cons x subs ih =>
    obtain ⟨k, n⟩ := x
    rw [updSubs] at hs
    split at hs
    · obtain ⟨a, ha, hs⟩ := Out.bind_eq_ok.1 hs
      injection hs with hs
      subst hs
      intro x hx
      rcases List.mem_cons.1 hx with rfl | hx
      · exact hf _ _ (hn (k, n) (by simp)) ha
      · exact hn x (by simp [hx])
    · obtain ⟨a, ha, hs⟩ := Out.bind_eq_ok.1 hs
      injection hs with hs
      subst hs
      intro x hx
      rcases List.mem_cons.1 hx with rfl | hx
      · exact hn (k, n) (by simp)
      · exact ih a ha (fun x (hx : x ∈ subs) => hn x (by simp [hx])) x hx

/-- Adding a pattern without a star, but perhaps a star at its end. -/
theorem fits_addC {b : Nat} {p : List Tok} {s : List Char} (hs : Spells p s) : ∀ {q}, Tok.star ∉ q → (p = q ∨ p = q ++ [.star]) →
    ∀ {fuel key pos h : Nat} {n n' : MNode}, q.length ≤ h → fits h n → addC b fuel s key pos n = .ok n' → fits h n' := by
  induction hs with
  | nil =>
    intro q _ _ fuel key pos h n n' _ hn e
    cases fuel with
    | zero => cases e
    | succ fuel =>
      rw [addC, addGo] at e
      injection e with e
      subst e
      exact fits_pushKey hn key
  | @bell c x p s hc hs ih =>
    intro q hq hp fuel key pos h n n' hl hn e
    cases fuel with
    | zero => cases e
    | succ fuel =>
      obtain ⟨h1, -, h3, -⟩ := bellChar hc
      cases q with
      | nil => rcases hp with hp | hp <;> simp at hp
      | cons t q =>
        cases h with
        | zero => simp at hl
        | succ h =>
          rw [addC, addGo, if_pos (Or.inl h1), readExtended_bell hc] at e
          split at e
          · injection e with e; subst e; exact hn
          · rw [Out.ok_bind] at e
            refine fits_updC hn (fun n n' hn e => ?_) e
            refine @ih q (fun h => hq (by simp [h])) ?_ fuel key (pos + 1) h n n' (by simpa using hl) hn e
            rcases hp with hp | hp
            · exact Or.inl (List.cons.inj hp).2
            · exact Or.inr (List.cons.inj hp).2
  | @any p s hs ih =>
    intro q hq hp fuel key pos h n n' hl hn e
    cases fuel with
    | zero => cases e
    | succ fuel =>
      cases q with
      | nil => rcases hp with hp | hp <;> simp at hp
      | cons t q =>
        cases h with
        | zero => simp at hl
        | succ h =>
          rw [addC, addGo] at e
          split at e
          · injection e with e; subst e; exact hn
          · rw [if_neg (by decide), if_pos rfl] at e
            refine fits_updC hn (fun n n' hn e => ?_) e
            refine @ih q (fun h => hq (by simp [h])) ?_ fuel key (pos + 1) h n n' (by simpa using hl) hn e
            rcases hp with hp | hp
            · exact Or.inl (List.cons.inj hp).2
            · exact Or.inr (List.cons.inj hp).2
  | @set cs l p s hl hs ih =>
    intro q hq hp fuel key pos h n n' hlen hn e
    cases fuel with
    | zero => cases e
    | succ fuel =>
      cases q with
      | nil => rcases hp with hp | hp <;> simp at hp
      | cons t q =>
        cases h with
        | zero => simp at hlen
        | succ h =>
          rw [addC, addGo] at e
          split at e
          · injection e with e; subst e; exact hn
          · rw [if_neg (by decide), if_neg (by decide), if_pos rfl, findIdx_set hl] at e
            have hf : ∀ n n', fits h n → addC b fuel s key (pos + 1) n = .ok n' → fits h n' := by
              intro n n' hn e
              refine @ih q (fun h => hq (by simp [h])) ?_ fuel key (pos + 1) h n n' (by simpa using hlen) hn e
              rcases hp with hp | hp
              · exact Or.inl (List.cons.inj hp).2
              · exact Or.inr (List.cons.inj hp).2
            generalize (cs ++ ']' :: s).length + 1 = k at e
            clear ih hp
            generalize addC b fuel s key (pos + 1) = f at e hf
            induction hl generalizing k n with
            | nil =>
              cases k with
              | zero => cases e
              | succ k =>
                rw [List.nil_append, setLoop, if_pos rfl] at e
                injection e with e; subst e; exact hn
            | @cons c x cs l hc hl ih2 =>
              cases k with
              | zero => cases e
              | succ k =>
                obtain ⟨h1, -, h3, -⟩ := bellChar hc
                have hne : c ≠ ']' := fun e => h3 (by subst e; decide)
                rw [List.cons_append, setLoop, if_neg hne, if_pos (Or.inl h1), readExtended_bell hc, Out.ok_bind] at e
                obtain ⟨n1, e1, e⟩ := Out.bind_eq_ok.1 e
                exact ih2 (fits_updC hn hf e1) k e
  | @star p s hs ih =>
    intro q hq hp fuel key pos h n n' hl hn e
    have hpn : p = [] := by
      cases q with
      | nil => rcases hp with hp | hp <;> simp at hp; exact hp
      | cons t q =>
        rcases hp with hp | hp
        · exact absurd (by rw [← (List.cons.inj hp).1]; simp) hq
        · exact absurd (by rw [← (List.cons.inj hp).1]; simp) hq
    subst hpn
    have hsn := (spells_nil hs).2 rfl
    cases fuel with
    | zero => cases e
    | succ fuel =>
      rw [addC, addGo] at e
      split at e
      · injection e with e; subst e; exact hn
      · rw [if_neg (by decide), if_neg (by decide), if_neg (by decide), if_pos rfl] at e
        injection e with e; subst e; exact fits_pushKey hn key

theorem matchC_fits {r : Row} {g : Nat → Nat} (hg : ∀ i (h : i < r.length), g i = r[i]) (tl : Nat → List Nat) (back : Bool) :
    ∀ (h : Nat) (n : MNode) (pos : Nat) (w : List Nat) (res : List MusicDetails), fits h n → pos + h < r.length →
    matchC (vget r) tl back n pos w res = matchC (fun i => .ok (g i)) tl back n pos w res := by
  intro h
  induction h with
  | zero =>
    rintro ⟨subs, dm⟩ pos w res hf hl
    have hf : subs = [] := hf
    subst hf
    rw [matchC, matchC, vget, List.getElem?_eq_getElem (by omega), hg pos (by omega)]
    rfl
  | succ h ih =>
    rintro ⟨subs, dm⟩ pos w res hf hl
    replace hf : ∀ x ∈ subs, fits h x.2 := hf
    have hl' : pos + 1 + h < r.length := by omega
    have sub : ∀ place w res, matchSub (vget r) tl back place subs (pos + 1) w res =
        matchSub (fun i => .ok (g i)) tl back place subs (pos + 1) w res := by
      intro place w res
      clear hl
      induction subs with
      | nil => rw [matchSub, matchSub]
      | cons x subs ih2 =>
        obtain ⟨k, n⟩ := x
        rw [matchSub, matchSub]
        split
        · exact ih n _ _ _ (hf (k, n) (by simp)) hl'
        · exact ih2 (fun x hx => hf x (by simp [hx]))
    have : vget r pos = .ok (g pos) := by rw [vget, List.getElem?_eq_getElem (by omega), hg pos (by omega)]
    rw [matchC, matchC]
    simp only [this, sub]

end MNode

/-- C42: if all patterns stand for fewer bells than there are, with no star except at the end, then
`process_row` reads only the row. -/
theorem C42_defined {b : Nat} {m : Music} {ps : List (List Tok)} (hR : Reached b m ps)
    (hs : ∀ p ∈ ps, ∃ q, Tok.star ∉ q ∧ q.length < b ∧ (p = q ∨ p = q ++ [.star])) {r : Row} (hr : r.length = b) (hb : 0 < b)
    {g : Nat → Nat} (hg : ∀ i (h : i < r.length), g i = r[i]) (back : Bool) :
    m.processRowC r back = m.processC (fun i => .ok (g i)) r back := by
  have hf : MNode.fits (b - 1) m.top := by
    clear hr hg
    induction hR with
    | new => exact MNode.fits_new _
    | @push m ps p s sh sb d m' hR hsp hd hm ih =>
      have ih := ih (fun p hp => hs p (by simp [hp]))
      rw [newC_spells hsp] at hd
      injection hd with hd
      subst hd
      obtain ⟨q, q1, q2, q3⟩ := hs p (by simp)
      rw [Music.pushBackC] at hm
      obtain ⟨d1, e1, hm⟩ := Out.bind_eq_ok.1 hm
      obtain ⟨t, e2, hm⟩ := Out.bind_eq_ok.1 hm
      injection hm with hm
      subst hm
      have : d1.pat.pat = s := by
        split at e1
        · rw [MusicDetails.checkBellsC] at e1
          obtain ⟨w, e3, e1⟩ := Out.bind_eq_ok.1 e1
          injection e1 with e1
          subst e1
          rw [Wildcard.setBellsC] at e3
          split at e3
          · injection e3 with e3; subst e3; rfl
          · obtain ⟨-, -, e3⟩ := Out.bind_eq_ok.1 e3
            injection e3 with e3; subst e3; rfl
        · injection e1 with e1; subst e1; rfl
      rw [this] at e2
      exact MNode.fits_addC hsp q1 q3 (by omega) ih e2
    | @row m ps r back m' x g hR hm ih =>
      rw [process_eq hR.inv] at hm
      injection hm with hm
      injection hm with hm _
      subst hm
      exact ih hs
    | reset _ ih => exact ih hs
  unfold Music.processRowC Music.processC
  rw [MNode.matchC_fits hg _ back (b - 1) _ _ _ _ hf (by omega)]

/-! ### Cases -/

/-- A `music` on `b` bells with patterns. -/
def musicOf (b : Nat) (ps : List String) : Out Music :=
  (ps.map fun p => p.toList).foldlM (fun m p => MusicDetails.newC p 1 1 >>= fun d => m.pushBackC d) (Music.new b)

/-- The counts of the patterns at handstroke after one row at handstroke; what is behind the row is `junk`. -/
def countRow (b junk : Nat) (ps : List String) (r : Row) : List Nat :=
  match musicOf b ps >>= fun m => m.processC (fun i => .ok (r.getD i junk)) r false with
  | .ok x => x.1.info.map (·.counth)
  | _ => []

/-- C42: with a `*` in the middle or at the front, a pattern that describes a row with an empty run for the
last star does not count it: `12*34` for 1234, `*1234` for rounds. -/
theorem C42_empty_star : countRow 4 0 ["12*34", "*1234", "12*4", "*234"] [0, 1, 2, 3] = [0, 0, 1, 1] := by decide +kernel

/-- C42: with a star before and after, matches far back in the row are missed: the treble at the back of eight
bells by `*1*`, and a run of three at the back of twelve; in front they are found. -/
theorem C42_missed : countRow 8 0 ["*1*"] [1, 2, 3, 4, 5, 6, 7, 0] = [0] ∧ countRow 8 0 ["*1*"] [1, 2, 3, 4, 5, 6, 0, 7] = [0] ∧
    countRow 8 0 ["*1*"] [1, 2, 3, 4, 5, 0, 6, 7] = [1] ∧
    countRow 12 0 ["*123*"] [3, 4, 5, 6, 7, 8, 9, 10, 11, 0, 1, 2] = [0] ∧
    countRow 12 0 ["*1234*"] [4, 5, 6, 7, 8, 9, 10, 11, 0, 1, 2, 3] = [1] := by decide +kernel

/-- C42: a row that matches in several ways is counted several times, even by `**`; a bell named twice in a
set counts twice. -/
theorem C42_counted_twice : countRow 4 0 ["*[12]*", "**", "[11]*"] [0, 1, 2, 3] = [2, 5, 2] := by decide +kernel

/-- C42: a pattern for one more bell than there are can match, if the memory behind the row is as it wants. -/
theorem C42_too_long : countRow 4 0 ["?????"] [0, 1, 2, 3] = [1] ∧
    countRow 4 0 ["12341"] [0, 1, 2, 3] = [1] ∧ countRow 4 1 ["12341"] [0, 1, 2, 3] = [0] := by decide +kernel

/-- Whether `process_row` has undefined behaviour. -/
def isUB (b : Nat) (ps : List String) (r : Row) : Bool :=
  match musicOf b ps >>= fun m => m.processRowC r false with
  | .ub => true
  | _ => false

/-- C42: when a pattern is matched up to the last bell, the place behind the row is read. -/
theorem C42_reads_behind : isUB 4 ["1234"] [0, 1, 2, 3] = true ∧ isUB 4 ["*34"] [0, 1, 2, 3] = true ∧
    isUB 4 ["1234"] [0, 1, 3, 2] = false ∧ isUB 4 ["123*"] [0, 1, 2, 3] = false := by
  decide +kernel

/-- C42: `clear` keeps the patterns, but they are no longer matched. -/
theorem C42_clear : (match musicOf 4 ["12*"] >>= fun m => (m.clear 0).processC (fun i => .ok ([0, 1, 2, 3].getD i 0)) [0, 1, 2, 3] false with
    | .ok x => (x.2, x.1.info.map (·.counth))
    | _ => (true, [])) = (false, [0]) := by decide +kernel

theorem reached_musicOf {b : Nat} : ∀ {ps : List String} {m m' : Music} {qs : List (List Tok)}, Reached b m qs →
    (ps.map fun p => p.toList).foldlM (fun m p => MusicDetails.newC p 1 1 >>= fun d => m.pushBackC d) m = .ok m' → ∀ {ts : List (List Tok)},
    List.Forall₂ (fun t (p : String) => Spells t p.toList) ts ps → Reached b m' (qs ++ ts)
  | [], m, m', qs, h, e, ts, hs => by
    cases hs
    injection e with e
    rw [← e, List.append_nil]; exact h
  | p :: ps, m, m', qs, h, e, ts, hs => by
    cases hs with
    | @cons t _ ts _ h1 h2 =>
      rw [List.map_cons, List.foldlM_cons] at e
      obtain ⟨m1, e1, e⟩ := Out.bind_eq_ok.1 e
      obtain ⟨d, e2, e1⟩ := Out.bind_eq_ok.1 e1
      have := reached_musicOf (.push h h1 e2 e1) e h2
      rwa [List.append_assoc] at this

/-- Non-vacuity: a state with four patterns on eight bells, of which the first three are plain. -/
example : ∃ m, Reached 8 m [[.any, .bell 1], [.set [0, 2], .star], [.star, .bell 3, .bell 4, .star], [.star, .bell 6, .bell 7]] ∧
    PlainPat 8 [.any, .bell 1] ∧ PlainPat 8 [.set [0, 2], .star] ∧ PlainPat 8 [.star, .bell 3, .bell 4, .star] ∧
    OneWay [.star, .bell 6, .bell 7] := by
  have hb : ∀ i, i < 33 → BellChar (Bell.toChar i) i := by
    intro i hi
    have : ∀ i : Fin 33, "1234567890ETABCDFGHJKLMNPQRSUVWYZ".toList[i.1]? = some (Bell.toChar i.1).toUpper := by decide
    exact Or.inl (this ⟨i, hi⟩)
  have hs : List.Forall₂ (fun t (p : String) => Spells t p.toList)
      [[.any, .bell 1], [.set [0, 2], .star], [.star, .bell 3, .bell 4, .star], [.star, .bell 6, .bell 7]]
      ["?2", "[13]*", "*45*", "*78"] := by
    refine .cons (.any (.bell (hb 1 (by decide)) .nil)) (.cons ?_ (.cons ?_ (.cons ?_ .nil)))
    · exact Spells.set (cs := ['1', '3']) (.cons (hb 0 (by decide)) (.cons (hb 2 (by decide)) .nil)) (.star .nil)
    · exact .star (.bell (hb 3 (by decide)) (.bell (hb 4 (by decide)) (.star .nil)))
    · exact .star (.bell (hb 6 (by decide)) (.bell (hb 7 (by decide)) .nil))
  cases hm : musicOf 8 ["?2", "[13]*", "*45*", "*78"] with
  | ok m =>
    refine ⟨m, reached_musicOf (qs := []) .new hm hs, Or.inl (by decide), Or.inr ⟨⟨[.set [0, 2]], rfl⟩, ?_⟩,
      Or.inr ⟨⟨[.star, .bell 3, .bell 4], rfl⟩, ?_⟩, by decide, by simp⟩
    · intro z hz hst
      rw [List.suffix_cons_iff, List.suffix_cons_iff] at hz
      rcases hz with h | h | h
      · injection h with h _; cases h
      · injection h with _ h; subst h; simp at hst
      · simp at h
    · intro z hz hst
      simp only [List.suffix_cons_iff] at hz
      rcases hz with h | h | h | h | h
      · injection h with _ h; subst h; decide
      · injection h with h _; cases h
      · injection h with h _; cases h
      · injection h with _ h; subst h; simp at hst
      · simp at h
  | _ =>
    have : (match musicOf 8 ["?2", "[13]*", "*45*", "*78"] with | .ok _ => true | _ => false) = true := by decide +kernel
    rw [hm] at this
    cases this

end Ringing
