import Verif.Model.Multtab
import Verif.Lemmas.Group2
/- Helper lemmas: multiplication tables. -/
namespace Ringing
open Spec
namespace Multtab

theorem eq_of_not_lt {a b : Row} (h1 : Row.lt a b = false) (h2 : Row.lt b a = false) : a = b := by
  rcases lt_total' a b with h | h | h
  · rw [h1] at h; cases h
  · exact h
  · rw [h2] at h; cases h

theorem not_lt_trans {a b c : Row} (h1 : Row.lt a b = false) (h2 : Row.lt b c = false) : Row.lt a c = false := by
  by_contra hc
  have hc : Row.lt a c = true := by simpa using hc
  rcases lt_total' b c with h | h | h
  · rw [h2] at h; cases h
  · subst h; rw [h1] at hc; cases hc
  · rw [lt_trans' hc h] at h1; cases h1

theorem postLoop_spec (rows : List Row) (r : Row) (hr : 0 < r.length) : ∀ (qs : List Row) (res : Row),
    let y := postLoop rows r qs res
    (y = res ∨ ∃ q ∈ qs, y = Row.mul r q ∧ y ∈ rows) ∧ (0 < res.length → 0 < y.length ∧ Row.lt res y = false) ∧
      ∀ q ∈ qs, Row.mul r q ∈ rows → 0 < y.length ∧ Row.lt (Row.mul r q) y = false
  | [], res => ⟨Or.inl rfl, fun h => ⟨h, lt_irrefl' _⟩, by simp⟩
  | q :: qs, res => by
    intro y
    have hl : 0 < (Row.mul r q).length := by rw [Row.length_mul]; omega
    by_cases hc : (res.length = 0 ∨ Row.lt (Row.mul r q) res = true) ∧ rows.contains (Row.mul r q) = true
    · have hy : y = postLoop rows r qs (Row.mul r q) := by simp only [y, postLoop]; rw [if_pos hc]
      obtain ⟨i1, i2, i3⟩ := postLoop_spec rows r hr qs (Row.mul r q)
      rw [← hy] at i1 i2 i3
      have hm : Row.mul r q ∈ rows := by simpa using hc.2
      refine ⟨?_, fun h => ⟨(i2 hl).1, ?_⟩, ?_⟩
      · rcases i1 with h | ⟨q', h1, h2⟩
        · exact Or.inr ⟨q, by simp, h, h ▸ hm⟩
        · exact Or.inr ⟨q', by simp [h1], h2⟩
      · have : Row.lt res (Row.mul r q) = false := by
          rcases hc.1 with h' | h'
          · omega
          · exact lt_asymm' h'
        exact not_lt_trans this (i2 hl).2
      · intro q' hq' hm'
        rcases List.mem_cons.1 hq' with rfl | hq'
        · exact i2 hl
        · exact i3 q' hq' hm'
    · have hy : y = postLoop rows r qs res := by simp only [y, postLoop]; rw [if_neg hc]
      obtain ⟨i1, i2, i3⟩ := postLoop_spec rows r hr qs res
      rw [← hy] at i1 i2 i3
      refine ⟨?_, i2, ?_⟩
      · rcases i1 with h | ⟨q', h1, h2⟩
        · exact Or.inl h
        · exact Or.inr ⟨q', by simp [h1], h2⟩
      · intro q' hq' hm'
        rcases List.mem_cons.1 hq' with rfl | hq'
        · have hm2 : rows.contains (Row.mul r q') = true := by simpa using hm'
          have h0 : ¬ (res.length = 0 ∨ Row.lt (Row.mul r q') res = true) := fun h => hc ⟨h, hm2⟩
          have h1 : res.length ≠ 0 := fun h => h0 (Or.inl h)
          have h2 : Row.lt (Row.mul r q') res = false := by
            cases h : Row.lt (Row.mul r q') res with
            | false => rfl
            | true => exact absurd (Or.inr h) h0
          have := i2 (by omega)
          exact ⟨this.1, not_lt_trans h2 this.2⟩
        · exact i3 q' hq' hm'

theorem repLoop_spec (rows : List Row) (post : Group) (r : Row) : ∀ (ps : List Row) (res : Row),
    let y := repLoop rows post r ps res
    (y = res ∨ ∃ p ∈ ps, y = postRep rows post (Row.mul p r) ∧ 0 < y.length) ∧ Row.lt res y = false ∧
      ∀ p ∈ ps, 0 < (postRep rows post (Row.mul p r)).length → Row.lt (postRep rows post (Row.mul p r)) y = false
  | [], res => ⟨Or.inl rfl, lt_irrefl' _, by simp⟩
  | p :: ps, res => by
    intro y
    set x := postRep rows post (Row.mul p r) with hx
    by_cases hc : x.length ≠ 0 ∧ Row.lt x res = true
    · have hy : y = repLoop rows post r ps x := by simp only [y, repLoop]; rw [← hx, if_pos hc]
      obtain ⟨i1, i2, i3⟩ := repLoop_spec rows post r ps x
      rw [← hy] at i1 i2 i3
      refine ⟨?_, not_lt_trans (lt_asymm' hc.2) i2, ?_⟩
      · rcases i1 with h | ⟨q', h1, h2⟩
        · exact Or.inr ⟨p, by simp, by rw [h], by rw [h]; omega⟩
        · exact Or.inr ⟨q', by simp [h1], h2⟩
      · intro p' hp' hm'
        rcases List.mem_cons.1 hp' with rfl | hp'
        · exact i2
        · exact i3 p' hp' hm'
    · have hy : y = repLoop rows post r ps res := by simp only [y, repLoop]; rw [← hx, if_neg hc]
      obtain ⟨i1, i2, i3⟩ := repLoop_spec rows post r ps res
      rw [← hy] at i1 i2 i3
      refine ⟨?_, i2, ?_⟩
      · rcases i1 with h | ⟨q', h1, h2⟩
        · exact Or.inl h
        · exact Or.inr ⟨q', by simp [h1], h2⟩
      · intro p' hp' hm'
        rcases List.mem_cons.1 hp' with rfl | hp'
        · rw [← hx] at hm' ⊢
          have h2 : Row.lt x res = false := by
            cases h : Row.lt x res with
            | false => rfl
            | true => exact absurd ⟨by omega, h⟩ hc
          exact not_lt_trans h2 i2
        · exact i3 p' hp' hm'

/-- The two rows are in the same class. -/
def Same (P Q : Group) (r s : Row) : Prop := ∃ p ∈ P.v, ∃ q ∈ Q.v, s = Row.mul (Row.mul p r) q

/-- The setting: groups on at most `n` bells, `n > 0`. -/
structure Ctx (P Q : Group) (n : Nat) : Prop where
  Pn : P.b ≤ n
  Qn : Q.b ≤ n
  P : Group.IsGrp P.v P.b
  Q : Group.IsGrp Q.v Q.b
  n0 : 0 < n

namespace Ctx
variable {P Q : Group} {n : Nat}

theorem same_len (h : Ctx P Q n) {r s : Row} (hr : r.length = n) (hs : Same P Q r s) : s.length = n := by
  obtain ⟨p, hp, q, hq, rfl⟩ := hs
  have := (h.P.rows p hp).2
  have := (h.Q.rows q hq).2
  have := h.Pn
  have := h.Qn
  simp only [Row.length_mul]; omega

theorem refl (h : Ctx P Q n) {r : Row} (hr : r.length = n) : Same P Q r r :=
  ⟨_, h.P.one, _, h.Q.one, by
    rw [Row.rounds_mul (by have := h.Pn; omega), Row.mul_rounds (by have := h.Qn; omega)]⟩

theorem trans (h : Ctx P Q n) {r s u : Row} (h1 : Same P Q r s) (h2 : Same P Q s u) : Same P Q r u := by
  obtain ⟨p, hp, q, hq, rfl⟩ := h1
  obtain ⟨p', hp', q', hq', rfl⟩ := h2
  refine ⟨_, h.P.mul p' hp' p hp, _, h.Q.mul q hq q' hq', ?_⟩
  simp only [Row.mul_assoc']

theorem symm (h : Ctx P Q n) {r s : Row} (hr : r.length = n) (h1 : Same P Q r s) : Same P Q s r := by
  obtain ⟨p, hp, q, hq, rfl⟩ := h1
  refine ⟨_, h.P.inv hp, _, h.Q.inv hq, ?_⟩
  have := h.Pn
  have := h.Qn
  have e1 : Row.mul (Row.inverse p) (Row.mul (Row.mul p r) q) = Row.mul r q := by
    rw [← Row.mul_assoc', ← Row.mul_assoc', Row.inverse_mul (h.P.rows p hp).1, (h.P.rows p hp).2,
      Row.rounds_mul (by omega)]
  rw [e1, Row.mul_assoc', Row.mul_inverse (h.Q.rows q hq).1, (h.Q.rows q hq).2, Row.mul_rounds (by omega)]

theorem Q_one (h : Ctx P Q n) (hq : Q.v.length < 2) {q : Row} (hm : q ∈ Q.v) : q = Row.rounds Q.b := by
  have h1 := h.Q.one
  match hv : Q.v with
  | [] => rw [hv] at hm; cases hm
  | [x] => rw [hv] at hm h1; simp at hm h1; rw [hm, h1]
  | x :: y :: l => rw [hv] at hq; simp only [List.length_cons] at hq; omega

/-- The candidates for a representative, the members of the table being `R`. -/
def Cand (R : List Row) (P Q : Group) (r s : Row) : Prop := Same P Q r s ∧ (Q.v.length < 2 ∨ s ∈ R)

theorem rep_spec (h : Ctx P Q n) (R : List Row) {r : Row} (hr : r.length = n) :
    (rep R P Q r = r ∨ Cand R P Q r (rep R P Q r)) ∧ Row.lt r (rep R P Q r) = false ∧
      ∀ s, Cand R P Q r s → Row.lt s (rep R P Q r) = false := by
  obtain ⟨h1, h2, h3⟩ := repLoop_spec R Q r P.v r
  have hn := h.n0
  have hPn := h.Pn
  have hQn := h.Qn
  have hlp : ∀ p ∈ P.v, (Row.mul p r).length = n := fun p hp => by
    rw [Row.length_mul, (h.P.rows p hp).2]; omega
  refine ⟨?_, h2, ?_⟩
  · rcases h1 with e | ⟨p, hp, e, hl⟩
    · exact Or.inl e
    · right
      show Cand R P Q r (repLoop R Q r P.v r)
      generalize repLoop R Q r P.v r = y at e hl
      unfold postRep at e
      by_cases hq : Q.v.length < 2
      · rw [if_pos hq] at e
        refine ⟨⟨p, hp, _, h.Q.one, ?_⟩, Or.inl hq⟩
        rw [e, Row.mul_rounds (by rw [hlp p hp]; omega)]
      · rw [if_neg hq] at e
        obtain ⟨i1, -, -⟩ := postLoop_spec R (Row.mul p r) (by rw [hlp p hp]; omega) Q.v []
        rw [← e] at i1
        rcases i1 with i1 | ⟨q, hq, i1, i2⟩
        · rw [i1] at hl; simp at hl
        · exact ⟨⟨p, hp, q, hq, i1⟩, Or.inr i2⟩
  · rintro s ⟨⟨p, hp, q, hq, e⟩, hs⟩
    have hp3 := h3 p hp
    show Row.lt s (repLoop R Q r P.v r) = false
    generalize repLoop R Q r P.v r = y at hp3
    by_cases hq2 : Q.v.length < 2
    · rw [h.Q_one hq2 hq, Row.mul_rounds (by rw [hlp p hp]; omega)] at e
      unfold postRep at hp3
      rw [if_pos hq2, hlp p hp] at hp3
      rw [e]; exact hp3 hn
    · have hs : s ∈ R := by rcases hs with hs | hs; exact absurd hs hq2; exact hs
      unfold postRep at hp3
      rw [if_neg hq2] at hp3
      obtain ⟨-, -, i3⟩ := postLoop_spec R (Row.mul p r) (by rw [hlp p hp]; omega) Q.v []
      have := i3 q hq (by rw [← e]; exact hs)
      rw [← e] at this
      exact not_lt_trans this.2 (hp3 this.1)

end Ctx

/-- `c` is the least row of `L` in the class of `r`. -/
structure Canon (L : List Row) (P Q : Group) (r c : Row) : Prop where
  mem : c ∈ L
  same : Same P Q r c
  least : ∀ s ∈ L, Same P Q r s → Row.lt s c = false

theorem Canon.unique {L : List Row} {P Q : Group} {r c d : Row} (h1 : Canon L P Q r c) (h2 : Canon L P Q r d) :
    c = d := eq_of_not_lt (h2.least c h1.mem h1.same) (h1.least d h2.mem h2.same)

theorem Canon.of_same {P Q : Group} {n : Nat} (hx : Ctx P Q n) {L : List Row} {r s c : Row} (hr : r.length = n)
    (h : Same P Q r s) (h1 : Canon L P Q r c) : Canon L P Q s c :=
  ⟨h1.mem, hx.trans (hx.symm hr h) h1.same, fun u hu hs => h1.least u hu (hx.trans h hs)⟩

/-- A table whose members are the representatives of the classes of `L`. -/
structure Tab (t : Multtab) (L : List Row) (P Q : Group) (n : Nat) : Prop where
  ctx : Ctx P Q n
  rowsL : ∀ r ∈ L, Row.Valid r ∧ r.length = n
  pends : t.pends = P
  post : t.post = Q
  nodup : t.rows.Nodup
  canon : ∀ r ∈ L, Canon L P Q r (rep t.rows P Q r)
  mem : ∀ x, x ∈ t.rows ↔ ∃ r ∈ L, x = rep t.rows P Q r
  tlen : t.table.length = t.rows.length
  clen : ∀ l ∈ t.table, l.length = t.cols.length

theorem finder_aux : ∀ (l : List Row) (k : Nat) (g : Row → Nat) (r : Row), l.Nodup →
    (l.zipIdx k).foldl (fun f ri => fun r => if r = ri.1 then ri.2 else f r) g r =
      if r ∈ l then k + l.idxOf r else g r
  | [], k, g, r, _ => by simp
  | a :: l, k, g, r, h => by
    rw [List.nodup_cons] at h
    rw [List.zipIdx_cons, List.foldl_cons, finder_aux l (k + 1) _ r h.2]
    by_cases hr : r = a
    · subst hr
      rw [if_neg h.1]; simp
    · by_cases hm : r ∈ l
      · rw [if_pos hm, if_pos (by simp [hm]), List.idxOf_cons_ne _ (fun e => hr e.symm)]; omega
      · rw [if_neg hm]; simp [hr, hm]

theorem finder_eq {l : List Row} (h : l.Nodup) {r : Row} (hr : r ∈ l) : finder l r = l.idxOf r := by
  unfold finder
  rw [finder_aux l 0 _ r h, if_pos hr]; omega

theorem findIdx?_idxOf {l : List Row} {r : Row} (hr : r ∈ l) :
    l.findIdx? (fun x => decide (x = r)) = some (l.idxOf r) := by
  induction l with
  | nil => cases hr
  | cons a l ih =>
    by_cases h : a = r
    · subst h; simp [List.findIdx?_cons]
    · have : r ∈ l := by
        rcases List.mem_cons.1 hr with e | e
        · exact absurd e.symm h
        · exact e
      rw [List.findIdx?_cons, List.idxOf_cons_ne _ h, ih this]; simp [h]

namespace Tab
variable {t : Multtab} {L : List Row} {P Q : Group} {n : Nat}

theorem rep_mem (h : Tab t L P Q n) {r : Row} (hr : r ∈ L) : rep t.rows P Q r ∈ t.rows := (h.mem _).2 ⟨r, hr, rfl⟩

theorem find_eq (h : Tab t L P Q n) {r : Row} (hr : r ∈ L) : findC t r = .ok (t.rows.idxOf (rep t.rows P Q r)) := by
  unfold findC
  rw [h.pends, h.post, findIdx?_idxOf (h.rep_mem hr)]

theorem row_eq (h : Tab t L P Q n) {r : Row} (hr : r ∈ L) :
    t.rows[t.rows.idxOf (rep t.rows P Q r)]? = some (rep t.rows P Q r) := by
  have hi := List.idxOf_lt_length_of_mem (h.rep_mem hr)
  rw [List.getElem?_eq_getElem hi, List.getElem_idxOf]

theorem rep_same (h : Tab t L P Q n) {r s : Row} (hr : r ∈ L) (hs : s ∈ L) (e : Same P Q r s) :
    rep t.rows P Q r = rep t.rows P Q s :=
  ((h.canon r hr).of_same h.ctx (h.rowsL r hr).2 e).unique (h.canon s hs)

theorem rep_rep (h : Tab t L P Q n) {x : Row} (hx : x ∈ t.rows) : x ∈ L ∧ rep t.rows P Q x = x := by
  obtain ⟨r, hr, rfl⟩ := (h.mem x).1 hx
  have hc := h.canon r hr
  exact ⟨hc.mem, (h.rep_same hr hc.mem hc.same).symm⟩

/-- The product meant by a column. -/
def prod (c : Row × Bool) (r : Row) : Row := if c.2 then Row.mul c.1 r else Row.mul r c.1

/-- The entries of column `c` are right for the product `x`. -/
def ColOk (t : Multtab) (L : List Row) (P Q : Group) (c : Nat) (x : Row × Bool) : Prop :=
  ∀ r ∈ L, ∃ i l, findC t r = .ok i ∧ t.table[i]? = some l ∧
    l[c]? = some (t.rows.idxOf (rep t.rows P Q (prod x r)))

/-- Acceptable columns: the product commutes with the groups on its side and stays in `L`. -/
def Good (L : List Row) (P Q : Group) (x : Row × Bool) : Prop :=
  (∀ p ∈ (if x.2 then P else Q).v, Row.mul x.1 p = Row.mul p x.1) ∧ ∀ r ∈ L, prod x r ∈ L

theorem prod_same (h : Ctx P Q n) {x : Row × Bool} (hx : Good L P Q x) {r s : Row} (e : Same P Q r s) :
    Same P Q (prod x r) (prod x s) := by
  obtain ⟨p, hp, q, hq, rfl⟩ := e
  obtain ⟨x, b⟩ := x
  refine ⟨p, hp, q, hq, ?_⟩
  cases b with
  | true =>
    have := hx.1 p hp
    simp only [prod, if_true]
    rw [← Row.mul_assoc', ← Row.mul_assoc']
    simp only at this
    rw [this]
    simp only [Row.mul_assoc']
  | false =>
    have := hx.1 q hq
    simp only [prod]
    simp only at this
    simp only [Bool.false_eq_true, if_false, Row.mul_assoc']
    rw [this]

theorem addCol_get (h : Tab t L P Q n) (f : Row → Row) {r : Row} (hr : r ∈ L) :
    ∃ l, t.table[t.rows.idxOf (rep t.rows P Q r)]? = some l ∧ l.length = t.cols.length ∧
      (addCol t f)[t.rows.idxOf (rep t.rows P Q r)]? =
        some (l ++ [finder t.rows (rep t.rows P Q (f (rep t.rows P Q r)))]) := by
  have hi := List.idxOf_lt_length_of_mem (h.rep_mem hr)
  have hi' : t.rows.idxOf (rep t.rows P Q r) < t.table.length := by rw [h.tlen]; exact hi
  refine ⟨t.table[t.rows.idxOf (rep t.rows P Q r)], List.getElem?_eq_getElem hi', h.clen _ (List.getElem_mem hi'), ?_⟩
  unfold addCol
  rw [List.getElem?_zipWith, List.getElem?_eq_getElem hi', h.row_eq hr]
  simp [h.pends, h.post]

/-- Adding a column. -/
theorem add (h : Tab t L P Q n) {x : Row × Bool} (hx : Good L P Q x) (f : Row → Row) (hf : ∀ r, f r = prod x r) :
    let t' : Multtab := { t with table := addCol t f, cols := t.cols ++ [x] }
    Tab t' L P Q n ∧ ColOk t' L P Q t.cols.length x ∧
      ∀ c y, ColOk t L P Q c y → c < t.cols.length → ColOk t' L P Q c y := by
  intro t'
  have hf' : f = prod x := funext hf
  subst hf'
  have ht' : Tab t' L P Q n := by
    refine ⟨h.ctx, h.rowsL, h.pends, h.post, h.nodup, h.canon, h.mem, ?_, ?_⟩
    · simp [t', addCol, h.tlen]
    · intro l hl
      simp only [t', addCol] at hl
      obtain ⟨i, hi, e⟩ := List.mem_iff_getElem.1 hl
      rw [List.getElem_zipWith] at e
      rw [← e]
      simp only [List.length_append, List.length_singleton, t']
      rw [h.clen _ (List.getElem_mem _)]
  refine ⟨ht', ?_, ?_⟩
  · intro r hr
    obtain ⟨l, e1, e2, e3⟩ := h.addCol_get (prod x) hr
    refine ⟨_, _, ht'.find_eq hr, e3, ?_⟩
    have hc := h.canon r hr
    have hs : rep t.rows P Q (prod x (rep t.rows P Q r)) = rep t.rows P Q (prod x r) :=
      (h.rep_same (hx.2 r hr) (hx.2 _ hc.mem) (prod_same h.ctx hx hc.same)).symm
    rw [List.getElem?_append_right (by omega), e2, hs, finder_eq h.nodup (h.rep_mem (hx.2 r hr))]
    simp [t']
  · intro c y hc hlt r hr
    obtain ⟨i, l, e1, e2, e3⟩ := hc r hr
    obtain ⟨l', f1, f2, f3⟩ := h.addCol_get (prod x) hr
    rw [h.find_eq hr] at e1
    injection e1 with e1
    subst e1
    rw [e2] at f1
    injection f1 with f1
    subst f1
    refine ⟨_, _, ht'.find_eq hr, f3, ?_⟩
    rw [List.getElem?_append_left (by omega), e3]

end Tab

theorem noncommuting_false {g : Group} {r : Row} (h : ∀ p ∈ g.v, Row.mul r p = Row.mul p r) : noncommuting g r = false := by
  unfold noncommuting
  rw [List.any_eq_false]
  intro p hp
  simp [h p hp]

/-- A state in which all the columns are right. -/
structure TabC (t : Multtab) (L : List Row) (P Q : Group) (n : Nat) : Prop extends Tab t L P Q n where
  cols : ∀ c x, t.cols[c]? = some x → Tab.ColOk t L P Q c x

theorem colIdx_some {cols : List (Row × Bool)} {r : Row} {b : Bool} {i : Nat} (h : colIdx cols r b = some i) :
    cols[i]? = some (r, b) := by
  unfold colIdx at h
  rw [List.findIdx?_eq_some_iff_getElem] at h
  obtain ⟨hi, h1, -⟩ := h
  rw [List.getElem?_eq_getElem hi]
  simp only [Bool.and_eq_true, decide_eq_true_eq] at h1
  congr 1
  exact Prod.ext h1.2 h1.1

/-- `compute_pre_mult` (`true`) or `compute_post_mult` (`false`). -/
def computeC (t : Multtab) (x : Row × Bool) : Out (Multtab × Nat) :=
  if x.2 then computePreC t x.1 else computePostC t x.1

theorem TabC.compute {t : Multtab} {L : List Row} {P Q : Group} {n : Nat} (h : TabC t L P Q n) {x : Row × Bool}
    (hx : Tab.Good L P Q x) :
    ∃ t' c, computeC t x = .ok (t', c) ∧ TabC t' L P Q n ∧ t'.rows = t.rows ∧ t'.cols[c]? = some x ∧
      ∀ (c : Nat) y, t.cols[c]? = some y → t'.cols[c]? = some y := by
  obtain ⟨x, b⟩ := x
  have key : ∀ (g : Group) (f : Row → Row), (∀ r, f r = Tab.prod (x, b) r) →
      (∀ p ∈ g.v, Row.mul x p = Row.mul p x) →
      ∃ t' c, (if noncommuting g x = true then .throw .logicError
        else match colIdx t.cols x b with
          | some i => .ok (t, i)
          | none => .ok ({ t with table := addCol t f, cols := t.cols ++ [(x, b)] },
              (t.cols ++ [(x, b)]).length - 1) : Out (Multtab × Nat)) = .ok (t', c) ∧ TabC t' L P Q n ∧
        t'.rows = t.rows ∧ t'.cols[c]? = some (x, b) ∧
        ∀ (c : Nat) y, t.cols[c]? = some y → t'.cols[c]? = some y := by
    intro g f hf hg
    rw [noncommuting_false hg]
    cases hi : colIdx t.cols x b with
    | some i => exact ⟨t, i, rfl, h, rfl, colIdx_some hi, fun c y e => e⟩
    | none =>
      obtain ⟨a1, a2, a3⟩ := h.toTab.add hx f hf
      have hold : ∀ (c : Nat) y, t.cols[c]? = some y → (t.cols ++ [(x, b)])[c]? = some y := by
        intro c y e
        have : c < t.cols.length := by
          by_contra hc
          rw [List.getElem?_eq_none (by omega)] at e; cases e
        rw [List.getElem?_append_left this, e]
      refine ⟨_, _, rfl, ⟨a1, ?_⟩, rfl, ?_, hold⟩
      · intro c y e
        simp only at e
        by_cases hc : c < t.cols.length
        · rw [List.getElem?_append_left hc] at e
          exact a3 c y (h.cols c y e) hc
        · rw [List.getElem?_append_right (by omega)] at e
          have : c = t.cols.length := by
            by_contra hne
            rw [List.getElem?_eq_none (by simp; omega)] at e; cases e
          subst this
          simp at e
          rw [← e]; exact a2
      · simp
  unfold computeC
  cases b with
  | true =>
    simp only [if_true, computePreC]
    have := key t.pends (fun y => Row.mul x y) (fun r => rfl) (by rw [h.pends]; exact hx.1)
    exact this
  | false =>
    have := key t.post (fun y => Row.mul y x) (fun r => rfl) (by rw [h.post]; exact hx.1)
    exact this

/-- The set of representatives. -/
theorem foldl_set (f : Row → Row) : ∀ (l s : List Row), Group.Incr Row.lt s →
    Group.Incr Row.lt (l.foldl (fun s r => (Group.setInsert Row.lt (f r) s).1) s) ∧
      ∀ x, x ∈ l.foldl (fun s r => (Group.setInsert Row.lt (f r) s).1) s ↔ x ∈ s ∨ ∃ r ∈ l, x = f r
  | [], s, h => ⟨h, by simp⟩
  | a :: l, s, h => by
    obtain ⟨h1, h2⟩ := foldl_set f l _ (Group.setInsert_incr Group.rowSTO (f a) h)
    refine ⟨h1, fun x => ?_⟩
    rw [List.foldl_cons, h2, Group.mem_setInsert Group.rowSTO]
    simp only [List.mem_cons, exists_eq_or_imp]
    tauto

/-- The members after `init`. -/
def reps (L : List Row) (P Q : Group) : List Row :=
  L.foldl (fun s r => (Group.setInsert Row.lt (rep L P Q r) s).1) []

theorem rep_canon {L : List Row} {P Q : Group} {n : Nat} (hx : Ctx P Q n)
    (hL : ∀ r ∈ L, Row.Valid r ∧ r.length = n) (hcl : Q.v.length < 2 → ∀ r ∈ L, ∀ p ∈ P.v, Row.mul p r ∈ L)
    {r : Row} (hr : r ∈ L) :
    Canon L P Q r (rep L P Q r) ∧ Canon L P Q r (rep (reps L P Q) P Q r) := by
  have hn := (hL r hr).2
  have hPn := hx.Pn
  have hQn := hx.Qn
  have hcl2 : Q.v.length < 2 → ∀ s, Same P Q r s → s ∈ L := by
    rintro hq s ⟨p, hp, q, hq', rfl⟩
    rw [hx.Q_one hq hq', Row.mul_rounds (by rw [Row.length_mul, hn]; omega)]
    exact hcl hq r hr p hp
  have hc1 : Canon L P Q r (rep L P Q r) := by
    obtain ⟨h1, h2, h3⟩ := hx.rep_spec L hn
    have hm : ∀ s ∈ L, Same P Q r s → Row.lt s (rep L P Q r) = false := fun s hs he => h3 s ⟨he, Or.inr hs⟩
    rcases h1 with h1 | ⟨h1, h4⟩
    · rw [h1] at hm ⊢; exact ⟨hr, hx.refl hn, hm⟩
    · exact ⟨by rcases h4 with h4 | h4; exact hcl2 h4 _ h1; exact h4, h1, hm⟩
  have hmem : ∀ x, x ∈ reps L P Q ↔ ∃ r ∈ L, x = rep L P Q r := by
    intro x
    have := (foldl_set (rep L P Q) L [] (by simp [Group.Incr])).2 x
    simpa [reps] using this
  refine ⟨hc1, ?_⟩
  obtain ⟨h1, h2, h3⟩ := hx.rep_spec (reps L P Q) hn
  have hin : ∀ x ∈ reps L P Q, Same P Q r x → x ∈ L := by
    intro x hxm hs
    obtain ⟨r', hr', rfl⟩ := (hmem x).1 hxm
    obtain ⟨g1, -, -⟩ := hx.rep_spec L (hL r' hr').2
    rcases g1 with g1 | ⟨g1, g4⟩
    · rw [g1]; exact hr'
    · rcases g4 with g4 | g4
      · exact hcl2 g4 _ hs
      · exact g4
  have e : rep (reps L P Q) P Q r = rep L P Q r := by
    apply eq_of_not_lt
    · rcases h1 with h1 | ⟨h1, h4⟩
      · rw [h1]; exact hc1.least r hr (hx.refl hn)
      · exact hc1.least _ (by rcases h4 with h4 | h4; exact hcl2 h4 _ h1; exact hin _ h4 h1) h1
    · exact h3 _ ⟨hc1.same, Or.inr ((hmem _).2 ⟨r, hr, rfl⟩)⟩
  rw [e]; exact hc1

theorem init_tab {L : List Row} {P Q : Group} {n : Nat} (hx : Ctx P Q n)
    (hL : ∀ r ∈ L, Row.Valid r ∧ r.length = n) (hcl : Q.v.length < 2 → ∀ r ∈ L, ∀ p ∈ P.v, Row.mul p r ∈ L)
    {t : Multtab} (ht : initC L P Q = .ok t) : TabC t L P Q n ∧ t.rows = reps L P Q ∧ Group.Incr Row.lt t.rows := by
  unfold initC at ht
  rw [show L.foldl (fun s r => (Group.setInsert Row.lt (rep L P Q r) s).1) [] = reps L P Q from rfl] at ht
  simp only at ht
  split at ht
  · cases ht
  split at ht
  · cases ht
  injection ht with ht
  subst ht
  have hf := foldl_set (rep L P Q) L [] (by simp [Group.Incr])
  have hc := fun r hr => rep_canon hx hL hcl (r := r) hr
  refine ⟨⟨⟨hx, hL, rfl, rfl, hf.1.nodup Group.rowSTO, fun r hr => (hc r hr).2, ?_, by simp, by simp⟩, by simp⟩,
    rfl, hf.1⟩
  intro x
  have := hf.2 x
  simp only [List.not_mem_nil, false_or] at this
  show x ∈ reps L P Q ↔ _
  unfold reps at *
  rw [this]
  constructor <;> rintro ⟨r, hr, e⟩ <;> exact ⟨r, hr, by rw [e]; first | exact (hc r hr).1.unique (hc r hr).2 | exact (hc r hr).2.unique (hc r hr).1⟩

theorem trivial0_grp : Group.IsGrp Group.trivial0.v Group.trivial0.b := Group.good_trivial0.grp

theorem ofRows_tab {L : List Row} {n : Nat} (hn : 0 < n) (hL : ∀ r ∈ L, Row.Valid r ∧ r.length = n) (hnd : L.Nodup) :
    TabC (ofRows L) L Group.trivial0 Group.trivial0 n := by
  have hx : Ctx Group.trivial0 Group.trivial0 n := ⟨by simp [Group.trivial0], by simp [Group.trivial0], trivial0_grp,
    trivial0_grp, hn⟩
  have hs : ∀ r s, Same Group.trivial0 Group.trivial0 r s → s = r := by
    rintro r s ⟨p, hp, q, hq, rfl⟩
    have hp : p = Row.rounds 0 := by simpa [Group.trivial0, Row.rounds] using hp
    have hq : q = Row.rounds 0 := by simpa [Group.trivial0, Row.rounds] using hq
    subst hp; subst hq
    rw [Row.rounds_mul (by omega), Row.mul_rounds (by omega)]
  have hrep : ∀ r ∈ L, rep L Group.trivial0 Group.trivial0 r = r := by
    intro r hr
    rcases (hx.rep_spec L (hL r hr).2).1 with h | h
    · exact h
    · exact hs _ _ h.1
  refine ⟨⟨hx, hL, rfl, rfl, hnd, ?_, ?_, by simp [ofRows], by simp [ofRows]⟩, by simp [ofRows]⟩
  · intro r hr
    show Canon L _ _ r (rep L _ _ r)
    rw [hrep r hr]
    exact ⟨hr, hx.refl (hL r hr).2, fun s _ e => by rw [hs _ _ e]; exact lt_irrefl' _⟩
  · intro x
    show x ∈ L ↔ ∃ r ∈ L, x = rep L _ _ r
    constructor
    · intro h; exact ⟨x, h, (hrep x h).symm⟩
    · rintro ⟨r, hr, rfl⟩; rw [hrep r hr]; exact hr

/-- The number of classes for a trivial postgroup. -/
theorem reps_length {L : List Row} {P Q : Group} {n : Nat} (hx : Ctx P Q n) (hq : Q.v.length < 2)
    (hL : ∀ r ∈ L, Row.Valid r ∧ r.length = n) (hnd : L.Nodup) (hcl : ∀ r ∈ L, ∀ p ∈ P.v, Row.mul p r ∈ L) :
    (reps L P Q).length * P.v.length = L.length := by
  classical
  have hf := foldl_set (rep L P Q) L [] (by simp [Group.Incr])
  have hc := fun r hr => (rep_canon hx hL (fun _ => hcl) (r := r) hr).1
  have hPn := hx.Pn
  have hQn := hx.Qn
  have hmem : ∀ x, x ∈ reps L P Q ↔ ∃ r ∈ L, x = rep L P Q r := by
    intro x; have := hf.2 x; simpa [reps] using this
  have hsame : ∀ r s, r.length = n → (Same P Q r s ↔ ∃ p ∈ P.v, s = Row.mul p r) := by
    intro r s hr
    have hl : ∀ p ∈ P.v, (Row.mul p r).length = n := fun p hp => by
      rw [Row.length_mul, (hx.P.rows p hp).2]; omega
    constructor
    · rintro ⟨p, hp, q, hq', rfl⟩
      rw [hx.Q_one hq hq', Row.mul_rounds (by rw [hl p hp]; omega)]; exact ⟨p, hp, rfl⟩
    · rintro ⟨p, hp, rfl⟩
      exact ⟨p, hp, _, hx.Q.one, by rw [Row.mul_rounds (by rw [hl p hp]; omega)]⟩
  have h1 : (reps L P Q).toFinset.card = (reps L P Q).length := List.toFinset_card_of_nodup (hf.1.nodup Group.rowSTO)
  have h2 : L.toFinset.card = L.length := List.toFinset_card_of_nodup hnd
  have h3 : P.v.toFinset.card = P.v.length := List.toFinset_card_of_nodup (hx.P.incr.nodup Group.rowSTO)
  rw [← h1, ← h2, ← h3]
  have := Finset.card_eq_sum_card_fiberwise (f := rep L P Q) (s := L.toFinset) (t := (reps L P Q).toFinset)
    (fun r hr => by
      have hr : r ∈ L := by simpa using hr
      simp only [List.coe_toFinset, Set.mem_ofPred_eq]
      exact (hmem _).2 ⟨r, hr, rfl⟩)
  rw [this, Finset.sum_const_nat (m := P.v.toFinset.card)]
  intro b hb
  obtain ⟨r, hr, rfl⟩ := (hmem b).1 (by simpa using hb)
  set b := rep L P Q r with hbd
  have hbL : b ∈ L := (hc r hr).mem
  have hbl := (hL b hbL)
  have himg : L.toFinset.filter (fun a => rep L P Q a = b) = P.v.toFinset.image (fun p => Row.mul p b) := by
    ext a
    simp only [Finset.mem_filter, List.mem_toFinset, Finset.mem_image]
    constructor
    · rintro ⟨ha, e⟩
      have hs := hx.symm (hL a ha).2 (hc a ha).same
      rw [e, hsame _ _ hbl.2] at hs
      obtain ⟨p, hp, e⟩ := hs
      exact ⟨p, hp, e.symm⟩
    · rintro ⟨p, hp, rfl⟩
      refine ⟨hcl b hbL p hp, ?_⟩
      have hs : Same P Q r (Row.mul p b) := hx.trans (hc r hr).same ((hsame b _ hbl.2).2 ⟨p, hp, rfl⟩)
      exact (hc _ (hcl b hbL p hp)).unique ((hc r hr).of_same hx (hL r hr).2 hs)
  rw [himg, Finset.card_image_of_injOn]
  intro p hp p' hp' e
  have hp : p ∈ P.v := by simpa using hp
  have hp' : p' ∈ P.v := by simpa using hp'
  apply Row.ext_fn (by rw [(hx.P.rows p hp).2, (hx.P.rows p' hp').2])
  intro i _
  have := congrArg (fun z => Row.fn z (Row.find b i)) e
  simpa only [Row.fn_mul, hbl.1.fn_find] using this

end Multtab
end Ringing
