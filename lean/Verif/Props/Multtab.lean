import Verif.Lemmas.Multtab
import Verif.Props.Group
/-! C36: multiplication tables. -/
namespace Ringing
open Spec Row
namespace Multtab

/-- Two rows are in the same class: one is a product `p * r * q` of the other with a part end and an
element of the post group. -/
def SameClass (P Q : Group) (r s : Row) : Prop :=
  ∃ p ∈ P.v, ∃ q ∈ Q.v, ∀ i, bellAt s i = bellAt p (bellAt r (bellAt q i))

/-- The product a column stands for: `x * r` for `compute_pre_mult(x)` (`true`), `r * x` for
`compute_post_mult(x)`. -/
def prodC (x : Row × Bool) (r : Row) : Out Row := if x.2 then Row.mulC x.1 r else Row.mulC r x.1

/-- The rows and groups a table is made from: distinct rows on `n > 0` bells, groups on no more bells,
and, if there is no post group, rows closed under the part ends. -/
structure Given (L : List Row) (P Q : Group) (n : Nat) : Prop where
  pos : 0 < n
  rows : ∀ r ∈ L, IsRow r ∧ r.length = n
  nodup : L.Nodup
  builtP : Group.Built P
  builtQ : Group.Built Q
  bellsP : P.b ≤ n
  bellsQ : Q.b ≤ n
  closed : Q.v.length < 2 → ∀ r ∈ L, ∀ p ∈ P.v, ∃ s ∈ L, Row.mulC p r = .ok s

/-- A newly constructed table. -/
inductive New (L : List Row) : Group → Group → Multtab → Prop
  | rows : New L Group.trivial0 Group.trivial0 (ofRows L)
  | groups {P Q t} : initC L P Q = .ok t → New L P Q t

/-- A column that makes sense: `x` commutes with the part ends (premultiplication) or the post group
(postmultiplication), and the products are rows of the table. -/
structure Makes (L : List Row) (P Q : Group) (x : Row × Bool) : Prop where
  row : IsRow x.1
  commutes : ∀ p ∈ (if x.2 then P else Q).v, Row.mulC x.1 p = Row.mulC p x.1
  stays : ∀ r ∈ L, ∃ s ∈ L, prodC x r = .ok s

/-- Any sequence of `compute_pre_mult` and `compute_post_mult`: the table and the columns returned. -/
def runC : Multtab → List (Row × Bool) → Out (Multtab × List Nat)
  | t, [] => .ok (t, [])
  | t, x :: ops =>
    computeC t x >>= fun tc => runC tc.1 ops >>= fun tcs => .ok (tcs.1, tc.2 :: tcs.2)

theorem Given.valid {L : List Row} {P Q : Group} {n : Nat} (h : Given L P Q n) :
    ∀ r ∈ L, Valid r ∧ r.length = n := fun r hr => ⟨(isRow_iff_valid _).1 (h.rows r hr).1, (h.rows r hr).2⟩

theorem Given.ctx {L : List Row} {P Q : Group} {n : Nat} (h : Given L P Q n) : Ctx P Q n :=
  ⟨h.bellsP, h.bellsQ, h.builtP.good.grp, h.builtQ.good.grp, h.pos⟩

theorem Given.cl {L : List Row} {P Q : Group} {n : Nat} (h : Given L P Q n) :
    Q.v.length < 2 → ∀ r ∈ L, ∀ p ∈ P.v, Row.mul p r ∈ L := by
  intro hq r hr p hp
  obtain ⟨s, hs, e⟩ := h.closed hq r hr p hp
  rw [mulC_eq (h.ctx.P.rows p hp).1 (h.valid r hr).1] at e
  injection e with e
  rw [e]; exact hs

theorem New.tab {L : List Row} {P Q : Group} {n : Nat} {t : Multtab} (h : Given L P Q n) (ht : New L P Q t) :
    TabC t L P Q n := by
  cases ht with
  | rows => exact ofRows_tab h.pos h.valid h.nodup
  | groups e => exact (init_tab h.ctx h.valid h.cl e).1

theorem same_iff {P Q : Group} {n : Nat} (h : Ctx P Q n) {r s : Row} (hr : r.length = n) (hs : s.length = n) :
    SameClass P Q r s ↔ Same P Q r s := by
  have := h.Pn
  have := h.Qn
  unfold SameClass Same
  simp only [bellAt_eq_fn]
  constructor
  · rintro ⟨p, hp, q, hq, e⟩
    refine ⟨p, hp, q, hq, ext_fn ?_ ?_⟩
    · simp only [length_mul, (h.P.rows p hp).2, (h.Q.rows q hq).2]; omega
    · intro i _; rw [e, fn_mul, fn_mul]
  · rintro ⟨p, hp, q, hq, rfl⟩
    exact ⟨p, hp, q, hq, fun i => by rw [fn_mul, fn_mul]⟩

theorem prodC_eq {x : Row × Bool} {r : Row} (hx : Valid x.1) (hr : Valid r) : prodC x r = .ok (Tab.prod x r) := by
  unfold prodC Tab.prod
  split
  · rw [mulC_eq hx hr]
  · rw [mulC_eq hr hx]

theorem Makes.good {L : List Row} {P Q : Group} {n : Nat} (h : Given L P Q n) {x : Row × Bool} (hx : Makes L P Q x) :
    Tab.Good L P Q x := by
  have hv := (isRow_iff_valid _).1 hx.row
  refine ⟨fun p hp => ?_, fun r hr => ?_⟩
  · have e := hx.commutes p hp
    have hpv : Valid p := by
      split at hp
      · exact (h.ctx.P.rows p hp).1
      · exact (h.ctx.Q.rows p hp).1
    rw [mulC_eq hv hpv, mulC_eq hpv hv] at e
    injection e
  · obtain ⟨s, hs, e⟩ := hx.stays r hr
    rw [prodC_eq hv (h.valid r hr).1] at e
    injection e with e
    rw [e]; exact hs

theorem TabC.run {L : List Row} {P Q : Group} {n : Nat} : ∀ (ops : List (Row × Bool)) {t : Multtab},
    TabC t L P Q n → (∀ x ∈ ops, Tab.Good L P Q x) →
    ∃ t' cs, runC t ops = .ok (t', cs) ∧ TabC t' L P Q n ∧ t'.rows = t.rows ∧ cs.length = ops.length ∧
      (∀ (k : Nat) x c, ops[k]? = some x → cs[k]? = some c → t'.cols[c]? = some x) ∧
      ∀ (c : Nat) y, t.cols[c]? = some y → t'.cols[c]? = some y
  | [], t, h, _ => ⟨t, [], rfl, h, rfl, rfl, by simp, fun _ _ e => e⟩
  | x :: ops, t, h, hx => by
    obtain ⟨t1, c, e1, h1, r1, c1, o1⟩ := h.compute (hx x (by simp))
    obtain ⟨t2, cs, e2, h2, r2, l2, c2, o2⟩ := TabC.run ops h1 (fun y hy => hx y (by simp [hy]))
    refine ⟨t2, c :: cs, by rw [runC, e1, Out.ok_bind, e2]; rfl, h2, r2.trans r1, by simp [l2], ?_,
      fun c y e => o2 c y (o1 c y e)⟩
    intro k y d hy hd
    cases k with
    | zero => simp at hy hd; subst hy; subst hd; exact o2 _ _ c1
    | succ k => simp at hy hd; exact c2 k y d hy hd

/-- C36: any columns are computed in any order; whatever is computed after a column, looking up `r` and
multiplying by the column gives the same as looking up the product. -/
theorem C36_products {L : List Row} {P Q : Group} {n : Nat} {t0 : Multtab} (h : Given L P Q n) (h0 : New L P Q t0)
    {ops : List (Row × Bool)} (hops : ∀ x ∈ ops, Makes L P Q x) :
    ∃ t cs, runC t0 ops = .ok (t, cs) ∧ cs.length = ops.length ∧
      ∀ (k : Nat) x c, ops[k]? = some x → cs[k]? = some c → ∀ r ∈ L, ∀ s, prodC x r = .ok s →
        ∃ i j, findC t r = .ok i ∧ mulColC t i c = .ok j ∧ findC t s = .ok j := by
  obtain ⟨t, cs, e1, e2, e3, e4, e5, -⟩ := TabC.run ops (h0.tab h) (fun x hx => (hops x hx).good h)
  refine ⟨t, cs, e1, e4, ?_⟩
  intro k x c hk hc r hr s hs
  have hxm : x ∈ ops := List.mem_of_getElem? hk
  have hg := (hops x hxm).good h
  rw [prodC_eq ((isRow_iff_valid _).1 (hops x hxm).row) (h.valid r hr).1] at hs
  injection hs with hs
  obtain ⟨i, l, f1, f2, f3⟩ := e2.cols c x (e5 k x c hk hc) r hr
  refine ⟨i, t.rows.idxOf (rep t.rows P Q (Tab.prod x r)), f1, ?_, ?_⟩
  · unfold mulColC
    rw [vget, f2]
    simp only [Out.ok_bind, vget, f3]
  · rw [← hs, e2.find_eq (hg.2 r hr)]

/-- C36: looking up a row and then looking up its index gives the least row of the table's rows in the
same class, and two rows have the same index exactly if they are in the same class. -/
theorem C36_find {L : List Row} {P Q : Group} {n : Nat} {t0 t : Multtab} (h : Given L P Q n) (h0 : New L P Q t0)
    {ops : List (Row × Bool)} (hops : ∀ x ∈ ops, Makes L P Q x) {cs : List Nat} (ht : runC t0 ops = .ok (t, cs))
    {r : Row} (hr : r ∈ L) :
    ∃ i c, findC t r = .ok i ∧ i < t.size ∧ rowC t i = .ok c ∧ c ∈ L ∧ SameClass P Q r c ∧
      (∀ s ∈ L, SameClass P Q r s → s = c ∨ LexLt c s) ∧
      ∀ s ∈ L, findC t s = .ok i ↔ SameClass P Q r s := by
  obtain ⟨t', cs', e1, e2, -⟩ := TabC.run ops (h0.tab h) (fun x hx => (hops x hx).good h)
  rw [e1] at ht
  injection ht with ht
  injection ht with ht _
  subst ht
  have hc := e2.canon r hr
  have hlen : ∀ s ∈ L, s.length = n := fun s hs => (h.valid s hs).2
  have hi := List.idxOf_lt_length_of_mem (e2.rep_mem hr)
  refine ⟨_, _, e2.find_eq hr, by rw [size, e2.tlen]; exact hi, by rw [rowC, vget, e2.row_eq hr], hc.mem,
    (same_iff h.ctx (hlen r hr) (hlen _ hc.mem)).2 hc.same, ?_, ?_⟩
  · intro s hs e
    have := hc.least s hs ((same_iff h.ctx (hlen r hr) (hlen s hs)).1 e)
    rcases lt_total' s (rep t'.rows P Q r) with g | g | g
    · rw [this] at g; cases g
    · exact Or.inl g
    · exact Or.inr ((lexLt_iff (by rw [hlen s hs, hlen _ hc.mem])).2 g)
  · intro s hs
    rw [e2.find_eq hs, same_iff h.ctx (hlen r hr) (hlen s hs)]
    have hcs := e2.canon s hs
    constructor
    · intro e
      injection e with e
      have e' : rep t'.rows P Q s = rep t'.rows P Q r := by
        have a := e2.row_eq hs
        rw [e, e2.row_eq hr] at a
        injection a with a
        exact a.symm
      have := hcs.same
      rw [e'] at this
      exact h.ctx.trans hc.same (h.ctx.symm (hlen s hs) this)
    · intro e
      rw [e2.rep_same hr hs e]

/-- C36: without a post group the constructor succeeds and there is one row for each class, that is
`L.length / P.size()` of them. -/
theorem C36_size {L : List Row} {P Q : Group} {n : Nat} (h : Given L P Q n) (hq : Q.v.length < 2) :
    ∃ t, initC L P Q = .ok t ∧ t.size * P.v.length = L.length := by
  have hl := reps_length h.ctx hq h.valid h.nodup (h.cl hq)
  have hp : P.v.length ≠ 0 := by
    have := List.length_pos_of_mem h.ctx.P.one
    omega
  refine ⟨⟨List.replicate (reps L P Q).length [], reps L P Q, P, Q, []⟩, ?_, by simp [size, hl]⟩
  unfold initC
  rw [show L.foldl (fun s r => (Group.setInsert Row.lt (rep L P Q r) s).1) [] = reps L P Q from rfl]
  simp only
  rw [if_neg hp, if_neg]
  rw [← hl, Nat.mul_div_cancel _ (by omega)]
  simp

theorem not_lt_rounds {n : Nat} {s : Row} (hl : s.length = n) (hs : Valid s) : Row.lt s (Row.rounds n) = false := by
  by_contra hc
  obtain ⟨k, a, b⟩ := (lexLt_iff (l := s) (m := Row.rounds n) (by rw [hl]; simp)).2 (by simpa using hc)
  simp only [bellAt_eq_fn, Row.fn_rounds] at a b
  have := hs.fn_inj (a _ b)
  omega

/-- C36: in a table made with part ends from rows that include rounds, `isrounds` recognises the class
of rounds. -/
theorem C36_isrounds {L : List Row} {P Q : Group} {n : Nat} {t0 t : Multtab} (h : Given L P Q n)
    (h0 : initC L P Q = .ok t0) (hR : roundsC n ∈ L)
    {ops : List (Row × Bool)} (hops : ∀ x ∈ ops, Makes L P Q x) {cs : List Nat} (ht : runC t0 ops = .ok (t, cs))
    {r : Row} (hr : r ∈ L) {i : Nat} (hi : findC t r = .ok i) :
    isrounds i = true ↔ SameClass P Q (roundsC n) r := by
  obtain ⟨t', cs', e1, e2, e3, -⟩ := TabC.run ops ((New.groups h0).tab h) (fun x hx => (hops x hx).good h)
  obtain ⟨i', c, f1, -, -, -, -, -, f2⟩ := C36_find h (New.groups h0) hops ht hR
  rw [e1] at ht
  injection ht with ht
  injection ht with ht _
  subst ht
  rw [← f2 r hr, hi]
  have hinc := (init_tab h.ctx h.valid h.cl h0).2.2
  rw [← e3] at hinc
  have hn : n ≤ 256 := by have := (h.rows _ hR).1.1; simpa [roundsC] using this
  have hrr : roundsC n = Row.rounds n := roundsC_eq hn
  have hrep : rep t'.rows P Q (roundsC n) = Row.rounds n := by
    have hc := e2.canon _ hR
    refine eq_of_not_lt (not_lt_rounds (h.valid _ hc.mem).2 (h.valid _ hc.mem).1) ?_
    rw [← hrr]
    exact hc.least _ hR (h.ctx.refl (h.rows _ hR).2)
  have hi0 : i' = 0 := by
    rw [e2.find_eq hR, hrep] at f1
    injection f1 with f1
    have hm := e2.rep_mem hR
    rw [hrep] at hm
    rw [← f1]
    cases hrows : t'.rows with
    | nil => rw [hrows] at hm; cases hm
    | cons a l =>
      rw [hrows] at hinc hm
      rcases List.mem_cons.1 hm with e | e
      · rw [e]; simp
      · have := (List.pairwise_cons.1 hinc).1 _ e
        have ha : a ∈ t'.rows := by rw [hrows]; simp
        have haL := (e2.rep_rep ha).1
        rw [not_lt_rounds (h.valid a haL).2 (h.valid a haL).1] at this
        cases this
  rw [hi0]
  unfold isrounds
  simp

/-- C36: a column that does not commute with the group on its side is refused. -/
theorem C36_refused {L : List Row} {P Q : Group} {n : Nat} {t0 : Multtab} (h : Given L P Q n) (h0 : New L P Q t0)
    {x : Row × Bool} (hx : IsRow x.1) {p : Row} (hp : p ∈ (if x.2 then P else Q).v)
    (hc : Row.mulC x.1 p ≠ Row.mulC p x.1) : computeC t0 x = .throw .logicError := by
  have ht := h0.tab h
  have hxv := (isRow_iff_valid _).1 hx
  have hpv : Valid p := by
    split at hp
    · exact (h.ctx.P.rows p hp).1
    · exact (h.ctx.Q.rows p hp).1
  rw [mulC_eq hxv hpv, mulC_eq hpv hxv] at hc
  have hne : Row.mul x.1 p ≠ Row.mul p x.1 := fun e => hc (by rw [e])
  obtain ⟨x, b⟩ := x
  unfold computeC
  cases b with
  | true =>
    simp only [if_true, computePreC]
    rw [ht.pends, if_pos]
    unfold noncommuting
    rw [List.any_eq_true]
    exact ⟨p, hp, by simpa using hne⟩
  | false =>
    simp only [Bool.false_eq_true, if_false, computePostC]
    rw [ht.post, if_pos]
    unfold noncommuting
    rw [List.any_eq_true]
    exact ⟨p, hp, by simpa using hne⟩

/-! ### Square tables -/

theorem sqinit_spec {L : List Row} {n : Nat} (hnd : L.Nodup)
    (hg : ∀ x ∈ L, Tab.Good L Group.trivial0 Group.trivial0 (x, false)) : ∀ (k i : Nat) {t : Multtab},
    TabC t L Group.trivial0 Group.trivial0 n → t.rows = L → i + k = L.length →
    t.cols = (L.take i).map (fun x => (x, false)) →
    ∃ t', sqinitC k i t = .ok t' ∧ TabC t' L Group.trivial0 Group.trivial0 n ∧ t'.rows = L ∧
      t'.cols = L.map (fun x => (x, false))
  | 0, i, t, h, hr, hi, hc => ⟨t, rfl, h, hr, by rw [hc, List.take_of_length_le (by omega)]⟩
  | k + 1, i, t, h, hr, hi, hc => by
    have hlt : i < L.length := by omega
    have e0 : rowC t i = .ok L[i] := by rw [rowC, vget, hr, List.getElem?_eq_getElem hlt]
    have hnew : colIdx t.cols L[i] false = none := by
      rw [hc, colIdx, List.findIdx?_eq_none_iff]
      intro c hcm
      obtain ⟨y, hy, rfl⟩ := List.mem_map.1 hcm
      obtain ⟨j, hj, e⟩ := List.mem_iff_getElem.1 hy
      rw [List.length_take] at hj
      rw [List.getElem_take] at e
      have : y ≠ L[i] := by
        rw [← e]
        intro e'
        have := (List.Nodup.getElem_inj_iff hnd).1 e'
        omega
      simp [this]
    obtain ⟨a1, a2, a3⟩ := h.toTab.add (hg L[i] (List.getElem_mem hlt)) (fun y => Row.mul y L[i]) (fun _ => rfl)
    have e1 : computePostC t L[i] = .ok ({ t with table := addCol t fun y => Row.mul y L[i], cols := t.cols ++ [(L[i], false)] },
        (t.cols ++ [(L[i], false)]).length - 1) := by
      unfold computePostC
      rw [noncommuting_false, hnew]
      · rfl
      · rw [h.post]; exact (hg L[i] (List.getElem_mem hlt)).1
    have h1 : TabC { t with table := addCol t fun y => Row.mul y L[i], cols := t.cols ++ [(L[i], false)] } L
        Group.trivial0 Group.trivial0 n := by
      refine ⟨a1, ?_⟩
      intro c y e
      simp only at e
      by_cases hcl : c < t.cols.length
      · rw [List.getElem?_append_left hcl] at e
        exact a3 c y (h.cols c y e) hcl
      · rw [List.getElem?_append_right (by omega)] at e
        have : c = t.cols.length := by
          by_contra hne
          rw [List.getElem?_eq_none (by simp; omega)] at e; cases e
        subst this
        simp at e
        rw [← e]; exact a2
    obtain ⟨t', b1, b2⟩ := sqinit_spec hnd hg k (i + 1) h1 hr (by omega) (by
      rw [← List.take_append_getElem hlt, List.map_append, ← hc]; rfl)
    exact ⟨t', by rw [sqinitC, e0, Out.ok_bind, e1, Out.ok_bind]; exact b1, b2⟩

/-- C36: the product of two rows of a `sqmulttab`, for rows closed under multiplication. -/
theorem C36_square {L : List Row} {n : Nat} (hn : 0 < n) (hL : ∀ r ∈ L, IsRow r ∧ r.length = n) (hnd : L.Nodup)
    (hcl : ∀ a ∈ L, ∀ b ∈ L, ∃ c ∈ L, Row.mulC a b = .ok c) :
    ∃ t, sqC L = .ok t ∧ ∀ a ∈ L, ∀ b ∈ L, ∀ c, Row.mulC a b = .ok c → ∃ i j k, findC t a = .ok i ∧ findC t b = .ok j ∧
      rowC t i = .ok a ∧ sqMulC t i j = .ok k ∧ findC t c = .ok k ∧ rowC t k = .ok c := by
  have hv : ∀ r ∈ L, Valid r ∧ r.length = n := fun r hr => ⟨(isRow_iff_valid _).1 (hL r hr).1, (hL r hr).2⟩
  have hmul : ∀ a ∈ L, ∀ b ∈ L, Row.mul a b ∈ L := by
    intro a ha b hb
    obtain ⟨c, hc, e⟩ := hcl a ha b hb
    rw [mulC_eq (hv a ha).1 (hv b hb).1] at e
    injection e with e
    rw [e]; exact hc
  have hg : ∀ x ∈ L, Tab.Good L Group.trivial0 Group.trivial0 (x, false) := by
    intro x hx
    refine ⟨fun p hp => ?_, fun r hr => hmul r hr x hx⟩
    have hp : p = Row.rounds 0 := by simpa [Group.trivial0, Row.rounds] using hp
    subst hp
    rw [mul_rounds (by omega), rounds_mul (by omega)]
  obtain ⟨t, e1, e2, e3, e4⟩ := sqinit_spec (n := n) hnd hg L.length 0 (ofRows_tab hn hv hnd) rfl (by omega)
    (by simp [ofRows])
  refine ⟨t, e1, ?_⟩
  have hrep : ∀ r ∈ L, rep t.rows Group.trivial0 Group.trivial0 r = r := by
    intro r hr
    have := e2.rep_rep (x := r) (by rw [e3]; exact hr)
    exact this.2
  intro a ha b hb c hc
  rw [mulC_eq (hv a ha).1 (hv b hb).1] at hc
  injection hc with hc
  subst hc
  have hab := hmul a ha b hb
  have hcol : t.cols[L.idxOf b]? = some (b, false) := by
    have := List.idxOf_lt_length_of_mem hb
    rw [e4, List.getElem?_map, List.getElem?_eq_getElem this, List.getElem_idxOf]; rfl
  obtain ⟨i, l, f1, f2, f3⟩ := e2.cols _ _ hcol a ha
  have g1 : ∀ r ∈ L, rowC t (t.rows.idxOf r) = .ok r := by
    intro r hr
    have := e2.row_eq hr
    rw [hrep r hr] at this
    rw [rowC, vget, this]
  have g2 : ∀ r ∈ L, findC t r = .ok (t.rows.idxOf r) := by
    intro r hr
    rw [e2.find_eq hr, hrep r hr]
  rw [g2 a ha] at f1
  injection f1 with f1
  subst f1
  refine ⟨_, _, _, g2 a ha, by rw [g2 b hb, e3], g1 a ha, ?_, g2 _ hab, g1 _ hab⟩
  rw [show Tab.prod (b, false) a = Row.mul a b from rfl, hrep _ hab] at f3
  unfold sqMulC
  rw [vget, f2]
  simp only [Out.ok_bind, vget, f3]

/-! ### Concrete cases -/

/-- The rows on three bells, with the part end 231. -/
example : (ofPartEndC [[0, 1, 2], [0, 2, 1], [1, 0, 2], [1, 2, 0], [2, 0, 1], [2, 1, 0]] [1, 2, 0] >>= fun t =>
    runC t [([1, 0, 2], false), ([1, 2, 0], true), ([1, 0, 2], false)]) =
    .ok (⟨[[1, 0], [0, 1]], [[0, 1, 2], [0, 2, 1]], ⟨3, [[0, 1, 2], [1, 2, 0], [2, 0, 1]], [[0, 1, 2]]⟩, Group.trivial0,
      [([1, 0, 2], false), ([1, 2, 0], true)]⟩, [0, 1, 0]) := by decide +kernel

theorem given3 : Given [[0, 1, 2], [0, 2, 1], [1, 0, 2], [1, 2, 0], [2, 0, 1], [2, 1, 0]]
    ⟨3, [[0, 1, 2], [1, 2, 0], [2, 0, 1]], [[0, 1, 2]]⟩ Group.trivial0 3 where
  pos := by decide
  rows := by
    have : ∀ r ∈ ([[0, 1, 2], [0, 2, 1], [1, 0, 2], [1, 2, 0], [2, 0, 1], [2, 1, 0]] : List Row), Valid r ∧ r.length = 3 := by
      decide
    exact fun r hr => ⟨(isRow_iff_valid _).2 (this r hr).1, (this r hr).2⟩
  nodup := by decide
  builtP := Group.Built.ofRow (r := [1, 2, 0]) ((isRow_iff_valid _).2 (by decide)) (by decide +kernel)
  builtQ := Group.Built.default
  bellsP := by decide
  bellsQ := by decide
  closed := fun _ => by decide +kernel

example : Makes [[0, 1, 2], [0, 2, 1], [1, 0, 2], [1, 2, 0], [2, 0, 1], [2, 1, 0]]
    ⟨3, [[0, 1, 2], [1, 2, 0], [2, 0, 1]], [[0, 1, 2]]⟩ Group.trivial0 ([1, 2, 0], true) :=
  ⟨(isRow_iff_valid _).2 (by decide), by decide +kernel, by decide +kernel⟩

/-- A premultiplication that does not commute with the part end. -/
example : (ofPartEndC [[0, 1, 2], [0, 2, 1], [1, 0, 2], [1, 2, 0], [2, 0, 1], [2, 1, 0]] [1, 2, 0] >>= fun t =>
    computePreC t [1, 0, 2]) = .throw .logicError := by decide +kernel

/-- A proper post group: all rows of a class are in `L`, so the assertion on the number of classes fails. -/
example : (Group.ofRowC [0, 2, 1] >>= fun q =>
    initC [[0, 1, 2], [0, 2, 1], [1, 0, 2], [1, 2, 0], [2, 0, 1], [2, 1, 0]] Group.trivial0 q) = .ub := by decide +kernel

example : (sqC [[0, 1, 2], [2, 0, 1], [1, 2, 0]] >>= fun t => findC t [2, 0, 1] >>= fun i => sqMulC t i i) = .ok 2 := by
  decide +kernel

/-- The case the post group is there for: course heads with the tenor at home (12345, 13245), the post
group generated by the lead head 13524 of Plain Bob Doubles, and the column of the lead head itself. -/
def wholeCourse : Out (Multtab × Nat) :=
  Group.ofRowC [0, 2, 4, 1, 3] >>= fun q =>
  initC [[0, 1, 2, 3, 4], [0, 2, 1, 3, 4]] Group.trivial0 q >>= fun t => computePostC t [0, 2, 4, 1, 3]

/-- C36, refuted if products leave the rows of the table for other rows of a class: multiplying 13245 by
the lead head should stay in the class of 13245 (index 1), but the table says 0, that is, rounds. -/
theorem C36_post_group_false : ∃ t c, wholeCourse = .ok (t, c) ∧ findC t [0, 2, 1, 3, 4] = .ok 1 ∧
    mulColC t 1 c = .ok 0 := by
  refine ⟨⟨[[0], [0]], [[0, 1, 2, 3, 4], [0, 2, 1, 3, 4]], Group.trivial0, ⟨5, [[0, 1, 2, 3, 4], [0, 2, 4, 1, 3], [0, 3, 1, 4, 2],
    [0, 4, 3, 2, 1]], [[0], [1, 2, 3, 4]]⟩, [([0, 2, 4, 1, 3], false)]⟩, 0, ?_, ?_, ?_⟩ <;> decide +kernel

end Multtab
end Ringing
