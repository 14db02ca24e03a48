import Verif.Lemmas.TableSearch
/-! `table_search`: the program follows the search tree. -/
namespace Ringing
namespace TableSearch
open Search Spec Row

/-- The part ends one can search with: a group built by the library, on no more bells than the method, that
keeps the treble fixed if all leads do. -/
structure Parts (m : Method) (calls : List Change) (P : Group) : Prop where
  built : Group.Built P
  bells : P.b ≤ m.b
  treble : FixedTreble m calls → ∀ p ∈ P.v, bellAt p 0 = 0

theorem Parts.tr {m : Method} {calls : List Change} {P : Group} (H : Parts m calls P) (h : FixedTreble m calls) :
    ∀ p ∈ P.v, fn p 0 = 0 := by
  intro p hp
  have := H.treble h p hp
  rwa [bellAt_eq_fn] at this

/-- The rows in the table. -/
def InL (m : Method) (calls : List Change) (r : Row) : Prop :=
  Valid r ∧ r.length = m.b ∧ (FixedTreble m calls → fn r 0 = 0)

section
variable {m : Method} {calls : List Change} {P : Group} (G : Given m calls) (H : Parts m calls P)

theorem inL_mul {x y : Row} (hx : InL m calls x) (hy : InL m calls y) : InL m calls (mul x y) :=
  ⟨valid_mul hx.1 hy.1, by rw [length_mul, hx.2.1, hy.2.1, Nat.max_self], fun h => by rw [fn_mul, hy.2.2 h, hx.2.2 h]⟩

include G in
theorem inL_hd {c : List Nat} (hc : Dom (ends m calls).length c) : InL m calls (hd m calls c) :=
  ⟨(valid_hd G c).1, (valid_hd G c).2, fun h => hd_treble' G h hc⟩

include G H in
theorem makeTable_spec (s : TableSearch) (hm : s.meth = m) (hc : s.calls = calls) (hP : s.partends = P) :
    ∃ L t, makeTableC s = .ok t ∧ (∀ r, r ∈ L ↔ InL m calls r) ∧ Multtab.TabC t L P Group.trivial0 m.b ∧
      Group.Incr Row.lt t.rows := by
  have hn := nle G.wf
  unfold makeTableC
  rw [isFixedTrebleC_eq G s hm hc, Out.ok_bind]
  simp only [decide_eq_true_eq, hm, hP]
  generalize hnh : (if FixedTreble m calls then 1 else 0) = nh
  have hle : nh ≤ m.b := by
    have := G.pos
    rw [← hnh]; split <;> omega
  have e : m.b - nh + nh = nh + (m.b - nh) := by omega
  have e' : nh + (m.b - nh) = m.b := by omega
  obtain ⟨L, e1, e2, e3⟩ := extent_rows (nw := m.b - nh) (nh := nh) (by omega)
  rw [e, e1, Out.ok_bind]
  have hL : ∀ r, r ∈ L ↔ InL m calls r := by
    intro r
    rw [e3]
    unfold InExtent InL
    rw [isRow_iff_valid]
    simp only [bellAt_eq_fn, e']
    refine and_congr_right fun hv => and_congr_right fun hl => ?_
    constructor
    · rintro ⟨h1, -⟩ hf
      rw [if_pos hf] at hnh
      exact h1 0 (by omega)
    · intro h
      refine ⟨fun i hi => ?_, fun i hi => fn_of_ge (by omega)⟩
      have hf : FixedTreble m calls := by
        by_contra hf
        rw [if_neg hf] at hnh; omega
      rw [if_pos hf] at hnh
      have : i = 0 := by omega
      subst this; exact h hf
  have hgrp := H.built.good.grp
  have hG : Multtab.Given L P Group.trivial0 m.b := by
    refine ⟨G.pos, fun r hr => ?_, e2, H.built, Group.Built.default, H.bells, by simp [Group.trivial0], fun _ r hr p hp => ?_⟩
    · have := (hL r).1 hr
      exact ⟨(isRow_iff_valid _).2 this.1, this.2.1⟩
    · have hr' := (hL r).1 hr
      have hpv := hgrp.rows p hp
      have hb := H.bells
      refine ⟨mul p r, (hL _).2 ⟨valid_mul hpv.1 hr'.1, ?_, fun h => ?_⟩, mulC_eq hpv.1 hr'.1⟩
      · rw [length_mul, hpv.2, hr'.2.1]; omega
      · rw [fn_mul, hr'.2.2 h, H.tr h p hp]
  obtain ⟨t, t1, -⟩ := Multtab.C36_size hG (by simp [Group.trivial0])
  have ht := Multtab.init_tab hG.ctx hG.valid hG.cl t1
  exact ⟨L, t, t1, hL, ht.1, ht.2.2⟩

theorem postCols_eq (t : Multtab) (l : List Row) : postColsC t l = Multtab.runC t (l.map fun r => (r, false)) := by
  induction l generalizing t with
  | nil => rfl
  | cons r l ih =>
    rw [postColsC, List.map_cons, Multtab.runC]
    simp only [Multtab.computeC, Bool.false_eq_true, if_false, ih]

theorem good_col {L : List Row} (hL : ∀ r, r ∈ L ↔ InL m calls r) {x : Row} (hx : InL m calls x) :
    Multtab.Tab.Good L P Group.trivial0 (x, false) := by
  refine ⟨fun p hp => ?_, fun r hr => ?_⟩
  · have hp : p = Row.rounds 0 := by simpa [Group.trivial0, Row.rounds] using hp
    subst hp
    rw [mul_rounds (by omega), rounds_mul (by omega)]
  · exact (hL _).2 (inL_mul ((hL r).1 hr) hx)

theorem same_iff' {r s : Row} (hr : 0 < r.length) :
    Multtab.Same P Group.trivial0 r s ↔ ∃ p ∈ P.v, s = mul p r := by
  unfold Multtab.Same
  refine exists_congr fun p => and_congr_right fun _ => ?_
  constructor
  · rintro ⟨q, hq, rfl⟩
    have hq : q = Row.rounds 0 := by simpa [Group.trivial0, Row.rounds] using hq
    subst hq
    rw [mul_rounds (by omega)]
  · rintro rfl
    exact ⟨Row.rounds 0, by simp [Group.trivial0, Row.rounds], by rw [mul_rounds (by omega)]⟩

/-- The index of the class of a row. -/
def ix (t : Multtab) (P : Group) (r : Row) : Nat := t.rows.idxOf (Multtab.rep t.rows P Group.trivial0 r)

theorem ix_lt {t : Multtab} {L : List Row} {n : Nat} (ht : Multtab.TabC t L P Group.trivial0 n) {r : Row} (hr : r ∈ L) :
    ix t P r < t.size := by
  rw [Multtab.size, ht.tlen]; exact List.idxOf_lt_length_of_mem (ht.rep_mem hr)

theorem ix_eq_iff {t : Multtab} {L : List Row} {n : Nat} (ht : Multtab.TabC t L P Group.trivial0 n) {r s : Row}
    (hr : r ∈ L) (hs : s ∈ L) : ix t P r = ix t P s ↔ ∃ p ∈ P.v, s = mul p r := by
  have hn := ht.ctx.n0
  rw [← same_iff' (by rw [(ht.rowsL r hr).2]; exact hn)]
  unfold ix
  have hl : ∀ x ∈ L, x.length = n := fun x hx => (ht.rowsL x hx).2
  constructor
  · intro e
    have e' : Multtab.rep t.rows P Group.trivial0 s = Multtab.rep t.rows P Group.trivial0 r := by
      have a := ht.row_eq hs
      rw [← e, ht.row_eq hr] at a
      injection a with a
      exact a.symm
    have := (ht.canon s hs).same
    rw [e'] at this
    exact ht.ctx.trans (ht.canon r hr).same (ht.ctx.symm (hl s hs) this)
  · intro e
    rw [ht.rep_same hr hs e]

theorem mulCol_eq {t : Multtab} {L : List Row} {n : Nat} (ht : Multtab.TabC t L P Group.trivial0 n) {r x : Row} {c : Nat}
    (hr : r ∈ L) (hc : t.cols[c]? = some (x, false)) : Multtab.mulColC t (ix t P r) c = .ok (ix t P (mul r x)) := by
  obtain ⟨i, l, f1, f2, f3⟩ := ht.cols c _ hc r hr
  rw [ht.find_eq hr] at f1
  injection f1 with f1
  unfold Multtab.mulColC ix
  rw [f1, vget, f2]
  simp only [Out.ok_bind, vget, f3]
  rfl

theorem ix_rounds {t : Multtab} {L : List Row} {n : Nat} (ht : Multtab.TabC t L P Group.trivial0 n)
    (hinc : Group.Incr Row.lt t.rows) (hR : rounds n ∈ L) : ix t P (rounds n) = 0 := by
  have hrep : Multtab.rep t.rows P Group.trivial0 (rounds n) = rounds n := by
    have hc := ht.canon _ hR
    refine Multtab.eq_of_not_lt (Multtab.not_lt_rounds (ht.rowsL _ hc.mem).2 (ht.rowsL _ hc.mem).1) ?_
    exact hc.least _ hR (ht.ctx.refl (by simp))
  have hm := ht.rep_mem hR
  unfold ix
  rw [hrep] at hm ⊢
  cases hrows : t.rows with
  | nil => rw [hrows] at hm; cases hm
  | cons a l =>
    rw [hrows] at hinc hm
    rcases List.mem_cons.1 hm with e | e
    · rw [e]; simp
    · have := (List.pairwise_cons.1 hinc).1 _ e
      have ha : a ∈ t.rows := by rw [hrows]; simp
      have haL := (ht.rep_rep ha).1
      rw [Multtab.not_lt_rounds (ht.rowsL a haL).2 (ht.rowsL a haL).1] at this
      cases this

/-! ### The tree -/

/-- A lead of `c` in some part is false against an earlier lead. -/
def FalseP (m : Method) (calls : List Change) (P : Group) (fs : List Row) (c : List Nat) : Prop :=
  ∃ f ∈ fs, ∃ i, i < c.length ∧ ∃ p ∈ P.v, hd m calls (c.take i) = mul p (mul (hd m calls c) f)

instance (fs : List Row) (c : List Nat) : Decidable (FalseP m calls P fs c) := by
  unfold FalseP; infer_instance

/-- The touch ends with a part end. -/
def Ends (m : Method) (calls : List Change) (P : Group) (c : List Nat) : Prop :=
  ∃ p ∈ P.v, hd m calls c = mul p (rounds m.b)

instance (c : List Nat) : Decidable (Ends m calls P c) := by
  unfold Ends; infer_instance

/-- The tree searched. -/
def ptree (m : Method) (calls : List Change) (P : Group) (fs : List Row) (lo hi : Nat) (nonround : Bool) : Tree :=
  ⟨(ends m calls).length, lo, hi, decide (P.v.length > 1), fun c => decide (FalseP m calls P fs c),
    fun c => nonround || decide (Ends m calls P c)⟩

/-- The test for an n-part touch. -/
def nPart (m : Method) (calls : List Change) (P : Group) (f : Nat) (c : List Nat) : Bool :=
  if !f.testBit 1 && decide (P.v.length > 1) then decide (order (hd m calls c) = P.v.length) else true

/-- The call sequences output for a node. -/
def emitP (m : Method) (calls : List Change) (P : Group) (f : Nat) (c : List Nat) (p : Nat) : List (List Nat) :=
  if nPart m calls P f c then emitCalls (f.testBit 0 || decide (P.v.length ≠ 1)) c p else []

include G in
theorem isNPartC_eq (s : TableSearch) (hm : s.meth = m) (hP : s.partends = P) (h2 : s.f.testBit 1 = false → 1 < P.v.length → 2 ≤ m.ch.length)
    (h58 : s.f.testBit 1 = false → 1 < P.v.length → m.b ≤ 58) {c : List Nat} (hc : Dom (ends m calls).length c) :
    isNPartC s m.b (touchOf m calls c) c.length = .ok (nPart m calls P s.f c) := by
  unfold isNPartC nPart
  rw [hP, hm]
  by_cases h : (!s.f.testBit 1 && decide (P.v.length > 1)) = true
  · rw [if_pos h, if_pos h]
    simp only [Bool.and_eq_true, Bool.not_eq_true', decide_eq_true_eq] at h
    rw [touchOf_collect (h2 h.1 h.2) hc _ (by rw [length_tch G hc]; try exact le_rfl), Out.ok_bind, roundsC_eq (nle G.wf),
      applyAllC_eq (fun x hx => (tch_wf G c x hx).1), Out.ok_bind]
    have := (order_spec (valid_hd G (calls := calls) c).1 (by rw [(valid_hd G _).2]; exact h58 h.1 h.2)).1
    rw [show applyAll (rounds m.b) (tch m calls c) = hd m calls c from rfl, this]
    rfl
  · rw [if_neg h, if_neg h]

include G in
theorem outputP_eq {halt : Outputer} (s : TableSearch) (hm : s.meth = m) (hP : s.partends = P)
    (h2 : s.f.testBit 1 = false → 1 < P.v.length → 2 ≤ m.ch.length)
    (h58 : s.f.testBit 1 = false → 1 < P.v.length → m.b ≤ 58) {c : List Nat} (hc : Dom (ends m calls).length c)
    (hne : c ≠ []) {p : Nat} (hp : decide (P.v.length > 1) = false → Pre c p) (o : List Touch) :
    outputC s m.b halt (nodesOf m (ends m calls)) c p o =
      .ok (feed halt o ((emitP m calls P s.f c p).map (touchOf m calls))) := by
  unfold outputC emitP
  rw [childrenC_eq hc, Out.ok_bind]
  change (isNPartC s m.b (touchOf m calls c) c.length >>= _) = _
  rw [isNPartC_eq G s hm hP h2 h58 hc, Out.ok_bind, hP]
  cases nPart m calls P s.f c with
  | false => simp [feed]
  | true =>
    simp only [if_true]
    change (if _ then rotationsC halt _ c.length p (kids m (ends m calls) c) (give halt (touchOf m calls c) o) else
      .ok (give halt (touchOf m calls c) o)) = _
    by_cases h : (!s.f.testBit 0 && decide (P.v.length = 1)) = true
    · rw [if_pos h]
      simp only [Bool.and_eq_true, Bool.not_eq_true', decide_eq_true_eq] at h
      have hpre := hp (by rw [decide_eq_false_iff_not]; omega)
      rw [rotationsC_eq o hne (hpre.pos hne) hpre.le, h.1, h.2]
      simp
    · rw [if_neg h]
      have : (s.f.testBit 0 || decide (P.v.length ≠ 1)) = true := by
        cases h0 : s.f.testBit 0 <;> simp [h0] at h ⊢
        exact h
      rw [this]
      simp only [emitCalls, if_true, List.map_cons, List.map_nil]
      rw [feed_one]

/-- The set of leads stands for a node. -/
def Marks (t : Multtab) (m : Method) (calls : List Change) (P : Group) (L : List Row) (l : List Bool) (c : List Nat) (k : Nat) : Prop :=
  l.length = t.size ∧ ∀ r ∈ L, l[ix t P r]? = some (decide (∃ i, i < k ∧ ∃ p ∈ P.v, hd m calls (c.take i) = mul p r))

theorem isRowFalse_eq {t : Multtab} {L : List Row} {n : Nat} (ht : Multtab.TabC t L P Group.trivial0 n) 
    (hL : ∀ r, r ∈ L ↔ InL m calls r) {l : List Bool} {c : List Nat} {k : Nat} (hI : Marks t m calls P L l c k) {r : Row} (hr : InL m calls r) :
    ∀ {fs : List Row} {cols : List Nat}, (∀ f ∈ fs, InL m calls f) → cols.length = fs.length →
    (∀ (k : Nat) x c, (fs.map fun r => (r, false))[k]? = some x → cols[k]? = some c → t.cols[c]? = some x) →
    isRowFalseC t l (ix t P r) cols = .ok (decide (∃ f ∈ fs, ∃ i, i < k ∧ ∃ p ∈ P.v, hd m calls (c.take i) = mul p (mul r f)))
  | [], [], _, _, _ => by simp [isRowFalseC]
  | [], _ :: _, _, h, _ => by simp at h
  | _ :: _, [], _, h, _ => by simp at h
  | f :: fs, x :: cols, hf, hlen, hcol => by
    have hx := hcol 0 (f, false) x (by simp) (by simp)
    have hrf := inL_mul hr (hf f (by simp))
    have ih := isRowFalse_eq ht hL hI hr (fs := fs) (cols := cols) (fun y hy => hf y (by simp [hy])) (by simpa using hlen)
      (fun k y c h1 h2 => hcol (k + 1) y c (by simpa using h1) (by simpa using h2))
    rw [isRowFalseC, mulCol_eq ht ((hL r).2 hr) hx, Out.ok_bind, vget, hI.2 _ ((hL _).2 hrf)]
    simp only [Out.ok_bind]
    rw [ih]
    by_cases h : ∃ i, i < k ∧ ∃ p ∈ P.v, hd m calls (c.take i) = mul p (mul r f)
    · rw [decide_eq_true h, if_pos rfl, decide_eq_true]
      exact ⟨f, by simp, h⟩
    · rw [decide_eq_false h, if_neg (by simp)]
      congr 1
      rw [decide_eq_decide]
      constructor
      · rintro ⟨g, hg, h'⟩; exact ⟨g, by simp [hg], h'⟩
      · rintro ⟨g, hg, h'⟩
        rcases List.mem_cons.1 hg with rfl | hg
        · exact absurd h' h
        · exact ⟨g, hg, h'⟩

include G H in
theorem table_sim (s : TableSearch) (hm : s.meth = m) (hP : s.partends = P)
    {L : List Row} {t : Multtab} (hL : ∀ r, r ∈ L ↔ InL m calls r) (ht : Multtab.TabC t L P Group.trivial0 m.b)
    (hinc : Group.Incr Row.lt t.rows) {flags : Nat} {fs : List Row} (hT : IsTable m flags fs) (h3 : flags.testBit 3 = false)
    (hfs : ∀ f ∈ fs, InL m calls f)
    {cl cf : List Nat} (hcl : cl.length = (lhsOf m calls).length) (hcf : cf.length = fs.length)
    (hcl' : ∀ (k : Nat) x c, ((lhsOf m calls).map fun r => (r, false))[k]? = some x → cl[k]? = some c → t.cols[c]? = some x)
    (hcf' : ∀ (k : Nat) x c, (fs.map fun r => (r, false))[k]? = some x → cf[k]? = some c → t.cols[c]? = some x)
    (h2 : s.f.testBit 1 = false → 1 < P.v.length → 2 ≤ m.ch.length)
    (h58 : s.f.testBit 1 = false → 1 < P.v.length → m.b ≤ 58) (halt : Outputer) :
    Sim (ops s t halt (nodesOf m (ends m calls)) cl cf) halt (fun c => ix t P (hd m calls c))
      (ptree m calls P fs s.lo s.hi (s.f.testBit 3)) (fun c p => (emitP m calls P s.f c p).map (touchOf m calls))
      (fun l c => Marks t m calls P L l c c.length) (fun l c => Marks t m calls P L l c (c.length + 1)) := by
  have hlen : (lhsOf m calls).length = (ends m calls).length := by simp [lhsOf]
  have hK : cl.length = (ends m calls).length := hcl.trans hlen
  have hgrp := H.built.good.grp
  have hone := hgrp.one
  have hpos : 0 < P.v.length := List.length_pos_of_mem hone
  have hb := H.bells
  have hmem : ∀ {c}, Dom (ends m calls).length c → hd m calls c ∈ L := fun hc => (hL _).2 (inL_hd G hc)
  have hmem' : ∀ {c : List Nat} i, Dom (ends m calls).length c → hd m calls (c.take i) ∈ L :=
    fun i hc => hmem (fun x hx => hc x (List.mem_of_mem_take hx))
  have hRL : rounds m.b ∈ L := by have := hmem (c := []) (by intro x hx; cases hx); rwa [hd_nil] at this
  have hbells : t.bells = m.b := by
    unfold Multtab.bells
    have := ht.rep_mem hRL
    cases hr : t.rows with
    | nil => rw [hr] at this; cases this
    | cons a l =>
      have ha : a ∈ t.rows := by rw [hr]; simp
      exact (ht.rowsL a (ht.rep_rep ha).1).2
  refine ⟨⟨hK.symm, rfl, rfl, ?_⟩, ?_, ?_, ?_, ?_, ?_, ?_, ?_, ?_⟩
  · show decide (P.v.length > 1) = decide (s.partends.v.length > 1)
    rw [hP]
  · intro c hc
    have hc : Dom (ends m calls).length c := fun x hx => by rw [← hK]; exact hc x hx
    show (s.f.testBit 3 || Multtab.isrounds (ix t P (hd m calls c))) = (s.f.testBit 3 || decide (Ends m calls P c))
    congr 1
    rw [Bool.eq_iff_iff, decide_eq_true_eq]
    unfold Multtab.isrounds Ends
    rw [beq_iff_eq, ← ix_rounds ht hinc hRL, eq_comm, ix_eq_iff ht hRL (hmem hc)]
  · intro l c hc hI
    have hc : Dom (ends m calls).length c := fun x hx => by rw [← hK]; exact hc x hx
    show isRowFalseC t l (ix t P (hd m calls c)) cf = .ok (decide (FalseP m calls P fs c))
    rw [isRowFalse_eq ht hL hI (inL_hd G hc) hfs hcf hcf']
    rfl
  · show decide (FalseP m calls P fs []) = false
    rw [decide_eq_false_iff_not]
    rintro ⟨f, -, i, hi, -⟩
    simp at hi
  · intro l c hc hI _
    have hc : Dom (ends m calls).length c := fun x hx => by rw [← hK]; exact hc x hx
    have hlt := ix_lt ht (hmem hc)
    refine ⟨l.set (ix t P (hd m calls c)) true, ?_, by rw [List.length_set]; exact hI.1, fun r hr => ?_⟩
    · show setLeadC l _ true = _
      unfold setLeadC; rw [if_pos (by rw [hI.1]; exact hlt)]
    · have hrl := ix_lt ht hr
      rw [List.getElem?_set]
      by_cases e : ix t P (hd m calls c) = ix t P r
      · rw [if_pos e, if_pos (by rw [hI.1]; exact hlt), decide_eq_true]
        obtain ⟨p, hp, e⟩ := (ix_eq_iff ht hr (hmem hc)).1 e.symm
        exact ⟨c.length, by omega, p, hp, by rw [List.take_length]; exact e⟩
      · rw [if_neg e, hI.2 r hr]
        congr 1
        rw [decide_eq_decide]
        constructor
        · rintro ⟨i, hi, h⟩; exact ⟨i, by omega, h⟩
        · rintro ⟨i, hi, p, hp, h⟩
          by_cases hi' : i = c.length
          · rw [hi', List.take_length] at h
            exact absurd ((ix_eq_iff ht hr (hmem hc)).2 ⟨p, hp, h⟩).symm e
          · exact ⟨i, by omega, p, hp, h⟩
  · intro l c k
    unfold Marks
    refine and_congr_right fun _ => forall_congr' fun r => forall_congr' fun _ => ?_
    rw [List.length_append, List.length_singleton]
    have : (∃ i, i < c.length + 1 ∧ ∃ p ∈ P.v, hd m calls (c.take i) = mul p r) ↔
        ∃ i, i < c.length + 1 ∧ ∃ p ∈ P.v, hd m calls ((c ++ [k]).take i) = mul p r := by
      refine exists_congr fun i => and_congr_right fun hi => ?_
      rw [List.take_append_of_le_length (by omega)]
    rw [decide_eq_decide.2 this]
  · intro l c hc hJ hF
    have hc : Dom (ends m calls).length c := fun x hx => by rw [← hK]; exact hc x hx
    have hlt := ix_lt ht (hmem hc)
    refine ⟨l.set (ix t P (hd m calls c)) false, ?_, by rw [List.length_set]; exact hJ.1, fun r hr => ?_⟩
    · show setLeadC l _ false = _
      unfold setLeadC; rw [if_pos (by rw [hJ.1]; exact hlt)]
    have hF' : ¬ FalseP m calls P fs c := by
      have : decide (FalseP m calls P fs c) = false := hF
      simpa using this
    rw [List.getElem?_set]
    by_cases e : ix t P (hd m calls c) = ix t P r
    · rw [if_pos e, if_pos (by rw [hJ.1]; exact hlt)]
      congr 1
      symm
      rw [decide_eq_false_iff_not]
      rintro ⟨i, hi, p, hp, h⟩
      have e1 := (ix_eq_iff ht hr (hmem' i hc)).2 ⟨p, hp, h⟩
      obtain ⟨q, hq, e2⟩ := (ix_eq_iff ht (hmem hc) (hmem' i hc)).1 (e.trans e1)
      exact hF' ⟨_, rounds_mem G hT h3, i, hi, q, hq, by rw [mul_rounds (by rw [(valid_hd G _).2]), e2]⟩
    · rw [if_neg e, hJ.2 r hr]
      congr 1
      rw [decide_eq_decide]
      constructor
      · rintro ⟨i, hi, p, hp, h⟩
        by_cases hi' : i = c.length
        · rw [hi', List.take_length] at h
          exact absurd ((ix_eq_iff ht hr (hmem hc)).2 ⟨p, hp, h⟩).symm e
        · exact ⟨i, by omega, p, hp, h⟩
      · rintro ⟨i, hi, h⟩; exact ⟨i, by omega, h⟩
  · intro c k hc hk
    have hc : Dom (ends m calls).length c := fun x hx => by rw [← hK]; exact hc x hx
    have hk' : k < (ends m calls).length := by rw [← hK]; exact hk
    have hk'' : k < cl.length := hk
    show (vget cl k >>= fun x => Multtab.mulColC t (ix t P (hd m calls c)) x) = _
    have e : vget cl k = .ok cl[k] := by simp [vget, List.getElem?_eq_getElem hk'']
    have hcol := hcl' k (hd m calls [k], false) cl[k] (by
      simp [lhsOf, List.getElem?_range hk']) (List.getElem?_eq_getElem hk'')
    rw [e, Out.ok_bind, mulCol_eq ht (hmem hc) hcol, hd_append G]
  · intro c p o hc hne hp
    have hc : Dom (ends m calls).length c := fun x hx => by rw [← hK]; exact hc x hx
    have hp : decide (P.v.length > 1) = false → Pre c p := by
      intro h; refine hp ?_
      show decide (s.partends.v.length > 1) = false
      rw [hP]; exact h
    show outputC s t.bells halt _ c p o = _
    rw [hbells]
    exact outputP_eq G s hm hP h2 h58 hc hne hp o

include G H in
theorem ptree_bound {flags : Nat} {fs : List Row} (ht : IsTable m flags fs) (h3 : flags.testBit 3 = false)
    {c : List Nat} (hF : ∀ i, i < c.length → ¬ FalseP m calls P fs (c.take i)) : c.length ≤ m.b.factorial := by
  apply heads_bound G
  intro a b hab hb e
  have hb' := H.bells
  refine hF b hb ⟨_, rounds_mem G ht h3, a, by simp; omega, _, H.built.good.grp.one, ?_⟩
  rw [mul_rounds (by rw [(valid_hd G _).2]), List.take_take, Nat.min_eq_left (by omega), rounds_mul (by rw [(valid_hd G _).2]; omega), e]

/-- The flags used for the falseness table. -/
def flagsT (m : Method) (calls : List Change) : Nat :=
  (if FixedTreble m calls then 0 else 2) + (if InCourse m calls then 1 else 0)

theorem flagsT_bits (m : Method) (calls : List Change) :
    ((flagsT m calls).testBit 1 = true ↔ ¬ FixedTreble m calls) ∧ ((flagsT m calls).testBit 0 = true ↔ InCourse m calls) ∧
      (flagsT m calls).testBit 2 = false ∧ (flagsT m calls).testBit 3 = false := by
  unfold flagsT
  by_cases h1 : FixedTreble m calls <;> by_cases h2 : InCourse m calls <;> simp [h1, h2] <;> decide

/-- The call sequences output by a search that is never halted. -/
def outP (m : Method) (calls : List Change) (P : Group) (fs : List Row) (lo hi f : Nat) : List (List Nat) :=
  if impossible P fs then [] else
    ((ptree m calls P fs lo hi (f.testBit 3)).visit (m.b.factorial + 1) [] 0).flatMap fun x => emitP m calls P f x.1 x.2

include G H in
/-- What the search outputs. -/
theorem runP_eq (s : TableSearch) (hm : s.meth = m) (hc : s.calls = calls) (hP : s.partends = P)
    (h2 : s.f.testBit 1 = false → 1 < P.v.length → 2 ≤ m.ch.length)
    (h58 : s.f.testBit 1 = false → 1 < P.v.length → m.b ≤ 58) :
    ∃ fs, IsTable m (flagsT m calls) fs ∧ ∀ halt fuel, m.b.factorial < fuel →
      runC s halt fuel = .ok (feed halt [] ((outP m calls P fs s.lo s.hi s.f).map (touchOf m calls))).1 := by
  obtain ⟨b1, b0, b2, b3⟩ := flagsT_bits m calls
  obtain ⟨fs, e1, hT, -⟩ := table_spec G b2
  refine ⟨fs, hT, fun halt fuel hfuel => ?_⟩
  obtain ⟨L, t0, t1, hL, ht0, hinc0⟩ := makeTable_spec G H s hm hc hP
  have hfs : ∀ f ∈ fs, InL m calls f := by
    intro f hf
    have hv := table_valid G hT f hf
    refine ⟨hv.1, hv.2, fun h => ?_⟩
    rcases ((hT f).1 hf).1.1 with g | g
    · exact absurd h (b1.1 g)
    · exact g
  have hlhs : ∀ r ∈ lhsOf m calls, InL m calls r := by
    intro r hr
    obtain ⟨k, hk, rfl⟩ := List.mem_map.1 hr
    exact inL_hd G (by intro x hx; simp at hx; subst hx; exact List.mem_range.1 hk)
  obtain ⟨ta, cl, a1, a2, a3, a4, a5, a6⟩ := Multtab.TabC.run ((lhsOf m calls).map fun r => (r, false)) ht0 (by
    intro x hx
    obtain ⟨r, hr, rfl⟩ := List.mem_map.1 hx
    exact good_col hL (hlhs r hr))
  obtain ⟨tb, cf, c1, c2, c3, c4, c5, c6⟩ := Multtab.TabC.run (fs.map fun r => (r, false)) a2 (by
    intro x hx
    obtain ⟨r, hr, rfl⟩ := List.mem_map.1 hx
    exact good_col hL (hfs r hr))
  have hinc : Group.Incr Row.lt tb.rows := by rw [c3, a3]; exact hinc0
  unfold runC
  rw [t1, Out.ok_bind, hm, hc, setupC_eq G, Out.ok_bind]
  simp only
  rw [postCols_eq, a1, Out.ok_bind]
  have hflags : ftFlagsC s = .ok (flagsT m calls) := by
    unfold ftFlagsC
    rw [isFixedTrebleC_eq G s hm hc, Out.ok_bind, isInCourseC_eq G s hm hc]
    simp only [Out.ok_bind, decide_eq_true_eq]
    rfl
  rw [hflags, Out.ok_bind, e1, Out.ok_bind, postCols_eq, c1, Out.ok_bind, hP]
  unfold outP
  by_cases himp : impossible P fs = true
  · rw [if_pos himp, if_pos himp]; rfl
  rw [if_neg himp, if_neg himp]
  have S := table_sim G H s hm hP hL c2 hinc hT b3 hfs (by simpa using a4) (by simpa using c4)
    (fun k x c h1 h2 => c6 _ _ (a5 k x c h1 h2)) c5 h2 h58 halt
  have hlen : (lhsOf m calls).length = (ends m calls).length := by simp [lhsOf]
  have hRL : rounds m.b ∈ L := by
    have := (hL _).2 (inL_hd G (calls := calls) (c := []) (by intro x hx; cases hx)); rwa [hd_nil] at this
  obtain ⟨l', r1, -⟩ := run_sim S (B := m.b.factorial) (by
      intro c _ hF
      refine ptree_bound G H hT b3 fun i hi => ?_
      have := hF i hi
      simpa [ptree] using this) fuel [] 0 ⟨List.replicate tb.size false, [], false, []⟩
    (by simpa using hfuel) (by intro x hx; cases hx) (by simp) rfl rfl
    ⟨by simp, fun r hr => by
      rw [List.getElem?_replicate, if_pos (ix_lt c2 hr)]
      simp⟩ (Or.inl ⟨rfl, rfl⟩)
  rw [hd_nil, ix_rounds c2 hinc hRL, show ([] : List Nat).length = 0 from rfl] at r1
  have hK : cl.length = (ends m calls).length := by rw [a4]; simp [lhsOf]
  rw [r1, Out.ok_bind]
  have hvis : (ptree m calls P fs s.lo s.hi (s.f.testBit 3)).visit fuel [] 0 =
      (ptree m calls P fs s.lo s.hi (s.f.testBit 3)).visit (m.b.factorial + 1) [] 0 := by
    refine Tree.visit_const (fun c p h => ptree_bound G H hT b3 fun i hi => ?_) hfuel
    have := h.facts.2.1 i hi
    simpa [ptree] using this
  have hent : (ptree m calls P fs s.lo s.hi (s.f.testBit 3)).enter fuel [] 0 =
      (ptree m calls P fs s.lo s.hi (s.f.testBit 3)).visit fuel [] 0 := by
    unfold Tree.enter possM poss
    by_cases h : (ptree m calls P fs s.lo s.hi (s.f.testBit 3)).multi = true
    · rw [if_pos h]
    · rw [if_neg h]; simp
  rw [hent, hvis]
  unfold outs
  rw [List.map_flatMap]

end
end TableSearch
end Ringing
