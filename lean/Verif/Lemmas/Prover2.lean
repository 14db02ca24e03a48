import Verif.Lemmas.Prover

namespace Ringing
open Spec

/-- The lines of a new entry. -/
theorem newLines_perm {m : MMap} (h : MSorted m) (k : Nat) (r : Row) (line : Int) :
    (Prover.newLines m k r line).Perm (((m.filter fun e => e.1 = r).map (·.2)) ++ [line]) := by
  obtain ⟨A, B, C, rfl, ha, hb, hc⟩ := msplit h r
  have hf : (A ++ B ++ C).filter (fun e => decide (e.1 = r)) = B := by
    rw [List.filter_append, List.filter_append]
    have h1 : A.filter (fun e => decide (e.1 = r)) = [] := by
      rw [List.filter_eq_nil_iff]
      intro e he hc'
      have := ha e he
      rw [of_decide_eq_true hc', lt_irrefl'] at this; cases this
    have h2 : C.filter (fun e => decide (e.1 = r)) = [] := by
      rw [List.filter_eq_nil_iff]
      intro e he hc'
      have := hc e he
      rw [of_decide_eq_true hc', lt_irrefl'] at this; cases this
    have h3 : B.filter (fun e => decide (e.1 = r)) = B := by
      rw [List.filter_eq_self]
      intro e he; simp [hb e he]
    rw [h1, h2, h3]; simp
  rw [hf]
  unfold Prover.newLines
  simp only
  rw [number_split ha hb hc]
  split_ifs with h0
  · rw [insert_split ha hb hc, lower_split ha hb hc]
    have hB : B.take k = [] ∧ B.drop k = B := by
      rcases Nat.eq_zero_or_pos k with rfl | hk
      · simp
      · have : B.length = 0 := by omega
        have := List.length_eq_zero_iff.1 this
        subst this; simp
    rw [hB.1, hB.2, List.append_assoc A (_ ++ _) C, List.drop_length_add_append]
    simp
  · rw [insert_split ha hb hc, lower_split ha hb hc, List.append_assoc A (_ ++ _) C, List.drop_left]
    rw [List.take_append_of_le_length (by simp; omega), List.take_of_length_le (by simp; omega)]
    rw [show B.map (·.2) ++ [line] = (B ++ [(r, line)]).map (·.2) by simp]
    refine List.Perm.map _ (List.perm_middle.trans ?_)
    rw [List.take_append_drop]
    exact (List.perm_append_singleton _ _).symm

namespace Prover

theorem zipIdx_append_one {α : Type} (l : List α) (a : α) :
    (l ++ [a]).zipIdx = l.zipIdx ++ [(a, l.length)] := by
  rw [List.zipIdx_append]; simp

theorem linesOf_append (r s : Row) (rows : List Row) :
    linesOf r (rows ++ [s]) = linesOf r rows ++ if s = r then [(rows.length : Int) + 1] else [] := by
  unfold linesOf
  rw [zipIdx_append_one, List.filter_append, List.map_append]
  congr 1
  by_cases h : s = r
  · simp [h]
  · simp [h]

/-- The entries of the multimap for the rows rung so far. -/
def entries (rows : List Row) : MMap := rows.zipIdx.map fun x => (x.1, (x.2 : Int) + 1)

theorem entries_append (rows : List Row) (r : Row) :
    entries (rows ++ [r]) = entries rows ++ [(r, (rows.length : Int) + 1)] := by
  unfold entries; rw [zipIdx_append_one]; simp

theorem entries_lines (rows : List Row) (r : Row) :
    ((entries rows).filter fun e => e.1 = r).map (·.2) = linesOf r rows := by
  unfold entries linesOf
  rw [List.filter_map, List.map_map]
  rfl

theorem entries_keys (rows : List Row) : (entries rows).map (·.1) = rows := by
  unfold entries
  rw [List.map_map]
  exact List.zipIdx_map_fst ..

/-- What the failure information should be. -/
def FailSpec (mx : Int) (rows : List Row) (l : List LineDetail) : Prop :=
  (l.map (·.row)).Nodup ∧
  (∀ r, r ∈ l.map (·.row) ↔ r ∈ rows ∧ mx ≠ -1 ∧ (rows.count r : Int) > mx) ∧
  ∀ d ∈ l, d.lines.Perm (linesOf d.row rows)

/-- A prover with failure information to which rows have only been added. -/
structure Adds (mx : Int) (rows : List Row) (p : Prover) : Prop where
  rep : Rep ⟨mx, rows.reverse, [], true⟩ p
  chain : p.chain = []
  lineno : p.head.lineno = rows.length
  m : p.head.m.Perm (entries rows)
  fi : ∃ l, p.fi = .live l ∧ FailSpec mx rows l

theorem pushLine_none {r : Row} {line : Int} : ∀ {l : List LineDetail}, pushLine r line l = none ↔
    r ∉ l.map (·.row) := by
  intro l
  induction l with
  | nil => simp [pushLine]
  | cons d l ih =>
    unfold pushLine
    by_cases h : d.row = r
    · simp [h]
    · rw [if_neg h]
      simp only [Option.map_eq_none_iff, ih, List.map_cons, List.mem_cons, not_or]
      exact ⟨fun hh => ⟨Ne.symm h, hh⟩, fun hh => hh.2⟩

theorem pushLine_some {r : Row} {line : Int} : ∀ {l l' : List LineDetail}, pushLine r line l = some l' →
    (l.map (·.row)).Nodup →
    l'.map (·.row) = l.map (·.row) ∧ ∀ d ∈ l', (d.row ≠ r ∧ d ∈ l) ∨
      (d.row = r ∧ ∃ d0 ∈ l, d0.row = r ∧ d.lines = d0.lines ++ [line]) := by
  intro l
  induction l with
  | nil => intro l' h; simp [pushLine] at h
  | cons x l ih =>
    intro l' h hn
    rw [List.map_cons, List.nodup_cons] at hn
    unfold pushLine at h
    split_ifs at h with hx
    · injection h with h
      subst h
      refine ⟨rfl, ?_⟩
      intro d hd
      rcases List.mem_cons.1 hd with rfl | hd
      · exact Or.inr ⟨hx, x, by simp, hx, rfl⟩
      · refine Or.inl ⟨?_, by simp [hd]⟩
        intro hc
        exact hn.1 (by rw [hx, ← hc]; exact List.mem_map_of_mem hd)
    · cases hp : pushLine r line l with
      | none => rw [hp] at h; cases h
      | some l2 =>
        rw [hp] at h
        simp at h
        subst h
        obtain ⟨h1, h2⟩ := ih hp hn.2
        refine ⟨by simp [h1], ?_⟩
        intro d hd
        rcases List.mem_cons.1 hd with rfl | hd
        · exact Or.inl ⟨hx, by simp⟩
        · rcases h2 d hd with ⟨a, b⟩ | ⟨a, d0, b, c⟩
          · exact Or.inl ⟨a, by simp [b]⟩
          · exact Or.inr ⟨a, d0, by simp [b], c⟩

theorem adds_step {mx : Int} {rows : List Row} {p : Prover} (h : Adds mx rows p) (r : Row) (k : Nat) :
    ∃ b p', p.addRowC k r = .ok (b, p') ∧ Adds mx (rows ++ [r]) p' ∧
      (b = true ↔ NoRowTooOften mx (rows ++ [r])) := by
  classical
  obtain ⟨x, h1, h2, h3⟩ := rep_add h.rep r k
  obtain ⟨b, p', e⟩ : ∃ b p', p.addRowC k r = .ok (b, p') := by
    unfold stepC at h1
    simp only at h1
    cases hh : p.addRowC k r with
    | ok y => exact ⟨y.1, y.2, rfl⟩
    | throw _ => rw [hh] at h1; cases h1
    | ub => rw [hh] at h1; cases h1
    | timeout => rw [hh] at h1; cases h1
  refine ⟨b, p', e, ?_⟩
  unfold stepC at h1
  simp only at h1
  rw [e, Out.ok_bind] at h1
  injection h1 with h1
  have hrev : r :: rows.reverse = (rows ++ [r]).reverse := by simp
  have hrep : Rep ⟨mx, (rows ++ [r]).reverse, [], true⟩ p' := by
    have : x.2 = p' := by rw [← h1]
    rw [← this, ← hrev]; exact h3
  have hb : b = true ↔ NoRowTooOften mx (rows ++ [r]) := by
    have : x.1 = .added b := by rw [← h1]
    rw [this] at h2
    have h2' : ProverResult.added b =
      .added (decide (Bag.TrueTouch ⟨mx, r :: rows.reverse, [], true⟩)) := h2
    injection h2' with h2'
    rw [h2', decide_eq_true_eq]
    unfold Bag.TrueTouch NoRowTooOften
    by_cases hm : mx = -1
    · simp [hm]
    · simp only [hm, if_false, false_or]
      rw [hrev]
      constructor
      · intro hh s hs
        have := hh s (by simpa [or_comm] using hs)
        simp only [Bag.all, List.append_nil, List.count_reverse] at this
        exact this
      · intro hh s hs
        have := hh s (by simpa [or_comm] using hs)
        simp only [Bag.all, List.append_nil, List.count_reverse]
        exact this
  refine ⟨⟨hrep, ?_, ?_, ?_, ?_⟩, hb⟩
  all_goals
    obtain ⟨l, hl, f1, f2, f3⟩ := h.fi
    have hcount : p.countRow r = rows.count r := by
      rw [h.rep.count]; simp [Bag.all]
    have hmax : p.head.maxOccurs = mx := h.rep.limit
    unfold addRowC at e
    simp only [hl] at e
  · by_cases hc : p.head.maxOccurs ≠ -1 ∧ ((1 + p.countRow r : Nat) : Int) > p.head.maxOccurs
    · rw [if_pos hc] at e
      split at e <;> (injection e with e; injection e with _ e; rw [← e]; exact h.chain)
    · rw [if_neg hc] at e
      injection e with e; injection e with _ e; rw [← e]; exact h.chain
  · by_cases hc : p.head.maxOccurs ≠ -1 ∧ ((1 + p.countRow r : Nat) : Int) > p.head.maxOccurs
    · rw [if_pos hc] at e
      split at e <;> (injection e with e; injection e with _ e; rw [← e]; simp [h.lineno])
    · rw [if_neg hc] at e
      injection e with e; injection e with _ e; rw [← e]; simp [h.lineno]
  · have key : (p.head.m.insert k r (p.head.lineno + 1)).Perm (entries (rows ++ [r])) := by
      rw [entries_append, h.lineno]
      exact (insert_perm _ _ _ _).trans ((h.m.cons _).trans (List.perm_append_singleton _ _).symm)
    by_cases hc : p.head.maxOccurs ≠ -1 ∧ ((1 + p.countRow r : Nat) : Int) > p.head.maxOccurs
    · rw [if_pos hc] at e
      split at e <;> (injection e with e; injection e with _ e; rw [← e]; exact key)
    · rw [if_neg hc] at e
      injection e with e; injection e with _ e; rw [← e]; exact key
  · -- the failure information
    have hcnt : ∀ s, s ≠ r → (rows ++ [r]).count s = rows.count s := by
      intro s hs; simp [List.count_append, List.count_cons, Ne.symm hs]
    have hcr : (rows ++ [r]).count r = rows.count r + 1 := by simp
    have hlo : ∀ s, s ≠ r → linesOf s (rows ++ [r]) = linesOf s rows := by
      intro s hs; rw [linesOf_append, if_neg (Ne.symm hs), List.append_nil]
    have hlr : linesOf r (rows ++ [r]) = linesOf r rows ++ [(rows.length : Int) + 1] := by
      rw [linesOf_append, if_pos rfl]
    by_cases hc : p.head.maxOccurs ≠ -1 ∧ ((1 + p.countRow r : Nat) : Int) > p.head.maxOccurs
    · rw [if_pos hc] at e
      rw [hmax, hcount] at hc
      cases hp : pushLine r (p.head.lineno + 1) l with
      | some l' =>
        rw [hp] at e
        simp only at e
        injection e with e; injection e with _ e
        refine ⟨l', by rw [← e], ?_⟩
        obtain ⟨g1, g2⟩ := pushLine_some hp f1
        refine ⟨by rw [g1]; exact f1, ?_, ?_⟩
        · intro s
          rw [g1, f2 s]
          by_cases hs : s = r
          · subst hs
            have hin : s ∈ l.map (·.row) := by
              by_contra hnin
              rw [pushLine_none.2 hnin] at hp; cases hp
            have := (f2 s).1 hin
            simp only [List.mem_append, hcr]
            constructor
            · rintro ⟨a, b, c⟩; exact ⟨Or.inl a, b, by push_cast; omega⟩
            · intro _; exact this
          · rw [hcnt s hs]
            simp [hs]
        · intro d hd
          rcases g2 d hd with ⟨a, b⟩ | ⟨a, d0, b, c, c'⟩
          · rw [hlo _ a]; exact f3 d b
          · rw [a, hlr, c', h.lineno]
            refine List.Perm.append_right _ ?_
            rw [← c]; exact f3 d0 b
      | none =>
        rw [hp] at e
        simp only at e
        injection e with e; injection e with _ e
        refine ⟨_, by rw [← e], ?_⟩
        have hnin := pushLine_none.1 hp
        refine ⟨?_, ?_, ?_⟩
        · rw [List.map_append, List.nodup_append]
          refine ⟨f1, by simp, ?_⟩
          intro a ha b hb' hab
          simp at hb'
          subst hab
          rw [hb'] at ha; exact hnin ha
        · intro s
          rw [List.map_append, List.mem_append, f2 s]
          by_cases hs : s = r
          · subst hs
            simp only [List.map_cons, List.map_nil, List.mem_singleton, or_true, true_iff, hcr]
            refine ⟨by simp, hc.1, ?_⟩
            have := hc.2
            push_cast at this ⊢; omega
          · rw [hcnt s hs]; simp [hs]
        · intro d hd
          rcases List.mem_append.1 hd with hd | hd
          · have : d.row ≠ r := by
              rintro hh; exact hnin (by rw [← hh]; exact List.mem_map_of_mem hd)
            rw [hlo _ this]; exact f3 d hd
          · rw [List.mem_singleton.1 hd]
            simp only
            rw [hlr]
            refine (newLines_perm (h.rep.sorted _ (by simp [levels])) _ _ _).trans ?_
            rw [h.lineno]
            refine List.Perm.append_right _ ?_
            rw [← entries_lines]
            exact (h.m.filter _).map _
    · rw [if_neg hc] at e
      rw [hmax, hcount] at hc
      injection e with e; injection e with _ e
      refine ⟨l, by rw [← e], f1, ?_, ?_⟩
      · intro s
        rw [f2 s]
        by_cases hs : s = r
        · subst hs
          rw [hcr]
          constructor
          · rintro ⟨a, b, c⟩; exact ⟨by simp, b, by push_cast; omega⟩
          · rintro ⟨_, b, c⟩
            exact absurd ⟨b, by push_cast at c ⊢; omega⟩ hc
        · rw [hcnt s hs]; simp [hs]
      · intro d hd
        have : d.row ≠ r := by
          intro hh
          have := (f2 d.row).1 (List.mem_map_of_mem hd)
          rw [hh] at this
          exact hc ⟨this.2.1, by have := this.2.2; push_cast; omega⟩
        rw [hlo _ this]; exact f3 d hd

theorem adds_make (mx : Int) : Adds mx [] (make mx (.live [])) := by
  refine ⟨rep_make mx _ (Or.inr rfl), rfl, rfl, by simp [make, entries], [], rfl, ?_⟩
  refine ⟨by simp, ?_, by simp⟩
  intro r; simp

/-- The history that adds rows. -/
def adds (rows : List (Row × Nat)) : List ProverOp := rows.map fun x => .add x.1 x.2

theorem adds_run {mx : Int} : ∀ (rows : List (Row × Nat)) {done : List Row} {p : Prover}, Adds mx done p →
    ∃ xs p', p.runC (adds rows) = .ok (xs, p') ∧ Adds mx (done ++ rows.map (·.1)) p' := by
  intro rows
  induction rows with
  | nil => intro done p h; exact ⟨[], p, rfl, by simpa using h⟩
  | cons x rows ih =>
    intro done p h
    obtain ⟨b, p1, h1, h2, -⟩ := adds_step h x.1 x.2
    obtain ⟨xs, p2, h3, h4⟩ := ih h2
    refine ⟨.added b :: xs, p2, ?_, by simpa using h4⟩
    show p.runC (ProverOp.add x.1 x.2 :: adds rows) = _
    unfold runC stepC
    simp only [h1, Out.ok_bind, h3]

end Prover

/-! ### proof -/

namespace Proof
open Prover

theorem noRow_take {mx : Int} {rows : List Row} (h : NoRowTooOften mx rows) (i : Nat) :
    NoRowTooOften mx (rows.take i) := by
  rcases h with h | h
  · exact Or.inl h
  · right
    intro r hr
    have h1 := h r (List.mem_of_mem_take hr)
    have h2 : (rows.take i).count r ≤ rows.count r := (List.take_sublist i rows).count_le r
    omega

theorem loopC_cons (qp : Bool) (r : Row) (k : Nat) (rows : List (Row × Nat)) (t : Bool) (p : Prover) :
    loopC qp ((r, k) :: rows) t p = if !qp || t then
      (if t then p.addRowC k r >>= fun x => loopC qp rows x.1 x.2 else loopC qp rows false p)
      else .ok (t, p) := rfl

theorem loopC_append (qp : Bool) : ∀ (a b : List (Row × Nat)) (t : Bool) (p : Prover),
    loopC qp (a ++ b) t p = loopC qp a t p >>= fun x => loopC qp b x.1 x.2 := by
  intro a
  induction a with
  | nil => intro b t p; rfl
  | cons x a ih =>
    intro b t p
    obtain ⟨r, k⟩ := x
    rw [List.cons_append, loopC_cons, loopC_cons]
    cases t with
    | true =>
      simp only [Bool.or_true, if_true]
      cases p.addRowC k r with
      | ok y => simp only [Out.ok_bind]; exact ih b y.1 y.2
      | throw _ => rfl
      | ub => rfl
      | timeout => rfl
    | false =>
      cases qp with
      | true =>
        simp only [Bool.not_true, Bool.or_self, Bool.false_eq_true, if_false, Out.ok_bind]
        cases b with
        | nil => rfl
        | cons y b => obtain ⟨r', k'⟩ := y; unfold loopC; simp
      | false => simp only [Bool.not_false, Bool.true_or, if_true, Bool.false_eq_true, if_false]; exact ih b false p

theorem loopC_false (qp : Bool) : ∀ (a : List (Row × Nat)) (p : Prover), loopC qp a false p = .ok (false, p) := by
  intro a
  induction a with
  | nil => intro p; rfl
  | cons x a ih =>
    intro p
    obtain ⟨r, k⟩ := x
    unfold loopC
    cases qp <;> simp [ih]

/-- The loop, with failure information. -/
theorem loopC_spec (qp : Bool) {mx : Int} : ∀ (rows : List (Row × Nat)) {done : List Row} {p : Prover},
    Adds mx done p → NoRowTooOften mx done →
    ∃ b p', loopC qp rows true p = .ok (b, p') ∧ (b = true ↔ NoRowTooOften mx (done ++ rows.map (·.1))) ∧
      ((b = true ∧ Adds mx (done ++ rows.map (·.1)) p') ∨
       ∃ i, i < rows.length ∧ NoRowTooOften mx (done ++ (rows.map (·.1)).take i) ∧
        ¬ NoRowTooOften mx (done ++ (rows.map (·.1)).take (i + 1)) ∧
        Adds mx (done ++ (rows.map (·.1)).take (i + 1)) p') := by
  intro rows
  induction rows with
  | nil => intro done p h1 h2; exact ⟨true, p, rfl, by simpa using h2, Or.inl ⟨rfl, by simpa using h1⟩⟩
  | cons x rows ih =>
    intro done p h1 h2
    obtain ⟨r, k⟩ := x
    obtain ⟨b, p1, e1, e2, e3⟩ := adds_step h1 r k
    unfold loopC
    simp only [Bool.or_true, if_true, e1, Out.ok_bind]
    cases b with
    | true =>
      obtain ⟨b', p', g1, g2, g3⟩ := ih e2 (e3.1 rfl)
      refine ⟨b', p', g1, by simpa using g2, ?_⟩
      rcases g3 with ⟨g3, g4⟩ | ⟨i, g3, g4, g5, g6⟩
      · exact Or.inl ⟨g3, by simpa using g4⟩
      · exact Or.inr ⟨i + 1, by simpa using g3, by simpa using g4, by simpa using g5, by simpa using g6⟩
    | false =>
      rw [loopC_false]
      have hn : ¬ NoRowTooOften mx (done ++ [r]) := fun hc => by simpa using e3.2 hc
      refine ⟨false, p1, rfl, ?_, Or.inr ⟨0, by simp, by simpa using h2, by simpa using hn, by simpa using e2⟩⟩
      simp only [Bool.false_eq_true, false_iff]
      intro hc
      apply hn
      have := noRow_take hc (done.length + 1)
      simpa [List.take_length_add_append] using this

theorem rep_addRow {mx : Int} {done : List Row} {p : Prover} (h : Rep ⟨mx, done.reverse, [], true⟩ p)
    (r : Row) (k : Nat) : ∃ b p', p.addRowC k r = .ok (b, p') ∧
      Rep ⟨mx, (done ++ [r]).reverse, [], true⟩ p' ∧ (b = true ↔ NoRowTooOften mx (done ++ [r])) := by
  classical
  obtain ⟨x, h1, h2, h3⟩ := rep_add h r k
  obtain ⟨b, p', e⟩ : ∃ b p', p.addRowC k r = .ok (b, p') := by
    unfold stepC at h1
    simp only at h1
    cases hh : p.addRowC k r with
    | ok y => exact ⟨y.1, y.2, rfl⟩
    | throw _ => rw [hh] at h1; cases h1
    | ub => rw [hh] at h1; cases h1
    | timeout => rw [hh] at h1; cases h1
  refine ⟨b, p', e, ?_⟩
  unfold stepC at h1
  simp only at h1
  rw [e, Out.ok_bind] at h1
  injection h1 with h1
  have hrev : r :: done.reverse = (done ++ [r]).reverse := by simp
  refine ⟨?_, ?_⟩
  · have : x.2 = p' := by rw [← h1]
    rw [← this, ← hrev]; exact h3
  · have : x.1 = .added b := by rw [← h1]
    rw [this] at h2
    have h2' : ProverResult.added b =
      .added (decide (Bag.TrueTouch ⟨mx, r :: done.reverse, [], true⟩)) := h2
    injection h2' with h2'
    rw [h2', decide_eq_true_eq]
    unfold Bag.TrueTouch NoRowTooOften
    by_cases hm : mx = -1
    · simp [hm]
    · simp only [hm, if_false, false_or]
      rw [hrev]
      constructor
      · intro hh s hs
        have := hh s (by simpa [or_comm] using hs)
        simp only [Bag.all, List.append_nil, List.count_reverse] at this
        exact this
      · intro hh s hs
        have := hh s (by simpa [or_comm] using hs)
        simp only [Bag.all, List.append_nil, List.count_reverse]
        exact this

theorem addRow_null {k : Nat} {r : Row} {p p' : Prover} {b : Bool} (hf : p.fi = .null)
    (h : p.addRowC k r = .ok (b, p')) : p'.fi = .null ∧
      ({ p with fi := .raw } : Prover).addRowC k r = if b = true ∨ ¬ (p.head.maxOccurs ≠ -1 ∧
        ((1 + p.countRow r : Nat) : Int) > p.head.maxOccurs) then .ok (b, { p' with fi := .raw }) else .ub := by
  have hcr : ({ p with fi := .raw } : Prover).countRow r = p.countRow r := rfl
  unfold addRowC at h ⊢
  simp only [hf, hcr] at h ⊢
  by_cases hc : p.head.maxOccurs ≠ -1 ∧ ((1 + p.countRow r : Nat) : Int) > p.head.maxOccurs
  · rw [if_pos hc] at h ⊢
    injection h with h; injection h with h1 h2
    have hb : b = false := by rw [← h1]; simp
    rw [if_neg (by rw [hb]; simpa using hc)]
    refine ⟨by rw [← h2], rfl⟩
  · rw [if_neg hc] at h ⊢
    injection h with h; injection h with h1 h2
    rw [if_pos (Or.inr hc)]
    subst h2 h1
    exact ⟨rfl, rfl⟩

theorem loopC_null (qp : Bool) {mx : Int} : ∀ (rows : List (Row × Nat)) {done : List Row} {p : Prover},
    Rep ⟨mx, done.reverse, [], true⟩ p → p.fi = .null → NoRowTooOften mx done →
    ∃ b p', loopC qp rows true p = .ok (b, p') ∧ (b = true ↔ NoRowTooOften mx (done ++ rows.map (·.1))) := by
  intro rows
  induction rows with
  | nil => intro done p h1 _ h2; exact ⟨true, p, rfl, by simpa using h2⟩
  | cons x rows ih =>
    intro done p h1 hf h2
    obtain ⟨r, k⟩ := x
    obtain ⟨b, p1, e1, e2, e3⟩ := rep_addRow h1 r k
    rw [loopC_cons]
    simp only [Bool.or_true, if_true, e1, Out.ok_bind]
    cases b with
    | true =>
      obtain ⟨b', p', g1, g2⟩ := ih e2 (addRow_null hf e1).1 (e3.1 rfl)
      exact ⟨b', p', g1, by simpa using g2⟩
    | false =>
      rw [loopC_false]
      have hn : ¬ NoRowTooOften mx (done ++ [r]) := fun hc => by simpa using e3.2 hc
      refine ⟨false, p1, rfl, ?_⟩
      simp only [Bool.false_eq_true, false_iff]
      intro hc
      apply hn
      have := noRow_take hc (done.length + 1)
      simpa [List.take_length_add_append] using this

theorem loopC_raw (qp : Bool) {mx : Int} : ∀ (rows : List (Row × Nat)) {done : List Row} {p : Prover},
    Rep ⟨mx, done.reverse, [], true⟩ p → p.fi = .null → NoRowTooOften mx done →
    (NoRowTooOften mx (done ++ rows.map (·.1)) →
      ∃ p', loopC qp rows true { p with fi := .raw } = .ok (true, p')) ∧
    (¬ NoRowTooOften mx (done ++ rows.map (·.1)) → loopC qp rows true { p with fi := .raw } = .ub) := by
  intro rows
  induction rows with
  | nil => intro done p h1 _ h2; exact ⟨fun _ => ⟨_, rfl⟩, fun h => absurd h2 (by simpa using h)⟩
  | cons x rows ih =>
    intro done p h1 hf h2
    obtain ⟨r, k⟩ := x
    obtain ⟨b, p1, e1, e2, e3⟩ := rep_addRow h1 r k
    obtain ⟨f1, f2⟩ := addRow_null hf e1
    rw [loopC_cons]
    simp only [Bool.or_true, if_true]
    rw [f2]
    cases b with
    | true =>
      rw [if_pos (Or.inl rfl), Out.ok_bind]
      have := ih e2 f1 (e3.1 rfl)
      simpa using this
    | false =>
      have hn : ¬ NoRowTooOften mx (done ++ [r]) := fun hc => by simpa using e3.2 hc
      have hn2 : ¬ NoRowTooOften mx (done ++ ((r, k) :: rows).map (·.1)) := by
        intro hc
        apply hn
        have := noRow_take hc (done.length + 1)
        simpa [List.take_length_add_append] using this
      refine ⟨fun h => absurd h hn2, fun _ => ?_⟩
      have hmax : p.head.maxOccurs = mx := h1.limit
      have hcount : p.countRow r = done.count r := by rw [h1.count]; simp [Bag.all]
      rw [if_neg, Out.ub_bind]
      push Not
      refine ⟨by simp, ?_⟩
      rw [hmax, hcount]
      have hm : mx ≠ -1 := fun h => hn (Or.inl h)
      refine ⟨hm, ?_⟩
      by_contra hc
      apply hn
      right
      intro s hs
      rcases h2 with h2 | h2
      · exact absurd h2 hm
      · by_cases hsr : s = r
        · subst hsr; simp; push_cast at hc; omega
        · have := h2 s (by simpa [hsr] using hs)
          simpa [List.count_append, Ne.symm hsr] using this

end Proof
end Ringing
