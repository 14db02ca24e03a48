import Verif.Lemmas.Prover2
/-
C27-C30: the prover.
-/
namespace Ringing
open Spec Prover

/-- The bag of a new prover. -/
def emptyBag (mx : Int) : Bag := ⟨mx, [], [], true⟩

/-- C27/C28: every history of additions, removals, branches and disabling, whatever the places the
library puts equal rows at, with or without failure information, has the results specified for the bag
of rows: no undefined behaviour, `add_row` returns the truth, `remove_row` throws exactly if the row was
not added since the last branch (and then changes nothing). -/
theorem C27_history (mx : Int) (fi : Fi) (hfi : fi = .null ∨ fi = .live []) (ops : List ProverOp) :
    ∃ p, (make mx fi).runC ops = .ok (((emptyBag mx).run ops).1, p) ∧
      (∀ r, p.countRow r = ((emptyBag mx).run ops).2.all.count r) ∧
      p.size = ((emptyBag mx).run ops).2.all.length ∧
      p.duplicates + ((emptyBag mx).run ops).2.all.dedup.length = ((emptyBag mx).run ops).2.all.length ∧
      (p.truth = true ↔ ((emptyBag mx).run ops).2.TrueTouch) := by
  obtain ⟨p, h1, h2⟩ := rep_run (rep_make mx fi hfi) ops
  refine ⟨p, h1, fun r => h2.count r, h2.size, ?_, h2.truth⟩
  unfold duplicates
  rw [h2.dups]; exact over_one _

/-- Operations that neither branch nor disable. -/
def Simple : ProverOp → Prop
  | .add _ _ => True
  | .remove _ => True
  | _ => False

theorem simple_run {s : Bag} {ops : List ProverOp} (h : ∀ op ∈ ops, Simple op) :
    (s.run ops).2.limit = s.limit ∧ (s.run ops).2.old = s.old ∧ (s.run ops).2.frozen = s.frozen := by
  induction ops generalizing s with
  | nil => exact ⟨rfl, rfl, rfl⟩
  | cons op ops ih =>
    have hi := @ih (s.step op).2 (fun o ho => h o (by simp [ho]))
    have hs := h op (by simp)
    have e : (s.run (op :: ops)).2 = ((s.step op).2.run ops).2 := rfl
    rw [e]
    have : (s.step op).2.limit = s.limit ∧ (s.step op).2.old = s.old ∧ (s.step op).2.frozen = s.frozen := by
      cases op with
      | add r k => exact ⟨rfl, rfl, rfl⟩
      | remove r =>
        unfold Bag.step
        simp only
        split_ifs <;> exact ⟨rfl, rfl, rfl⟩
      | branch => exact absurd hs (by simp [Simple])
      | disable => exact absurd hs (by simp [Simple])
    exact ⟨hi.1.trans this.1, hi.2.1.trans this.2.1, hi.2.2.trans this.2.2⟩

/-- C27: without branches, `truth()` says that no row in the prover occurs more often than allowed. -/
theorem C27_truth (mx : Int) (fi : Fi) (hfi : fi = .null ∨ fi = .live []) (ops : List ProverOp)
    (h : ∀ op ∈ ops, Simple op) :
    ∃ xs p, (make mx fi).runC ops = .ok (xs, p) ∧
      (p.truth = true ↔ mx = -1 ∨ ∀ r, 0 < p.countRow r → (p.countRow r : Int) ≤ mx) := by
  obtain ⟨p, h1, h2, -, -, h5⟩ := C27_history mx fi hfi ops
  obtain ⟨e1, e2, e3⟩ := simple_run (s := emptyBag mx) h
  refine ⟨_, p, h1, ?_⟩
  rw [h5]
  unfold Bag.TrueTouch
  rw [e1, e3]
  simp only [emptyBag, if_true]
  by_cases hm : mx = -1
  · simp [hm]
  · simp only [hm, if_false, false_or]
    have hall : ((emptyBag mx).run ops).2.all = ((emptyBag mx).run ops).2.new := by
      unfold Bag.all; rw [e2]; simp [emptyBag]
    constructor
    · intro hh r hr
      rw [h2] at hr ⊢
      have := List.count_pos_iff.1 hr
      rw [hall] at this
      exact hh r this
    · intro hh r hr
      have hr' : r ∈ ((emptyBag mx).run ops).2.all := by rw [hall]; exact hr
      have := hh r (by rw [h2]; exact List.count_pos_iff.2 hr')
      rw [h2] at this; exact this

/-- Non-vacuity: a history with repeats and a removal. -/
example : ((make 1 .null).runC [.add [0, 1] 0, .add [1, 0] 0, .add [0, 1] 1, .remove [0, 1]]).bind
    (fun x => .ok (x.2.truth, x.2.size, x.2.duplicates, x.2.countRow [0, 1])) = .ok (true, 2, 0, 1) := by
  decide
example : ((make 1 .null).runC [.add [0, 1] 0, .add [1, 0] 0, .add [0, 1] 1]).bind
    (fun x => .ok (x.1, x.2.duplicates)) = .ok ([.added true, .added true, .added false], 1) := by
  decide

/-- The operation only removes rows added since the branch, and neither branches nor disables. -/
def Local (s : Bag) : ProverOp → Prop
  | .add _ _ => True
  | .remove r => r ∈ s.new
  | _ => False

def LocalRun (s : Bag) : List ProverOp → Prop
  | [] => True
  | op :: ops => Local s op ∧ LocalRun (s.step op).2 ops

/-- Bags with the same rows, the second being a branch of the first's past. -/
structure Copies (s b : Bag) : Prop where
  limit : s.limit = b.limit
  all : s.all.Perm b.all
  sub : ∀ r, b.new.count r ≤ s.new.count r
  frozen : s.limit = -1 → s.frozen = b.frozen
  oldTrue : s.limit ≠ -1 → ∀ r ∈ b.old, (b.old.count r : Int) ≤ s.limit

theorem Copies.truth {s b : Bag} (h : Copies s b) : s.TrueTouch ↔ b.TrueTouch := by
  unfold Bag.TrueTouch
  rw [← h.limit]
  by_cases hl : s.limit = -1
  · simp only [hl, if_true]; rw [h.frozen hl]
  · simp only [hl, if_false]
    constructor
    · intro hh r hr
      rw [← h.all.count_eq]
      apply hh
      have := h.sub r
      exact List.count_pos_iff.1 (by have := List.count_pos_iff.2 hr; omega)
    · intro hh r hr
      by_cases hb : r ∈ b.new
      · rw [h.all.count_eq]; exact hh r hb
      · have hm : r ∈ b.all := h.all.mem_iff.1 (by simp [Bag.all, hr])
        have h0 : b.all.count r = b.old.count r := by
          unfold Bag.all; rw [List.count_append, List.count_eq_zero.2 hb, Nat.zero_add]
        rw [h.all.count_eq, h0]
        exact h.oldTrue hl r (by
          rcases List.mem_append.1 hm with hh | hh
          · exact absurd hh hb
          · exact hh)

theorem Copies.run {s b : Bag} (h : Copies s b) : ∀ {ops : List ProverOp}, LocalRun b ops →
    (s.run ops).1 = (b.run ops).1 ∧ Copies (s.run ops).2 (b.run ops).2 := by
  intro ops
  induction ops generalizing s b with
  | nil => intro _; exact ⟨rfl, h⟩
  | cons op ops ih =>
    rintro ⟨h1, h2⟩
    have hstep : (s.step op).1 = (b.step op).1 ∧ Copies (s.step op).2 (b.step op).2 := by
      cases op with
      | add r k =>
        have hc : Copies { s with new := r :: s.new } { b with new := r :: b.new } := by
          refine ⟨h.limit, h.all.cons r, ?_, h.frozen, h.oldTrue⟩
          intro x; have := h.sub x; simp only [List.count_cons]; omega
        refine ⟨?_, hc⟩
        unfold Bag.step
        simp only
        congr 1
        exact decide_eq_decide.2 hc.truth
      | remove r =>
        have hb : r ∈ b.new := h1
        have hpos := List.count_pos_iff.2 hb
        have hs : r ∈ s.new := List.count_pos_iff.1 (by have := h.sub r; omega)
        unfold Bag.step
        simp only
        rw [if_pos hs, if_pos hb]
        refine ⟨rfl, h.limit, ?_, ?_, h.frozen, h.oldTrue⟩
        · have e1 : s.all.Perm (r :: (s.new.erase r ++ s.old)) := (List.perm_cons_erase hs).append_right _
          have e2 : b.all.Perm (r :: (b.new.erase r ++ b.old)) := (List.perm_cons_erase hb).append_right _
          exact (List.perm_cons r).1 (e1.symm.trans (h.all.trans e2))
        · intro x
          have := h.sub x
          simp only [List.count_erase]
          split_ifs <;> omega
      | branch => exact absurd h1 (by simp [Local])
      | disable => exact absurd h1 (by simp [Local])
    obtain ⟨i1, i2⟩ := ih hstep.2 h2
    refine ⟨?_, i2⟩
    show (s.step op).1 :: ((s.step op).2.run ops).1 = (b.step op).1 :: ((b.step op).2.run ops).1
    rw [hstep.1, i1]

/-- C28: a branch of a prover in which no row occurs too often behaves like a copy of it: every sequence
of additions, and of removals of rows added after the branch, has the same results, and the counts, the
size, the duplicates and the truth agree afterwards. -/
theorem C28_branch_copy (mx : Int) (fi : Fi) (hfi : fi = .null ∨ fi = .live []) (ops ops' : List ProverOp)
    (hs : ∀ op ∈ ops, Simple op) {xs : List ProverResult} {p : Prover}
    (hp : (make mx fi).runC ops = .ok (xs, p)) (ht : p.truth = true)
    (hl : LocalRun (((emptyBag mx).run ops).2.step .branch).2 ops') :
    ∃ ys c b, p.runC ops' = .ok (ys, c) ∧ p.branch.runC ops' = .ok (ys, b) ∧
      (∀ r, b.countRow r = c.countRow r) ∧ b.size = c.size ∧ b.duplicates = c.duplicates ∧
      b.truth = c.truth := by
  obtain ⟨p1, h1, h2⟩ := rep_run (rep_make mx fi hfi) ops
  have e : p1 = p := by rw [hp] at h1; injection h1 with h1; injection h1 with _ h1; exact h1.symm
  subst e
  set s := ((emptyBag mx).run ops).2 with hsdef
  have hrep : Rep s p1 := h2
  obtain ⟨x, g1, -, g3⟩ := rep_step hrep .branch
  have hx : x.2 = p1.branch := by
    have : (Out.ok (ProverResult.done, p1.branch) : Out (ProverResult × Prover)) = .ok x := g1
    injection this with this; rw [← this]
  rw [hx] at g3
  obtain ⟨e1, e2, e3⟩ := simple_run (s := emptyBag mx) hs
  have hcop : Copies s (s.step .branch).2 := by
    have ht' := h2.truth.1 ht
    refine ⟨rfl, by simp [Bag.step, Bag.all], by simp [Bag.step], ?_, ?_⟩
    · intro _; rw [hsdef, e3]; rfl
    · intro hl' r hr
      have ht'' : s.TrueTouch := ht'
      unfold Bag.TrueTouch at ht''
      rw [if_neg hl'] at ht''
      have hold : s.old = [] := by rw [hsdef, e2]; rfl
      have hr' : r ∈ s.all := hr
      apply ht'' r
      unfold Bag.all at hr'
      rw [hold, List.append_nil] at hr'; exact hr'
  obtain ⟨r1, r2⟩ := hcop.run hl
  obtain ⟨c, c1, c2⟩ := rep_run hrep ops'
  obtain ⟨b, b1, b2⟩ := rep_run g3 ops'
  refine ⟨(s.run ops').1, c, b, c1, by rw [b1, ← r1], ?_, ?_, ?_, ?_⟩
  · intro r; rw [b2.count, c2.count, r2.all.count_eq]
  · rw [b2.size, c2.size, r2.all.length_eq]
  · unfold duplicates; rw [b2.dups, c2.dups, over_perm r2.all]
  · have t1 := b2.truth
    have t2 := c2.truth
    have t3 := r2.truth
    rw [Bool.eq_iff_iff, t1, t2, t3]

/-- Non-vacuity: a true prover, and a falsifying addition and a removal after the branch. -/
example : LocalRun (((emptyBag 1).run [.add [0, 1] 0]).2.step .branch).2 [.add [0, 1] 0, .remove [0, 1]] :=
  ⟨trivial, by show [0, 1] ∈ [[0, 1]]; simp, trivial⟩

/-- C28, refutation: a branch of a false prover claims to be true, and goes on doing so when further
true rows are added; a copy would not. -/
theorem C28_false_branch : ∃ xs p, (make 1 .null).runC [.add [0] 0, .add [0] 0] = .ok (xs, p) ∧
    p.truth = false ∧ p.branch.truth = true ∧
    ∃ q c, p.branch.addRowC 0 [1] = .ok (true, q) ∧ p.addRowC 0 [1] = .ok (false, c) :=
  ⟨_, _, rfl, rfl, rfl, _, _, rfl, rfl⟩

/-- C28, refutation: a row added before the branch cannot be removed from the branch. -/
theorem C28_remove_old : ∃ xs p, (make 1 .null).runC [.add [0] 0] = .ok (xs, p) ∧
    p.branch.countRow [0] = 1 ∧ p.branch.removeRowC [0] = .throw .logicError ∧
    ∃ c, p.removeRowC [0] = .ok c :=
  ⟨_, _, rfl, rfl, rfl, _, rfl⟩

/-- C29: after any sequence of additions, the failure information has one entry for each row occurring
more often than allowed, and its lines are all the lines at which the row occurs, whatever the places
the library puts equal rows at. -/
theorem C29_failinfo (mx : Int) (rows : List (Row × Nat)) :
    ∃ xs p l, (make mx (.live [])).runC (adds rows) = .ok (xs, p) ∧ p.fi = .live l ∧
      (l.map (·.row)).Nodup ∧
      (∀ r, r ∈ l.map (·.row) ↔ r ∈ rows.map (·.1) ∧ mx ≠ -1 ∧ ((rows.map (·.1)).count r : Int) > mx) ∧
      ∀ d ∈ l, d.lines.Perm (linesOf d.row (rows.map (·.1))) := by
  obtain ⟨xs, p, h1, h2⟩ := adds_run rows (adds_make mx)
  obtain ⟨l, h3, h4⟩ := h2.fi
  exact ⟨xs, p, l, h1, h3, by simpa [FailSpec] using h4⟩

example : ((make 1 (.live [])).runC (adds [([0, 1], 0), ([1, 0], 0), ([0, 1], 0), ([0, 1], 1)])).bind
    (fun x => .ok x.2.fi) = .ok (.live [⟨[0, 1], [1, 3, 4]⟩]) := by decide

/-- C29, refutation with removals: after the repeated row has been taken away, an entry remains for a
row that occurs once. -/
theorem C29_stale : ((make 1 (.live [])).runC [.add [0] 0, .add [0] 0, .remove [0]]).bind
    (fun x => .ok (x.2.countRow [0], x.2.truth, x.2.fi)) = .ok (1, true, .live [⟨[0], [1]⟩]) := by decide

/-- C29, refutation with removals: the entry then lists a wrong line when the row is repeated again
elsewhere: here the rows on lines 1, 2, 3 are `0 1`, `0`, `0`, but line 1 is reported. -/
theorem C29_wrong_line : ((make 1 (.live [])).runC
    [.add [0] 0, .add [0] 0, .remove [0], .remove [0], .add [0, 1] 0, .add [0] 0, .add [0] 0]).bind
    (fun x => .ok (x.2.countRow [0], x.2.fi)) = .ok (2, .live [⟨[0], [1, 3]⟩]) := by decide

/-- C29, refutation with branches: the lines before the branch are not reported. -/
theorem C29_branch_lines : ((make 1 (.live [])).runC [.add [0] 0, .branch, .add [0] 0]).bind
    (fun x => .ok (x.2.countRow [0], x.2.fi)) = .ok (2, .live [⟨[0], [2]⟩]) := by decide

/-- C30: `prove` on a constructed `proof` object answers whether no row of the two blocks together
occurs more often than allowed, in both modes.  In quick mode the failure information is left alone. In
full mode it is empty for a true touch, and for a false one it has a single entry: the row by which the
touch first becomes false, with its lines up to there. -/
theorem C30_prove (trueRows unknownRows : List (Row × Nat)) (mx : Int) (qp : Bool) :
    ∃ b wh, Proof.proveC (.live []) trueRows unknownRows mx qp = .ok (b, wh) ∧
      (b = true ↔ NoRowTooOften mx ((trueRows ++ unknownRows).map (·.1))) ∧
      (qp = true ∨ b = true → wh = .live []) ∧
      (qp = false → b = false → ∃ i d, i < (trueRows ++ unknownRows).length ∧ wh = .live [d] ∧
        NoRowTooOften mx (((trueRows ++ unknownRows).map (·.1)).take i) ∧
        ¬ NoRowTooOften mx (((trueRows ++ unknownRows).map (·.1)).take (i + 1)) ∧
        ((trueRows ++ unknownRows).map (·.1))[i]? = some d.row ∧
        d.lines.Perm (linesOf d.row (((trueRows ++ unknownRows).map (·.1)).take (i + 1)))) := by
  have key : ∀ p, ((Proof.loopC qp trueRows true p >>= fun x => Proof.loopC qp unknownRows x.1 x.2) =
      Proof.loopC qp (trueRows ++ unknownRows) true p) := fun p => (Proof.loopC_append qp _ _ _ _).symm
  have hproof : Proof.proveC (.live []) trueRows unknownRows mx qp =
      (Proof.loopC qp (trueRows ++ unknownRows) true
        (if qp then make mx .null else make mx (.live []))) >>= fun x => .ok (x.1, if qp then .live [] else x.2.fi) := by
    rw [← key]
    unfold Proof.proveC
    rw [Out.bind_assoc']
    rfl
  rw [hproof]
  have h0 : NoRowTooOften mx [] := Or.inr (by simp)
  cases qp with
  | true =>
    simp only [if_true]
    obtain ⟨b, p, h1, h2⟩ := Proof.loopC_null true (trueRows ++ unknownRows) (rep_make mx .null (Or.inl rfl)) rfl h0
    rw [h1]
    exact ⟨b, _, rfl, by simpa using h2, fun _ => rfl, fun h => by cases h⟩
  | false =>
    simp only [Bool.false_eq_true, if_false]
    obtain ⟨b, p, h1, h2, h3⟩ := Proof.loopC_spec false (trueRows ++ unknownRows) (adds_make mx) h0
    rw [h1]
    simp only [List.nil_append] at h2 h3
    refine ⟨b, p.fi, rfl, h2, ?_, ?_⟩
    · rintro (h | h)
      · cases h
      · rcases h3 with ⟨-, h3⟩ | ⟨i, -, -, h4, -⟩
        · obtain ⟨l, e1, -, e2, -⟩ := h3.fi
          have : l = [] := by
            cases l with
            | nil => rfl
            | cons d l =>
              obtain ⟨x, y, z⟩ := (e2 d.row).1 (by simp)
              rcases h2.1 h with h' | h'
              · exact absurd h' y
              · have := h' d.row x; omega
          rw [e1, this]
        · exact absurd (Proof.noRow_take (h2.1 h) (i + 1)) h4
    · intro _ hb
      rcases h3 with ⟨h3, -⟩ | ⟨i, i1, i2, i3, i4⟩
      · rw [hb] at h3; cases h3
      · obtain ⟨l, e1, e0, e2, e3⟩ := i4.fi
        set rows := (trueRows ++ unknownRows).map (·.1) with hrows
        have hi : i < rows.length := by rw [hrows, List.length_map]; exact i1
        have htake : rows.take (i + 1) = rows.take i ++ [rows[i]] := by
          rw [List.take_succ, List.getElem?_eq_getElem hi]; rfl
        have hm : mx ≠ -1 := fun h => i3 (Or.inl h)
        have hold : ∀ r ∈ rows.take i, ((rows.take i).count r : Int) ≤ mx := by
          rcases i2 with h | h
          · exact absurd h hm
          · exact h
        -- only the last row can be too often
        have honly : ∀ r, r ∈ rows.take (i + 1) → ((rows.take (i + 1)).count r : Int) > mx → r = rows[i] := by
          intro r hr hc
          by_contra hne
          rw [htake] at hr hc
          have h1 : r ∈ rows.take i := by
            rcases List.mem_append.1 hr with h | h
            · exact h
            · exact absurd (List.mem_singleton.1 h) hne
          have h2 := hold r h1
          have h3 : List.count r [rows[i]] = 0 :=
            List.count_eq_zero.2 (fun h => hne (List.mem_singleton.1 h))
          rw [List.count_append, h3] at hc
          omega
        have hin : rows[i] ∈ l.map (·.row) := by
          by_contra hc
          apply i3
          right
          intro r hr
          by_contra hgt
          have hr' := honly r hr (by omega)
          subst hr'
          exact hc ((e2 _).2 ⟨hr, hm, by omega⟩)
        have hall : ∀ d ∈ l, d.row = rows[i] := by
          intro d hd
          obtain ⟨x, -, z⟩ := (e2 d.row).1 (List.mem_map_of_mem hd)
          exact honly _ x z
        obtain ⟨d, hd, hdr⟩ := List.mem_map.1 hin
        have hl : l = [d] := by
          match l, hd, hall, e0 with
          | [x], hd, _, _ => rw [List.mem_singleton.1 hd]
          | x :: y :: l, _, hall, e0 =>
            exfalso
            rw [List.map_cons, List.map_cons, List.nodup_cons] at e0
            exact e0.1 (by rw [hall x (by simp), hall y (by simp)]; simp)
        refine ⟨i, d, i1, by rw [e1, hl], i2, i3, ?_, e3 d hd⟩
        rw [List.getElem?_eq_getElem hi, hdr]

example : Proof.proveC (.live []) [([0, 1], 0)] [([1, 0], 0), ([1, 0], 0), ([0, 1], 0)] 1 false =
    .ok (false, .live [⟨[1, 0], [2, 3]⟩]) := by decide

/-- C30: the constructors of `proof` use the member holding the failure information before it is
constructed: in full mode a false touch is undefined behaviour; otherwise the answer is right, and the
failure information is empty. -/
theorem C30_constructor (trueRows unknownRows : List (Row × Nat)) (mx : Int) (qp : Bool) :
    (NoRowTooOften mx ((trueRows ++ unknownRows).map (·.1)) →
      Proof.makeC trueRows unknownRows mx qp = .ok (true, .live [])) ∧
    (¬ NoRowTooOften mx ((trueRows ++ unknownRows).map (·.1)) →
      Proof.makeC trueRows unknownRows mx qp = if qp then .ok (false, .live []) else .ub) := by
  have hproof : Proof.makeC trueRows unknownRows mx qp =
      (Proof.loopC qp (trueRows ++ unknownRows) true
        (if qp then make mx .null else make mx .raw)) >>= fun x => .ok (x.1, .live []) := by
    rw [Proof.loopC_append]
    unfold Proof.makeC Proof.proveC
    rw [Out.bind_assoc', Out.bind_assoc']
    congr 1
    funext x
    show ((Proof.loopC qp unknownRows x.1 x.2 >>= _) >>= _) = _
    rw [Out.bind_assoc']
    rfl
  rw [hproof]
  have h0 : NoRowTooOften mx [] := Or.inr (by simp)
  cases qp with
  | true =>
    simp only [if_true]
    obtain ⟨b, p, h1, h2⟩ := Proof.loopC_null true (trueRows ++ unknownRows) (rep_make mx .null (Or.inl rfl)) rfl h0
    rw [h1]
    simp only [List.nil_append] at h2
    cases b with
    | true => exact ⟨fun _ => rfl, fun h => absurd (h2.1 rfl) h⟩
    | false => exact ⟨fun h => by simpa using h2.2 h, fun _ => rfl⟩
  | false =>
    simp only [Bool.false_eq_true, if_false]
    have := Proof.loopC_raw false (trueRows ++ unknownRows) (rep_make mx .null (Or.inl rfl)) (mx := mx) (done := []) rfl h0
    simp only [List.nil_append] at this
    refine ⟨fun h => ?_, fun h => ?_⟩
    · obtain ⟨p, hp⟩ := this.1 h
      have hp' : Proof.loopC false (trueRows ++ unknownRows) true (make mx .raw) = .ok (true, p) := hp
      rw [hp']; rfl
    · have hp : Proof.loopC false (trueRows ++ unknownRows) true (make mx .raw) = .ub := this.2 h
      rw [hp]; rfl

example : Proof.makeC [] [([0], 0), ([0], 0)] 1 false = .ub := by decide

end Ringing
