import Verif.Model.Prover
import Verif.Spec.Prover
import Verif.Lemmas.RowOrder
import Verif.Lemmas.Out
import Mathlib.Data.List.Count
import Mathlib.Data.List.Perm.Basic

namespace Ringing
open Spec

/-! ### the multimap -/

/-- Sorted by key. -/
def MSorted (m : MMap) : Prop := m.Pairwise fun a b => Row.lt b.1 a.1 = false

theorem takeWhile_append_true {α : Type} {p : α → Bool} {A B : List α} (h : ∀ a ∈ A, p a = true) :
    (A ++ B).takeWhile p = A ++ B.takeWhile p := by
  induction A with
  | nil => rfl
  | cons x A ih =>
    simp only [List.cons_append, List.takeWhile_cons, h x (by simp), if_true]
    rw [ih fun a ha => h a (by simp [ha])]

theorem takeWhile_false {α : Type} {p : α → Bool} {B : List α} (h : ∀ a ∈ B, p a = false) :
    B.takeWhile p = [] := by
  cases B with
  | nil => rfl
  | cons x B => simp [h x (by simp)]

theorem msplit {m : MMap} (h : MSorted m) (r : Row) : ∃ A B C, m = A ++ B ++ C ∧
    (∀ e ∈ A, Row.lt e.1 r = true) ∧ (∀ e ∈ B, e.1 = r) ∧ (∀ e ∈ C, Row.lt r e.1 = true) := by
  induction m with
  | nil => exact ⟨[], [], [], rfl, by simp, by simp, by simp⟩
  | cons x m ih =>
    obtain ⟨h1, h2⟩ := List.pairwise_cons.1 h
    obtain ⟨A, B, C, rfl, ha, hb, hc⟩ := ih h2
    rcases lt_total' x.1 r with hx | hx | hx
    · refine ⟨x :: A, B, C, by simp, ?_, hb, hc⟩
      intro e he
      rcases List.mem_cons.1 he with rfl | he
      · exact hx
      · exact ha e he
    · have hA : A = [] := by
        cases A with
        | nil => rfl
        | cons a A =>
          have e1 := ha a (by simp)
          have e2 := h1 a (by simp)
          rw [hx, e1] at e2; cases e2
      subst hA
      refine ⟨[], x :: B, C, by simp, by simp, ?_, hc⟩
      intro e he
      rcases List.mem_cons.1 he with rfl | he
      · exact hx
      · exact hb e he
    · have hA : A = [] := by
        cases A with
        | nil => rfl
        | cons a A =>
          have e1 := ha a (by simp)
          have e2 := h1 a (by simp)
          rw [lt_trans' e1 hx] at e2; cases e2
      have hB : B = [] := by
        cases B with
        | nil => rfl
        | cons b B =>
          have e1 := hb b (by simp)
          have e2 := h1 b (by simp)
          rw [e1, hx] at e2; cases e2
      subst hA hB
      refine ⟨[], [], x :: C, by simp, by simp, by simp, ?_⟩
      intro e he
      rcases List.mem_cons.1 he with rfl | he
      · exact hx
      · exact hc e he

section
variable {A B C : MMap} {r : Row} (ha : ∀ e ∈ A, Row.lt e.1 r = true) (hb : ∀ e ∈ B, e.1 = r)
  (hc : ∀ e ∈ C, Row.lt r e.1 = true)
include ha hb hc

theorem lower_split : MMap.lower (A ++ B ++ C) r = A.length := by
  unfold MMap.lower
  rw [List.append_assoc, takeWhile_append_true ha, takeWhile_false]
  · simp
  · intro e he
    rcases List.mem_append.1 he with h | h
    · rw [hb e h]; exact lt_irrefl' r
    · exact lt_asymm' (hc e h)

theorem upper_split : MMap.upper (A ++ B ++ C) r = A.length + B.length := by
  unfold MMap.upper
  rw [takeWhile_append_true, takeWhile_false]
  · simp
  · intro e he; simp [hc e he]
  · intro e he
    rcases List.mem_append.1 he with h | h
    · simp [lt_asymm' (ha e h)]
    · simp [hb e h, lt_irrefl' r]

theorem number_split : MMap.number (A ++ B ++ C) r = B.length := by
  unfold MMap.number
  rw [lower_split ha hb hc, upper_split ha hb hc]; omega

theorem count_split : ((A ++ B ++ C).map (·.1)).count r = B.length := by
  simp only [List.map_append, List.count_append]
  have h1 : (A.map (·.1)).count r = 0 := by
    rw [List.count_eq_zero]
    intro hm
    obtain ⟨e, he, h⟩ := List.mem_map.1 hm
    have := ha e he
    rw [h, lt_irrefl'] at this; cases this
  have h2 : (C.map (·.1)).count r = 0 := by
    rw [List.count_eq_zero]
    intro hm
    obtain ⟨e, he, h⟩ := List.mem_map.1 hm
    have := hc e he
    rw [h, lt_irrefl'] at this; cases this
  have h3 : (B.map (·.1)).count r = B.length := by
    rw [List.count_eq_length.2, List.length_map]
    intro b hb'
    obtain ⟨e, he, h⟩ := List.mem_map.1 hb'
    rw [← h]; exact (hb e he).symm
  omega

theorem insert_split (k : Nat) (line : Int) :
    MMap.insert (A ++ B ++ C) k r line =
      A ++ (B.take k ++ (r, line) :: B.drop k) ++ C := by
  unfold MMap.insert
  rw [lower_split ha hb hc, number_split ha hb hc]
  have h1 : (A ++ B ++ C).take (A.length + min k B.length) = A ++ B.take k := by
    rw [List.append_assoc, List.take_length_add_append, List.take_append_of_le_length (by omega)]
    congr 1
    rcases Nat.le_total k B.length with h | h
    · rw [Nat.min_eq_left h]
    · rw [Nat.min_eq_right h, List.take_length, List.take_of_length_le h]
  have h2 : (A ++ B ++ C).drop (A.length + min k B.length) = B.drop k ++ C := by
    rw [List.append_assoc, List.drop_length_add_append, List.drop_append_of_le_length (by omega)]
    congr 1
    rcases Nat.le_total k B.length with h | h
    · rw [Nat.min_eq_left h]
    · rw [Nat.min_eq_right h, List.drop_length, List.drop_eq_nil_of_le h]
  rw [h1, h2]; simp

theorem erase_split (h0 : B ≠ []) :
    (A ++ B ++ C).eraseIdx (MMap.upper (A ++ B ++ C) r - 1) = A ++ B.dropLast ++ C := by
  rw [upper_split ha hb hc]
  have hpos : 0 < B.length := List.length_pos_iff.2 h0
  rw [List.append_assoc, List.eraseIdx_append_of_length_le (by omega),
    show A.length + B.length - 1 - A.length = B.length - 1 by omega,
    List.eraseIdx_append_of_lt_length (by omega), List.eraseIdx_length_sub_one]
  simp

end

theorem number_eq_count {m : MMap} (h : MSorted m) (r : Row) : m.number r = (m.map (·.1)).count r := by
  obtain ⟨A, B, C, rfl, ha, hb, hc⟩ := msplit h r
  rw [number_split ha hb hc, count_split ha hb hc]

theorem msorted_of_split {A B C : MMap} {r : Row} (hA : MSorted A) (hC : MSorted C)
    (ha : ∀ e ∈ A, Row.lt e.1 r = true) (hb : ∀ e ∈ B, e.1 = r) (hc : ∀ e ∈ C, Row.lt r e.1 = true) :
    MSorted (A ++ B ++ C) := by
  unfold MSorted at *
  rw [List.append_assoc, List.pairwise_append, List.pairwise_append]
  refine ⟨hA, ⟨?_, hC, ?_⟩, ?_⟩
  · rw [List.pairwise_iff_getElem]
    intro i j hi hj _
    rw [hb _ (List.getElem_mem hi), hb _ (List.getElem_mem hj)]; exact lt_irrefl' r
  · intro x hx y hy; rw [hb x hx]; exact lt_asymm' (hc y hy)
  · intro x hx y hy
    rcases List.mem_append.1 hy with h | h
    · rw [hb y h]; exact lt_asymm' (ha x hx)
    · exact lt_asymm' (lt_trans' (ha x hx) (hc y h))

theorem msorted_parts {A B C : MMap} (h : MSorted (A ++ B ++ C)) : MSorted A ∧ MSorted C := by
  unfold MSorted at *
  rw [List.append_assoc, List.pairwise_append, List.pairwise_append] at h
  exact ⟨h.1, h.2.1.2.1⟩

theorem insert_sorted {m : MMap} (h : MSorted m) (k : Nat) (r : Row) (line : Int) :
    MSorted (m.insert k r line) := by
  obtain ⟨A, B, C, rfl, ha, hb, hc⟩ := msplit h r
  rw [insert_split ha hb hc]
  refine msorted_of_split (r := r) (msorted_parts h).1 (msorted_parts h).2 ha ?_ hc
  intro e he
  simp only [List.mem_append, List.mem_cons] at he
  rcases he with h | rfl | h
  · exact hb e (List.mem_of_mem_take h)
  · rfl
  · exact hb e (List.mem_of_mem_drop h)

theorem insert_perm (m : MMap) (k : Nat) (r : Row) (line : Int) :
    (m.insert k r line).Perm ((r, line) :: m) := by
  unfold MMap.insert
  refine List.perm_middle.trans (List.Perm.cons _ ?_)
  rw [List.take_append_drop]

theorem insert_keys (m : MMap) (k : Nat) (r : Row) (line : Int) :
    ((m.insert k r line).map (·.1)).Perm (r :: m.map (·.1)) := (insert_perm m k r line).map _

theorem erase_keys {m : MMap} (h : MSorted m) {r : Row} (hr : r ∈ m.map (·.1)) :
    MSorted (m.eraseIdx (m.upper r - 1)) ∧
    ((m.eraseIdx (m.upper r - 1)).map (·.1)).Perm ((m.map (·.1)).erase r) := by
  obtain ⟨A, B, C, rfl, ha, hb, hc⟩ := msplit h r
  have h0 : B ≠ [] := by
    rintro rfl
    have := count_split ha hb hc
    rw [List.length_nil, List.count_eq_zero] at this
    exact this hr
  rw [erase_split ha hb hc h0]
  refine ⟨msorted_of_split (r := r) (msorted_parts h).1 (msorted_parts h).2 ha
    (fun e he => hb e (List.dropLast_subset _ he)) hc, ?_⟩
  have hp : ((A ++ B ++ C).map (·.1)).Perm (r :: (A ++ B.dropLast ++ C).map (·.1)) := by
    have e : B = B.dropLast ++ [B.getLast h0] := (List.dropLast_append_getLast h0).symm
    have hl : (B.getLast h0).1 = r := hb _ (List.getLast_mem h0)
    conv_lhs => rw [e]
    simp only [List.map_append, List.map_cons, List.map_nil, hl]
    have := @List.perm_middle _ r (A.map (·.1) ++ B.dropLast.map (·.1)) (C.map (·.1))
    simpa using this
  have := (hp.erase r)
  rw [List.erase_cons_head] at this
  exact this.symm

/-! ### counting -/

/-- The number of rows of `h` that, added one after another to `c`, occur more than `M` times. -/
def over (M : Int) (c : List Row) : List Row → Nat
  | [] => 0
  | r :: h => over M c h + if ((r :: h ++ c).count r : Int) > M then 1 else 0

theorem over_congr {M : Int} {c c' : List Row} (hc : c.Perm c') (h : List Row) : over M c h = over M c' h := by
  induction h with
  | nil => rfl
  | cons r h ih =>
    simp only [over]
    rw [ih, (List.Perm.append_left (r :: h) hc).count_eq]

theorem over_perm {M : Int} {c h h' : List Row} (hp : h.Perm h') : over M c h = over M c h' := by
  induction hp with
  | nil => rfl
  | cons x hp ih => simp only [over]; rw [ih, ((hp.cons x).append_right c).count_eq]
  | swap x y l =>
    simp only [over]
    by_cases hxy : x = y
    · subst hxy; rfl
    · have e1 : (y :: x :: l ++ c).count y = (y :: l ++ c).count y := by
        simp [hxy]
      have e2 : (x :: y :: l ++ c).count x = (x :: l ++ c).count x := by
        simp [Ne.symm hxy]
      rw [e1, e2]; omega
  | trans _ _ ih1 ih2 => rw [ih1, ih2]

theorem over_erase {M : Int} {c h : List Row} {r : Row} (hr : r ∈ h) :
    over M c h = over M c (h.erase r) + if ((h ++ c).count r : Int) > M then 1 else 0 := by
  have hp := List.perm_cons_erase hr
  rw [over_perm hp]
  simp only [over]
  rw [(hp.append_right c).count_eq]

theorem over_eq_zero {M : Int} {c : List Row} : ∀ {h : List Row},
    over M c h = 0 ↔ ∀ r ∈ h, ((h ++ c).count r : Int) ≤ M := by
  intro h
  induction h with
  | nil => simp [over]
  | cons r h ih =>
    simp only [over]
    constructor
    · intro h0
      have h1 : over M c h = 0 := by omega
      have h2 : ((r :: h ++ c).count r : Int) ≤ M := by
        by_contra hc; rw [if_pos (by omega)] at h0; omega
      intro s hs
      by_cases hsr : s = r
      · subst hsr; exact h2
      · have := ih.1 h1 s (by simpa [hsr] using hs)
        simpa [List.count_cons, Ne.symm hsr] using this
    · intro hall
      have h2 := hall r (by simp)
      rw [if_neg (by omega)]
      have : over M c h = 0 := by
        rw [ih]
        intro s hs
        have := hall s (by simp [hs])
        have h3 : (h ++ c).count s ≤ (r :: h ++ c).count s := by
          simp [List.count_cons]
        omega
      omega

theorem over_one : ∀ l : List Row, over 1 [] l + l.dedup.length = l.length := by
  intro l
  induction l with
  | nil => rfl
  | cons r l ih =>
    simp only [over, List.append_nil, List.count_cons_self, List.length_cons]
    by_cases hr : r ∈ l
    · rw [List.dedup_cons_of_mem hr]
      have := List.count_pos_iff.2 hr
      rw [if_pos (by omega)]; omega
    · rw [List.dedup_cons_of_notMem hr, List.count_eq_zero_of_not_mem hr]
      simp; omega

/-! ### the refinement -/

namespace Prover

/-- The run of a history in the model; an exception leaves the prover as it was. -/
def stepC (p : Prover) : ProverOp → Out (ProverResult × Prover)
  | .add r k => p.addRowC k r >>= fun x => .ok (.added x.1, x.2)
  | .remove r =>
    match p.removeRowC r with
    | .ok p' => .ok (.removed, p')
    | .throw .logicError => .ok (.threw, p)
    | .throw e => .throw e
    | .ub => .ub
    | .timeout => .timeout
  | .branch => .ok (.done, p.branch)
  | .disable => .ok (.done, p.disable)

def runC (p : Prover) : List ProverOp → Out (List ProverResult × Prover)
  | [] => .ok ([], p)
  | op :: ops => p.stepC op >>= fun x => runC x.2 ops >>= fun y => .ok (x.1 :: y.1, y.2)

def keys (l : Level) : List Row := l.m.map (·.1)

/-- The prover represents the bag. -/
structure Rep (s : Bag) (p : Prover) : Prop where
  sorted : ∀ l ∈ p.levels, MSorted l.m
  new : (keys p.head).Perm s.new
  old : (p.chain.flatMap keys).Perm s.old
  limit : p.head.maxOccurs = s.limit
  dups : p.head.dups = over 1 [] s.all
  falsec : s.limit ≠ -1 → p.head.falsec = over s.limit s.old s.new
  frozen : s.limit = -1 → (p.head.falsec = 0 ↔ s.frozen = true)
  fi : p.fi ≠ .raw ∧ ∀ l, p.fi = .live l → ∀ d ∈ l, d.lines ≠ []

theorem Rep.all {s : Bag} {p : Prover} (h : Rep s p) : (p.levels.flatMap keys).Perm s.all := by
  show (p.head :: p.chain).flatMap keys |>.Perm s.all
  rw [List.flatMap_cons]
  exact h.new.append h.old

theorem sum_number {ls : List Level} (h : ∀ l ∈ ls, MSorted l.m) (r : Row) :
    (ls.map fun l => l.m.number r).sum = (ls.flatMap keys).count r := by
  induction ls with
  | nil => rfl
  | cons l ls ih =>
    rw [List.map_cons, List.sum_cons, List.flatMap_cons, List.count_append,
      ih fun l hl => h l (by simp [hl]), number_eq_count (h l (by simp))]
    rfl

theorem Rep.count {s : Bag} {p : Prover} (h : Rep s p) (r : Row) : p.countRow r = s.all.count r := by
  unfold countRow
  rw [sum_number h.sorted, h.all.count_eq]

theorem Rep.size {s : Bag} {p : Prover} (h : Rep s p) : p.size = s.all.length := by
  rw [← h.all.length_eq]
  unfold Prover.size
  rw [List.length_flatMap]
  congr 1
  apply List.map_congr_left
  intro l _; simp [keys]

theorem Rep.truth {s : Bag} {p : Prover} (h : Rep s p) : p.truth = true ↔ s.TrueTouch := by
  unfold Prover.truth Bag.TrueTouch
  rw [beq_iff_eq]
  by_cases hl : s.limit = -1
  · rw [if_pos hl]; exact h.frozen hl
  · rw [if_neg hl, h.falsec hl]; exact over_eq_zero

theorem pushLine_ne {r : Row} {line : Int} : ∀ {l l' : List LineDetail}, pushLine r line l = some l' →
    (∀ d ∈ l, d.lines ≠ []) → ∀ d ∈ l', d.lines ≠ [] := by
  intro l
  induction l with
  | nil => intro l' h; simp [pushLine] at h
  | cons x l ih =>
    intro l' h hd d hm
    unfold pushLine at h
    split_ifs at h with hx
    · injection h with h
      subst h
      rcases List.mem_cons.1 hm with rfl | hm
      · simp
      · exact hd d (by simp [hm])
    · cases hp : pushLine r line l with
      | none => rw [hp] at h; cases h
      | some l2 =>
        rw [hp] at h
        simp at h
        subst h
        rcases List.mem_cons.1 hm with rfl | hm
        · exact hd _ (by simp)
        · exact ih hp (fun d hd' => hd d (by simp [hd'])) d hm

theorem popLine_ok {r : Row} : ∀ {l : List LineDetail}, (∀ d ∈ l, d.lines ≠ []) →
    ∃ l', popLineC r l = .ok l' ∧ ∀ d ∈ l', d.lines ≠ [] := by
  intro l
  induction l with
  | nil => intro _; exact ⟨[], rfl, by simp⟩
  | cons x l ih =>
    intro hd
    unfold popLineC
    have hx := hd x (by simp)
    by_cases h : x.row = r
    · rw [if_pos h, if_neg hx]
      by_cases h2 : x.lines.dropLast = []
      · rw [if_pos h2]; exact ⟨l, rfl, fun d hm => hd d (by simp [hm])⟩
      · rw [if_neg h2]
        refine ⟨_, rfl, ?_⟩
        intro d hm
        rcases List.mem_cons.1 hm with rfl | hm
        · exact h2
        · exact hd d (by simp [hm])
    · rw [if_neg h]
      obtain ⟨l', h1, h2⟩ := ih fun d hm => hd d (by simp [hm])
      refine ⟨x :: l', by rw [h1]; rfl, ?_⟩
      intro d hm
      rcases List.mem_cons.1 hm with rfl | hm
      · exact hx
      · exact h2 d hm

theorem newLines_ne (m : MMap) (k : Nat) (r : Row) (line : Int) (h : MSorted m) : newLines m k r line ≠ [] := by
  obtain ⟨A, B, C, rfl, ha, hb, hc⟩ := msplit h r
  unfold newLines
  simp only
  split_ifs with h0
  · simp
  · rw [insert_split ha hb hc, lower_split ha hb hc, List.append_assoc A (_ ++ _) C, List.drop_left]
    intro h
    have := congrArg List.length h
    simp at this

theorem rep_add {s : Bag} {p : Prover} (h : Rep s p) (r : Row) (k : Nat) :
    ∃ x, p.stepC (.add r k) = .ok x ∧ x.1 = (s.step (.add r k)).1 ∧ Rep (s.step (.add r k)).2 x.2 := by
  classical
  set s' : Bag := { s with new := r :: s.new } with hs'
  have hcount : 1 + p.countRow r = s'.all.count r := by
    rw [h.count]; simp [hs', Bag.all]; omega
  have hstep : s.step (.add r k) = (.added (decide s'.TrueTouch), s') := rfl
  -- the common part of the new head
  have common : ∀ (fc : Nat) (fi : Fi), (s.limit ≠ -1 → fc = over s.limit s.old (r :: s.new)) →
      (s.limit = -1 → (fc = 0 ↔ s.frozen = true)) →
      (fi ≠ .raw ∧ ∀ l, fi = .live l → ∀ d ∈ l, d.lines ≠ []) →
      Rep s' { p with head := { p.head with
          lineno := p.head.lineno + 1, m := p.head.m.insert k r (p.head.lineno + 1),
          dups := if 1 + p.countRow r > 1 then p.head.dups + 1 else p.head.dups, falsec := fc }, fi := fi } := by
    intro fc fi h1 h2 h3
    refine ⟨?_, ?_, h.old, h.limit, ?_, h1, h2, h3⟩
    · intro l hl
      rcases List.mem_cons.1 hl with rfl | hl
      · exact insert_sorted (h.sorted _ (by simp [levels])) _ _ _
      · exact h.sorted l (by simp [levels, hl])
    · exact (insert_keys _ _ _ _).trans (h.new.cons r)
    · show (if 1 + p.countRow r > 1 then p.head.dups + 1 else p.head.dups) = over 1 [] (r :: s.new ++ s.old)
      rw [hcount, h.dups]
      show _ = over 1 [] (s.new ++ s.old) + if ((r :: (s.new ++ s.old) ++ []).count r : Int) > 1 then 1 else 0
      have : s'.all = r :: (s.new ++ s.old) := rfl
      rw [List.append_nil, this]
      unfold Bag.all
      split_ifs <;> first | rfl | omega
  have hover : over s.limit s.old (r :: s.new) =
      over s.limit s.old s.new + if (s'.all.count r : Int) > s.limit then 1 else 0 := rfl
  have fin : ∀ (b : Bool) (p' : Prover), Rep s' p' → b = p'.truth →
      ∃ x, (.ok (.added b, p') : Out (ProverResult × Prover)) = .ok x ∧ x.1 = (s.step (.add r k)).1 ∧
        Rep (s.step (.add r k)).2 x.2 := by
    intro b p' hr hb
    refine ⟨_, rfl, ?_, hr⟩
    rw [hstep]
    show ProverResult.added b = ProverResult.added (decide s'.TrueTouch)
    congr 1
    rw [hb]
    have := hr.truth
    by_cases ht : s'.TrueTouch
    · simp [ht, this.2 ht]
    · simp [ht, Bool.eq_false_iff.2 (fun hc => ht (this.1 hc))]
  unfold stepC
  simp only
  unfold addRowC
  simp only
  by_cases hc : p.head.maxOccurs ≠ -1 ∧ ((1 + p.countRow r : Nat) : Int) > p.head.maxOccurs
  · rw [if_pos hc]
    rw [h.limit, hcount] at hc
    have hf1 : s.limit ≠ -1 → p.head.falsec + 1 = over s.limit s.old (r :: s.new) := by
      intro hl; rw [hover, if_pos hc.2, h.falsec hl]
    cases hfi : p.fi with
    | null =>
      simp only [Out.ok_bind]
      have := common (p.head.falsec + 1) .null hf1 (fun hl => absurd hl hc.1) ⟨by simp, by simp⟩
      exact fin _ _ this rfl
    | raw => exact absurd hfi h.fi.1
    | live l =>
      simp only
      cases hp : pushLine r (p.head.lineno + 1) l with
      | some l' =>
        simp only [Out.ok_bind]
        have := common (p.head.falsec + 1) (.live l') hf1 (fun hl => absurd hl hc.1) ⟨by simp, by
          intro l2 hl2; injection hl2 with hl2; subst hl2
          exact pushLine_ne hp (h.fi.2 l hfi)⟩
        exact fin _ _ this rfl
      | none =>
        simp only [Out.ok_bind]
        have := common (p.head.falsec + 1)
          (.live (l ++ [⟨r, newLines p.head.m k r (p.head.lineno + 1)⟩])) hf1
          (fun hl => absurd hl hc.1) ⟨by simp, by
          intro l2 hl2; injection hl2 with hl2; subst hl2
          intro d hd
          rcases List.mem_append.1 hd with hd | hd
          · exact h.fi.2 l hfi d hd
          · rw [List.mem_singleton.1 hd]
            exact newLines_ne _ _ _ _ (h.sorted _ (by simp [levels]))⟩
        exact fin _ _ this rfl
  · rw [if_neg hc]
    rw [h.limit, hcount] at hc
    simp only [Out.ok_bind]
    have := common p.head.falsec p.fi (by
      intro hl
      rw [hover, if_neg (fun hh => hc ⟨hl, hh⟩), h.falsec hl]; rfl) h.frozen h.fi
    exact fin _ _ this rfl

theorem rep_remove {s : Bag} {p : Prover} (h : Rep s p) (r : Row) :
    ∃ x, p.stepC (.remove r) = .ok x ∧ x.1 = (s.step (.remove r)).1 ∧ Rep (s.step (.remove r)).2 x.2 := by
  have hnum : p.head.m.number r = s.new.count r := by
    rw [number_eq_count (h.sorted _ (by simp [levels])), ← h.new.count_eq]; rfl
  unfold stepC Bag.step
  simp only
  by_cases hr : r ∈ s.new
  · rw [if_pos hr]
    have hpos : 0 < s.new.count r := List.count_pos_iff.2 hr
    have hall : s.all.count r = s.new.count r + s.old.count r := by unfold Bag.all; rw [List.count_append]
    have hpc : p.countRow r = s.all.count r := h.count r
    have hmem : r ∈ p.head.m.map (·.1) := h.new.mem_iff.2 hr
    obtain ⟨es, ek⟩ := erase_keys (h.sorted p.head (by simp [levels])) hmem
    have hperm : s.all.Perm (r :: (s.new.erase r ++ s.old)) :=
      ((List.perm_cons_erase hr).append_right s.old)
    have hdup : over 1 [] s.all = over 1 [] (s.new.erase r ++ s.old) + if (s.all.count r : Int) > 1 then 1 else 0 := by
      rw [over_perm hperm, hperm.count_eq]
      simp only [over, List.append_nil]
    have common : ∀ (fc : Nat) (fi : Fi), (s.limit ≠ -1 → fc = over s.limit s.old (s.new.erase r)) →
        (s.limit = -1 → (fc = 0 ↔ s.frozen = true)) →
        (fi ≠ .raw ∧ ∀ l, fi = .live l → ∀ d ∈ l, d.lines ≠ []) →
        Rep { s with new := s.new.erase r } { p with head := { p.head with
            lineno := p.head.lineno - 1, m := p.head.m.eraseIdx (p.head.m.upper r - 1),
            dups := if p.countRow r > 1 then decSize p.head.dups else p.head.dups, falsec := fc }, fi := fi } := by
      intro fc fi h1 h2 h3
      refine ⟨?_, ?_, h.old, h.limit, ?_, h1, h2, h3⟩
      · intro l hl
        rcases List.mem_cons.1 hl with rfl | hl
        · exact es
        · exact h.sorted l (by simp [levels, hl])
      · exact ek.trans (h.new.erase r)
      · show (if p.countRow r > 1 then decSize p.head.dups else p.head.dups) = over 1 [] (s.new.erase r ++ s.old)
        rw [hpc, h.dups, hdup]
        unfold decSize
        by_cases h1 : s.all.count r > 1
        · rw [if_pos h1, if_pos (c := (s.all.count r : Int) > 1) (by omega), if_neg (by omega)]; omega
        · rw [if_neg h1, if_neg (c := (s.all.count r : Int) > 1) (by omega)]; rfl
    have hover := over_erase (M := s.limit) (c := s.old) hr
    have hr1 : ∃ p', p.removeRowC r = .ok p' ∧ Rep { s with new := s.new.erase r } p' := by
      unfold removeRowC
      simp only
      rw [if_neg (by omega), if_neg (by omega)]
      by_cases hc : p.head.maxOccurs ≠ -1 ∧ ((p.countRow r : Nat) : Int) > p.head.maxOccurs
      · rw [if_pos hc]
        rw [h.limit, hpc] at hc
        have hf1 : s.limit ≠ -1 → decSize p.head.falsec = over s.limit s.old (s.new.erase r) := by
          intro hl
          rw [h.falsec hl, hover]
          unfold Bag.all at hc
          rw [if_pos hc.2]
          unfold decSize
          rw [if_neg (by omega)]; omega
        cases hfi : p.fi with
        | null =>
          have := common (decSize p.head.falsec) .null hf1 (fun hl => absurd hl hc.1) ⟨by simp, by simp⟩
          exact ⟨_, rfl, this⟩
        | raw => exact absurd hfi h.fi.1
        | live l =>
          obtain ⟨l', e1, e2⟩ := popLine_ok (r := r) (h.fi.2 l hfi)
          simp only [e1, Out.ok_bind]
          exact ⟨_, rfl, common (decSize p.head.falsec) (.live l') hf1 (fun hl => absurd hl hc.1) ⟨by simp, by
            intro l2 hl2; injection hl2 with hl2; subst hl2; exact e2⟩⟩
      · rw [if_neg hc]
        rw [h.limit, hpc] at hc
        refine ⟨_, rfl, common p.head.falsec p.fi ?_ h.frozen h.fi⟩
        intro hl
        unfold Bag.all at hc
        rw [h.falsec hl, hover, if_neg (fun hh => hc ⟨hl, hh⟩)]; rfl
    obtain ⟨p', e1, e2⟩ := hr1
    rw [e1]
    exact ⟨_, rfl, rfl, e2⟩
  · rw [if_neg hr]
    have h0 : s.new.count r = 0 := List.count_eq_zero.2 hr
    have : p.removeRowC r = .throw .logicError := by
      unfold removeRowC
      simp only
      split_ifs <;> first | rfl | omega
    rw [this]
    exact ⟨_, rfl, rfl, h⟩

theorem rep_step {s : Bag} {p : Prover} (h : Rep s p) (op : ProverOp) :
    ∃ x, p.stepC op = .ok x ∧ x.1 = (s.step op).1 ∧ Rep (s.step op).2 x.2 := by
  cases op with
  | add r k => exact rep_add h r k
  | remove r => exact rep_remove h r
  | branch =>
    refine ⟨_, rfl, rfl, ?_⟩
    refine ⟨?_, by simp [branch, keys, Bag.step], ?_, h.limit, ?_, fun _ => rfl, fun _ => by simp [branch, Bag.step], h.fi⟩
    · intro l hl
      rcases List.mem_cons.1 hl with rfl | hl
      · exact List.Pairwise.nil
      · exact h.sorted l hl
    · exact h.all
    · exact h.dups
  | disable =>
    refine ⟨_, rfl, rfl, ?_⟩
    refine ⟨?_, h.new, h.old, rfl, h.dups, fun hl => absurd rfl hl, ?_, h.fi⟩
    · intro l hl
      rcases List.mem_cons.1 hl with rfl | hl
      · exact h.sorted p.head (by simp [levels])
      · exact h.sorted l (List.mem_cons_of_mem _ hl)
    · intro _
      have := h.truth
      unfold Prover.truth at this
      rw [beq_iff_eq] at this
      simp only [Bag.step, decide_eq_true_eq]
      exact this

theorem rep_run {s : Bag} {p : Prover} (h : Rep s p) (ops : List ProverOp) :
    ∃ p', p.runC ops = .ok ((s.run ops).1, p') ∧ Rep (s.run ops).2 p' := by
  induction ops generalizing s p with
  | nil => exact ⟨p, rfl, h⟩
  | cons op ops ih =>
    obtain ⟨x, h1, h2, h3⟩ := rep_step h op
    obtain ⟨p', h4, h5⟩ := ih h3
    refine ⟨p', ?_, h5⟩
    unfold runC
    rw [h1, Out.ok_bind, h4, Out.ok_bind, h2]
    rfl

theorem rep_make (mx : Int) (fi : Fi) (hfi : fi = .null ∨ fi = .live []) :
    Rep ⟨mx, [], [], true⟩ (make mx fi) := by
  refine ⟨?_, by simp [make, keys], by simp [make], rfl, rfl, fun _ => rfl, fun _ => by simp [make], ?_⟩
  · intro l hl
    rcases List.mem_cons.1 hl with rfl | hl
    · exact List.Pairwise.nil
    · cases hl
  · rcases hfi with rfl | rfl
    · exact ⟨by simp [make], by simp [make]⟩
    · refine ⟨by simp [make], ?_⟩
      intro l hl
      simp only [make, Fi.live.injEq] at hl
      subst hl; simp

end Prover
end Ringing
