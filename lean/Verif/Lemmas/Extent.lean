import Verif.Lemmas.Rank
import Verif.Lemmas.Spec
import Verif.Lemmas.Sign
import Verif.Spec.Extent

namespace Ringing
open Spec Row

/-- A row of the extent, from the order of its working bells. -/
def emb (nw nh nt : Nat) (w : List Nat) : Row :=
  List.range nh ++ w ++ List.range' (nh + nw) (nt - (nh + nw))

theorem fact_eq (n : Nat) : Spec.fact n = n.factorial := by
  induction n with
  | zero => rfl
  | succ n ih => simp [Spec.fact, Nat.factorial_succ, ih]

section
variable {nw nh nt : Nat} {w : List Nat}

theorem emb_length (h : nh + nw ≤ nt) (hw : w.Perm (List.range' nh nw)) :
    (emb nw nh nt w).length = nt := by
  have := hw.length_eq
  simp only [List.length_range'] at this
  simp [emb, this]; omega

theorem emb_perm (h : nh + nw ≤ nt) (hw : w.Perm (List.range' nh nw)) :
    (emb nw nh nt w).Perm (List.range nt) := by
  have e : List.range nt = List.range nh ++ List.range' nh nw ++ List.range' (nh + nw) (nt - (nh + nw)) := by
    rw [List.range_eq_range', List.range_eq_range']
    have := List.range'_append (s := 0) (m := nh) (n := nw) (step := 1)
    simp only [Nat.one_mul, Nat.zero_add] at this
    rw [this]
    have := List.range'_append (s := 0) (m := nh + nw) (n := nt - (nh + nw)) (step := 1)
    simp only [Nat.one_mul, Nat.zero_add] at this
    rw [this]
    congr 1; omega
  rw [e, emb]
  exact (hw.append_left _).append_right _

theorem emb_valid (h : nh + nw ≤ nt) (ht : nt ≤ 256) (hw : w.Perm (List.range' nh nw)) :
    Valid (emb nw nh nt w) := by
  refine ⟨?_, ?_⟩
  · rw [emb_length h hw]; exact emb_perm h hw
  · rw [emb_length h hw]; exact ht

theorem wlen (hw : w.Perm (List.range' nh nw)) : w.length = nw := by
  have := hw.length_eq; simpa using this

theorem emb_getElem? (h : nh + nw ≤ nt) (hw : w.Perm (List.range' nh nw)) (i : Nat) :
    (emb nw nh nt w)[i]? = if i < nh then some i else if i < nh + nw then w[i - nh]? else
      if i < nt then some i else none := by
  have hl := wlen hw
  unfold emb
  rw [List.getElem?_append, List.getElem?_append]
  simp only [List.length_append, List.length_range, hl]
  split_ifs <;> first
    | omega
    | rfl
    | (rw [List.getElem?_range (by omega)])
    | (rw [List.getElem?_range' (by omega)]; congr 1; omega)
    | (rw [List.getElem?_eq_none]; simp; omega)

theorem emb_fn (h : nh + nw ≤ nt) (hw : w.Perm (List.range' nh nw)) (i : Nat) :
    fn (emb nw nh nt w) i = if i < nh then i else if i < nh + nw then w.getD (i - nh) 0 else i := by
  have hl := wlen hw
  unfold fn
  rw [List.getD_eq_getElem?_getD, emb_getElem? h hw]
  split_ifs <;> simp
  rw [List.getElem?_eq_getElem (by omega)]; simp

theorem inExtent_emb (h : nh + nw ≤ nt) (ht : nt ≤ 256) (hw : w.Perm (List.range' nh nw)) :
    InExtent nw nh nt (emb nw nh nt w) := by
  refine ⟨(isRow_iff_valid _).2 (emb_valid h ht hw), emb_length h hw, ?_, ?_⟩
  · intro i hi; rw [bellAt_eq_fn, emb_fn h hw, if_pos hi]
  · intro i hi; rw [bellAt_eq_fn, emb_fn h hw, if_neg (by omega), if_neg (by omega)]

theorem inExtent_iff (h : nh + nw ≤ nt) (ht : nt ≤ 256) (r : Row) :
    InExtent nw nh nt r ↔ ∃ w, w.Perm (List.range' nh nw) ∧ r = emb nw nh nt w := by
  constructor
  · rintro ⟨hr, hl, h1, h2⟩
    rw [isRow_iff_valid] at hr
    simp only [bellAt_eq_fn] at h1 h2
    refine ⟨(r.drop nh).take nw, ?_, ?_⟩
    · have hnd : ((r.drop nh).take nw).Nodup :=
        ((List.take_sublist _ _).trans (List.drop_sublist _ _)).nodup hr.nodup
      have hlen : ((r.drop nh).take nw).length = nw := by simp; omega
      have hsub : (r.drop nh).take nw ⊆ List.range' nh nw := by
        intro x hx
        rw [List.mem_take_iff_getElem] at hx
        obtain ⟨j, hj, rfl⟩ := hx
        simp only [List.length_drop] at hj
        rw [List.getElem_drop, ← fn_of_lt (r := r) (i := nh + j) (by omega)]
        have hlt := hr.fn_lt_len (i := nh + j) (by omega)
        rw [List.mem_range'_1]
        constructor
        · by_contra hc
          have := hr.fn_inj (h1 (fn r (nh + j)) (by omega))
          omega
        · by_contra hc
          have := hr.fn_inj (h2 (fn r (nh + j)) (by omega))
          omega
      exact (List.subperm_of_subset hnd hsub).perm_of_length_le (by simp [hlen])
    · apply ext_fn
      · simp [emb]; omega
      · intro i _
        unfold emb
        by_cases hi : i < nt
        · rw [fn, fn, List.getD_eq_getElem?_getD, List.getD_eq_getElem?_getD, List.getElem?_append,
            List.getElem?_append]
          simp only [List.length_append, List.length_range, List.length_take, List.length_drop]
          split_ifs with c1 c2
          · rw [List.getElem?_range c2]; have := h1 i c2
            simpa [fn, List.getD_eq_getElem?_getD] using this
          · rw [List.getElem?_take_of_lt (by omega), List.getElem?_drop, Nat.add_sub_cancel' (by omega)]
          · have := h2 i (by omega)
            rw [List.getElem?_range' (by omega)]
            rw [fn, List.getD_eq_getElem?_getD] at this
            rw [this]; simp; omega
        · rw [fn_of_ge (by omega), fn_of_ge (by simp; omega)]
  · rintro ⟨w, hw, rfl⟩
    exact inExtent_emb h ht hw

theorem nodup_w (hw : w.Perm (List.range' nh nw)) : w.Nodup := hw.nodup_iff.2 List.nodup_range'

theorem rank_lt_fact (hw : w.Perm (List.range' nh nw)) : rank w < nw.factorial := by
  have := rankR_lt (fun a b => decide (a < b)) w
  rwa [wlen hw] at this

theorem emb_inj {w' : List Nat} (hw : w.length = nw) (hw' : w'.length = nw)
    (e : emb nw nh nt w = emb nw nh nt w') : w = w' := by
  unfold emb at e
  have := List.append_inj_left e (by simp [hw, hw'])
  exact List.append_inj_right this rfl

/-- The rounds of the working bells. -/
theorem rounds_emb (h : nh + nw ≤ nt) : rounds nt = emb nw nh nt (List.range' nh nw) := by
  apply ext_fn
  · rw [emb_length h (List.Perm.refl _)]; simp
  · intro i _
    rw [emb_fn h (List.Perm.refl _), fn_rounds]
    split_ifs
    · rfl
    · rw [List.getD_eq_getElem?_getD, List.getElem?_range' (by omega)]; simp; omega
    · rfl

theorem rank_range' (s n : Nat) : rank (List.range' s n) = 0 := by
  apply rankR_sorted sto_lt
  have := List.pairwise_lt_range' (s := s) (n := n)
  exact this.imp (fun h => by simpa using h)

/-! Lexicographic comparison. -/

theorem lt_iff_lex : ∀ {l m : List Nat}, l.length = m.length → (Row.lt l m = true ↔
    ∃ k, k < l.length ∧ (∀ i, i < k → l[i]? = m[i]?) ∧ l.getD k 0 < m.getD k 0) := by
  intro l
  induction l with
  | nil => intro m hl; have : m = [] := List.length_eq_zero_iff.1 hl.symm; subst this; simp [Row.lt]
  | cons a l ih =>
    intro m hl
    cases m with
    | nil => simp at hl
    | cons b m =>
      simp only [List.length_cons, Nat.add_right_cancel_iff] at hl
      simp only [Row.lt]
      constructor
      · intro h
        split_ifs at h with h1 h2
        · exact ⟨0, by simp, by simp, by simpa using h1⟩
        · obtain ⟨k, hk, h3, h4⟩ := (ih hl).1 h
          refine ⟨k + 1, by simpa using hk, ?_, by simpa using h4⟩
          intro i hi
          cases i with
          | zero => simp; omega
          | succ i => simpa using h3 i (by omega)
      · rintro ⟨k, hk, h3, h4⟩
        cases k with
        | zero => rw [if_pos (by simpa using h4)]
        | succ k =>
          have e : a = b := by have := h3 0 (by omega); simpa using this
          subst e
          simp only [lt_irrefl, if_false]
          rw [ih hl]
          refine ⟨k, by simpa using hk, ?_, by simpa using h4⟩
          intro i hi
          have := h3 (i + 1) (by omega)
          simpa using this

theorem lexLt_iff {l m : List Nat} (hl : l.length = m.length) : LexLt l m ↔ Row.lt l m = true := by
  rw [lt_iff_lex hl]
  unfold LexLt
  simp only [bellAt_eq_fn]
  constructor
  · rintro ⟨k, h1, h2⟩
    have hk : k < l.length := by
      by_contra hc
      rw [fn_of_ge (by omega), fn_of_ge (by omega)] at h2; omega
    refine ⟨k, hk, ?_, ?_⟩
    · intro i hi
      have := h1 i hi
      rw [fn_of_lt (by omega), fn_of_lt (by omega)] at this
      rw [List.getElem?_eq_getElem (by omega), List.getElem?_eq_getElem (by omega), this]
    · rw [fn_of_lt hk, fn_of_lt (by omega)] at h2
      rw [List.getD_eq_getElem?_getD, List.getD_eq_getElem?_getD, List.getElem?_eq_getElem hk,
        List.getElem?_eq_getElem (by omega)]
      simpa using h2
  · rintro ⟨k, hk, h1, h2⟩
    refine ⟨k, ?_, ?_⟩
    · intro i hi
      have := h1 i hi
      unfold fn
      rw [List.getD_eq_getElem?_getD, List.getD_eq_getElem?_getD, this]
    · rw [fn_of_lt hk, fn_of_lt (by omega)]
      rw [List.getD_eq_getElem?_getD, List.getD_eq_getElem?_getD, List.getElem?_eq_getElem hk,
        List.getElem?_eq_getElem (by omega)] at h2
      simpa using h2

theorem lt_append_left (p l m : List Nat) : Row.lt (p ++ l) (p ++ m) = Row.lt l m := by
  induction p with
  | nil => rfl
  | cons a p ih => simp [Row.lt, ih]

theorem lt_append_right : ∀ {l m : List Nat} (s : List Nat), l.length = m.length →
    Row.lt (l ++ s) (m ++ s) = Row.lt l m := by
  intro l
  induction l with
  | nil =>
    intro m s hl
    have : m = [] := List.length_eq_zero_iff.1 hl.symm
    subst this
    have : ∀ s : List Nat, Row.lt s s = false := by
      intro s; induction s with
      | nil => rfl
      | cons a s ih => simp [Row.lt, ih]
    simp [this]
  | cons a l ih =>
    intro m s hl
    cases m with
    | nil => simp at hl
    | cons b m => simp [Row.lt, ih s (by simpa using hl : l.length = m.length)]

theorem lexLt_emb {w' : List Nat} (h : nh + nw ≤ nt) (hw : w.Perm (List.range' nh nw))
    (hw' : w'.Perm (List.range' nh nw)) :
    LexLt (emb nw nh nt w) (emb nw nh nt w') ↔ rank w < rank w' := by
  rw [lexLt_iff (by rw [emb_length h hw, emb_length h hw']), rank_lt_iff (nodup_w hw) (hw.trans hw'.symm)]
  unfold emb
  rw [List.append_assoc, List.append_assoc, lt_append_left, lt_append_right _ (by rw [wlen hw, wlen hw'])]

/-! The iterator. -/

theorem splice_emb (hw : w.length = nw) (w' : List Nat) :
    ExtIter.splice (emb nw nh nt w) nw nh w' = emb nw nh nt w' := by
  unfold ExtIter.splice emb
  congr 1
  · congr 1
    rw [List.append_assoc, List.take_append_of_le_length (by simp)]; simp
  · rw [List.drop_append]
    simp [hw]

theorem work_emb (hw : w.length = nw) : ((emb nw nh nt w).drop nh).take nw = w := by
  unfold emb
  rw [List.append_assoc, List.drop_append_of_le_length (by simp), List.drop_of_length_le (by simp),
    List.nil_append, List.take_append_of_le_length (by omega), List.take_of_length_le (by omega)]

theorem ofVectorC_valid {d : Row} (h : Valid d) : ofVectorC d = .ok d := by
  unfold ofVectorC
  have := validateC_spec d
  rw [if_pos h.1] at this
  rw [this]; rfl

theorem inc_emb (h : nh + nw ≤ nt) (ht : nt ≤ 256) (hw : w.Perm (List.range' nh nw)) (f : Bool) :
    (∃ w', w'.Perm (List.range' nh nw) ∧ rank w' = rank w + 1 ∧
      ExtIter.incC nw nh ⟨f, emb nw nh nt w⟩ = .ok ⟨false, emb nw nh nt w'⟩) ∨
    (rank w + 1 = nw.factorial ∧ ExtIter.incC nw nh ⟨f, emb nw nh nt w⟩ = .ok ⟨true, []⟩) := by
  unfold ExtIter.incC
  simp only [emb_length h hw, work_emb (wlen hw), splice_emb (wlen hw)]
  rw [if_neg (by omega)]
  cases hn : nextPerm w with
  | none =>
    right
    have := nextPerm_none (nodup_w hw) hn
    rw [wlen hw] at this
    exact ⟨this, rfl⟩
  | some w' =>
    left
    obtain ⟨h1, h2⟩ := nextPerm_some (nodup_w hw) hn
    refine ⟨w', h1.trans hw, h2, ?_⟩
    simp [ofVectorC_valid (emb_valid h ht (h1.trans hw))]

theorem dec_emb (h : nh + nw ≤ nt) (ht : nt ≤ 256) (hw : w.Perm (List.range' nh nw))
    (hr : rank w ≠ 0) :
    ∃ w', w'.Perm (List.range' nh nw) ∧ rank w' + 1 = rank w ∧
      ExtIter.decC nw nh nt ⟨false, emb nw nh nt w⟩ = .ok ⟨false, emb nw nh nt w'⟩ := by
  unfold ExtIter.decC
  simp only [emb_length h hw, work_emb (wlen hw), splice_emb (wlen hw)]
  rw [if_neg (by simp), if_neg (by omega)]
  cases hn : prevPerm w with
  | none => exact absurd (prevPerm_none (nodup_w hw) hn) hr
  | some w' =>
    obtain ⟨h1, h2⟩ := prevPerm_some (nodup_w hw) hn
    refine ⟨w', h1.trans hw, h2, ?_⟩
    simp [ofVectorC_valid (emb_valid h ht (h1.trans hw))]

theorem incN_succ (k : Nat) (it : ExtIter) :
    ExtIter.incN nw nh (k + 1) it = ExtIter.incN nw nh k it >>= ExtIter.incC nw nh := by
  induction k generalizing it with
  | zero => simp [ExtIter.incN]; cases ExtIter.incC nw nh it <;> rfl
  | succ k ih =>
    rw [ExtIter.incN]
    conv_rhs => rw [ExtIter.incN]
    rw [bind_assoc]
    congr 1; funext it'; exact ih it'

theorem start_emb (h : nh + nw ≤ nt) (ht : nt ≤ 256) :
    ExtIter.start nt = ⟨false, emb nw nh nt (List.range' nh nw)⟩ := by
  unfold ExtIter.start
  rw [roundsC_eq ht, rounds_emb h]

theorem incN_emb (h : nh + nw ≤ nt) (ht : nt ≤ 256) {k : Nat} (hk : k < nw.factorial) :
    ∃ w, w.Perm (List.range' nh nw) ∧ rank w = k ∧
      ExtIter.incN nw nh k (ExtIter.start nt) = .ok ⟨false, emb nw nh nt w⟩ := by
  induction k with
  | zero => exact ⟨_, List.Perm.refl _, rank_range' _ _, by rw [ExtIter.incN, start_emb h ht]⟩
  | succ k ih =>
    obtain ⟨w, hw, hr, he⟩ := ih (by omega)
    rcases inc_emb h ht hw false with ⟨w', hw', hr', he'⟩ | ⟨h1, -⟩
    · exact ⟨w', hw', by omega, by rw [incN_succ, he]; exact he'⟩
    · omega

theorem exists_rank {k : Nat} (hk : k < nw.factorial) :
    ∃ w, w.Perm (List.range' nh nw) ∧ rank w = k := by
  induction k with
  | zero => exact ⟨_, List.Perm.refl _, rank_range' _ _⟩
  | succ k ih =>
    obtain ⟨w, hw, hr⟩ := ih (by omega)
    cases hn : nextPerm w with
    | none => have := nextPerm_none (nodup_w hw) hn; rw [wlen hw] at this; omega
    | some w' =>
      obtain ⟨h1, h2⟩ := nextPerm_some (nodup_w hw) hn
      exact ⟨w', h1.trans hw, by omega⟩

end
end Ringing
