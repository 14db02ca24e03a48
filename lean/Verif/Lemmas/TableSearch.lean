import Verif.Model.TableSearch
import Verif.Lemmas.Outputs
import Verif.Lemmas.Extent
import Verif.Props.Multtab
/-! `table_search`: the table. -/
namespace Ringing
namespace TableSearch
open Search Spec Row

/-! ### The extent -/

theorem extentC_spec {nw nh : Nat} (ht : nh + nw ≤ 256) : ∀ (k : Nat) (w : List Nat), w.Perm (List.range' nh nw) →
    rank w + k = nw.factorial → ∀ fuel, k < fuel →
    ∃ l, extentC nw nh fuel ⟨false, emb nw nh (nh + nw) w⟩ = .ok l ∧ l.Nodup ∧
      ∀ r, r ∈ l ↔ ∃ w', w'.Perm (List.range' nh nw) ∧ rank w ≤ rank w' ∧ r = emb nw nh (nh + nw) w'
  | 0, w, hw, hk, _, _ => by have := rank_lt_fact hw; omega
  | k + 1, w, hw, hk, 0, hf => by omega
  | k + 1, w, hw, hk, fuel + 1, hf => by
    have hemb : ∀ {a b : List Nat}, a.Perm (List.range' nh nw) → b.Perm (List.range' nh nw) →
        emb nw nh (nh + nw) a = emb nw nh (nh + nw) b → a = b := by
      intro a b ha hb e
      have := congrArg (fun x => (x.drop nh).take nw) e
      simpa only [work_emb (wlen ha), work_emb (wlen hb)] using this
    rw [extentC, if_neg (by simp [ExtIter.eq])]
    rcases inc_emb (le_refl (nh + nw)) ht hw false with ⟨w', hw', h1, h2⟩ | ⟨h1, h2⟩
    · obtain ⟨l, e1, e2, e3⟩ := extentC_spec ht k w' hw' (by omega) fuel (by omega)
      refine ⟨emb nw nh (nh + nw) w :: l, by rw [h2, Out.ok_bind, e1]; rfl, ?_, ?_⟩
      · rw [List.nodup_cons]
        refine ⟨fun hm => ?_, e2⟩
        obtain ⟨w'', g1, g2, g3⟩ := (e3 _).1 hm
        have := hemb hw g1 g3
        subst this; omega
      · intro r
        rw [List.mem_cons, e3]
        constructor
        · rintro (rfl | ⟨x, x1, x2, x3⟩)
          · exact ⟨w, hw, le_rfl, rfl⟩
          · exact ⟨x, x1, by omega, x3⟩
        · rintro ⟨x, x1, x2, x3⟩
          by_cases hx : rank x = rank w
          · left; rw [x3, rank_inj (nodup_w x1) (x1.trans hw.symm) hx]
          · exact Or.inr ⟨x, x1, by omega, x3⟩
    · obtain ⟨f, rfl⟩ : ∃ f, fuel = f + 1 := ⟨fuel - 1, by omega⟩
      refine ⟨[emb nw nh (nh + nw) w], by rw [h2, Out.ok_bind, extentC, if_pos (by simp [ExtIter.eq])]; rfl, by simp, ?_⟩
      intro r
      rw [List.mem_singleton]
      constructor
      · rintro rfl; exact ⟨w, hw, le_rfl, rfl⟩
      · rintro ⟨x, x1, x2, x3⟩
        have := rank_lt_fact x1
        rw [x3, rank_inj (nodup_w x1) (x1.trans hw.symm) (by omega)]

/-- The rows of the table. -/
theorem extent_rows {nw nh : Nat} (ht : nh + nw ≤ 256) :
    ∃ l, extentC nw nh (nw.factorial + 1) (ExtIter.start (nh + nw)) = .ok l ∧ l.Nodup ∧
      ∀ r, r ∈ l ↔ InExtent nw nh (nh + nw) r := by
  have hs := start_emb (le_refl (nh + nw)) ht
  obtain ⟨l, e1, e2, e3⟩ := extentC_spec ht nw.factorial (List.range' nh nw) (List.Perm.refl _)
    (by rw [rank_range']; omega) (nw.factorial + 1) (by omega)
  refine ⟨l, by rw [hs]; exact e1, e2, fun r => ?_⟩
  rw [e3, inExtent_iff (le_refl _) ht]
  constructor
  · rintro ⟨w, h1, -, h2⟩; exact ⟨w, h1, h2⟩
  · rintro ⟨w, h1, h2⟩; exact ⟨w, h1, by rw [rank_range']; omega, h2⟩

/-! ### Treble and parity -/

/-- The lead head and the changes at the end of the leads keep the treble in the lead. -/
def FixedTreble (m : Method) (calls : List Change) : Prop :=
  follow (m.ch.map Change.swaps) 0 = 0 ∧ ∀ c ∈ ends m calls, moveTo c.swaps 0 = 0

instance (m : Method) (calls : List Change) : Decidable (FixedTreble m calls) := inferInstanceAs (Decidable (_ ∧ _))

/-- Every kind of lead has an even number of swaps. -/
def InCourse (m : Method) (calls : List Change) : Prop :=
  ∀ k, k < (ends m calls).length → ((touchChanges m.ch (ends m calls) [k]).map fun c => c.swaps.length).sum % 2 = 0

instance (m : Method) (calls : List Change) : Decidable (InCourse m calls) := inferInstanceAs (Decidable (∀ k, _ → _))

section
variable {m : Method} {calls : List Change} (G : Given m calls)

include G in
theorem lhC_ok : Method.lhC m = .ok (hd m calls [0]) := by
  unfold Method.lhC
  rw [roundsC_eq (nle G.wf), applyAllC_eq (fun x hx => (G.wf.2 x hx).1)]
  congr 1
  unfold hd tch touchChanges
  have hends : ends m calls = m.ch.getLast G.ne :: calls := by
    unfold ends; rw [List.getLast?_eq_some_getLast G.ne]; rfl
  rw [hends]
  simp [List.dropLast_append_getLast]

theorem tch_one {k : Nat} (hk : k < (ends m calls).length) : tch m calls [k] = m.ch.dropLast ++ [(ends m calls)[k]] := by
  unfold tch touchChanges; simp [List.getElem?_eq_getElem hk]

include G in
theorem ends_eq : ends m calls = m.ch.getLast G.ne :: calls := by
  unfold ends; rw [List.getLast?_eq_some_getLast G.ne]; rfl

theorem fn_eq_zero {n : Nat} {cs : List Change} (hpos : 0 < n) (hn : n ≤ 256) (h : ∀ x ∈ cs, x.WF ∧ x.n = n) (G : Given m calls) (hb : m.b = n) :
    fn (applyAll (rounds n) cs) 0 = 0 ↔ follow (cs.map Change.swaps) 0 = 0 := by
  subst hb
  have e := fn_applyAll_follow (fun x hx => (h x hx).1) (rounds m.b) 0
  rw [fn_rounds] at e
  constructor
  · intro h0
    exact (valid_all G h).1.fn_inj (by rw [e, h0])
  · intro h0
    rw [h0] at e; exact e

include G in
theorem isFixedTrebleC_eq (s : TableSearch) (hm : s.meth = m) (hc : s.calls = calls) :
    isFixedTrebleC s = .ok (decide (FixedTreble m calls)) := by
  subst hm; subst hc
  unfold isFixedTrebleC
  rw [lhC_ok G, Out.ok_bind]
  have hl := (valid_hd G (calls := s.calls) [0]).2
  have hv : vget (hd s.meth s.calls [0]) 0 = .ok (fn (hd s.meth s.calls [0]) 0) := by
    unfold vget
    rw [List.getElem?_eq_getElem (by rw [hl]; exact G.pos), fn_of_lt (by rw [hl]; exact G.pos)]
  rw [hv, Out.ok_bind, List.getLast?_eq_some_getLast G.ne]
  simp only
  have h0 : fn (hd s.meth s.calls [0]) 0 = 0 ↔ follow (s.meth.ch.map Change.swaps) 0 = 0 := by
    have e := lhC_ok G
    unfold Method.lhC at e
    rw [roundsC_eq (nle G.wf), applyAllC_eq (fun x hx => (G.wf.2 x hx).1)] at e
    injection e with e
    rw [← e]
    exact fn_eq_zero G.pos (nle G.wf) G.wf.2 G rfl
  by_cases hz : fn (hd s.meth s.calls [0]) 0 = 0
  · rw [if_neg (by simpa using hz)]
    congr 1
    rw [Bool.eq_iff_iff]
    simp only [Bool.and_eq_true, List.all_eq_true, decide_eq_true_eq]
    unfold FixedTreble
    rw [ends_eq G]
    have hw := ends_wf G
    rw [ends_eq G] at hw
    rw [(hw _ (by simp)).1.findplace_eq]
    constructor
    · rintro ⟨h1, h2⟩
      refine ⟨h0.1 hz, fun c hc => ?_⟩
      rcases List.mem_cons.1 hc with rfl | hc
      · exact h1
      · exact ((hw c (by simp [hc])).1.findplace_eq 0).1 (h2 c hc)
    · rintro ⟨-, h2⟩
      exact ⟨h2 _ (by simp), fun c hc => ((hw c (by simp [hc])).1.findplace_eq 0).2 (h2 c (by simp [hc]))⟩
  · rw [if_pos (by simpa using hz)]
    congr 1
    symm
    rw [decide_eq_false_iff_not]
    exact fun h => hz (h0.2 h.1)

include G in
theorem hd_treble' (h : FixedTreble m calls) : ∀ {c : List Nat}, Dom (ends m calls).length c → fn (hd m calls c) 0 = 0 := by
  refine hd_treble G fun k hk => ?_
  have hk' : k < (ends m calls).length := by rw [length_ends G.ne]; omega
  rw [tch_one hk', List.map_append]
  have e : m.ch = m.ch.dropLast ++ [m.ch.getLast G.ne] := (List.dropLast_append_getLast G.ne).symm
  have h1 := h.1
  rw [e, List.map_append] at h1
  have hf : ∀ (a b : List (List Nat)) p, follow (a ++ b) p = follow b (follow a p) := by
    intro a
    induction a with
    | nil => intro b p; rfl
    | cons x a ih => intro b p; rw [List.cons_append, follow, follow, ih]
  rw [hf] at h1 ⊢
  simp only [List.map_cons, List.map_nil, follow] at h1 ⊢
  have h2 := h.2 (m.ch.getLast G.ne) (by rw [ends_eq G]; simp)
  have h3 := h.2 (ends m calls)[k] (List.getElem_mem _)
  have h4 : follow (m.ch.dropLast.map Change.swaps) 0 = 0 := by
    have hw := ((G.wf.2 _ (List.getLast_mem G.ne)).1)
    exact Change.moveTo_inj hw.gap (h1.trans h2.symm)
  rw [h4, h3]

theorem sign_applyAll {n : Nat} : ∀ {cs : List Change}, (∀ x ∈ cs, x.WF ∧ x.n = n) → ∀ {r : Row}, Valid r →
    sign (applyAll r cs) = sign r * if (cs.map fun c => c.swaps.length).sum % 2 = 1 then -1 else 1
  | [], _, r, _ => by simp [applyAll]
  | c :: cs, h, r, hr => by
    have hc := (h c (by simp)).1
    rw [applyAll_cons, sign_applyAll (fun x hx => h x (by simp [hx])) (valid_apply hc hr), hc.sign_apply hr, mul_assoc]
    congr 1
    unfold Change.sign
    have hn0 : c.n = 0 → c.swaps.length = 0 := by
      intro hn
      by_contra hne
      obtain ⟨x, hx⟩ := List.exists_mem_of_length_pos (Nat.pos_of_ne_zero hne)
      have := hc.2.2 x hx
      omega
    rw [List.map_cons, List.sum_cons]
    by_cases hn : c.n = 0
    · rw [if_pos hn, hn0 hn]; simp
    · rw [if_neg hn]
      rcases Nat.mod_two_eq_zero_or_one c.swaps.length with a | a <;>
        rcases Nat.mod_two_eq_zero_or_one (cs.map fun c => c.swaps.length).sum with b | b <;>
        simp [Nat.add_mod, a, b]

include G in
theorem sign_one (k : Nat) : sign (hd m calls [k]) = 1 ↔ ((tch m calls [k]).map fun c => c.swaps.length).sum % 2 = 0 := by
  unfold hd
  rw [sign_applyAll (tch_wf G [k]) (valid_rounds (nle G.wf)), sign_rounds (nle G.wf), one_mul]
  split <;> simp <;> omega

include G in
theorem isInCourseC_eq (s : TableSearch) (hm : s.meth = m) (hc : s.calls = calls) :
    isInCourseC s = .ok (decide (InCourse m calls)) := by
  subst hm; subst hc
  unfold isInCourseC
  rw [lhC_ok G, Out.ok_bind, signC_eq (valid_hd G _).1, Out.ok_bind, List.getLast?_eq_some_getLast G.ne]
  simp only
  have hw := ends_wf G
  have hlen := length_ends (m := s.meth) (calls := s.calls) G.ne
  have hs : ∀ k (hk : k < (ends s.meth s.calls).length),
      sign (hd s.meth s.calls [k]) = sign (applyAll (rounds s.meth.b) s.meth.ch.dropLast) * ((ends s.meth s.calls)[k]).sign := by
    intro k hk
    unfold hd
    rw [tch_one hk, applyAll_append]
    have hv : Valid (applyAll (rounds s.meth.b) s.meth.ch.dropLast) :=
      (valid_all G (fun x hx => G.wf.2 x (List.dropLast_subset _ hx))).1
    exact (hw _ (List.getElem_mem hk)).1.sign_apply hv
  have hle : sign (applyAll (rounds s.meth.b) s.meth.ch.dropLast) = 1 ∨ sign (applyAll (rounds s.meth.b) s.meth.ch.dropLast) = -1 :=
    sign_sq (valid_all G (fun x hx => G.wf.2 x (List.dropLast_subset _ hx))).1
  have hIC : InCourse s.meth s.calls ↔ ∀ k (hk : k < (ends s.meth s.calls).length), sign (hd s.meth s.calls [k]) = 1 :=
    forall_congr' fun k => forall_congr' fun hk => (sign_one G k).symm
  have he0 : (ends s.meth s.calls)[0]'(by omega) = s.meth.ch.getLast G.ne := by
    simp [ends_eq G]
  have h0 := hs 0 (by omega)
  rw [he0] at h0
  by_cases hz : sign (hd s.meth s.calls [0]) = -1
  · rw [if_pos hz]
    congr 1
    symm
    rw [decide_eq_false_iff_not, hIC]
    intro h
    rw [h 0 (by omega)] at hz
    exact absurd hz (by decide)
  · rw [if_neg hz]
    have h1 : sign (hd s.meth s.calls [0]) = 1 := by
      rcases sign_sq (valid_hd G (calls := s.calls) [0]).1 with h | h
      · exact h
      · exact absurd h hz
    congr 1
    rw [Bool.eq_iff_iff]
    simp only [List.all_eq_true, decide_eq_true_eq]
    rw [hIC]
    have hcs : ∀ c : Change, c.sign = 1 ∨ c.sign = -1 := by
      intro c; unfold Change.sign; split
      · left; rfl
      · split
        · right; rfl
        · left; rfl
    constructor
    · intro h k hk
      rw [hs k hk]
      have : ((ends s.meth s.calls)[k]).sign = (s.meth.ch.getLast G.ne).sign := by
        have hm : (ends s.meth s.calls)[k] ∈ ends s.meth s.calls := List.getElem_mem hk
        have hm' : (ends s.meth s.calls)[k] ∈ s.meth.ch.getLast G.ne :: s.calls := by
          have := ends_eq G
          rwa [← this]
        rcases List.mem_cons.1 hm' with e | e
        · exact congrArg Change.sign e
        · exact h _ e
      rw [this, ← h0, h1]
    · intro h c hc
      obtain ⟨k, hk, rfl⟩ := List.getElem_of_mem hc
      have hk' : k + 1 < (ends s.meth s.calls).length := by omega
      have e1 := h (k + 1) hk'
      rw [hs _ hk'] at e1
      have e2 : (ends s.meth s.calls)[k + 1] = s.calls[k] := by simp [ends_eq G]
      rw [e2] at e1
      rw [h1] at h0
      rcases hle with g | g <;> rw [g] at e1 h0 <;> omega

include G in
theorem hd_sign' (h : InCourse m calls) : ∀ {c : List Nat}, Dom (ends m calls).length c → sign (hd m calls c) = 1 := by
  intro c
  induction c using List.reverseRecOn with
  | nil => intro _; rw [hd_nil, sign_rounds (nle G.wf)]
  | append_singleton c k ih =>
    intro hd'
    rw [hd_append G, sign_mul (valid_hd G _).1 (valid_hd G _).1, ih (fun x hx => hd' x (by simp [hx])), one_mul]
    exact (sign_one G k).2 (h k (hd' k (by simp)))

end
end TableSearch
end Ringing
