import Verif.Lemmas.MethSearch9
import Verif.Props.MethSearchEx

/-! C82: the limit on consecutive blows in the search of methsearch. -/
namespace Ringing
open Spec Row MethodUtils MethSearch
namespace MethSearch

/-- The search without the limit on blows. -/
def noBlows (A : Args) : Args := { A with maxBlows := 0 }

theorem facts_noBlows {A : Args} {full : List Change} {g : Nat → Change} (F : Facts (noBlows A) full g) : Facts A full g :=
  ⟨F.len, F.get, F.ok, F.rev, F.same, F.quarter⟩

theorem searchable_noBlows {A : Args} (S : Searchable A) : Searchable (noBlows A) :=
  ⟨S.pos, S.len, S.nonempty, S.wf, S.even, S.two, S.hunts, S.start, S.limited⟩

theorem free_blows {A : Args} {T : Tests} {full : List Change} {g : Nat → Change} (F : Facts A full g) (S : Searchable A)
    (hn : A.leadLen < 2 ^ 64) (hll : A.longLe = false) (hmb : A.maxBlows ≠ 0) (hs : A.skewsym = false) (hd : A.doubsym = false)
    {k : Nat} (hk : k < A.leadLen) :
    Free A T (full.take k) (g k) ↔ Free (noBlows A) T (full.take k) (g k) ∧ ¬ Run A.bells g A.maxBlows k ∧
      (A.sym = true → A.huntBells % 2 = 1 → k + 1 = A.leadLen / 2 → ¬ Run A.bells g (A.maxBlows / 2 + 1) k) ∧
      (k + 1 = A.leadLen → ¬ RunLE A.bells g A.leadLen A.maxBlows ∧ (A.sym = true → ¬ Run A.bells g (A.maxBlows / 2 + 1) k)) := by
  have htl : (full.take k).length = k := by rw [List.length_take, F.len]; omega
  have hso := (S.good T).offset
  have hso' : symOffset (noBlows A) = 0 := hso
  unfold Free
  have e1 : (noBlows A).allowed = A.allowed := rfl
  have e2 : offPrefix (noBlows A) = offPrefix A := rfl
  have e3 : (noBlows A).leadLen = A.leadLen := rfl
  have e4 : (noBlows A).huntBells = A.huntBells := rfl
  have e5 : (noBlows A).skewsym = A.skewsym := rfl
  have e6 : divLen (noBlows A) = divLen A := rfl
  rw [testsC_iff, testsC_iff, htl, e1, e2, e3, e4, e5, e6, hso, hso']
  have hmid := F.midlead (T := T) hk hn hll hmb
  have hhalf := F.halfsym hk hn hll hmb hs hd
  have hles := F.lesym hk hn hll hmb
  have hhalf0 : tryHalfleadSymC (noBlows A) (full.take k) (g k) = .ok true := by
    unfold tryHalfleadSymC
    have a1 : (noBlows A).skewsym = false := hs
    have a2 : (noBlows A).doubsym = false := hd
    have a3 : (noBlows A).maxBlows = 0 := rfl
    simp [a1, a2, a3]
  have hle : k + 1 = A.leadLen → (tryLeadend A (full.take k) (g k) = true ↔
      tryLeadend (noBlows A) (full.take k) (g k) = true ∧ ¬ RunLE A.bells g A.leadLen A.maxBlows) := by
    intro h
    have := F.leadend S.pos hll hmb
    rwa [show A.leadLen - 1 = k by omega] at this
  have hh := S.hunts
  rw [hs]
  rw [hmid, hhalf]
  change _ ↔ ((_ ∧ _ ∧ (tryMidleadC { A with maxBlows := 0 } T (full.take k) (g k) = .ok true) ∧ _) ∧ _)
  constructor
  · rintro ⟨f1, f2, ⟨f3, f4⟩, -, f5, f6, f7⟩
    refine ⟨⟨f1, f2, f3, fun _ h => by simp at h, fun _ => hhalf0, fun h => ((hle h).1 (f6 h)).1, fun h => ?_⟩, f4, ?_, ?_⟩
    · exact (hles.1 (f7 h)).1
    · intro h1 h2 h3
      exact f5 (Or.inl ⟨h2, h3⟩) h1
    · intro h
      exact ⟨((hle h).1 (f6 h)).2, (hles.1 (f7 (Or.inl ⟨rfl, h⟩))).2⟩
  · rintro ⟨⟨f1, f2, f3, -, -, f6, f7⟩, f4, g1, g2⟩
    refine ⟨f1, f2, ⟨f3, f4⟩, fun _ h => by simp at h, fun h hsy => ?_, fun h => (hle h).2 ⟨f6 h, (g2 h).1⟩, fun h => ?_⟩
    · rcases h with h | h
      · exact g1 hsy h.1 h.2
      · omega
    · rcases h with h | h
      · exact hles.2 ⟨f7 (Or.inl h), (g2 h.2).2⟩
      · exact absurd rfl h.1

/-- The searches for which the limit on blows is exact: without symmetry, or palindromic with a hunt bell. -/
def BlowsScope (A : Args) : Prop :=
  A.skewsym = false ∧ A.doubsym = false ∧ (A.sym = true → A.floatingSym = false ∧ A.huntBells % 2 = 1)

theorem found_blows {A : Args} {T : Tests} (S : Searchable A) (hn : A.leadLen < 2 ^ 64) (hll : A.longLe = false)
    (hmb : A.maxBlows ≠ 0) (hk2 : A.maxBlows < 2 * A.leadLen) (hsc : BlowsScope A) {full : List Change} :
    Found A T [] full ↔ Found (noBlows A) T [] full ∧ ¬ LongPlace A.bells A.maxBlows (full.map Change.swaps) := by
  obtain ⟨hs, hd, hsym⟩ := hsc
  have hpos := S.pos
  have hcop : ∀ k, copiedA (noBlows A) k = copiedA A k := fun _ => rfl
  have hnone : ∀ k, k < A.leadLen → (copiedA A k = none ↔ (A.sym = true → k < A.leadLen / 2 ∨ k = A.leadLen - 1)) := by
    intro k hk
    unfold copiedA copied
    rw [hs, hd]
    by_cases h : A.sym = true
    · have hev := S.even (Or.inl h)
      rw [(hsym h).1]
      simp only [h, Bool.false_eq_true, false_and, if_false, true_and, forall_true_left]
      split
      · rename_i hh; constructor
        · intro h0; cases h0
        · intro h0; omega
      · rename_i hh
        refine ⟨fun _ => by omega, fun _ => rfl⟩
    · simp only [h, Bool.false_eq_true, false_and, if_false, ite_self]
      simp
  have hat : ∀ {g : Nat → Change}, Facts A full g → ∀ k, k < A.leadLen → (At A T full k ↔ At (noBlows A) T full k ∧
      (copiedA A k = none → ¬ Run A.bells g A.maxBlows k ∧
      (A.sym = true → A.huntBells % 2 = 1 → k + 1 = A.leadLen / 2 → ¬ Run A.bells g (A.maxBlows / 2 + 1) k) ∧
      (k + 1 = A.leadLen → ¬ RunLE A.bells g A.leadLen A.maxBlows ∧ (A.sym = true → ¬ Run A.bells g (A.maxBlows / 2 + 1) k)))) := by
    intro g F k hk
    unfold At
    rw [hcop, show (noBlows A).doubsym = A.doubsym from rfl, hd]
    cases hc : copiedA A k with
    | some p => simp
    | none =>
      have hg := F.get k hk
      simp only [hg, Option.some.injEq, exists_eq_left', forall_true_left, Bool.false_eq_true, false_implies, implies_true, true_and]
      rw [free_blows F S hn hll hmb hs hd hk]
      tauto
  have main : ∀ {g : Nat → Change}, Facts A full g →
      ((∀ k, k < A.leadLen → copiedA A k = none → ¬ Run A.bells g A.maxBlows k ∧
      (A.sym = true → A.huntBells % 2 = 1 → k + 1 = A.leadLen / 2 → ¬ Run A.bells g (A.maxBlows / 2 + 1) k) ∧
      (k + 1 = A.leadLen → ¬ RunLE A.bells g A.leadLen A.maxBlows ∧ (A.sym = true → ¬ Run A.bells g (A.maxBlows / 2 + 1) k)))
        ↔ ¬ LongPlace A.bells A.maxBlows (full.map Change.swaps)) := by
    intro g F
    by_cases h : A.sym = true
    · obtain ⟨hf, hh⟩ := hsym h
      have hev := S.even (Or.inl h)
      have hpal : ∀ j, j < A.leadLen / 2 → g (A.leadLen / 2 - 1 + j) = g (A.leadLen / 2 - 1 - j) := by
        intro j hj
        by_cases hj0 : j = 0
        · subst hj0; rfl
        refine F.same _ _ (by omega) ?_
        unfold copiedA copied
        rw [hs, hd, hf]
        simp only [h, Bool.false_eq_true, false_and, if_false, true_and]
        rw [if_pos (by omega)]
        congr 2; omega
      rw [F.long_sym hpos hev (by omega) hk2 hpal]
      have hnone' := fun k hk => (hnone k hk)
      simp only [h, forall_true_left] at hnone'
      constructor
      · intro hall
        rintro (⟨d, h1, h2⟩ | h2 | h2 | h2 | h2)
        · exact (hall d (by omega) ((hnone' d (by omega)).2 (Or.inl h1))).1 h2
        · exact (hall (A.leadLen - 1) (by omega) ((hnone' _ (by omega)).2 (Or.inr rfl))).1 h2
        · exact (hall (A.leadLen / 2 - 1) (by omega) ((hnone' _ (by omega)).2 (Or.inl (by omega)))).2.1 h hh (by omega) h2
        · exact ((hall (A.leadLen - 1) (by omega) ((hnone' _ (by omega)).2 (Or.inr rfl))).2.2 (by omega)).2 h h2
        · exact ((hall (A.leadLen - 1) (by omega) ((hnone' _ (by omega)).2 (Or.inr rfl))).2.2 (by omega)).1 h2
      · intro hnl k hk hc
        have hk' := (hnone' k hk).1 hc
        refine ⟨fun hr => hnl ?_, fun _ _ he hr => hnl ?_, fun he => ⟨fun hr => hnl ?_, fun _ hr => hnl ?_⟩⟩
        · rcases hk' with hk' | hk'
          · exact Or.inl ⟨k, hk', hr⟩
          · subst hk'; exact Or.inr (Or.inl hr)
        · obtain rfl : k = A.leadLen / 2 - 1 := by omega
          exact Or.inr (Or.inr (Or.inl hr))
        · exact Or.inr (Or.inr (Or.inr (Or.inr hr)))
        · obtain rfl : k = A.leadLen - 1 := by omega
          exact Or.inr (Or.inr (Or.inr (Or.inl hr)))
    · rw [F.long_iff hpos (by omega) hk2]
      have hnone' : ∀ k, k < A.leadLen → copiedA A k = none := fun k hk => (hnone k hk).2 (fun hh => absurd hh h)
      constructor
      · intro hall
        rintro (⟨d, h1, h2⟩ | h2)
        · exact (hall d h1 (hnone' d h1)).1 h2
        · exact ((hall (A.leadLen - 1) (by omega) (hnone' _ (by omega))).2.2 (by omega)).1 h2
      · intro hnl k hk _
        exact ⟨fun hr => hnl (Or.inl ⟨k, hk, hr⟩), fun hh => absurd hh h, fun _ => ⟨fun hr => hnl (Or.inr hr), fun hh => absurd hh h⟩⟩
  constructor
  · intro hf
    obtain ⟨g, F⟩ := facts_of S hf
    obtain ⟨h1, h2, h3, h4⟩ := hf
    have h3' := fun k (hk : k < A.leadLen) => (hat F k hk).1 (h3 k (Nat.zero_le _) hk)
    exact ⟨⟨h1, h2, fun k _ hk => (h3' k hk).1, h4⟩, (main F).1 (fun k hk hc => (h3' k hk).2 hc)⟩
  · rintro ⟨hf, hnl⟩
    obtain ⟨g, F0⟩ := facts_of (searchable_noBlows S) hf
    have F := facts_noBlows F0
    obtain ⟨h1, h2, h3, h4⟩ := hf
    have hm := (main F).2 hnl
    exact ⟨h1, h2, fun k hk0 hk => (hat F k hk).2 ⟨h3 k hk0 hk, hm k hk⟩, h4⟩

end MethSearch

/-- C82: no method found has more than the allowed number of blows in one place, when the lead is rung
again and again. -/
theorem C82_blows {A : Args} (S : Searchable A) (T : Tests) (hn : A.leadLen < 2 ^ 64) (hll : A.longLe = false)
    (hmb : A.maxBlows ≠ 0) (hk2 : A.maxBlows < 2 * A.leadLen) (hsc : BlowsScope A)
    {L : List (List Change)} (h : searchC A T = .ok L) :
    ∀ full ∈ L, ¬ LongPlace A.bells A.maxBlows (full.map Change.swaps) :=
  fun _ hm => ((found_blows S hn hll hmb hk2 hsc).1 (found_of_mem S h hm)).2

open Classical in
/-- C82: the search with a limit on blows gives the methods of the search without one that meet the limit,
and loses none of them. -/
theorem C82_filter {A : Args} (S : Searchable A) (T : Tests) (hn : A.leadLen < 2 ^ 64) (hll : A.longLe = false)
    (hmb : A.maxBlows ≠ 0) (hk2 : A.maxBlows < 2 * A.leadLen) (hsc : BlowsScope A) (hl : A.limit = 0) :
    ∃ L, searchC { A with maxBlows := 0 } T = .ok L ∧
      searchC A T = .ok (L.filter fun full => decide (¬ LongPlace A.bells A.maxBlows (full.map Change.swaps))) := by
  obtain ⟨L, ⟨h1, h2⟩, h3⟩ := search_all (S.good T) S.start
  obtain ⟨L', ⟨h1', h2'⟩, h3'⟩ := search_all ((searchable_noBlows S).good T) S.start
  have e : cut A 0 L = L := by rw [cut, if_neg]; rintro ⟨h, -⟩; exact h hl
  have e' : cut (noBlows A) 0 L' = L' := by rw [cut, if_neg]; rintro ⟨h, -⟩; exact h hl
  rw [e] at h3
  rw [e'] at h3'
  refine ⟨L', h3', ?_⟩
  rw [h3]
  congr 1
  have irr := before_irrefl (allowed := A.allowed) (fun cs h => (S.nonempty cs h).2)
  have hp' := h2'.filter fun full => decide (¬ LongPlace A.bells A.maxBlows (full.map Change.swaps))
  refine lists_unique (fun cs h => (S.nonempty cs h).2) ?_ h2 hp'
  refine (List.perm_ext_iff_of_nodup (h2.imp (by rintro a b hab rfl; exact irr a hab))
    (hp'.imp (by rintro a b hab rfl; exact irr a hab))).2 ?_
  intro full
  rw [h1, List.mem_filter, h1', found_blows S hn hll hmb hk2 hsc, decide_eq_true_iff]

end Ringing
