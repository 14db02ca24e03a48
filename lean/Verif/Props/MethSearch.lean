import Verif.Lemmas.MethSearch6

/-! C80-C81: the search of methsearch. -/
namespace Ringing
open Spec Row MethodUtils MethSearch

/-- What the tests of methsearch say about a change `c` after the changes `m`, in a position where the
change is chosen. -/
def MethSearch.MayRing (A : Args) (T : Tests) (m : List Change) (c : Change) : Prop :=
  c ∈ A.allowed.getD m.length [] ∧ (∀ p, A.prefixCh[m.length]? = some p → Change.eq c p = true) ∧ testsC A T m c = .ok true

/-- The blows across the half lead and the lead end of a double method. -/
def MethSearch.DoubleBlowsOk (A : Args) (full : List Change) : Prop :=
  A.floatingSym = false → A.doubsym = true → A.maxBlows ≠ 0 →
    (∀ b, full[A.leadLen / 2 - 1]? = some b → doubleBlows A (full.take (A.leadLen / 2)) b = false) ∧
    (∀ c, full[A.leadLen - 1]? = some c → doubleEndBlows A (full.take (A.leadLen - 1)) c = false)

theorem MethSearch.found_iff {A : Args} {T : Tests} (S : Searchable A) {full : List Change} :
    Found A T [] full ↔
      LeadOf A.leadLen Change.reverse
        (fun k => if A.floatingSym then none else copied A.sym A.skewsym A.doubsym A.leadLen k)
        (MayRing A T) (fun m => T.rowOk m = true) full ∧
      DoubleBlowsOk A full ∧ T.accept full = true := by
  have hfree : ∀ m c, Free A T m c ↔ MayRing A T m c := by
    intro m c
    unfold Free MayRing offPrefix
    cases A.prefixCh[m.length]? <;> simp
  have hp := S.pos
  have hev := S.even
  unfold Found At LeadOf DoubleBlowsOk
  simp only [hfree, List.nil_prefix, true_and, List.length_nil, Nat.zero_le, forall_true_left]
  constructor
  · rintro ⟨h1, h2, h3⟩
    refine ⟨⟨h1, fun k hk => ⟨(h2 k hk).1, (h2 k hk).2.2⟩⟩, ?_, h3⟩
    intro a b c
    have := hev (Or.inr (Or.inr b))
    exact ⟨((h2 (A.leadLen / 2) (by omega)).2.1 a b c).1 rfl, ((h2 (A.leadLen - 1) (by omega)).2.1 a b c).2 (by omega)⟩
  · rintro ⟨⟨h1, h2⟩, h3, h4⟩
    refine ⟨h1, fun k hk => ⟨(h2 k hk).1, ?_, (h2 k hk).2⟩, h4⟩
    intro a b c
    obtain ⟨x, y⟩ := h3 a b c
    refine ⟨fun _ => x, fun hk => ?_⟩
    obtain rfl : k = A.leadLen - 1 := by omega
    exact y

theorem MethSearch.pair_asymm {α : Type} {x y : α} {l : List α} (hn : l.Nodup) (h1 : [x, y].Sublist l) (h2 : [y, x].Sublist l) :
    False := by
  induction l with
  | nil => cases h1
  | cons a l ih =>
    obtain ⟨ha, hn⟩ := List.nodup_cons.1 hn
    cases h1 with
    | cons _ h1 =>
      cases h2 with
      | cons _ h2 => exact ih hn h1 h2
      | cons_cons _ h2 => exact ha (h1.subset (by simp))
    | cons_cons _ h1 =>
      cases h2 with
      | cons _ h2 => exact ha (h2.subset (by simp))
      | cons_cons _ h2 => exact ha (List.singleton_sublist.1 h1)

theorem MethSearch.lists_unique {allowed : List (List Change)} (hnd0 : ∀ cs ∈ allowed, cs.Nodup) {L L' : List (List Change)}
    (hperm : L.Perm L') (h2 : L.Pairwise (Before allowed)) (h2' : L'.Pairwise (Before allowed)) : L = L' := by
  refine hperm.eq_of_pairwise ?_ h2 h2'
  rintro a b - - ⟨k, x, y, e1, e2, e3, e4⟩ ⟨k', x', y', e1', e2', e3', e4'⟩
  exfalso
  have hnd : ∀ k, (allowed.getD k []).Nodup := by
    intro k
    by_cases hk : k < allowed.length
    · rw [List.getD, List.getElem?_eq_getElem hk]
      exact hnd0 _ (List.getElem_mem hk)
    · rw [List.getD, List.getElem?_eq_none (by omega)]
      exact List.nodup_nil
  have hne : ∀ {k : Nat} {x y : Change}, [x, y].Sublist (allowed.getD k []) → x ≠ y := by
    intro k x y h
    have := h.nodup (hnd k)
    simpa using this
  have lt_of : ∀ {k k' : Nat} {x y : Change} {a b : List Change}, a.take k = b.take k → k' < k → a[k']? = some x →
      b[k']? = some y → x = y := by
    intro k k' x y a b h hlt hx hy
    have h1 : (a.take k)[k']? = some x := by rw [List.getElem?_take, if_pos hlt, hx]
    have h2 : (b.take k)[k']? = some y := by rw [List.getElem?_take, if_pos hlt, hy]
    rw [h, h2] at h1
    exact (Option.some.inj h1).symm
  rcases Nat.lt_trichotomy k k' with hlt | heq | hlt
  · exact hne e4 (lt_of e1' hlt e3 e2).symm
  · subst heq
    rw [e2] at e3'; rw [e3] at e2'
    cases e3'; cases e2'
    exact pair_asymm (hnd k) e4 e4'
  · exact hne e4' (lt_of e1 hlt e3' e2').symm

/-- C80: without a limit the search gives every lead wanted exactly once, in order: the leads whose
changes are determined by the symmetry where it determines them, pass the tests where they are chosen,
and pass the tests of the whole lead. -/
theorem C80_search {A : Args} (S : Searchable A) (T : Tests) (hl : A.limit = 0) :
    ∃ L, searchC A T = .ok L ∧
      (∀ full, full ∈ L ↔
        LeadOf A.leadLen Change.reverse
          (fun k => if A.floatingSym then none else copied A.sym A.skewsym A.doubsym A.leadLen k)
          (MayRing A T) (fun m => T.rowOk m = true) full ∧
        DoubleBlowsOk A full ∧ T.accept full = true) ∧
      L.Pairwise (Before A.allowed) ∧ L.Nodup := by
  obtain ⟨L, ⟨h1, h2⟩, h3⟩ := search_all (S.good T) S.start
  refine ⟨L, ?_, ?_, h2, ?_⟩
  · rw [h3, cut, if_neg]
    rintro ⟨h, -⟩; exact h hl
  · intro full
    rw [h1, found_iff S]
  · refine h2.imp ?_
    rintro a b hab rfl
    exact before_irrefl (fun cs h => (S.nonempty cs h).2) a hab

/-- C80: a search with a limit gives the first methods of the search without one. -/
theorem C80_limit {A : Args} (S : Searchable A) (T : Tests) (hl : A.limit ≠ 0) (hl2 : A.limit ≠ 2 ^ 64 - 1) :
    ∃ L, searchC { A with limit := 0 } T = .ok L ∧ searchC A T = .ok (L.take A.limit) := by
  have S0 : Searchable { A with limit := 0 } :=
    ⟨S.pos, S.len, S.nonempty, S.wf, S.even, S.two, S.hunts, S.start, S.limited⟩
  obtain ⟨L, ⟨h1, h2⟩, h3⟩ := search_all (S.good T) S.start
  obtain ⟨L', ⟨h1', h2'⟩, h3'⟩ := search_all (S0.good T) S.start
  have e' : cut { A with limit := 0 } 0 L' = L' := by
    rw [cut, if_neg]; rintro ⟨h, -⟩; exact h rfl
  rw [e'] at h3'
  refine ⟨L', h3', ?_⟩
  rw [h3, cut, if_pos ⟨hl, hl2⟩, Nat.sub_zero]
  congr 2
  have hmem : ∀ x, x ∈ L ↔ x ∈ L' := by
    intro x
    rw [h1, h1']
    exact Iff.rfl
  have irr := before_irrefl (allowed := A.allowed) (fun cs h => (S.nonempty cs h).2)
  have nd : L.Nodup := h2.imp (by rintro a b hab rfl; exact irr a hab)
  have nd' : L'.Nodup := h2'.imp (by rintro a b hab rfl; exact irr a hab)
  have hperm : L.Perm L' := (List.perm_ext_iff_of_nodup nd nd').2 hmem
  exact lists_unique (fun cs h => (S.nonempty cs h).2) hperm h2 h2'

end Ringing
