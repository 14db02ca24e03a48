import Verif.Lemmas.MethSearchStart
import Verif.Props.MethSearchEx

/-! C90: --start-at. -/
namespace Ringing
open Spec Row MethodUtils MethSearch

/-- A method with which a search can be started: not longer than a lead, none of its changes in a position
that is determined by the symmetry, each of them may be rung after those before it, and the changes to
choose from are in the order of `compare_changes` (mask.cpp:853). -/
structure MethSearch.StartAt (A : Args) (T : Tests) (start : List Change) : Prop where
  len : start.length ≤ A.leadLen
  bells : 0 < A.bells ∧ A.bells ≤ 33
  order : ∀ k, (A.allowed.getD k []).Pairwise fun a b => compareChangesC a b = .ok true
  chosen : ∀ k f, start[k]? = some f →
    (if A.floatingSym then none else copied A.sym A.skewsym A.doubsym A.leadLen k) = none ∧
    MayRing A T (start.take k) f ∧ T.rowOk (start.take (k + 1)) = true

theorem MethSearch.StartAt.ok {A : Args} {T : Tests} {start : List Change} (H : StartAt A T start) : StartOk A T start :=
  ⟨H.len, H.bells.1, H.order, H.bells.2, H.chosen⟩

theorem MethSearch.lexBefore_of_prefix {start : List Change} (hw : ∀ c ∈ start, compareChangesC c c = .ok false) :
    ∀ y, start <+: y → lexBeforeC y start = .ok false := by
  induction start with
  | nil => intro y _; cases y <;> rfl
  | cons b bs ih =>
    intro y hy
    obtain ⟨r, rfl⟩ := hy
    rw [List.cons_append, lexBeforeC, hw b (by simp)]
    simp only [Out.ok_bind, Bool.false_eq_true, if_false]
    exact ih (fun c hc => hw c (by simp [hc])) _ (List.prefix_append _ _)

/-- The order of the search is that of `lexicographical_compare`. -/
theorem MethSearch.lexBefore_of_diff {a b : Change} : ∀ (k : Nat) (x y : List Change),
    (∀ c ∈ x.take k, compareChangesC c c = .ok false) → x.take k = y.take k → x[k]? = some a → y[k]? = some b →
    compareChangesC a b = .ok true → compareChangesC b a = .ok false →
    lexBeforeC x y = .ok true ∧ lexBeforeC y x = .ok false := by
  intro k
  induction k with
  | zero =>
    intro x y _ _ hx hy h1 h2
    cases x with
    | nil => simp at hx
    | cons a' x =>
      cases y with
      | nil => simp at hy
      | cons b' y =>
        simp only [List.getElem?_cons_zero, Option.some.injEq] at hx hy
        subst hx; subst hy
        constructor
        · rw [lexBeforeC, h1]; rfl
        · rw [lexBeforeC, h2, h1]; rfl
  | succ k ih =>
    intro x y hw ht hx hy h1 h2
    cases x with
    | nil => simp at hx
    | cons a' x =>
      cases y with
      | nil => simp at hy
      | cons b' y =>
        simp only [List.take_succ_cons, List.cons.injEq, List.getElem?_cons_succ] at ht hx hy hw
        obtain ⟨rfl, ht⟩ := ht
        obtain ⟨r1, r2⟩ := ih x y (fun c hc => hw c (by simp [hc])) ht hx hy h1 h2
        have e := hw a' (by simp)
        constructor
        · rw [lexBeforeC, e]; simpa using r1
        · rw [lexBeforeC, e]; simpa using r2

theorem MethSearch.StartAt.compare {A : Args} {T : Tests} {start : List Change} (G : Good A T) (H : StartAt A T start) :
    (∀ x, Before A.allowed x start → lexBeforeC x start = .ok true) ∧
    (∀ y, start <+: y ∨ Before A.allowed start y → lexBeforeC y start = .ok false) := by
  have hmem : ∀ c ∈ start, IsChange c.n c.swaps ∧ c.n = A.bells := by
    intro c hc
    obtain ⟨k, hk⟩ := List.getElem?_of_mem hc
    exact good_wf G (H.chosen k c hk).2.1.1
  have hself : ∀ c ∈ start, compareChangesC c c = .ok false := fun c hc => H.ok.irrefl (hmem c hc)
  have hcmp : ∀ k a b, [a, b].Sublist (A.allowed.getD k []) → compareChangesC a b = .ok true ∧ compareChangesC b a = .ok false := by
    intro k a b h
    have h1 : compareChangesC a b = .ok true := by simpa using (H.order k).sublist h
    exact ⟨h1, H.ok.asymm (good_wf G (h.subset (by simp))) (good_wf G (h.subset (by simp))) h1⟩
  constructor
  · rintro x ⟨k, a, b, h1, h2, h3, h4⟩
    obtain ⟨c1, c2⟩ := hcmp k a b h4
    refine (lexBefore_of_diff k x start (fun c hc => hself c ?_) h1 h2 h3 c1 c2).1
    rw [h1] at hc
    exact List.mem_of_mem_take hc
  · rintro y (h | ⟨k, a, b, h1, h2, h3, h4⟩)
    · exact lexBefore_of_prefix hself y h
    · obtain ⟨c1, c2⟩ := hcmp k a b h4
      exact (lexBefore_of_diff k start y (fun c hc => hself c (List.mem_of_mem_take hc)) h1 h2 h3 c1 c2).2

theorem MethSearch.search_start {A : Args} {T : Tests} (G : Good A T) {start : List Change} (H : StartAt A T start) :
    ∃ X L, Lists A T [] (X ++ L) ∧ searchC { A with start := start } T = .ok (cut A 0 L) ∧
      (∀ x ∈ X, Before A.allowed x start) ∧ ∀ y ∈ L, start <+: y ∨ Before A.allowed start y := by
  have G' : Good { A with start := start } T := ⟨G.pos, G.len, G.nonempty, G.wf, G.even, G.two, G.offset, G.total⟩
  have H' : StartOk { A with start := start } T ([] ++ start) := ⟨H.len, H.bells.1, H.order, H.bells.2, H.chosen⟩
  obtain ⟨X, L, h1, h2, h3, h4⟩ := start_all G' start [] H' (by intro c hc; simp at hc)
  refine ⟨X, L, h1, ?_, h3, h4⟩
  unfold searchC
  have e : (⟨[], 0, start, 0, []⟩ : St) = mk { A with start := start } [] ⟨[], 0, start, 0, []⟩ := by
    unfold mk; simp
  show (general _ T _ ⟨[], 0, start, 0, []⟩ >>= _) = _
  rw [e, h2 _ _ rfl (by intro h; simp) (by intro h; exact h.1 h.2.2.symm) (by simp)]
  simp only [Out.ok_bind, Out.pure_eq]
  rw [if_pos (by rfl)]
  simp [res, mk, clear, cut, Limited]

theorem MethSearch.found_start {A : Args} {T : Tests} {start y : List Change} :
    Found A (startTests T start) [] y ↔ Found A T [] y ∧ lexBeforeC y start = .ok false := by
  have : (startTests T start).accept y = true ↔ lexBeforeC y start = .ok false ∧ T.accept y = true := by
    simp only [startTests]
    generalize lexBeforeC y start = r
    cases r with
    | ok b => cases b <;> simp
    | _ => simp
  constructor
  · rintro ⟨h1, h2, h3, h4⟩
    exact ⟨⟨h1, h2, h3, (this.1 h4).2⟩, (this.1 h4).1⟩
  · rintro ⟨⟨h1, h2, h3, h4⟩, h5⟩
    exact ⟨h1, h2, h3, this.2 ⟨h5, h4⟩⟩

theorem MethSearch.search_start_tests {A : Args} {T : Tests} (G : Good A T) {start : List Change} (H : StartAt A T start) :
    ∃ L, Lists A (startTests T start) [] L ∧
      searchC { A with start := start } (startTests T start) = .ok (cut A 0 L) := by
  have G2 : Good A (startTests T start) := ⟨G.pos, G.len, G.nonempty, G.wf, G.even, G.two, G.offset, G.total⟩
  have H2 : StartAt A (startTests T start) start := ⟨H.len, H.bells, H.order, H.chosen⟩
  obtain ⟨X, L, ⟨m2, s2⟩, r2, x2, -⟩ := search_start G2 H2
  have hX : X = [] := by
    cases X with
    | nil => rfl
    | cons x X =>
      exfalso
      have := (found_start.1 ((m2 x).1 (by simp))).2
      rw [(H.compare G).1 x (x2 x (by simp))] at this
      cases this
  subst hX
  exact ⟨L, ⟨m2, s2⟩, r2⟩

/-- C90: with --start-at the search gives the methods of the whole search from that method on: those before it
are left out, all others are found, in the same order. -/
theorem C90_start {A : Args} (S : Searchable A) (T : Tests) (hl : A.limit = 0) {start : List Change} (H : StartAt A T start) :
    ∃ X L, searchC A T = .ok (X ++ L) ∧ searchC { A with start := start } (startTests T start) = .ok L ∧
      (∀ x ∈ X, Before A.allowed x start) ∧ ∀ y ∈ L, start <+: y ∨ Before A.allowed start y := by
  have hcut : ∀ L, cut A 0 L = L := by
    intro L
    rw [cut, if_neg]; rintro ⟨h, -⟩; exact h hl
  obtain ⟨L0, ⟨m0, s0⟩, r0⟩ := search_all (S.good T) S.start
  obtain ⟨X, L, ⟨m1, s1⟩, -, x1, y1⟩ := search_start (S.good T) H
  obtain ⟨L2, ⟨m2, s2⟩, r2⟩ := search_start_tests (S.good T) H
  rw [hcut] at r0 r2
  obtain ⟨lb, ln⟩ := H.compare (S.good T)
  have irr := before_irrefl (allowed := A.allowed) (fun cs h => (S.nonempty cs h).2)
  have nod : ∀ {L : List (List Change)}, L.Pairwise (Before A.allowed) → L.Nodup := by
    intro L h
    exact h.imp (by rintro a b hab rfl; exact irr a hab)
  have e0 : L0 = X ++ L := by
    refine lists_unique (fun cs h => (S.nonempty cs h).2) ((List.perm_ext_iff_of_nodup (nod s0) (nod s1)).2 ?_) s0 s1
    intro y; rw [m0, m1]
  have sL : L.Pairwise (Before A.allowed) := s1.sublist (List.sublist_append_right _ _)
  have e2 : L2 = L := by
    refine lists_unique (fun cs h => (S.nonempty cs h).2) ((List.perm_ext_iff_of_nodup (nod s2) (nod sL)).2 ?_) s2 sL
    intro y
    rw [m2, found_start, ← m1]
    constructor
    · rintro ⟨h1, h2⟩
      rcases List.mem_append.1 h1 with h | h
      · rw [lb y (x1 y h)] at h2; cases h2
      · exact h
    · intro h
      exact ⟨by simp [h], ln y (y1 y h)⟩
  exact ⟨X, L, by rw [r0, e0], by rw [r2, e2], x1, y1⟩

/-- C90: a limit gives the first of these methods. -/
theorem C90_limit {A : Args} (S : Searchable A) (T : Tests) (hl : A.limit ≠ 0) (hl2 : A.limit ≠ 2 ^ 64 - 1)
    {start : List Change} (H : StartAt A T start) :
    ∃ L, searchC { A with start := start, limit := 0 } (startTests T start) = .ok L ∧
      searchC { A with start := start } (startTests T start) = .ok (L.take A.limit) := by
  have S0 : Searchable { A with limit := 0 } :=
    ⟨S.pos, S.len, S.nonempty, S.wf, S.even, S.two, S.hunts, S.start, S.limited⟩
  have H0 : StartAt { A with limit := 0 } T start := ⟨H.len, H.bells, H.order, H.chosen⟩
  obtain ⟨L, ⟨m1, s1⟩, r1⟩ := search_start_tests (S.good T) H
  obtain ⟨L', ⟨m2, s2⟩, r2⟩ := search_start_tests (S0.good T) H0
  have e' : cut { A with limit := 0 } 0 L' = L' := by
    rw [cut, if_neg]; rintro ⟨h, -⟩; exact h rfl
  rw [e'] at r2
  refine ⟨L', r2, ?_⟩
  rw [r1, cut, if_pos ⟨hl, hl2⟩, Nat.sub_zero]
  congr 2
  have irr := before_irrefl (allowed := A.allowed) (fun cs h => (S.nonempty cs h).2)
  have nod : ∀ {L : List (List Change)}, L.Pairwise (Before A.allowed) → L.Nodup := by
    intro L h
    exact h.imp (by rintro a b hab rfl; exact irr a hab)
  refine lists_unique (fun cs h => (S.nonempty cs h).2) ((List.perm_ext_iff_of_nodup (nod s1) (nod s2)).2 ?_) s1 s2
  intro y
  rw [m1, m2]
  exact Iff.rfl

/-- A start whose changes are all in positions that are chosen: only the first two of a symmetric lead. -/
def MethSearch.exStart : List Change := [c34, c12]

theorem MethSearch.exStart_ok : StartAt exArgs noTests exStart where
  len := by decide
  bells := by decide
  order := by
    intro k
    rcases k with _ | _ | _ | _ | k
    · show List.Pairwise _ [cX, c34]; decide +kernel
    · show List.Pairwise _ [c12]; decide +kernel
    · show List.Pairwise _ [cX, c34]; decide +kernel
    · show List.Pairwise _ [c12, c14]; decide +kernel
    · show List.Pairwise _ []; exact List.Pairwise.nil
  chosen := by
    intro k f hk
    have hp : exArgs.prefixCh = [] := rfl
    rcases k with _ | _ | k
    · cases hk
      exact ⟨by decide, ⟨by decide, by simp [hp], by decide +kernel⟩, rfl⟩
    · cases hk
      exact ⟨by decide, ⟨by decide, by simp [hp], by decide +kernel⟩, rfl⟩
    · cases hk

/-- C90: the hypotheses are met, two of the four methods are left out. -/
example : searchC { exArgs with start := exStart } (startTests noTests exStart) = .ok [[c34, c12, c34, c12], [c34, c12, c34, c14]] := by
  decide +kernel

example : ∃ X L, searchC exArgs noTests = .ok (X ++ L) ∧
    searchC { exArgs with start := exStart } (startTests noTests exStart) = .ok L ∧
    (∀ x ∈ X, Before exArgs.allowed x exStart) ∧ ∀ y ∈ L, exStart <+: y ∨ Before exArgs.allowed exStart y :=
  C90_start exArgs_ok noTests rfl exStart_ok

/-- C90, a finding: if a change of the method given is not allowed, the changes after it are used up elsewhere in
the search: with X X 34 14 where only 12 is allowed after X, the methods X 12 X 12 and X 12 X 14 come after it
and are lost. -/
theorem C90_start_not_allowed :
    (∃ L, searchC { exArgs with sym := false } noTests = .ok L ∧ [cX, c12, cX, c12] ∈ L) ∧
    lexBeforeC [cX, c12, cX, c12] [cX, cX, c34, c14] = .ok false ∧
    (∃ L, searchC { exArgs with sym := false, start := [cX, cX, c34, c14] } (startTests noTests [cX, cX, c34, c14]) = .ok L ∧
      [cX, c12, cX, c12] ∉ L) :=
  ⟨⟨_, by rfl, by decide +kernel⟩, by decide +kernel, ⟨_, by rfl, by decide +kernel⟩⟩

end Ringing
