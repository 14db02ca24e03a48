import Verif.Props.MethSearch
import Verif.Model.MethSearchStart
import Verif.Lemmas.MethodUtils3
import Verif.Lemmas.RowOrder

namespace Ringing
open Spec Row MethodUtils
namespace MethSearch

/-- The state without what is left of the start. -/
def clear (s : St) : St := { s with startmeth := [] }

/-- The changes before the start are left out. -/
theorem tryAll_skip {A : Args} {T : Tests} {rec : St → Out St} {f : Change} (hf : f.n ≠ 0) :
    ∀ (pre cs : List Change) (s : St), (∀ c ∈ pre, compareChangesC c f = .ok true) →
    tryAll A T rec (some f) (pre ++ cs) s = tryAll A T rec (some f) cs s := by
  intro pre
  induction pre with
  | nil => intro cs s _; rfl
  | cons c pre ih =>
    intro cs s h
    rw [List.cons_append, tryAll]
    simp only [beforeStart, if_pos hf, h c (by simp), Out.ok_bind, if_true]
    exact ih cs s (fun c hc => h c (by simp [hc]))

/-- From the change of the start on all changes are tried. -/
theorem tryAll_none {A : Args} {T : Tests} {rec : St → Out St} {f : Change} (hf : f.n ≠ 0) :
    ∀ (cs : List Change) (s : St), (∀ c ∈ cs, compareChangesC c f = .ok false) →
    tryAll A T rec (some f) cs s = tryAll A T rec none cs s := by
  intro cs
  induction cs with
  | nil => intro s _; rw [tryAll, tryAll]
  | cons c cs ih =>
    intro s h
    have ih' := fun s => ih s (fun c hc => h c (by simp [hc]))
    rw [tryAll, tryAll]
    simp only [beforeStart, if_pos hf, h c (by simp), Out.ok_bind, Bool.false_eq_true, if_false]
    simp only [ih']

/-- The search from the start on. -/
def StartRuns (A : Args) (T : Tests) (m rest : List Change) (L : List (List Change)) : Prop :=
  ∀ s fuel, s.startmeth = rest → CountOk A s → ¬ (A.limit ≠ 0 ∧ A.limit ≠ 2 ^ 64 - 1 ∧ s.count = A.limit) →
    A.leadLen - m.length < fuel →
    general A T fuel (mk A m s) = .ok (res A (mk A m (clear s)) L)

/-- The leads that begin with `m` are those before the start and those from it on, and the search gives
the latter. -/
def StartDone (A : Args) (T : Tests) (m rest : List Change) : Prop :=
  ∃ X L, Lists A T m (X ++ L) ∧ StartRuns A T m rest L ∧
    (∀ x ∈ X, Before A.allowed x (m ++ rest)) ∧ ∀ y ∈ L, (m ++ rest) <+: y ∨ Before A.allowed (m ++ rest) y

theorem split_mem {α : Type} {a : α} {l : List α} (h : a ∈ l) : ∃ p q, l = p ++ a :: q := List.append_of_mem h

/-- The hypotheses about the start. -/
structure StartOk (A : Args) (T : Tests) (start : List Change) : Prop where
  len : start.length ≤ A.leadLen
  bells : 0 < A.bells
  order : ∀ k, (A.allowed.getD k []).Pairwise fun a b => compareChangesC a b = .ok true
  small : A.bells ≤ 33
  chosen : ∀ k f, start[k]? = some f → copiedA A k = none ∧ MayRing A T (start.take k) f ∧
    T.rowOk (start.take (k + 1)) = true

theorem StartOk.compare {A : Args} {T : Tests} {start : List Change} (H : StartOk A T start) {a b : Change}
    (ha : IsChange a.n a.swaps ∧ a.n = A.bells) (hb : IsChange b.n b.swaps ∧ b.n = A.bells) :
    compareChangesC a b = .ok (Row.lt a.places b.places) :=
  compareChanges_eq ha.1 hb.1 (by rw [ha.2]; exact H.small) (by rw [hb.2]; exact H.small)

theorem StartOk.irrefl {A : Args} {T : Tests} {start : List Change} (H : StartOk A T start) {a : Change}
    (ha : IsChange a.n a.swaps ∧ a.n = A.bells) : compareChangesC a a = .ok false := by
  rw [H.compare ha ha, lt_irrefl']

theorem StartOk.asymm {A : Args} {T : Tests} {start : List Change} (H : StartOk A T start) {a b : Change}
    (ha : IsChange a.n a.swaps ∧ a.n = A.bells) (hb : IsChange b.n b.swaps ∧ b.n = A.bells)
    (h : compareChangesC a b = .ok true) : compareChangesC b a = .ok false := by
  rw [H.compare ha hb] at h
  rw [H.compare hb ha, lt_asymm' (Out.ok.inj h)]

theorem good_wf {A : Args} {T : Tests} (G : Good A T) {k : Nat} {c : Change} (h : c ∈ A.allowed.getD k []) :
    IsChange c.n c.swaps ∧ c.n = A.bells := by
  by_cases hk : k < A.allowed.length
  · have hg : A.allowed.getD k [] = A.allowed[k] := by simp [List.getD, hk]
    rw [hg] at h
    exact G.wf _ (List.getElem_mem hk) _ h
  · rw [List.getD, List.getElem?_eq_none (by omega)] at h
    simp at h

/-- Where a change of the start is chosen, the recursion chooses one. -/
theorem general_chosen {A : Args} {T : Tests} (G : Good A T) {m : List Change} {s : St} {fuel : Nat}
    (hlt : m.length < A.leadLen) (hv : ∀ k, k ≤ m.length → copiedA A k = none)
    (hl : ¬ (A.limit ≠ 0 ∧ A.limit ≠ 2 ^ 64 - 1 ∧ s.count = A.limit)) :
    general A T (fuel + 1) (mk A m s) = newMidlead A T (general A T fuel) (mk A m s) ∧
    (A.floatingSym = false → A.doubsym = true → m.length < A.leadLen / 2) := by
  have h0 := hv m.length le_rfl
  rw [general_mk hl G.offset, if_neg (by omega)]
  by_cases hf : A.floatingSym = true
  · rw [if_pos hf]
    exact ⟨rfl, fun h => by simp [hf] at h⟩
  have hff : A.floatingSym = false := by simpa using hf
  have hcop : ∀ k, copiedA A k = copied A.sym A.skewsym A.doubsym A.leadLen k := by
    intro k; simp [copiedA, hff]
  have heven := G.even
  have htwo := G.two
  rw [hcop, copied] at h0
  split at h0
  · cases h0
  rename_i n1
  have c1 : ¬ (A.skewsym = true ∧ m.length = A.leadLen / 4 ∧ A.leadLen > 4) := by
    rintro ⟨a, b, c⟩
    have := heven (Or.inr (Or.inl a))
    exact n1 ⟨a, c, by omega, by omega⟩
  have c2 : ¬ (A.doubsym = true ∧ m.length = A.leadLen / 2) := by
    rintro ⟨a, b⟩
    rw [if_pos a, if_pos (by omega)] at h0
    cases h0
  have c2' : A.doubsym = true → m.length < A.leadLen / 2 := by
    intro a
    by_contra hc
    rw [if_pos a, if_pos (by omega)] at h0
    cases h0
  have c3 : ¬ (A.sym = true ∧ m.length = A.leadLen / 2 ∧ A.leadLen > 2) := by
    rintro ⟨a, b, c⟩
    have ev := heven (Or.inl a)
    by_cases hd : A.doubsym = true
    · exact c2 ⟨hd, b⟩
    · by_cases hs : A.skewsym = true
      · exact hd (htwo (Or.inl ⟨a, hs⟩)).2.2
      · rw [if_neg hd, if_neg hs, if_pos ⟨a, c, by omega, by omega⟩] at h0
        cases h0
  have c4 : ¬ (A.skewsym = true ∧ m.length = 3 * A.leadLen / 4 ∧ A.leadLen > 4) := by
    rintro ⟨a, b, c⟩
    by_cases hd : A.doubsym = true
    · have := c2' hd; omega
    · rw [if_neg hd, if_pos a, if_pos ⟨c, by omega⟩] at h0
      cases h0
  rw [if_neg hf, if_neg c1, if_neg c2, if_neg c3, if_neg c4]
  exact ⟨rfl, fun _ => c2'⟩

/-- The depths before the first change that is determined are reached. -/
theorem visited_chosen {A : Args} {T : Tests} (G : Good A T) {d : Nat} (hd : d ≤ A.leadLen)
    (hv : ∀ k, k < d → copiedA A k = none) : Visited A d := by
  refine ⟨hd, fun hff => ?_⟩
  have hcop : ∀ k, copiedA A k = copied A.sym A.skewsym A.doubsym A.leadLen k := by
    intro k; simp [copiedA, hff]
  have heven := G.even
  have htwo := G.two
  refine ⟨?_, ?_, ?_, ?_⟩
  · intro a b
    have ev := heven (Or.inr (Or.inl a))
    by_contra hc
    have := hv (A.leadLen / 4) (by omega)
    rw [hcop, copied, if_pos ⟨a, b, le_rfl, by omega⟩] at this
    cases this
  · intro a
    by_contra hc
    have := hv (A.leadLen / 2) (by omega)
    rw [hcop, copied, if_neg (by omega), if_pos a, if_pos le_rfl] at this
    cases this
  · intro a b c
    by_contra hc
    have := hv (3 * A.leadLen / 4) (by omega)
    rw [hcop, copied, if_neg (by omega), if_neg (by simp [b]), if_pos a, if_pos ⟨c, le_rfl⟩] at this
    cases this
  · intro a b c e
    by_contra hc
    have := hv (A.leadLen / 2) (by omega)
    rw [hcop, copied, if_neg (by simp [b]), if_neg (by simp [c]), if_neg (by simp [b]), if_pos ⟨a, e, le_rfl, by omega⟩] at this
    cases this

theorem start_step {A : Args} {T : Tests} (G : Good A T) {m rest : List Change} {f : Change}
    (H : StartOk A T (m ++ f :: rest)) (hok : Ok A m) (ih : StartDone A T (m ++ [f]) rest) :
    StartDone A T m (f :: rest) := by
  classical
  have hlen := H.len
  simp only [List.length_append, List.length_cons] at hlen
  have hlt : m.length < A.leadLen := by omega
  have hv : ∀ k, k ≤ m.length → copiedA A k = none := by
    intro k hk
    exact (H.chosen k _ (List.getElem?_eq_getElem (by simp; omega))).1
  obtain ⟨-, ⟨hmem, hpre, htest⟩, hrow⟩ := H.chosen m.length f (by simp)
  rw [List.take_left] at hmem hpre htest
  rw [List.take_append, List.take_of_length_le (by omega), Nat.add_sub_cancel_left, List.take_succ_cons, List.take_zero] at hrow
  have hoff : offPrefix A m f = false := by
    unfold offPrefix
    cases hp : A.prefixCh[m.length]? with
    | none => rfl
    | some p => simp [hpre p hp]
  have hch : chosen A T m f = true := chosen_iff.2 ⟨⟨hoff, htest⟩, hrow⟩
  obtain ⟨pre, post, hall⟩ := split_mem hmem
  have hord := H.order m.length
  rw [hall, List.pairwise_append, List.pairwise_cons] at hord
  obtain ⟨-, ⟨o1, -⟩, o2⟩ := hord
  have hwf : ∀ c ∈ A.allowed.getD m.length [], IsChange c.n c.swaps ∧ c.n = A.bells := fun c hc => good_wf G hc
  have hfw := hwf f hmem
  have hf0 : f.n ≠ 0 := by rw [hfw.2]; have := H.bells; omega
  have hskip : ∀ c ∈ pre, compareChangesC c f = .ok true := fun c hc => o2 c hc f (by simp)
  have hnot : ∀ c ∈ f :: post, compareChangesC c f = .ok false := by
    intro c hc
    rcases List.mem_cons.1 hc with rfl | hc
    · exact H.irrefl hfw
    · exact H.asymm hfw (hwf c (by rw [hall]; simp [hc])) (o1 c hc)
  have hvis : Visited A (m.length + 1) := visited_chosen G (by omega) (fun k hk => hv k (by omega))
  have hdone : ∀ c ∈ A.allowed.getD m.length [], Done A T (m ++ [c]) := by
    intro c hc
    refine done_all G A.leadLen (m ++ [c]) (by omega) (ok_append hok ?_) (by simpa using hvis)
    intro d hd
    obtain rfl := List.mem_singleton.1 hd
    exact hwf _ hc
  obtain ⟨X, Lr, hlist, hrun, hX, hLr⟩ := ih
  have hnf : ∀ c ∈ pre ++ post, c ≠ f := by
    rintro c hc rfl
    rcases List.mem_append.1 hc with hc | hc
    · have := hskip _ hc; rw [H.irrefl hfw] at this; cases this
    · have := o1 _ hc; rw [H.irrefl hfw] at this; cases this
  let Lf : Change → List (List Change) := fun c =>
    if c = f then X ++ Lr else if h : c ∈ A.allowed.getD m.length [] then (hdone c h).choose else []
  have hLff : Lf f = X ++ Lr := if_pos rfl
  have hLf : ∀ c ∈ A.allowed.getD m.length [], c ≠ f → Lists A T (m ++ [c]) (Lf c) ∧ Runs A T (m ++ [c]) (Lf c) := by
    intro c hc hne
    have : Lf c = (hdone c hc).choose := by
      show (if c = f then _ else _) = _
      rw [if_neg hne, dif_pos hc]
    rw [this]
    exact (hdone c hc).choose_spec
  have hdd := fun hff hd => (general_chosen (T := T) (s := ⟨[], 0, [], A.limit + 1, []⟩) (fuel := 0) G hlt hv (by simp)).2 hff hd
  have hlists := lists_free (T := T) hlt (hv m.length le_rfl) hdd (chosen A T m) (fun c _ => chosen_iff) (Lf := Lf) (by
    intro c hc _
    by_cases hcf : c = f
    · subst hcf; rw [hLff]; exact hlist
    · exact (hLf c hc hcf).1)
  rw [hall, List.filter_append, List.filter_cons_of_pos hch, List.flatMap_append, List.flatMap_cons, hLff] at hlists
  refine ⟨(pre.filter (chosen A T m)).flatMap Lf ++ X, Lr ++ (post.filter (chosen A T m)).flatMap Lf, ?_, ?_, ?_, ?_⟩
  · simpa only [List.append_assoc] using hlists
  · intro s fuel hs hc hl hfu
    obtain ⟨fu, rfl⟩ : ∃ fu, fuel = fu + 1 := ⟨fuel - 1, by omega⟩
    rw [(general_chosen G hlt hv hl).1]
    have hal : m.length < A.allowed.length := by rw [G.len]; exact hlt
    have hg : A.allowed[m.length]? = some (A.allowed.getD m.length []) := by
      rw [List.getElem?_eq_getElem hal]; simp [List.getD, hal]
    have hnm : newMidlead A T (general A T fu) (mk A m s) =
        tryAll A T (general A T fu) (some f) (pre ++ f :: post) (mk A m { s with startmeth := rest }) := by
      unfold newMidlead
      have em : (mk A m s).m = m := rfl
      have es : (mk A m s).startmeth = f :: rest := hs
      simp only [em, es]
      rw [if_pos (Or.inr G.pos), hg, hall]
      cases pre <;> rfl
    rw [hnm, tryAll_skip hf0 _ _ _ hskip, tryAll_none hf0 _ _ hnot, tryAll]
    simp only [beforeStart, Out.ok_bind, Bool.false_eq_true, if_false]
    have em : (mk A m { s with startmeth := rest }).m = m := rfl
    rw [em, if_neg (by simp [hoff]), htest]
    simp only [Out.ok_bind, if_true]
    have hr := hrun { s with startmeth := rest } fu rfl hc hl (by simp; omega)
    have hcall : callRecurse A T (general A T fu) f (mk A m { s with startmeth := rest }) =
        .ok (res A (mk A m (clear s)) Lr) := by
      unfold callRecurse
      rw [push_mk, if_pos hrow]
      simp only [if_true, hr, Out.ok_bind, Out.pure_eq, ← mk_res, pop_mk]
      rfl
    rw [hcall]
    simp only [Out.ok_bind]
    rw [← mk_res, tryAll_mk (Lf := Lf) (m := m) (fuel := fu) (by omega) post (res A (clear s) Lr) rfl (res_countOk hc _)
      (fun c hc => G.total m c hok (hwf c (by rw [hall]; simp [hc])).1 (hwf c (by rw [hall]; simp [hc])).2)
      (fun c hc _ => (hLf c (by rw [hall]; simp [hc]) (hnf c (by simp [hc]))).2), mk_res, res_res]
  · intro x hx
    rcases List.mem_append.1 hx with hx | hx
    · obtain ⟨c, hc, hx⟩ := List.mem_flatMap.1 hx
      have hc := (List.mem_filter.1 hc).1
      obtain ⟨⟨r, rfl⟩, -⟩ := ((hLf c (by rw [hall]; simp [hc]) (hnf c (by simp [hc]))).1.1 x).1 hx
      refine ⟨m.length, c, f, by simp, by simp, by simp, ?_⟩
      rw [hall]
      exact List.Sublist.append (List.singleton_sublist.2 hc) (List.singleton_sublist.2 (by simp))
    · simpa using hX x hx
  · intro y hy
    rcases List.mem_append.1 hy with hy | hy
    · simpa using hLr y hy
    · obtain ⟨c, hc, hy⟩ := List.mem_flatMap.1 hy
      have hc := (List.mem_filter.1 hc).1
      obtain ⟨⟨r, rfl⟩, -⟩ := ((hLf c (by rw [hall]; simp [hc]) (hnf c (by simp [hc]))).1.1 y).1 hy
      refine Or.inr ⟨m.length, f, c, by simp, by simp, by simp, ?_⟩
      rw [hall]
      exact ((List.singleton_sublist.2 hc).cons_cons f).trans (List.sublist_append_right _ _)

theorem start_all {A : Args} {T : Tests} (G : Good A T) : ∀ (rest m : List Change), StartOk A T (m ++ rest) → Ok A m →
    StartDone A T m rest := by
  intro rest
  induction rest with
  | nil =>
    intro m H hok
    rw [List.append_nil] at H
    have hv : Visited A m.length := visited_chosen G H.len (fun k hk => (H.chosen k _ (List.getElem?_eq_getElem hk)).1)
    obtain ⟨L, h1, h2⟩ := done_all G A.leadLen m (by omega) hok hv
    refine ⟨[], L, h1, ?_, by simp, fun y hy => Or.inl ?_⟩
    · intro s fuel hs hc _ hf
      have : clear s = s := by unfold clear; rw [← hs]
      rw [this]
      exact h2 s fuel hs hc hf
    · rw [List.append_nil]
      exact ((h1.1 y).1 hy).1
  | cons f rest ih =>
    intro m H hok
    refine start_step G H hok (ih (m ++ [f]) (by simpa using H) (ok_append hok ?_))
    intro d hd
    obtain rfl := List.mem_singleton.1 hd
    have := (H.chosen m.length d (by simp)).2.1.1
    exact good_wf G this

end MethSearch
end Ringing
