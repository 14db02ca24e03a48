import Verif.Model.MethSearch
import Verif.Spec.MethSearch
import Verif.Lemmas.OverUnder

namespace Ringing
open Spec Row MethodUtils
namespace MethSearch

/-! ### The state -/

/-- The state with the changes `m` and the start of the division that belongs to them. -/
def mk (A : Args) (m : List Change) (s : St) : St := { s with m := m, divStart := m.length / divLen A * divLen A }

theorem divLen_pos (A : Args) : 0 < divLen A := by unfold divLen; omega

theorem div_succ {a d : Nat} (hd : 0 < d) :
    (if a + 1 = a / d * d + d then a / d * d + d else a / d * d) = (a + 1) / d * d := by
  have h1 := Nat.div_add_mod a d
  have h2 := Nat.mod_lt a hd
  have h3 : d * (a / d) = a / d * d := Nat.mul_comm _ _
  split
  · rename_i h
    have : (a + 1) / d = a / d + 1 := by
      rw [h, show a / d * d + d = (a / d + 1) * d by rw [Nat.add_mul, Nat.one_mul], Nat.mul_div_cancel _ hd]
    rw [this, Nat.add_mul, Nat.one_mul]
  · rename_i h
    have : (a + 1) / d = a / d := by
      rw [show a + 1 = (a % d + 1) + a / d * d by omega, Nat.add_mul_div_right _ _ hd, Nat.div_eq_of_lt (by omega),
        Nat.zero_add]
    rw [this]

theorem div_pred {a d : Nat} (hd : 0 < d) :
    (if (a + 1) / d * d > a then (a + 1) / d * d - d else (a + 1) / d * d) = a / d * d := by
  have e := div_succ (a := a) hd
  have h1 := Nat.div_add_mod a d
  have h2 := Nat.mod_lt a hd
  have h3 : d * (a / d) = a / d * d := Nat.mul_comm _ _
  rw [← e]
  by_cases h : a + 1 = a / d * d + d
  · rw [if_pos h, if_pos (by omega)]; omega
  · rw [if_neg h, if_neg (by omega)]

/-- The state after a refused change. -/
def bad (A : Args) (m : List Change) (c : Change) (s : St) : St :=
  { s with m := m ++ [c], divStart := m.length / divLen A * divLen A }

theorem push_mk (A : Args) (T : Tests) (m : List Change) (s : St) (c : Change) :
    push A T (mk A m s) c = if T.rowOk (m ++ [c]) then (mk A (m ++ [c]) s, true) else (bad A m c s, false) := by
  unfold push mk bad
  simp only [List.length_append, List.length_cons, List.length_nil, Nat.zero_add]
  rw [div_succ (divLen_pos A)]

theorem pop_mk (A : Args) (m : List Change) (s : St) (c : Change) : pop A (mk A (m ++ [c]) s) = mk A m s := by
  unfold pop mk
  simp only [List.dropLast_concat, List.length_append, List.length_cons, List.length_nil, Nat.zero_add]
  rw [div_pred (divLen_pos A)]

theorem pop_bad (A : Args) (m : List Change) (s : St) (c : Change) : pop A (bad A m c s) = mk A m s := by
  unfold pop mk bad
  simp only [List.dropLast_concat]
  rw [if_neg]
  have := Nat.div_mul_le_self m.length (divLen A)
  omega

theorem popTo_mk (A : Args) (m : List Change) (s : St) : ∀ {fuel : Nat} {cs : List Change}, cs.length ≤ fuel →
    popTo A m.length fuel (mk A (m ++ cs) s) = mk A m s := by
  intro fuel
  induction fuel with
  | zero =>
    intro cs h
    obtain rfl := List.length_eq_zero_iff.1 (Nat.le_zero.1 h)
    rw [popTo, List.append_nil]
  | succ f ih =>
    intro cs h
    rw [popTo]
    rcases List.eq_nil_or_concat cs with rfl | ⟨cs', c, rfl⟩
    · rw [if_neg]
      · rw [List.append_nil]
      · show ¬ (m ++ []).length > m.length
        simp
    · simp only [List.concat_eq_append] at h ⊢
      rw [if_pos]
      · rw [← List.append_assoc, pop_mk, ih]
        simp only [List.length_append, List.length_cons, List.length_nil] at h
        omega
      · show (m ++ (cs' ++ [c])).length > m.length
        simp

theorem popTo_bad (A : Args) (m : List Change) (s : St) {fuel : Nat} {cs : List Change} {c : Change} (h : cs.length < fuel) :
    popTo A m.length fuel (bad A (m ++ cs) c s) = mk A m s := by
  obtain ⟨f, rfl⟩ : ∃ f, fuel = f + 1 := ⟨fuel - 1, by omega⟩
  rw [popTo, if_pos, pop_bad, popTo_mk A m s (by omega)]
  show (m ++ cs ++ [c]).length > m.length
  simp

/-! ### Results -/

/-- There is a search limit. -/
def Limited (A : Args) : Prop := A.limit ≠ 0 ∧ A.limit ≠ 2 ^ 64 - 1

instance (A : Args) : Decidable (Limited A) := inferInstanceAs (Decidable (_ ∧ _))

/-- What is left of the methods found when the limit is reached. -/
def cut (A : Args) (count : Nat) (L : List (List Change)) : List (List Change) :=
  if Limited A then L.take (A.limit - count) else L

/-- The state after the methods `L` have been found. -/
def res (A : Args) (s : St) (L : List (List Change)) : St :=
  { s with out := s.out ++ cut A s.count L, count := s.count + (cut A s.count L).length }

/-- The count does not exceed the limit. -/
def CountOk (A : Args) (s : St) : Prop := Limited A → s.count ≤ A.limit

theorem res_nil (A : Args) (s : St) : res A s [] = s := by
  unfold res cut; cases s; simp

theorem res_res (A : Args) (s : St) (L L' : List (List Change)) : res A (res A s L) L' = res A s (L ++ L') := by
  unfold res cut
  by_cases h : Limited A
  · simp only [if_pos h, List.append_assoc, List.length_take]
    rw [List.take_append]
    rw [show A.limit - (s.count + min (A.limit - s.count) L.length) = A.limit - s.count - L.length by omega]
    rw [show s.count + min (A.limit - s.count) L.length + min (A.limit - s.count - L.length) L'.length
      = s.count + min (A.limit - s.count) (L ++ L').length by rw [List.length_append]; omega]
  · simp only [if_neg h, List.append_assoc, List.length_append, Nat.add_assoc]

theorem res_countOk {A : Args} {s : St} (h : CountOk A s) (L : List (List Change)) : CountOk A (res A s L) := by
  intro hl
  have := h hl
  unfold res cut
  simp only [if_pos hl, List.length_take]
  omega

theorem res_full {A : Args} {s : St} (hl : Limited A) (h : s.count = A.limit) (L : List (List Change)) : res A s L = s := by
  unfold res cut
  rw [if_pos hl, h, Nat.sub_self, List.take_zero]
  cases s
  simpa using h.symm

theorem mk_res (A : Args) (m : List Change) (s : St) (L : List (List Change)) : mk A m (res A s L) = res A (mk A m s) L := rfl

theorem bad_res (A : Args) (m : List Change) (c : Change) (s : St) (L : List (List Change)) :
    bad A m c (res A s L) = res A (bad A m c s) L := rfl

theorem mk_mk (A : Args) (m m' : List Change) (s : St) : mk A m (mk A m' s) = mk A m s := rfl

/-! ### What is found -/

/-- The symmetries that determine changes during the search. -/
def copiedA (A : Args) (k : Nat) : Option (Nat × Bool) :=
  if A.floatingSym then none else copied A.sym A.skewsym A.doubsym A.leadLen k

/-- A change may be chosen after the changes `m`. -/
def Free (A : Args) (T : Tests) (m : List Change) (c : Change) : Prop :=
  c ∈ A.allowed.getD m.length [] ∧ offPrefix A m c = false ∧ testsC A T m c = .ok true

/-- The change in position `k` is as the search makes it. -/
def At (A : Args) (T : Tests) (full : List Change) (k : Nat) : Prop :=
  T.rowOk (full.take (k + 1)) = true ∧
  (A.floatingSym = false → A.doubsym = true → A.maxBlows ≠ 0 →
    (k = A.leadLen / 2 → ∀ b, full[A.leadLen / 2 - 1]? = some b → doubleBlows A (full.take (A.leadLen / 2)) b = false) ∧
    (k + 1 = A.leadLen → ∀ c, full[k]? = some c → doubleEndBlows A (full.take k) c = false)) ∧
  match copiedA A k with
  | some (j, r) => ∃ d, full[j]? = some d ∧ full[k]? = some (if r then d.reverse else d)
  | none => ∃ c, full[k]? = some c ∧ Free A T (full.take k) c

/-- The leads found after the changes `m`. -/
def Found (A : Args) (T : Tests) (m full : List Change) : Prop :=
  m <+: full ∧ full.length = A.leadLen ∧ (∀ k, m.length ≤ k → k < A.leadLen → At A T full k) ∧ T.accept full = true

/-- `L` lists the leads found after the changes `m` in order. -/
def Lists (A : Args) (T : Tests) (m : List Change) (L : List (List Change)) : Prop :=
  (∀ full, full ∈ L ↔ Found A T m full) ∧ L.Pairwise (Before A.allowed)

/-- `general_recurse` with the changes `m` finds `L`. -/
def Runs (A : Args) (T : Tests) (m : List Change) (L : List (List Change)) : Prop :=
  ∀ s fuel, s.startmeth = [] → CountOk A s → A.leadLen - m.length < fuel →
    general A T fuel (mk A m s) = .ok (res A (mk A m s) L)

/-- The arguments of a search that can be made: the lead is not empty, there are changes to choose from
in every position, symmetry needs an even lead and any two symmetries imply the third (prog_args.cpp:848-849,
1037-1041), and there is no even number of hunt bells.  The tests give an answer (see `good_total`). -/
structure Good (A : Args) (T : Tests) : Prop where
  pos : A.leadLen ≠ 0
  len : A.allowed.length = A.leadLen
  nonempty : ∀ cs ∈ A.allowed, cs ≠ []
  wf : ∀ cs ∈ A.allowed, ∀ c ∈ cs, IsChange c.n c.swaps ∧ c.n = A.bells
  even : A.sym = true ∨ A.skewsym = true ∨ A.doubsym = true → A.leadLen % 2 = 0
  two : (A.sym = true ∧ A.skewsym = true) ∨ (A.sym = true ∧ A.doubsym = true) ∨ (A.skewsym = true ∧ A.doubsym = true) →
    A.sym = true ∧ A.skewsym = true ∧ A.doubsym = true
  offset : symOffset A = 0
  total : ∀ m ch, (∀ c ∈ m, IsChange c.n c.swaps ∧ c.n = A.bells) → IsChange ch.n ch.swaps → ch.n = A.bells →
    ∃ b, testsC A T m ch = .ok b

/-- The changes are changes on the bells of the search. -/
def Ok (A : Args) (m : List Change) : Prop := ∀ c ∈ m, IsChange c.n c.swaps ∧ c.n = A.bells

theorem lists_leaf {A : Args} {T : Tests} {m : List Change} (h : m.length = A.leadLen) :
    Lists A T m (if T.accept m then [m] else []) := by
  constructor
  · intro full
    unfold Found
    constructor
    · intro hf
      split at hf
      · rename_i ha
        obtain rfl := List.mem_singleton.1 hf
        exact ⟨List.prefix_refl _, h, fun k h1 h2 => by omega, ha⟩
      · cases hf
    · rintro ⟨h1, h2, -, h4⟩
      have : m = full := h1.eq_of_length (by omega)
      subst this
      rw [if_pos h4]; simp
  · split <;> simp

/-- Changes that are determined are pushed one after the other. -/
theorem lists_fold {A : Args} {T : Tests} {m cs : List Change} {L : List (List Change)} {ok : Bool}
    (hn : m.length + cs.length ≤ A.leadLen)
    (hat : ∀ full, m <+: full → full.length = A.leadLen →
      ((∀ k, m.length ≤ k → k < m.length + cs.length → At A T full k) ↔ (m ++ cs) <+: full ∧ ok = true))
    (hL : ok = true → Lists A T (m ++ cs) L) : Lists A T m (if ok then L else []) := by
  have key : ∀ full, Found A T m full ↔ ok = true ∧ Found A T (m ++ cs) full := by
    intro full
    unfold Found
    constructor
    · rintro ⟨h1, h2, h3, h4⟩
      obtain ⟨a, b⟩ := (hat full h1 h2).1 (fun k h5 h6 => h3 k h5 (by omega))
      refine ⟨b, a, h2, fun k h5 h6 => h3 k ?_ h6, h4⟩
      rw [List.length_append] at h5; omega
    · rintro ⟨h0, h1, h2, h3, h4⟩
      have hp : m <+: full := (List.prefix_append m cs).trans h1
      have := (hat full hp h2).2 ⟨h1, h0⟩
      refine ⟨hp, h2, fun k h5 h6 => ?_, h4⟩
      by_cases hk : k < m.length + cs.length
      · exact this k h5 hk
      · exact h3 k (by rw [List.length_append]; omega) h6
  by_cases ho : ok = true
  · subst ho
    rw [if_pos rfl]
    obtain ⟨a, b⟩ := hL rfl
    exact ⟨fun full => by rw [key, a]; simp, b⟩
  · rw [if_neg ho]
    refine ⟨fun full => ?_, List.Pairwise.nil⟩
    rw [key]
    simp [ho]

/-- A change is chosen. -/
theorem lists_free {A : Args} {T : Tests} {m : List Change} {Lf : Change → List (List Change)}
    (hn : m.length < A.leadLen) (hc : copiedA A m.length = none)
    (hd : A.floatingSym = false → A.doubsym = true → m.length < A.leadLen / 2)
    (p : Change → Bool)
    (hp : ∀ c ∈ A.allowed.getD m.length [], p c = true ↔ (offPrefix A m c = false ∧ testsC A T m c = .ok true) ∧ T.rowOk (m ++ [c]) = true)
    (hL : ∀ c ∈ A.allowed.getD m.length [], p c = true → Lists A T (m ++ [c]) (Lf c)) :
    Lists A T m (((A.allowed.getD m.length []).filter p).flatMap Lf) := by
  have hat : ∀ full c, m <+: full → full[m.length]? = some c →
      (At A T full m.length ↔ T.rowOk (m ++ [c]) = true ∧ Free A T m c) := by
    intro full c h1 h2
    have t1 : full.take m.length = m := (List.prefix_iff_eq_take.1 h1).symm
    have t2 : full.take (m.length + 1) = m ++ [c] := by
      rw [List.take_add_one, t1, h2]; rfl
    unfold At
    rw [t1, t2, hc]
    constructor
    · rintro ⟨h3, -, d, h4, h5⟩
      rw [h2] at h4; cases h4
      exact ⟨h3, h5⟩
    · rintro ⟨h3, h4⟩
      refine ⟨h3, fun h5 h6 _ => ?_, c, h2, h4⟩
      have h7 := hd h5 h6
      exact ⟨fun h => by omega, fun h => by omega⟩
  constructor
  · intro full
    rw [List.mem_flatMap]
    constructor
    · rintro ⟨c, hc1, hc2⟩
      rw [List.mem_filter] at hc1
      obtain ⟨h1, h2⟩ := hc1
      obtain ⟨q1, q2⟩ := (hp c h1).1 h2
      obtain ⟨f1, f2, f3, f4⟩ := ((hL c h1 h2).1 full).1 hc2
      have hpre : m <+: full := (List.prefix_append m [c]).trans f1
      refine ⟨hpre, f2, fun k k1 k2 => ?_, f4⟩
      by_cases hk : k = m.length
      · subst hk
        obtain ⟨r, rfl⟩ := f1
        exact (hat _ c hpre (by simp)).2 ⟨q2, h1, q1⟩
      · exact f3 k (by simp; omega) k2
    · rintro ⟨f1, f2, f3, f4⟩
      have hlt : m.length < full.length := by omega
      have hget := List.getElem?_eq_getElem hlt
      obtain ⟨a, b⟩ := (hat full _ f1 hget).1 (f3 _ le_rfl hn)
      refine ⟨full[m.length], List.mem_filter.2 ⟨b.1, (hp _ b.1).2 ⟨b.2, a⟩⟩, ?_⟩
      refine ((hL _ b.1 ((hp _ b.1).2 ⟨b.2, a⟩)).1 full).2 ⟨?_, f2, fun k k1 k2 => f3 k ?_ k2, f4⟩
      · obtain ⟨r, rfl⟩ := f1
        cases r with
        | nil => simp at hlt
        | cons x r => simp
      · simp at k1; omega
  · rw [List.flatMap, List.pairwise_flatten]
    constructor
    · intro l hl
      obtain ⟨c, hc1, rfl⟩ := List.mem_map.1 hl
      rw [List.mem_filter] at hc1
      exact (hL c hc1.1 hc1.2).2
    · rw [List.pairwise_map]
      have : ∀ cs : List Change, cs.Sublist (A.allowed.getD m.length []) → (∀ c ∈ cs, p c = true) →
          cs.Pairwise fun a b => ∀ x ∈ Lf a, ∀ y ∈ Lf b, Before A.allowed x y := by
        intro cs
        induction cs with
        | nil => intro _ _; exact List.Pairwise.nil
        | cons a cs ih =>
          intro h1 h2
          refine List.pairwise_cons.2 ⟨fun b hb x hx y hy => ?_, ih ((List.sublist_cons_self a cs).trans h1) (fun c hc => h2 c (by simp [hc]))⟩
          have ha : a ∈ A.allowed.getD m.length [] := h1.subset (by simp)
          have hb' : b ∈ A.allowed.getD m.length [] := h1.subset (by simp [hb])
          obtain ⟨⟨r, rfl⟩, -⟩ := ((hL a ha (h2 a (by simp))).1 x).1 hx
          obtain ⟨⟨r', rfl⟩, -⟩ := ((hL b hb' (h2 b (by simp [hb]))).1 y).1 hy
          refine ⟨m.length, a, b, by simp, by simp, by simp, ?_⟩
          exact (List.Sublist.cons_cons a (List.singleton_sublist.2 hb)).trans h1
      exact this _ List.filter_sublist (fun c hc => (List.mem_filter.1 hc).2)

end MethSearch
end Ringing
