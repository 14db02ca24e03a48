import Verif.Model.Group
import Verif.Spec.Group
import Verif.Lemmas.Spec
import Verif.Lemmas.RowOrder
import Verif.Lemmas.Extent
import Mathlib.Data.List.Permutation
import Mathlib.Algebra.Group.Subgroup.Pointwise
/- Helper lemmas: rows as permutations, `generate_group`. -/
namespace Ringing
open Spec

/-! ### Rows as permutations -/

theorem bellAt_bij {r : Row} (hr : Row.Valid r) : Function.Bijective (bellAt r) := by
  have : bellAt r = Row.fn r := funext (bellAt_eq_fn r)
  rw [this]
  exact ⟨fun i j e => hr.fn_inj e, fun b => ⟨_, hr.fn_find b⟩⟩

theorem permOf_apply {r : Row} (hr : Row.Valid r) (i : Nat) : permOf r i = Row.fn r i := by
  unfold permOf
  rw [dif_pos (bellAt_bij hr)]
  exact bellAt_eq_fn r i

theorem permOf_mul {r s : Row} (hr : Row.Valid r) (hs : Row.Valid s) :
    permOf (Row.mul r s) = permOf r * permOf s := by
  ext i
  rw [permOf_apply (Row.valid_mul hr hs), Equiv.Perm.mul_apply, permOf_apply hs, permOf_apply hr, Row.fn_mul]

theorem permOf_rounds {n : Nat} (h : n ≤ 256) : permOf (Row.rounds n) = 1 := by
  ext i
  rw [permOf_apply (Row.valid_rounds h)]; simp

theorem permOf_inverse {r : Row} (hr : Row.Valid r) : permOf (Row.inverse r) = (permOf r)⁻¹ := by
  rw [eq_inv_iff_mul_eq_one, ← permOf_mul (Row.valid_inverse hr) hr, Row.inverse_mul hr, permOf_rounds hr.2]

theorem permOf_inj {r s : Row} (hr : Row.Valid r) (hs : Row.Valid s) (hl : r.length = s.length)
    (h : permOf r = permOf s) : r = s := by
  apply Row.ext_fn hl
  intro i _
  rw [← permOf_apply hr, ← permOf_apply hs, h]

/-! ### Sets -/

namespace Group

section sets
variable {α : Type} {lt : α → α → Bool}

/-- A strict total order. -/
structure IsSTO (lt : α → α → Bool) : Prop where
  irrefl : ∀ a, lt a a = false
  trans : ∀ a b c, lt a b = true → lt b c = true → lt a c = true
  total : ∀ a b, lt a b = true ∨ a = b ∨ lt b a = true

theorem rowSTO : IsSTO Row.lt := ⟨lt_irrefl', fun _ _ _ => lt_trans', lt_total'⟩
theorem natSTO : IsSTO (fun a b : Nat => decide (a < b)) :=
  ⟨by simp, by intro a b c; simp; omega, by intro a b; simp; omega⟩

theorem IsSTO.asymm (h : IsSTO lt) {a b : α} (hab : lt a b = true) : lt b a = false := by
  by_contra hc
  have := h.trans _ _ _ hab (by simpa using hc)
  rw [h.irrefl] at this; cases this

abbrev Incr (lt : α → α → Bool) (s : List α) : Prop := s.Pairwise (fun a b => lt a b = true)

theorem Incr.nodup (h : IsSTO lt) {s : List α} (hs : Incr lt s) : s.Nodup :=
  List.Pairwise.imp (fun {a b} hab e => by subst e; rw [h.irrefl] at hab; cases hab) hs

theorem mem_setInsert (h : IsSTO lt) (a : α) : ∀ (s : List α) (x : α),
    x ∈ (setInsert lt a s).1 ↔ x = a ∨ x ∈ s := by
  intro s
  induction s with
  | nil => intro x; simp [setInsert]
  | cons y s ih =>
    intro x
    unfold setInsert
    by_cases h1 : lt y a = true
    · rw [if_pos h1]; simp only [List.mem_cons, ih]; tauto
    · rw [if_neg h1]
      by_cases h2 : lt a y = true
      · rw [if_pos h2]; simp
      · rw [if_neg h2]
        have : y = a := by
          rcases h.total y a with h' | h' | h'
          · exact absurd h' h1
          · exact h'
          · exact absurd h' h2
        subst this; simp

theorem setInsert_incr (h : IsSTO lt) (a : α) : ∀ {s : List α}, Incr lt s → Incr lt (setInsert lt a s).1 := by
  intro s
  induction s with
  | nil => intro _; simp [setInsert]
  | cons y s ih =>
    intro hs
    have hs' := List.pairwise_cons.1 hs
    unfold setInsert
    by_cases h1 : lt y a = true
    · rw [if_pos h1]
      refine List.pairwise_cons.2 ⟨?_, ih hs'.2⟩
      intro x hx
      rcases (mem_setInsert h a s x).1 hx with rfl | hx
      · exact h1
      · exact hs'.1 x hx
    · rw [if_neg h1]
      by_cases h2 : lt a y = true
      · rw [if_pos h2]
        refine List.pairwise_cons.2 ⟨?_, hs⟩
        intro x hx
        rcases List.mem_cons.1 hx with rfl | hx
        · exact h2
        · exact h.trans _ _ _ h2 (hs'.1 x hx)
      · rw [if_neg h2]; exact hs

theorem setInsert_flag (h : IsSTO lt) (a : α) : ∀ {s : List α}, Incr lt s →
    ((setInsert lt a s).2 = true ↔ a ∉ s) := by
  intro s
  induction s with
  | nil => intro _; simp [setInsert]
  | cons y s ih =>
    intro hs
    have hs' := List.pairwise_cons.1 hs
    unfold setInsert
    by_cases h1 : lt y a = true
    · rw [if_pos h1]
      rw [ih hs'.2]
      have : a ≠ y := by rintro rfl; rw [h.irrefl] at h1; cases h1
      simp [this]
    · rw [if_neg h1]
      by_cases h2 : lt a y = true
      · rw [if_pos h2]
        simp only [true_iff]
        intro hm
        rcases List.mem_cons.1 hm with rfl | hm
        · rw [h.irrefl] at h2; cases h2
        · have := h.asymm (h.trans _ _ _ h2 (hs'.1 a hm)); rw [h.irrefl] at *; simp_all
      · rw [if_neg h2]
        have : y = a := by
          rcases h.total y a with h' | h' | h'
          · exact absurd h' h1
          · exact h'
          · exact absurd h' h2
        subst this; simp

theorem setInsert_length (a : α) : ∀ (s : List α),
    (setInsert lt a s).1.length = s.length + if (setInsert lt a s).2 then 1 else 0 := by
  intro s
  induction s with
  | nil => simp [setInsert]
  | cons y s ih =>
    unfold setInsert
    by_cases h1 : lt y a = true
    · rw [if_pos h1]; simp only [List.length_cons, ih]; omega
    · rw [if_neg h1]
      by_cases h2 : lt a y = true
      · rw [if_pos h2]; simp
      · rw [if_neg h2]; simp

end sets

/-! ### generate_group -/

theorem genLoop_spec (r : Row) : ∀ (gens : List Row) (s x : List Row), Incr Row.lt s →
    Incr Row.lt (genLoop r gens s x).1 ∧
    (∀ y, y ∈ (genLoop r gens s x).1 ↔ y ∈ s ∨ ∃ g ∈ gens, y = Row.mul r g) ∧
    (∀ y, y ∈ (genLoop r gens s x).2 ↔ y ∈ x ∨ (y ∉ s ∧ ∃ g ∈ gens, y = Row.mul r g)) ∧
    (genLoop r gens s x).1.length + x.length = s.length + (genLoop r gens s x).2.length := by
  intro gens
  induction gens with
  | nil => intro s x hs; simpa [genLoop] using hs
  | cons g gens ih =>
    intro s x hs
    unfold genLoop
    simp only
    have hi := setInsert_incr rowSTO (Row.mul r g) hs
    have hm := mem_setInsert rowSTO (Row.mul r g) s
    have hf := setInsert_flag rowSTO (Row.mul r g) hs
    have hl := setInsert_length (lt := Row.lt) (Row.mul r g) s
    obtain ⟨h1, h2, h3, h4⟩ := ih (setInsert Row.lt (Row.mul r g) s).1
      (if (setInsert Row.lt (Row.mul r g) s).2 = true then Row.mul r g :: x else x) hi
    refine ⟨h1, ?_, ?_, ?_⟩
    · intro y
      rw [h2, hm]
      simp only [List.mem_cons, exists_eq_or_imp]
      tauto
    · intro y
      rw [h3, hm]
      simp only [List.mem_cons, exists_eq_or_imp]
      by_cases hb : (setInsert Row.lt (Row.mul r g) s).2 = true
      · rw [if_pos hb]
        have := hf.1 hb
        simp only [List.mem_cons]
        constructor
        · rintro ((rfl | h) | ⟨h, h'⟩)
          · exact Or.inr ⟨this, Or.inl rfl⟩
          · exact Or.inl h
          · exact Or.inr ⟨fun hh => h (Or.inr hh), Or.inr h'⟩
        · rintro (h | ⟨h, rfl | h'⟩)
          · exact Or.inl (Or.inr h)
          · exact Or.inl (Or.inl rfl)
          · by_cases e : y = Row.mul r g
            · exact Or.inl (Or.inl e)
            · exact Or.inr ⟨fun hh => hh.elim e h, h'⟩
      · rw [if_neg hb]
        have : Row.mul r g ∈ s := by
          by_contra hc; exact hb (hf.2 hc)
        constructor
        · rintro (h | ⟨h, h'⟩)
          · exact Or.inl h
          · exact Or.inr ⟨fun hh => h (Or.inr hh), Or.inr h'⟩
        · rintro (h | ⟨h, rfl | h'⟩)
          · exact Or.inl h
          · exact absurd this h
          · by_cases e : y = Row.mul r g
            · subst e; exact absurd this h
            · exact Or.inr ⟨fun hh => hh.elim e h, h'⟩
    · by_cases hb : (setInsert Row.lt (Row.mul r g) s).2 = true
      · rw [if_pos hb] at h4 ⊢
        rw [if_pos hb] at hl
        simp only [List.length_cons] at h4
        omega
      · rw [if_neg hb] at h4 ⊢
        rw [if_neg hb] at hl
        omega

theorem length_le_factorial {b : Nat} {s : List Row} (hn : s.Nodup)
    (h : ∀ r ∈ s, Row.Valid r ∧ r.length = b) : s.length ≤ b.factorial := by
  have hsub : s ⊆ (List.range b).permutations := by
    intro r hr
    obtain ⟨h1, h2⟩ := h r hr
    rw [List.mem_permutations, ← h2]; exact h1.1
  have := (List.subperm_of_subset hn hsub).length_le
  rwa [List.length_permutations, List.length_range] at this

/-- The invariant of the worklist loop; `P` is any property of rows kept by multiplication with the
generators. -/
structure Inv (b : Nat) (gens : List Row) (P : Row → Prop) (s x : List Row) : Prop where
  incr : Incr Row.lt s
  rows : ∀ r ∈ s, Row.Valid r ∧ r.length = b ∧ P r
  work : ∀ r ∈ x, r ∈ s ∨ r = Row.rounds b
  closed : ∀ r, (r ∈ s ∨ r = Row.rounds b) → r ∉ x → ∀ g ∈ gens, Row.mul r g ∈ s

theorem genWhile_spec {b : Nat} {gens : List Row} {P : Row → Prop} (hb : b ≤ 256)
    (hg : ∀ g ∈ gens, Row.Valid g ∧ g.length ≤ b) (h0 : P (Row.rounds b))
    (hP : ∀ r g, Row.Valid r → r.length = b → P r → g ∈ gens → P (Row.mul r g)) :
    ∀ (fuel : Nat) {s x : List Row}, Inv b gens P s x → x.length + (b.factorial - s.length) < fuel →
    ∃ s', genWhile gens fuel s x = .ok s' ∧ Inv b gens P s' [] := by
  intro fuel
  induction fuel with
  | zero => intro s x _ h; omega
  | succ fuel ih =>
    intro s x hi hf
    cases x with
    | nil => exact ⟨s, rfl, hi⟩
    | cons r x =>
      have hr : Row.Valid r ∧ r.length = b ∧ P r := by
        rcases hi.work r (by simp) with h | h
        · exact hi.rows r h
        · subst h; exact ⟨Row.valid_rounds hb, by simp, h0⟩
      have hprod : ∀ g ∈ gens, Row.Valid (Row.mul r g) ∧ (Row.mul r g).length = b ∧ P (Row.mul r g) := by
        intro g hgg
        have := hg g hgg
        refine ⟨Row.valid_mul hr.1 this.1, ?_, hP r g hr.1 hr.2.1 hr.2.2 hgg⟩
        rw [Row.length_mul]; have := hr.2.1; omega
      obtain ⟨h1, h2, h3, h4⟩ := genLoop_spec r gens s x hi.incr
      show ∃ s', genWhile gens fuel (genLoop r gens s x).1 (genLoop r gens s x).2 = .ok s' ∧ _
      have hrows : ∀ y ∈ (genLoop r gens s x).1, Row.Valid y ∧ y.length = b ∧ P y := by
        intro y hy
        rcases (h2 y).1 hy with h | ⟨g, hg1, rfl⟩
        · exact hi.rows y h
        · exact hprod g hg1
      have hle : (genLoop r gens s x).1.length ≤ b.factorial :=
        length_le_factorial (h1.nodup rowSTO) (fun y hy => ⟨(hrows y hy).1, (hrows y hy).2.1⟩)
      apply ih
      · refine ⟨h1, hrows, ?_, ?_⟩
        · intro y hy
          rcases (h3 y).1 hy with h | ⟨h, h'⟩
          · rcases hi.work y (by simp [h]) with hh | hh
            · exact Or.inl ((h2 y).2 (Or.inl hh))
            · exact Or.inr hh
          · exact Or.inl ((h2 y).2 (Or.inr h'))
        · intro y hy hyx g hgg
          by_cases e : y = r
          · subst e; exact (h2 _).2 (Or.inr ⟨g, hgg, rfl⟩)
          · have hy' : y ∈ s ∨ y = Row.rounds b := by
              rcases hy with hy | hy
              · rcases (h2 y).1 hy with h | h
                · exact Or.inl h
                · by_cases hs : y ∈ s
                  · exact Or.inl hs
                  · exact absurd ((h3 y).2 (Or.inr ⟨hs, h⟩)) hyx
              · exact Or.inr hy
            have hnx : y ∉ r :: x := by
              intro hm
              rcases List.mem_cons.1 hm with h | h
              · exact e h
              · exact hyx ((h3 y).2 (Or.inl h))
            exact (h2 _).2 (Or.inl (hi.closed y hy' hnx g hgg))
      · simp only [List.length_cons] at hf
        omega

/-- The set computed by `generate_group`: closed under the generators, containing rounds if there is a
generator. -/
theorem generateC_spec {b : Nat} {gens : List Row} {P : Row → Prop} (hb : b ≤ 256)
    (hg : ∀ g ∈ gens, Row.Valid g ∧ g.length ≤ b) (h0 : P (Row.rounds b))
    (hP : ∀ r g, Row.Valid r → r.length = b → P r → g ∈ gens → P (Row.mul r g)) :
    ∃ s, generateC b gens = .ok s ∧ Incr Row.lt s ∧ (∀ r ∈ s, Row.Valid r ∧ r.length = b ∧ P r) ∧
      (∀ r, (r ∈ s ∨ r = Row.rounds b) → ∀ g ∈ gens, Row.mul r g ∈ s) := by
  unfold generateC
  rw [Row.roundsC_eq hb]
  obtain ⟨s, h1, h2⟩ := genWhile_spec hb hg h0 hP (b.factorial + 2) (s := []) (x := [Row.rounds b])
    ⟨by simp, by simp, by simp, by intro r hr hx; simp at hr hx; exact absurd hr hx⟩ (by simp; omega)
  exact ⟨s, h1, h2.incr, h2.rows, fun r hr => h2.closed r hr (by simp)⟩

theorem mul_right_inj {a c g : Row} (hg : Row.Valid g)
    (hla : a.length = c.length) (h : Row.mul a g = Row.mul c g) : a = c := by
  apply Row.ext_fn hla
  intro i _
  have := congrArg (fun r => Row.fn r (Row.find g i)) h
  simp only [Row.fn_mul, hg.fn_find] at this
  exact this

/-- If a finite set of rows is closed under right multiplication by `g`, every element is a product. -/
theorem exists_quot {b : Nat} {s : List Row} {g : Row} (hs : s.Nodup) (hg : Row.Valid g)
    (hl : ∀ r ∈ s, r.length = b) (hc : ∀ r ∈ s, Row.mul r g ∈ s) {t : Row} (ht : t ∈ s) :
    ∃ r ∈ s, Row.mul r g = t := by
  have hnd : (s.map fun r => Row.mul r g).Nodup :=
    (List.nodup_map_iff_inj_on hs).2 fun a ha c hc' e => mul_right_inj hg (by rw [hl a ha, hl c hc']) e
  have hsub : (s.map fun r => Row.mul r g) ⊆ s := by
    intro y hy
    obtain ⟨r, hr, rfl⟩ := List.mem_map.1 hy
    exact hc r hr
  have hp := (List.subperm_of_subset hnd hsub).perm_of_length_le (by simp)
  obtain ⟨r, hr, e⟩ := List.mem_map.1 (hp.mem_iff.2 ht)
  exact ⟨r, hr, e⟩

/-- `generate_group` computes the subgroup generated. -/
theorem generate_lists {b : Nat} {gens : List Row} (hb : b ≤ 256)
    (hg : ∀ g ∈ gens, Row.Valid g ∧ g.length ≤ b) (hne : gens ≠ []) :
    ∃ s, generateC b gens = .ok s ∧ Lists s b (generated gens) := by
  obtain ⟨s, h1, h2, h3, h4⟩ := generateC_spec (P := fun r => permOf r ∈ generated gens) hb hg
    (by simp only [permOf_rounds hb]; exact Subgroup.one_mem _)
    (by
      intro r g hr _ hp hgg
      simp only [permOf_mul hr (hg g hgg).1]
      exact Subgroup.mul_mem _ hp (Subgroup.subset_closure ⟨g, hgg, rfl⟩))
  have hnd : s.Nodup := h2.nodup rowSTO
  -- rounds is in the set
  have hrounds : Row.rounds b ∈ s := by
    obtain ⟨g, hgg⟩ := List.exists_mem_of_ne_nil _ hne
    by_contra hc
    have hnd' : (Row.rounds b :: s).Nodup := List.nodup_cons.2 ⟨hc, hnd⟩
    have hlen : ∀ r ∈ Row.rounds b :: s, r.length = b := by
      intro r hr
      rcases List.mem_cons.1 hr with rfl | hr
      · simp
      · exact (h3 r hr).2.1
    obtain ⟨r, hr, e⟩ := exists_quot (s := Row.rounds b :: s) hnd' (hg g hgg).1 hlen
      (by
        intro r hr
        rcases List.mem_cons.1 hr with rfl | hr
        · exact List.mem_cons_of_mem _ (h4 _ (Or.inr rfl) g hgg)
        · exact List.mem_cons_of_mem _ (h4 _ (Or.inl hr) g hgg)) (t := Row.rounds b) (by simp)
    have : Row.mul r g ∈ s := by
      rcases List.mem_cons.1 hr with rfl | hr
      · exact h4 _ (Or.inr rfl) g hgg
      · exact h4 _ (Or.inl hr) g hgg
    rw [e] at this
    exact hc this
  have hall : ∀ p ∈ generated gens, ∃ r ∈ s, permOf r = p := by
    intro p hp
    unfold generated at hp
    induction hp using Subgroup.closure_induction_right with
    | one => exact ⟨_, hrounds, permOf_rounds hb⟩
    | mul_right x _ y hy ih =>
      obtain ⟨r, hr, rfl⟩ := ih
      obtain ⟨g, hgg, rfl⟩ := hy
      exact ⟨_, h4 r (Or.inl hr) g hgg, permOf_mul (h3 r hr).1 (hg g hgg).1⟩
    | mul_inv_cancel x _ y hy ih =>
      obtain ⟨r, hr, rfl⟩ := ih
      obtain ⟨g, hgg, rfl⟩ := hy
      obtain ⟨t, ht, e⟩ := exists_quot hnd (hg g hgg).1 (fun r hr => (h3 r hr).2.1)
        (fun r hr => h4 r (Or.inl hr) g hgg) hr
      refine ⟨t, ht, ?_⟩
      rw [← e, permOf_mul (h3 t ht).1 (hg g hgg).1, mul_inv_cancel_right]
  refine ⟨s, h1, ?_, ?_, hall⟩
  · apply List.Pairwise.imp_of_mem _ h2
    intro a c ha hc hac
    exact (lexLt_iff (by rw [(h3 a ha).2.1, (h3 c hc).2.1])).2 hac
  · intro r
    constructor
    · intro hr
      exact ⟨(isRow_iff_valid r).2 (h3 r hr).1, (h3 r hr).2.1, (h3 r hr).2.2⟩
    · rintro ⟨e1, e2, e3⟩
      rw [isRow_iff_valid] at e1
      obtain ⟨t, ht, e⟩ := hall _ e3
      rw [← permOf_inj (h3 t ht).1 e1 (by rw [(h3 t ht).2.1, e2]) e]; exact ht

end Group
end Ringing
