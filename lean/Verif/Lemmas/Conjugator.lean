import Verif.Model.Conjugator
import Verif.Lemmas.Cycles2
import Verif.Lemmas.RowC
import Verif.Props.Bell
import Mathlib.Data.List.Perm.Basic

namespace Ringing
open Spec
namespace Row

theorem splitComma_chars (c : List Nat) : splitComma (c.map Bell.toChar) = [c.map Bell.toChar] := by
  induction c with
  | nil => rfl
  | cons x xs ih =>
    rw [List.map_cons]; unfold splitComma; rw [if_neg (toChar_ne_comma x), ih]

theorem splitComma_append (c : List Nat) (t : List Char) :
    splitComma (c.map Bell.toChar ++ ',' :: t) = c.map Bell.toChar :: splitComma t := by
  induction c with
  | nil => rw [List.map_nil, List.nil_append, splitComma, if_pos rfl]
  | cons x xs ih =>
    rw [List.map_cons, List.cons_append]
    conv_lhs => unfold splitComma
    rw [if_neg (toChar_ne_comma x), ih]

theorem splitComma_cyclesString : ∀ {cs : List (List Nat)}, cs ≠ [] →
    splitComma (cyclesString cs) = cs.map fun c => c.map Bell.toChar := by
  intro cs
  induction cs with
  | nil => intro h; exact absurd rfl h
  | cons c cs ih =>
    intro _
    by_cases h : cs = []
    · subst h; rw [cyclesString_single, splitComma_chars]; rfl
    · rw [cyclesString_cons c h, splitComma_append, ih h]; rfl

theorem CycleDecomp.perm' {r : Row} {cs ds : List (List Nat)} (h : CycleDecomp r cs) (hp : ds.Perm cs) :
    CycleDecomp r ds :=
  ⟨fun c hc => h.cyc c (hp.mem_iff.1 hc), hp.flatten.trans h.perm⟩

/-- Any result of `conjugacy_class_vector` on a non-empty row is a cycle decomposition, printed. -/
theorem classVector_spec {r : Row} (hr : Valid r) (hne : r ≠ []) {v : List (List Char)}
    (h : ClassVector r v) : ∃ ds, CycleDecomp r ds ∧ v = ds.map (fun c => c.map Bell.toChar) ∧
      ds.Pairwise (fun x y => x.length ≤ y.length) := by
  obtain ⟨s, h1, h2, h3⟩ := h
  obtain ⟨cs, c1, c2, -⟩ := cyclesListC_spec hr
  unfold cyclesC at h1
  rw [c1] at h1
  simp only [Out.ok_bind, Out.pure_eq] at h1
  cases h1
  have hcs : cs ≠ [] := by
    rintro rfl
    have := c2.sum_length
    simp at this
    exact hne (List.length_eq_zero_iff.1 this.symm)
  rw [splitComma_cyclesString hcs] at h2
  have h2' := (congrFun (congrFun (List.eq_map_comp_perm (fun c : List Nat => c.map Bell.toChar)) v) cs).mpr h2
  obtain ⟨ds, d1, d2⟩ := h2'
  refine ⟨ds, c2.perm' d2, d1, ?_⟩
  rw [d1, List.pairwise_map] at h3
  simpa using h3

theorem areConjugateImpl_iff {xs ys : List (List Nat)} :
    areConjugateImpl (xs.map fun c => c.map Bell.toChar) (ys.map fun c => c.map Bell.toChar) = true ↔
      xs.map List.length = ys.map List.length := by
  unfold areConjugateImpl
  induction xs generalizing ys with
  | nil => cases ys <;> simp
  | cons x xs ih =>
    cases ys with
    | nil => simp
    | cons y ys =>
      have := ih (ys := ys)
      simp only [Bool.and_eq_true, decide_eq_true_eq, List.all_eq_true, List.length_map,
        List.map_cons, List.length_cons, List.zip_cons_cons, List.mem_cons, forall_eq_or_imp,
        List.cons.injEq, Nat.add_right_cancel_iff] at this ⊢
      rw [← this]; tauto

/-- Paired cycles occupy the same positions in the concatenations. -/
theorem flatten_index {xs ys : List (List Nat)} (h : xs.map List.length = ys.map List.length) :
    ∀ p ∈ xs.zip ys, p.1.length = p.2.length ∧ ∀ j, j < p.1.length →
      ∃ i, i < xs.flatten.length ∧ xs.flatten[i]? = p.1[j]? ∧ ys.flatten[i]? = p.2[j]? := by
  induction xs generalizing ys with
  | nil => simp
  | cons x xs ih =>
    cases ys with
    | nil => simp
    | cons y ys =>
      simp only [List.map_cons, List.cons.injEq] at h
      intro p hp
      rw [List.zip_cons_cons] at hp
      rcases List.mem_cons.1 hp with rfl | hp
      · refine ⟨h.1, fun j hj => ⟨j, ?_, ?_, ?_⟩⟩
        · simp only [List.flatten_cons, List.length_append]; simp only at hj; omega
        · rw [List.flatten_cons, List.getElem?_append_left (by simpa using hj)]
        · rw [List.flatten_cons, List.getElem?_append_left (by simp only at hj; omega)]
      · obtain ⟨h1, h2⟩ := ih h.2 p hp
        refine ⟨h1, fun j hj => ?_⟩
        obtain ⟨i, i0, i1, i2⟩ := h2 j hj
        refine ⟨x.length + i, ?_, ?_, ?_⟩
        · simp only [List.flatten_cons, List.length_append]; omega
        · rw [List.flatten_cons, List.getElem?_append_right (by omega), Nat.add_sub_cancel_left, i1]
        · rw [List.flatten_cons, List.getElem?_append_right (by omega), h.1, Nat.add_sub_cancel_left, i2]

theorem mem_zip_right {xs ys : List (List Nat)} (h : xs.length = ys.length) {y : List Nat} (hy : y ∈ ys) :
    ∃ x, (x, y) ∈ xs.zip ys := by
  obtain ⟨i, hi, rfl⟩ := List.mem_iff_getElem.1 hy
  refine ⟨xs[i]'(by omega), ?_⟩
  rw [List.mem_iff_getElem]
  exact ⟨i, by simp; omega, by simp⟩

/-- The row `X * Y^-1` conjugates. -/
theorem conjugate_of_decomp {x y : Row} (hx : Valid x) (hy : Valid y) {xs ys : List (List Nat)}
    (dx : CycleDecomp x xs) (dy : CycleDecomp y ys) (h : xs.map List.length = ys.map List.length)
    (i : Nat) :
    fn (mul xs.flatten (inverse ys.flatten)) (fn y i) = fn x (fn (mul xs.flatten (inverse ys.flatten)) i) := by
  have vX : Valid xs.flatten := ⟨by rw [dx.perm.length_eq, List.length_range]; exact dx.perm, by
    rw [dx.perm.length_eq, List.length_range]; exact hx.2⟩
  have vY : Valid ys.flatten := ⟨by rw [dy.perm.length_eq, List.length_range]; exact dy.perm, by
    rw [dy.perm.length_eq, List.length_range]; exact hy.2⟩
  have lX : xs.flatten.length = x.length := by rw [dx.perm.length_eq, List.length_range]
  have lY : ys.flatten.length = y.length := by rw [dy.perm.length_eq, List.length_range]
  have lxy : x.length = y.length := by
    rw [← dx.sum_length, ← dy.sum_length, h]
  have hmap : ∀ p ∈ xs.zip ys, ∀ j (h1 : j < p.1.length) (h2 : j < p.2.length),
      fn (mul xs.flatten (inverse ys.flatten)) p.2[j] = p.1[j] := by
    intro p hp j h1 h2
    obtain ⟨-, hidx⟩ := flatten_index h p hp
    obtain ⟨k, k0, k1, k2⟩ := hidx j h1
    have k0' : k < ys.flatten.length := by rw [lY, ← lxy, ← lX]; exact k0
    rw [List.getElem?_eq_getElem h1, List.getElem?_eq_getElem k0] at k1
    rw [List.getElem?_eq_getElem h2, List.getElem?_eq_getElem k0'] at k2
    have k1 := Option.some.inj k1
    have k2 := Option.some.inj k2
    rw [fn_mul, ← k1, ← k2, ← fn_of_lt k0, ← fn_of_lt k0', fn_inverse_fn vY]
  by_cases hi : i < y.length
  · obtain ⟨cy, hcy, him⟩ := dy.exists_mem hi
    have hlen : xs.length = ys.length := by simpa using congrArg List.length h
    obtain ⟨cx, hz⟩ := mem_zip_right hlen hcy
    obtain ⟨j, hj, rfl⟩ := List.mem_iff_getElem.1 him
    obtain ⟨hl, -⟩ := flatten_index h _ hz
    simp only at hl
    have hcx : cx ∈ xs := (List.of_mem_zip hz).1
    rw [(dy.cyc cy hcy).2 j hj]
    have hm : (j + 1) % cy.length < cy.length := Nat.mod_lt _ (by omega)
    have e1 := hmap _ hz ((j + 1) % cy.length) (by simp only; omega) hm
    have e2 := hmap _ hz j (by simp only; omega) hj
    simp only at e1 e2
    rw [e1, e2, (dx.cyc cx hcx).2 j (by omega)]
    simp only [hl]
  · have hl : (mul xs.flatten (inverse ys.flatten)).length = y.length := by
      rw [length_mul, length_inverse, lX, lY, lxy]; simp
    rw [fn_of_ge (r := y) (by omega), fn_of_ge (r := mul _ _) (by omega), fn_of_ge (r := x) (by omega)]

/-- The multiset of lengths of cycles does not depend on the decomposition. -/
theorem CycleDecomp.count_length {x : Row} {cs : List (List Nat)} (h : CycleDecomp x cs) (k : Nat) :
    ∃ m : Nat, m = (List.range x.length).countP (fun b => by
        classical exact decide (∀ m, Spec.iter (fn x) m b = b ↔ k ∣ m)) ∧
      m = k * (cs.map List.length).count k := by
  classical
  refine ⟨_, rfl, ?_⟩
  rw [← h.perm.countP_eq]
  have key : ∀ ds : List (List Nat), (∀ c ∈ ds, IsCycle (fn x) c ∧ c.Nodup) →
      ds.flatten.countP (fun b => decide (∀ m, Spec.iter (fn x) m b = b ↔ k ∣ m)) =
        k * (ds.map List.length).count k := by
    intro ds
    induction ds with
    | nil => intro _; simp
    | cons c ds ih =>
      intro hd
      rw [List.flatten_cons, List.countP_append, ih (fun d hd' => hd d (by simp [hd'])), List.map_cons,
        List.count_cons]
      obtain ⟨hc, hnd⟩ := hd c (by simp)
      have hper : ∀ b ∈ c, (∀ m, Spec.iter (fn x) m b = b ↔ k ∣ m) ↔ c.length = k := by
        intro b hb
        constructor
        · intro hk
          have h1 : c.length ∣ k := (hc.iter_eq_self hnd hb k).1 ((hk k).2 dvd_rfl)
          have h2 : k ∣ c.length := (hk _).1 ((hc.iter_eq_self hnd hb _).2 dvd_rfl)
          exact Nat.dvd_antisymm h1 h2
        · rintro rfl m; exact hc.iter_eq_self hnd hb m
      by_cases e : c.length = k
      · have : c.countP (fun b => decide (∀ m, Spec.iter (fn x) m b = b ↔ k ∣ m)) = c.length := by
          rw [List.countP_eq_length]
          intro b hb; simpa using (hper b hb).2 e
        rw [this]; simp [e]; ring
      · have : c.countP (fun b => decide (∀ m, Spec.iter (fn x) m b = b ↔ k ∣ m)) = 0 := by
          rw [List.countP_eq_zero]
          intro b hb; simpa using mt (hper b hb).1 e
        rw [this]; simp [e]
  exact key cs (fun c hc => ⟨h.cyc c hc, h.nodup hc⟩)

theorem CycleDecomp.lengths_perm {x : Row} {cs ds : List (List Nat)} (h : CycleDecomp x cs)
    (h' : CycleDecomp x ds) : (cs.map List.length).Perm (ds.map List.length) := by
  rw [List.perm_iff_count]
  intro k
  obtain ⟨m, m1, m2⟩ := h.count_length k
  obtain ⟨m', m1', m2'⟩ := h'.count_length k
  have e : m = m' := by rw [m1, m1']
  by_cases hk : k = 0
  · have z : ∀ es : List (List Nat), CycleDecomp x es → (es.map List.length).count k = 0 := by
      intro es he
      rw [List.count_eq_zero]
      intro hm
      obtain ⟨c, hc, hl⟩ := List.mem_map.1 hm
      have := List.length_pos_iff.2 (he.cyc c hc).1
      omega
    rw [z cs h, z ds h']
  · have : k * (cs.map List.length).count k = k * (ds.map List.length).count k := by rw [← m2, ← m2', e]
    exact Nat.eq_of_mul_eq_mul_left (by omega) this

/-- A conjugating row carries a cycle decomposition of `y` to one of `x`. -/
theorem CycleDecomp.conjugate {x y r : Row} (hr : Valid r) (hl : r.length = y.length)
    (hxy : x.length = y.length) (h : ∀ i, fn r (fn y i) = fn x (fn r i)) {cs : List (List Nat)}
    (d : CycleDecomp y cs) : CycleDecomp x (cs.map fun c => c.map (fn r)) := by
  constructor
  · intro c hc
    obtain ⟨c, hc', rfl⟩ := List.mem_map.1 hc
    have hcy := d.cyc c hc'
    refine ⟨by simpa using hcy.1, ?_⟩
    intro j hj
    have hj' : j < c.length := by simpa using hj
    simp only [List.getElem_map, List.length_map]
    rw [← h, hcy.2 j hj']
  · rw [← List.map_flatten, hxy]
    have h1 : (List.map (fn r) cs.flatten).Perm (List.map (fn r) (List.range y.length)) := d.perm.map _
    refine h1.trans ?_
    have : List.map (fn r) (List.range y.length) = r := by
      rw [← hl]
      apply List.ext_getElem
      · simp
      · intro i h1 h2; simp [fn_of_lt h2]
    rw [this, ← hl]
    exact hr.1

end Row
end Ringing
