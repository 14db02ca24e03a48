import Verif.Lemmas.Group4
import Verif.Lemmas.RowC
import Verif.Lemmas.MathUtils
import Mathlib.GroupTheory.Perm.DomMulAct
/- Helper lemmas: coset labels. -/
namespace Ringing
open Spec
namespace Group

/-! ### The slow loops -/

theorem leastLoop_spec : ∀ (l : List Row) (label : Row), (∀ x ∈ l, x.length ≠ 0) →
    (label.length = 0 → l ≠ []) →
    (leastLoop l label ∈ l ∨ (leastLoop l label = label ∧ label.length ≠ 0)) ∧
    (∀ x ∈ l, Row.lt x (leastLoop l label) = false) ∧
    (label.length ≠ 0 → Row.lt label (leastLoop l label) = false) := by
  intro l
  induction l with
  | nil => intro label _ h; exact ⟨Or.inr ⟨rfl, fun e => h e rfl⟩, by simp, fun _ => lt_irrefl' _⟩
  | cons x l ih =>
    intro label hl h
    have hx := hl x (by simp)
    unfold leastLoop
    have htr : ∀ {a b c : Row}, Row.lt b a = false → Row.lt a c = false → Row.lt b c = false := by
      intro a b c h1 h2
      by_contra hc
      have hc' : Row.lt b c = true := by simpa using hc
      rcases lt_total' a b with h | h | h
      · rw [lt_trans' h hc'] at h2; cases h2
      · subst h; rw [hc'] at h2; cases h2
      · rw [h] at h1; cases h1
    by_cases hc : label.length = 0 ∨ Row.lt x label = true
    · rw [if_pos hc]
      obtain ⟨h1, h2, h3⟩ := ih x (fun y hy => hl y (by simp [hy])) (fun e => absurd e hx)
      refine ⟨Or.inl ?_, ?_, ?_⟩
      · rcases h1 with h1 | ⟨h1, -⟩
        · simp [h1]
        · rw [h1]; simp
      · intro y hy
        rcases List.mem_cons.1 hy with rfl | hy
        · exact h3 hx
        · exact h2 y hy
      · intro hlab
        rcases hc with hc | hc
        · exact absurd hc hlab
        · exact htr (lt_asymm' hc) (h3 hx)
    · rw [if_neg hc]
      push Not at hc
      obtain ⟨h1, h2, h3⟩ := ih label (fun y hy => hl y (by simp [hy])) (fun e => absurd e hc.1)
      refine ⟨?_, ?_, h3⟩
      · rcases h1 with h1 | h1
        · exact Or.inl (by simp [h1])
        · exact Or.inr h1
      · intro y hy
        rcases List.mem_cons.1 hy with rfl | hy
        · exact htr (by simpa using hc.2) (h3 hc.1)
        · exact h2 y hy

theorem leastLoop_nil : ∀ (l : List Row), (∀ x ∈ l, x = []) → leastLoop l [] = [] := by
  intro l
  induction l with
  | nil => intro _; rfl
  | cons x l ih =>
    intro h
    have := h x (by simp)
    subst this
    unfold leastLoop
    simp only [List.length_nil, true_or, if_true]
    exact ih (fun y hy => h y (by simp [hy]))

/-- The least of a non-empty list of rows of the same length. -/
theorem leastLoop_least {l : List Row} {n : Nat} (hn : ∀ x ∈ l, x.length = n) (hne : l ≠ []) :
    leastLoop l [] ∈ l ∧ ∀ x ∈ l, Row.lt x (leastLoop l []) = false := by
  by_cases h0 : n = 0
  · have hall : ∀ x ∈ l, x = [] := fun x hx => List.length_eq_zero_iff.1 (by rw [hn x hx, h0])
    rw [leastLoop_nil l hall]
    obtain ⟨y, hy⟩ := List.exists_mem_of_ne_nil _ hne
    refine ⟨by rw [← hall y hy]; exact hy, ?_⟩
    intro x hx; rw [hall x hx]; rfl
  · obtain ⟨h1, h2, -⟩ := leastLoop_spec l [] (fun x hx => by rw [hn x hx]; exact h0) (fun _ => hne)
    refine ⟨?_, h2⟩
    rcases h1 with h1 | ⟨-, h1⟩
    · exact h1
    · simp at h1

/-! ### The fast path -/

/-- The positions of the bells of an orbit, in order. -/
def places (r : Row) (o : List Nat) : List Nat :=
  sortBy (fun a b => decide (a ≤ b)) (o.map fun x => Row.find r x)

theorem places_perm (r : Row) (o : List Nat) : (places r o).Perm (o.map fun x => Row.find r x) :=
  sortBy_perm _ _

theorem places_le (r : Row) (o : List Nat) : (places r o).Pairwise (· ≤ ·) := by
  have := sortBy_pairwise (le := fun a b : Nat => decide (a ≤ b))
    (by intro a b c; simp; omega) (by intro a b; simp; omega) (o.map fun x => Row.find r x)
  exact this.imp (by intro a b; simp)

theorem find_inj {r : Row} (hr : Row.Valid r) {x y : Nat} (h : Row.find r x = Row.find r y) : x = y := by
  rw [← hr.fn_find x, h, hr.fn_find]

theorem places_nodup {r : Row} (hr : Row.Valid r) {o : List Nat} (h : o.Nodup) : (places r o).Nodup :=
  (places_perm r o).nodup_iff.2 ((List.nodup_map_iff_inj_on h).2 fun _ _ _ _ e => find_inj hr e)

theorem places_lt {r : Row} (hr : Row.Valid r) {o : List Nat} (h : o.Nodup) : (places r o).Pairwise (· < ·) :=
  ((places_le r o).and (places_nodup hr h)).imp (by rintro a b ⟨h1, h2⟩; omega)

theorem mem_places {r : Row} (hr : Row.Valid r) {o : List Nat} {p : Nat} : p ∈ places r o ↔ Row.fn r p ∈ o := by
  rw [(places_perm r o).mem_iff, List.mem_map]
  constructor
  · rintro ⟨x, hx, rfl⟩; rw [hr.fn_find]; exact hx
  · intro h; exact ⟨_, h, hr.find_fn p⟩

theorem places_length (r : Row) (o : List Nat) : (places r o).length = o.length := by
  rw [(places_perm r o).length_eq, List.length_map]

theorem labelOrbitC_spec {r : Row} (hr : Row.Valid r) {o label : List Nat} (hn : o.Nodup)
    (ho : ∀ x ∈ o, x < r.length) (hl : label.length = r.length) :
    ∃ l, labelOrbitC r o label = .ok l ∧ l.length = r.length ∧
      (∀ j (h : j < o.length), l[(places r o)[j]'(by rw [places_length]; exact h)]? = some o[j]) ∧
      (∀ p, Row.fn r p ∉ o → l[p]? = label[p]?) := by
  have hpl : ∀ p ∈ places r o, p < r.length := by
    intro p hp
    by_contra hc
    have := ho _ ((mem_places hr).1 hp)
    rw [Row.fn_of_ge (by omega)] at this
    omega
  unfold labelOrbitC
  have key := forUp_inv
    (P := fun k (l : List Nat) => l.length = r.length ∧
      (∀ j (_ : j < k) (h : j < o.length), l[(places r o)[j]'(by rw [places_length]; exact h)]? = some o[j]) ∧
      (∀ p, Row.fn r p ∉ o → l[p]? = label[p]?))
    (lo := 0) (hi := o.length) (s := label)
    (body := fun label j => do
      let p ← vget (places r o) j
      let x ← vget o j
      vset label p x) (Nat.zero_le _) ⟨hl, by omega, fun _ _ => rfl⟩
    (by
      rintro k l hk0 hk ⟨h1, h2, h3⟩
      have hk' : k < (places r o).length := by rw [places_length]; exact hk
      have hp := hpl _ (List.getElem_mem hk')
      have hnd := places_nodup hr hn
      refine ⟨l.set (places r o)[k] o[k], ?_, by rw [List.length_set]; exact h1, ?_, ?_⟩
      · unfold vget vset
        rw [List.getElem?_eq_getElem hk', List.getElem?_eq_getElem hk]
        simp only [Out.ok_bind]
        rw [if_pos (by omega)]
      · intro j hj hjo
        by_cases e : j = k
        · subst e
          rw [List.getElem?_set_self (by omega)]
        · rw [List.getElem?_set_ne, h2 j (by omega) hjo]
          intro e'
          exact e ((hnd.getElem_inj_iff).1 e'.symm)
      · intro p hpn
        rw [List.getElem?_set_ne, h3 p hpn]
        rintro rfl
        exact hpn ((mem_places hr).1 (List.getElem_mem hk')))
  obtain ⟨l, e, h1, h2, h3⟩ := key
  exact ⟨l, e, h1, fun j hj => h2 j hj hj, h3⟩

/-- The label built from the orbits. -/
theorem labelOrbitsC_spec {r : Row} (hr : Row.Valid r) : ∀ (o : List (List Nat)) (label : List Nat),
    (∀ x ∈ o, x.Nodup) → (∀ x ∈ o, ∀ y ∈ x, y < r.length) →
    o.Pairwise (fun x y => ∀ z ∈ x, z ∉ y) → label.length = r.length →
    ∃ l, labelOrbitsC r o label = .ok l ∧ l.length = r.length ∧
      (∀ x ∈ o, ∀ j (h : j < x.length), l[(places r x)[j]'(by rw [places_length]; exact h)]? = some x[j]) ∧
      (∀ p, (∀ x ∈ o, Row.fn r p ∉ x) → l[p]? = label[p]?) := by
  intro o
  induction o with
  | nil => intro label _ _ _ hl; exact ⟨label, rfl, hl, by simp, fun _ _ => rfl⟩
  | cons x o ih =>
    intro label h1 h2 h3 hl
    have h3' := List.pairwise_cons.1 h3
    obtain ⟨l, e, e1, e2, e3⟩ := labelOrbitC_spec hr (h1 x (by simp)) (h2 x (by simp)) hl
    obtain ⟨m, f, f1, f2, f3⟩ := ih l (fun y hy => h1 y (by simp [hy])) (fun y hy => h2 y (by simp [hy])) h3'.2 e1
    refine ⟨m, ?_, f1, ?_, ?_⟩
    · unfold labelOrbitsC; rw [e, Out.ok_bind, f]
    · intro y hy j hj
      rcases List.mem_cons.1 hy with rfl | hy
      · rw [f3, e2 j hj]
        intro z hz
        apply h3'.1 z hz
        exact (mem_places hr).1 (List.getElem_mem _)
      · exact f2 y hy j hj
    · intro p hp
      rw [f3 p (fun y hy => hp y (by simp [hy])), e3 p (hp x (by simp))]

end Group
end Ringing
