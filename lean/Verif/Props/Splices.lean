import Verif.Model.Splices
import Mathlib.Logic.Relation
import Mathlib.Data.Finset.Disjoint
import Mathlib.Data.List.Pairwise
/-! C98: the sets of methods with the same splice. -/
namespace Ringing
namespace Splices

variable {M D : Type} [DecidableEq M] [DecidableEq D]

/-- The entry is one for this splice with one of these methods. -/
def Match (a b : M) (d : D) (e : D × Finset M) : Prop := d = e.1 ∧ (a ∈ e.2 ∨ b ∈ e.2)

instance (a b : M) (d : D) (e : D × Finset M) : Decidable (Match a b d e) := inferInstanceAs (Decidable (_ ∧ _))

theorem absorb_spec (a b : M) (d : D) (t : List (D × Finset M)) :
    (∀ x, x ∈ (absorb a b d t).1 ↔ ∃ e ∈ t, Match a b d e ∧ x ∈ e.2) ∧
      (absorb a b d t).2 = t.filter fun e => decide (¬ Match a b d e) := by
  induction t with
  | nil => simp [absorb]
  | cons e t ih =>
    obtain ⟨h1, h2⟩ := ih
    by_cases h : Match a b d e
    · have h' : d = e.1 ∧ (a ∈ e.2 ∨ b ∈ e.2) := h
      rw [absorb, if_pos h']
      refine ⟨fun x => ?_, ?_⟩
      · rw [Finset.mem_union, h1]; simp [h]
      · rw [h2, List.filter_cons_of_neg (by simpa using h)]
    · have h' : ¬ (d = e.1 ∧ (a ∈ e.2 ∨ b ∈ e.2)) := h
      rw [absorb, if_neg h']
      refine ⟨fun x => ?_, ?_⟩
      · rw [h1]; simp [h]
      · rw [h2, List.filter_cons_of_pos (by simpa using h)]

theorem save_spec (a b : M) (d : D) (t : List (D × Finset M)) : ∃ (S : Finset M) (l r : List (D × Finset M)),
    (∀ x, x ∈ S ↔ x = a ∨ x = b ∨ ∃ e ∈ t, Match a b d e ∧ x ∈ e.2) ∧
    (t.filter fun e => decide (¬ Match a b d e)) = l ++ r ∧ save a b d t = l ++ (d, S) :: r := by
  induction t with
  | nil => exact ⟨insert b (insert a ∅), [], [], by intro x; simp [or_comm], rfl, rfl⟩
  | cons e t ih =>
    by_cases h : Match a b d e
    · have h' : d = e.1 ∧ (a ∈ e.2 ∨ b ∈ e.2) := h
      obtain ⟨h1, h2⟩ := absorb_spec a b d t
      refine ⟨insert b (insert a e.2) ∪ (absorb a b d t).1, [], (absorb a b d t).2, ?_, ?_, ?_⟩
      · intro x
        rw [Finset.mem_union, h1]
        simp only [Finset.mem_insert, List.mem_cons, exists_eq_or_imp, h, true_and]
        tauto
      · rw [List.filter_cons_of_neg (by simpa using h), h2]; rfl
      · rw [save]
        dsimp only
        rw [if_pos h', h'.1]; rfl
    · have h' : ¬ (d = e.1 ∧ (a ∈ e.2 ∨ b ∈ e.2)) := h
      obtain ⟨S, l, r, h1, h2, h3⟩ := ih
      refine ⟨S, e :: l, r, ?_, ?_, ?_⟩
      · intro x; rw [h1]; simp [h]
      · rw [List.filter_cons_of_pos (by simpa using h), h2]; rfl
      · rw [save, if_neg h', h3]; rfl

/-- Sets for the same splice have no methods in common. -/
def Apart (e f : D × Finset M) : Prop := e.1 = f.1 → ∀ x, x ∈ e.2 → x ∉ f.2

omit [DecidableEq M] [DecidableEq D] in
theorem Apart.symm {e f : D × Finset M} (h : Apart e f) : Apart f e := fun he x hx hy => h he.symm x hy hx

instance : Std.Symm (Apart (M := M) (D := D)) := ⟨fun _ _ => Apart.symm⟩

/-- Two methods are in the same set for a splice. -/
def Same (t : List (D × Finset M)) (d : D) (x y : M) : Prop := ∃ e ∈ t, e.1 = d ∧ x ∈ e.2 ∧ y ∈ e.2

theorem save_apart {a b : M} {d : D} {t : List (D × Finset M)} (h : t.Pairwise Apart) : (save a b d t).Pairwise Apart := by
  obtain ⟨S, l, r, h1, h2, h3⟩ := save_spec a b d t
  rw [h3]
  have hf : (l ++ r).Pairwise Apart := by rw [← h2]; exact h.filter _
  have hS : ∀ e ∈ l ++ r, Apart (d, S) e := by
    intro e he hk x hx hxe
    rw [← h2, List.mem_filter] at he
    obtain ⟨he, hm⟩ := he
    have hm : ¬ Match a b d e := by simpa using hm
    rcases (h1 x).1 hx with rfl | rfl | ⟨f, hf, hmf, hxf⟩
    · exact hm ⟨hk, Or.inl hxe⟩
    · exact hm ⟨hk, Or.inr hxe⟩
    · have hne : f ≠ e := by rintro rfl; exact hm hmf
      exact h.forall hf he hne (hmf.1.symm.trans hk) x hxf hxe
  rw [List.pairwise_append] at hf ⊢
  refine ⟨hf.1, List.pairwise_cons.2 ⟨fun e he => hS e (by simp [he]), hf.2.1⟩, ?_⟩
  intro e he f hf'
  rcases List.mem_cons.1 hf' with rfl | hf'
  · exact (hS e (by simp [he])).symm
  · exact hf.2.2 e he f hf'

theorem same_save {a b : M} {d : D} {t : List (D × Finset M)} (k : D) (x y : M) : Same (save a b d t) k x y ↔
    Same t k x y ∨ (k = d ∧ (x = a ∨ x = b ∨ Same t d x a ∨ Same t d x b) ∧ (y = a ∨ y = b ∨ Same t d y a ∨ Same t d y b)) := by
  obtain ⟨S, l, r, h1, h2, h3⟩ := save_spec a b d t
  have hS : ∀ x, x ∈ S ↔ (x = a ∨ x = b ∨ Same t d x a ∨ Same t d x b) := by
    intro x
    rw [h1]
    constructor
    · rintro (h | h | ⟨e, he, ⟨hk, hm⟩, hx⟩)
      · exact Or.inl h
      · exact Or.inr (Or.inl h)
      · rcases hm with hm | hm
        · exact Or.inr (Or.inr (Or.inl ⟨e, he, hk.symm, hx, hm⟩))
        · exact Or.inr (Or.inr (Or.inr ⟨e, he, hk.symm, hx, hm⟩))
    · rintro (h | h | ⟨e, he, hk, hx, hm⟩ | ⟨e, he, hk, hx, hm⟩)
      · exact Or.inl h
      · exact Or.inr (Or.inl h)
      · exact Or.inr (Or.inr ⟨e, he, ⟨hk.symm, Or.inl hm⟩, hx⟩)
      · exact Or.inr (Or.inr ⟨e, he, ⟨hk.symm, Or.inr hm⟩, hx⟩)
  have hmem : ∀ e, e ∈ save a b d t ↔ e = (d, S) ∨ (e ∈ t ∧ ¬ Match a b d e) := by
    intro e
    have : e ∈ l ++ r ↔ (e ∈ t ∧ ¬ Match a b d e) := by rw [← h2, List.mem_filter]; simp
    rw [h3, ← this]
    simp only [List.mem_append, List.mem_cons]; tauto
  constructor
  · rintro ⟨e, he, hk, hx, hy⟩
    rcases (hmem e).1 he with rfl | ⟨he, _⟩
    · exact Or.inr ⟨hk.symm, (hS x).1 hx, (hS y).1 hy⟩
    · exact Or.inl ⟨e, he, hk, hx, hy⟩
  · rintro (⟨e, he, hk, hx, hy⟩ | ⟨rfl, hx, hy⟩)
    · by_cases hm : Match a b d e
      · refine ⟨(d, S), (hmem _).2 (Or.inl rfl), hm.1.trans hk, ?_, ?_⟩
        · exact (h1 x).2 (Or.inr (Or.inr ⟨e, he, hm, hx⟩))
        · exact (h1 y).2 (Or.inr (Or.inr ⟨e, he, hm, hy⟩))
      · exact ⟨e, (hmem e).2 (Or.inr ⟨he, hm⟩), hk, hx, hy⟩
    · exact ⟨(k, S), (hmem _).2 (Or.inl rfl), rfl, (hS x).2 hx, (hS y).2 hy⟩

theorem table_snoc (ps : List (M × M × D)) (a b : M) (d : D) : table (ps ++ [(a, b, d)]) = save a b d (table ps) := by
  simp [table]

/-- C98: no method is in two sets for the same splice. -/
theorem C98_disjoint (ps : List (M × M × D)) : (table ps).Pairwise Apart := by
  induction ps using List.reverseRecOn with
  | nil => simp [table]
  | append_singleton ps p ih => rw [table_snoc]; exact save_apart ih

theorem same_trans {t : List (D × Finset M)} (h : t.Pairwise Apart) {d : D} {x y z : M} (h1 : Same t d x y) (h2 : Same t d y z) : Same t d x z := by
  obtain ⟨e, he, ke, hx, hy⟩ := h1
  obtain ⟨f, hf, kf, hy', hz⟩ := h2
  by_cases hef : e = f
  · subst hef; exact ⟨e, he, ke, hx, hz⟩
  · exact absurd hy' (h.forall he hf hef (ke.trans kf.symm) y hy)

/-- C98: two methods are in the same set for a splice just if a chain of saved pairs with this splice joins them,
in whatever order the pairs were saved (a method being joined to itself if it is in some pair). -/
theorem C98_components (ps : List (M × M × D)) (d : D) (x y : M) : Same (table ps) d x y ↔
    (∃ z, (x, z, d) ∈ ps ∨ (z, x, d) ∈ ps) ∧ Relation.EqvGen (fun a b => (a, b, d) ∈ ps) x y := by
  have mono : ∀ (ps qs : List (M × M × D)) (x y : M), (∀ p ∈ ps, p ∈ qs) → Relation.EqvGen (fun a b => (a, b, d) ∈ ps) x y →
      Relation.EqvGen (fun a b => (a, b, d) ∈ qs) x y := fun ps qs x y h hr => hr.mono fun a b hab => h _ hab
  have main : ∀ ps : List (M × M × D), (∀ x y, Same (table ps) d x y → (∃ z, (x, z, d) ∈ ps ∨ (z, x, d) ∈ ps) ∧
      Relation.EqvGen (fun a b => (a, b, d) ∈ ps) x y) ∧ ∀ a b, (a, b, d) ∈ ps → Same (table ps) d a b := by
    intro ps
    induction ps using List.reverseRecOn with
    | nil => exact ⟨fun x y h => by obtain ⟨e, he, _⟩ := h; simp [table] at he, by simp⟩
    | append_singleton ps p ih =>
      obtain ⟨a, b, k⟩ := p
      obtain ⟨ih1, ih2⟩ := ih
      rw [table_snoc]
      have up : ∀ x y, Same (table ps) d x y → (∃ z, (x, z, d) ∈ ps ++ [(a, b, k)] ∨ (z, x, d) ∈ ps ++ [(a, b, k)]) ∧
          Relation.EqvGen (fun u v => (u, v, d) ∈ ps ++ [(a, b, k)]) x y := by
        intro x y h
        obtain ⟨⟨z, hz⟩, h2⟩ := ih1 x y h
        refine ⟨⟨z, ?_⟩, mono _ _ _ _ (fun p hp => List.mem_append_left _ hp) h2⟩
        rcases hz with hz | hz
        · exact Or.inl (List.mem_append_left _ hz)
        · exact Or.inr (List.mem_append_left _ hz)
      constructor
      · intro x y h
        rcases (same_save d x y).1 h with h | ⟨rfl, hx, hy⟩
        · exact up x y h
        · have hab : Relation.EqvGen (fun u v => (u, v, d) ∈ ps ++ [(a, b, d)]) a b := .rel _ _ (by simp)
          have hj : ∀ x, (x = a ∨ x = b ∨ Same (table ps) d x a ∨ Same (table ps) d x b) →
              (∃ z, (x, z, d) ∈ ps ++ [(a, b, d)] ∨ (z, x, d) ∈ ps ++ [(a, b, d)]) ∧
              Relation.EqvGen (fun u v => (u, v, d) ∈ ps ++ [(a, b, d)]) x a := by
            rintro x (rfl | rfl | h | h)
            · exact ⟨⟨b, Or.inl (by simp)⟩, .refl _⟩
            · exact ⟨⟨a, Or.inr (by simp)⟩, hab.symm⟩
            · exact up x a h
            · exact ⟨(up x b h).1, (up x b h).2.trans _ _ _ hab.symm⟩
          exact ⟨(hj x hx).1, (hj x hx).2.trans _ _ _ (hj y hy).2.symm⟩
      · intro u v h
        rw [same_save]
        rcases List.mem_append.1 h with h | h
        · exact Or.inl (ih2 u v h)
        · simp only [List.mem_singleton, Prod.mk.injEq] at h
          obtain ⟨rfl, rfl, rfl⟩ := h
          exact Or.inr ⟨rfl, Or.inl rfl, Or.inr (Or.inl rfl)⟩
  have sym : ∀ {x y}, Same (table ps) d x y → Same (table ps) d y x := fun ⟨e, he, hk, hx, hy⟩ => ⟨e, he, hk, hy, hx⟩
  constructor
  · exact (main ps).1 x y
  · rintro ⟨⟨z, hz⟩, h⟩
    have hxx : Same (table ps) d x x := by
      rcases hz with hz | hz
      · have := (main ps).2 _ _ hz; exact same_trans (C98_disjoint ps) this (sym this)
      · have := (main ps).2 _ _ hz; exact same_trans (C98_disjoint ps) (sym this) this
    have key : ∀ x y, Relation.EqvGen (fun a b => (a, b, d) ∈ ps) x y → x = y ∨ Same (table ps) d x y := by
      intro x y h
      induction h with
      | rel a b h => exact Or.inr ((main ps).2 _ _ h)
      | refl a => exact Or.inl rfl
      | symm a b _ ih => rcases ih with rfl | h
                         · exact Or.inl rfl
                         · exact Or.inr (sym h)
      | trans a b c _ _ ih1 ih2 =>
        rcases ih1 with rfl | h1
        · exact ih2
        · rcases ih2 with rfl | h2
          · exact Or.inr h1
          · exact Or.inr (same_trans (C98_disjoint ps) h1 h2)
    rcases key x y h with rfl | h
    · exact hxx
    · exact h

/-- Methods 1 and 2, 3 and 4 are joined by 2 and 3 afterwards; 4 and 5 have another splice. -/
example : table [(1, 2, "a"), (3, 4, "a"), (4, 5, "b"), (2, 3, "a")] = [("a", {1, 2, 3, 4}), ("b", {4, 5})] := by decide +kernel

end Splices
end Ringing
