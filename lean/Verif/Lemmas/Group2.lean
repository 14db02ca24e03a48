import Verif.Lemmas.Group
import Verif.Lemmas.Sign
/- Helper lemmas: finite groups of rows, constructors, orbits. -/
namespace Ringing
open Spec
namespace Group

/-- A group of rows on `b` bells, in increasing order. -/
structure IsGrp (v : List Row) (b : Nat) : Prop where
  le : b ≤ 256
  incr : Incr Row.lt v
  rows : ∀ r ∈ v, Row.Valid r ∧ r.length = b
  one : Row.rounds b ∈ v
  mul : ∀ x ∈ v, ∀ y ∈ v, Row.mul x y ∈ v

theorem IsGrp.inv {v : List Row} {b : Nat} (h : IsGrp v b) {x : Row} (hx : x ∈ v) : Row.inverse x ∈ v := by
  obtain ⟨r, hr, e⟩ := exists_quot (h.incr.nodup rowSTO) (h.rows x hx).1 (fun r hr => (h.rows r hr).2)
    (fun r hr => h.mul r hr x hx) h.one
  have : r = Row.inverse x := by
    apply Row.ext_fn
    · rw [(h.rows r hr).2, Row.length_inverse, (h.rows x hx).2]
    · intro i _
      have := congrArg (fun t => Row.fn t (Row.find x i)) e
      simp only [Row.fn_mul, (h.rows x hx).1.fn_find, Row.fn_rounds] at this
      rw [this, Row.fn_inverse (h.rows x hx).1]
  rw [← this]; exact hr

theorem IsGrp.of_lists {v : List Row} {b : Nat} {G : Subgroup (Equiv.Perm Nat)} (hb : b ≤ 256)
    (h : Lists v b G) : IsGrp v b := by
  have hrows : ∀ r ∈ v, Row.Valid r ∧ r.length = b := fun r hr => by
    have := (h.mem r).1 hr
    exact ⟨(isRow_iff_valid r).1 this.1, this.2.1⟩
  refine ⟨hb, ?_, hrows, ?_, ?_⟩
  · apply List.Pairwise.imp_of_mem _ h.increasing
    intro a c ha hc hac
    exact (lexLt_iff (by rw [(hrows a ha).2, (hrows c hc).2])).1 hac
  · refine (h.mem _).2 ⟨(isRow_iff_valid _).2 (Row.valid_rounds hb), by simp, ?_⟩
    rw [permOf_rounds hb]; exact Subgroup.one_mem _
  · intro x hx y hy
    refine (h.mem _).2 ⟨(isRow_iff_valid _).2 (Row.valid_mul (hrows x hx).1 (hrows y hy).1), ?_, ?_⟩
    · rw [Row.length_mul, (hrows x hx).2, (hrows y hy).2, max_self]
    · rw [permOf_mul (hrows x hx).1 (hrows y hy).1]
      exact Subgroup.mul_mem _ ((h.mem x).1 hx).2.2 ((h.mem y).1 hy).2.2

/-- The permutations of a group of rows. -/
noncomputable def subgroupOf {v : List Row} {b : Nat} (h : IsGrp v b) : Subgroup (Equiv.Perm Nat) where
  carrier := {p | ∃ r ∈ v, permOf r = p}
  mul_mem' := by
    rintro p q ⟨x, hx, rfl⟩ ⟨y, hy, rfl⟩
    exact ⟨_, h.mul x hx y hy, permOf_mul (h.rows x hx).1 (h.rows y hy).1⟩
  one_mem' := ⟨_, h.one, permOf_rounds h.le⟩
  inv_mem' := by
    rintro p ⟨x, hx, rfl⟩
    exact ⟨_, h.inv hx, permOf_inverse (h.rows x hx).1⟩

theorem IsGrp.lists {v : List Row} {b : Nat} (h : IsGrp v b) : Lists v b (subgroupOf h) := by
  refine ⟨?_, ?_, fun p hp => hp⟩
  · apply List.Pairwise.imp_of_mem _ h.incr
    intro a c ha hc hac
    exact (lexLt_iff (by rw [(h.rows a ha).2, (h.rows c hc).2])).2 hac
  · intro r
    constructor
    · intro hr; exact ⟨(isRow_iff_valid r).2 (h.rows r hr).1, (h.rows r hr).2, r, hr, rfl⟩
    · rintro ⟨h1, h2, t, ht, e⟩
      rw [isRow_iff_valid] at h1
      rw [← permOf_inj (h.rows t ht).1 h1 (by rw [(h.rows t ht).2, h2]) e]; exact ht

/-! ### Orbits -/

/-- The pure value of `orbitC`. -/
def orb (v : List Row) (j : Nat) : List Nat :=
  v.foldl (fun s r => (setInsert (fun a b => decide (a < b)) (Row.fn r j) s).1) []

theorem orbitC_eq {b j : Nat} (hj : j < b) : ∀ (v : List Row) (s : List Nat), (∀ r ∈ v, b ≤ r.length) →
    orbitC j v s = .ok (v.foldl (fun s r => (setInsert (fun a b => decide (a < b)) (Row.fn r j) s).1) s) := by
  intro v
  induction v with
  | nil => intro s _; rfl
  | cons r v ih =>
    intro s h
    have hr : j < r.length := lt_of_lt_of_le hj (h r (by simp))
    unfold orbitC
    have : vget r j = .ok (Row.fn r j) := by
      unfold vget; rw [List.getElem?_eq_getElem hr, Row.fn_of_lt hr]
    rw [this, Out.ok_bind, ih _ (fun r' h' => h r' (by simp [h']))]
    rfl

theorem orb_aux (j : Nat) : ∀ (v : List Row) (s : List Nat), Incr (fun a b => decide (a < b)) s →
    Incr (fun a b => decide (a < b))
      (v.foldl (fun s r => (setInsert (fun a b => decide (a < b)) (Row.fn r j) s).1) s) ∧
    ∀ x, x ∈ v.foldl (fun s r => (setInsert (fun a b => decide (a < b)) (Row.fn r j) s).1) s ↔
      x ∈ s ∨ ∃ r ∈ v, x = Row.fn r j := by
  intro v
  induction v with
  | nil => intro s h; exact ⟨h, by simp⟩
  | cons r v ih =>
    intro s h
    obtain ⟨h1, h2⟩ := ih _ (setInsert_incr natSTO (Row.fn r j) h)
    refine ⟨h1, ?_⟩
    intro x
    rw [List.foldl_cons, h2, mem_setInsert natSTO]
    simp only [List.mem_cons, exists_eq_or_imp]
    tauto

theorem orb_incr (v : List Row) (j : Nat) : Incr (fun a b => decide (a < b)) (orb v j) := (orb_aux j v [] (by simp)).1
theorem mem_orb {v : List Row} {j x : Nat} : x ∈ orb v j ↔ ∃ r ∈ v, x = Row.fn r j := by
  unfold orb; rw [(orb_aux j v [] (by simp)).2]; simp

theorem incr_ext {s t : List Nat} (hs : Incr (fun a b => decide (a < b)) s)
    (ht : Incr (fun a b => decide (a < b)) t) (h : ∀ x, x ∈ s ↔ x ∈ t) : s = t := by
  have hs' : s.Pairwise (· < ·) := hs.imp (by intro a b; simp)
  have ht' : t.Pairwise (· < ·) := ht.imp (by intro a b; simp)
  have hp : s.Perm t := (List.perm_ext_iff_of_nodup (hs.nodup natSTO) (ht.nodup natSTO)).2 h
  exact hp.eq_of_pairwise (fun a b _ _ h1 h2 => absurd h1 (by omega)) hs' ht'

/-- The pure value of `orbitsC`. -/
def orbs (v : List Row) : (k j : Nat) → (o : List (List Nat)) → List (List Nat)
  | 0, _, o => o
  | k + 1, j, o => orbs v k (j + 1) (if o.contains (orb v j) then o else o ++ [orb v j])

theorem orbitsC_eq {b : Nat} {v : List Row} (h : ∀ r ∈ v, b ≤ r.length) : ∀ (k j : Nat) (o : List (List Nat)),
    j + k ≤ b → orbitsC v k j o = .ok (orbs v k j o) := by
  intro k
  induction k with
  | zero => intro j o _; rfl
  | succ k ih =>
    intro j o hj
    unfold orbitsC orbs
    rw [orbitC_eq (by omega : j < b) v [] h, Out.ok_bind]
    exact ih _ _ (by omega)

theorem withOrbitsC_eq {b : Nat} {v : List Row} (h : ∀ r ∈ v, b ≤ r.length) :
    withOrbitsC b v = .ok ⟨b, v, orbs v b 0 []⟩ := by
  unfold withOrbitsC
  rw [orbitsC_eq h b 0 [] (by omega)]; rfl

theorem orbs_spec (v : List Row) : ∀ (k j : Nat) (o : List (List Nat)), o.Nodup →
    (orbs v k j o).Nodup ∧ ∀ x, x ∈ orbs v k j o ↔ x ∈ o ∨ ∃ i, j ≤ i ∧ i < j + k ∧ x = orb v i := by
  intro k
  induction k with
  | zero => intro j o h; exact ⟨h, fun x => ⟨Or.inl, by rintro (h | ⟨i, h1, h2, -⟩); exact h; omega⟩⟩
  | succ k ih =>
    intro j o h
    unfold orbs
    have hn : (if o.contains (orb v j) = true then o else o ++ [orb v j]).Nodup := by
      by_cases hc : o.contains (orb v j) = true
      · rw [if_pos hc]; exact h
      · rw [if_neg hc]
        rw [List.nodup_append]
        refine ⟨h, by simp, ?_⟩
        intro a ha b hb
        rw [List.mem_singleton.1 hb]
        rintro rfl
        exact hc (by simpa using ha)
    obtain ⟨h1, h2⟩ := ih (j + 1) _ hn
    refine ⟨h1, ?_⟩
    intro x
    rw [h2]
    have hm : x ∈ (if o.contains (orb v j) = true then o else o ++ [orb v j]) ↔ x ∈ o ∨ x = orb v j := by
      by_cases hc : o.contains (orb v j) = true
      · rw [if_pos hc]
        have : orb v j ∈ o := by simpa using hc
        constructor
        · exact Or.inl
        · rintro (h | rfl)
          · exact h
          · exact this
      · rw [if_neg hc]; simp
    rw [hm]
    constructor
    · rintro ((h | h) | ⟨i, h1, h2, h3⟩)
      · exact Or.inl h
      · exact Or.inr ⟨j, le_rfl, by omega, h⟩
      · exact Or.inr ⟨i, by omega, by omega, h3⟩
    · rintro (h | ⟨i, h1, h2, h3⟩)
      · exact Or.inl (Or.inl h)
      · by_cases e : i = j
        · subst e; exact Or.inl (Or.inr h3)
        · exact Or.inr ⟨i, by omega, by omega, h3⟩

/-! ### Well-formed group objects -/

/-- The class invariant of `group`. -/
structure Good (g : Group) : Prop where
  grp : IsGrp g.v g.b
  o : g.o = orbs g.v g.b 0 []

theorem withOrbits_good {b : Nat} {v : List Row} (h : IsGrp v b) :
    ∃ g, withOrbitsC b v = .ok g ∧ g.b = b ∧ g.v = v ∧ Good g :=
  ⟨_, withOrbitsC_eq (fun r hr => by rw [(h.rows r hr).2]), rfl, rfl, ⟨h, rfl⟩⟩

theorem good_trivial0 : Good trivial0 :=
  ⟨⟨by decide, by simp [trivial0], by simp [trivial0, Row.Valid], by simp [trivial0, Row.rounds],
    by simp [trivial0, Row.mul]⟩, rfl⟩

theorem generate_good {b : Nat} {gens : List Row} (hb : b ≤ 256)
    (hg : ∀ g ∈ gens, Row.Valid g ∧ g.length ≤ b) (hne : gens ≠ []) :
    ∃ g, (generateC b gens >>= withOrbitsC b) = .ok g ∧ g.b = b ∧ Lists g.v g.b (generated gens) ∧ Good g := by
  obtain ⟨s, h1, h2⟩ := generate_lists hb hg hne
  obtain ⟨g, e1, e2, e3, e4⟩ := withOrbits_good (IsGrp.of_lists hb h2)
  exact ⟨g, by rw [h1]; exact e1, e2, by rw [e2, e3]; exact h2, e4⟩

theorem ofRow_good {r : Row} (hr : Row.Valid r) :
    ∃ g, ofRowC r = .ok g ∧ g.b = r.length ∧ Lists g.v g.b (generated [r]) ∧ Good g :=
  generate_good hr.2 (by simpa using hr) (by simp)

theorem generated_congr {l m : List Row} (h : ∀ x, x ∈ l ↔ x ∈ m) : generated l = generated m := by
  unfold generated
  congr 1
  ext p
  simp only [Set.mem_setOf_eq, h]

theorem ofRows_good {r s : Row} (hr : Row.Valid r) (hs : Row.Valid s) :
    ∃ g, ofRowsC r s = .ok g ∧ g.b = max r.length s.length ∧ Lists g.v g.b (generated [r, s]) ∧ Good g := by
  have hb : (if r.length > s.length then r.length else s.length) = max r.length s.length := by
    split_ifs <;> omega
  unfold ofRowsC
  simp only [hb]
  have h1 := hr.2
  have h2 := hs.2
  obtain ⟨g, e1, e2, e3, e4⟩ := generate_good (b := max r.length s.length)
    (gens := if s ≠ r then [r, s] else [r]) (by omega) (by
      intro x hx
      have : x = r ∨ x = s := by split_ifs at hx <;> simp at hx <;> tauto
      rcases this with rfl | rfl
      · exact ⟨hr, by omega⟩
      · exact ⟨hs, by omega⟩) (by split_ifs <;> simp)
  refine ⟨g, e1, e2, ?_, e4⟩
  rw [generated_congr (m := if s ≠ r then [r, s] else [r])]
  · exact e3
  · intro x
    split_ifs with h
    · rfl
    · rw [not_not.1 h]; simp

theorem sortRows_perm (l : List Row) : (sortRows l).Perm l := sortBy_perm _ _

theorem sortRows_le (l : List Row) : (sortRows l).Pairwise (fun a b => Row.lt b a = false) := by
  have := sortBy_pairwise (le := fun a b : Row => !Row.lt b a)
    (by
      intro a b c h1 h2
      simp only [Bool.not_eq_true'] at *
      by_contra hc
      have hc' : Row.lt c a = true := by simpa using hc
      rcases lt_total' b a with h | h | h
      · rw [h] at h1; cases h1
      · subst h; rw [hc'] at h2; cases h2
      · have := lt_trans' hc' h; rw [this] at h2; cases h2)
    (by
      intro a b
      rcases lt_total' a b with h | h | h
      · simp [lt_asymm' h]
      · subst h; simp [lt_irrefl']
      · simp [lt_asymm' h]) l
  exact this.imp (by intro a b; simp)

theorem sortRows_incr {l : List Row} (h : l.Nodup) : Incr Row.lt (sortRows l) := by
  have h1 := sortRows_le l
  have h2 : (sortRows l).Nodup := (sortRows_perm l).nodup_iff.2 h
  have := List.Pairwise.and h1 h2
  exact this.imp (by
    rintro a b ⟨h1, h2⟩
    rcases lt_total' a b with h | h | h
    · exact h
    · exact absurd h h2
    · rw [h] at h1; cases h1)

theorem mem_unique : ∀ (l : List Row) (x : Row), x ∈ unique l ↔ x ∈ l
  | [], x => by simp [unique]
  | [a], x => by simp [unique]
  | a :: b :: l, x => by
    unfold unique
    split_ifs with h
    · subst h; rw [mem_unique (a :: l) x]; simp
    · rw [List.mem_cons, mem_unique (b :: l) x, List.mem_cons]; simp

theorem foldl_max (l : List Row) : ∀ (b : Nat), b ≤ 256 → (∀ r ∈ l, r.length ≤ 256) →
    let m := l.foldl (fun b g => if g.length > b then g.length else b) b
    b ≤ m ∧ m ≤ 256 ∧ (∀ r ∈ l, r.length ≤ m) ∧ (m = b ∨ ∃ r ∈ l, m = r.length) := by
  induction l with
  | nil => intro b hb _; simpa using hb
  | cons r l ih =>
    intro b hb h
    simp only [List.foldl_cons]
    have hr := h r (by simp)
    obtain ⟨h1, h2, h3, h4⟩ := ih (if r.length > b then r.length else b) (by split_ifs <;> omega)
      (fun x hx => h x (by simp [hx]))
    refine ⟨?_, h2, ?_, ?_⟩
    · split_ifs at h1 ⊢ <;> omega
    · intro x hx
      rcases List.mem_cons.1 hx with rfl | hx
      · split_ifs at h1 ⊢ <;> omega
      · exact h3 x hx
    · rcases h4 with h4 | ⟨x, hx, h4⟩
      · by_cases hc : r.length > b
        · rw [if_pos hc] at h4 ⊢; exact Or.inr ⟨r, by simp, h4⟩
        · rw [if_neg hc] at h4 ⊢; exact Or.inl h4
      · exact Or.inr ⟨x, by simp [hx], h4⟩

/-- The largest number of bells. -/
theorem ofVector_good {gens : List Row} (hg : ∀ g ∈ gens, Row.Valid g) (hne : gens ≠ []) :
    ∃ g, ofVectorC gens = .ok g ∧ (∀ r ∈ gens, r.length ≤ g.b) ∧ (∃ r ∈ gens, r.length = g.b) ∧
      Lists g.v g.b (generated gens) ∧ Good g := by
  have hmem : ∀ x, x ∈ unique (sortRows gens) ↔ x ∈ gens := fun x => by
    rw [mem_unique, (sortRows_perm gens).mem_iff]
  unfold ofVectorC
  rw [if_neg (by simpa using hne)]
  simp only
  obtain ⟨h1, h2, h3, h4⟩ := foldl_max (unique (sortRows gens)) 0 (by omega)
    (fun r hr => (hg r ((hmem r).1 hr)).2)
  set b := (unique (sortRows gens)).foldl (fun b g => if g.length > b then g.length else b) 0
  have hne' : unique (sortRows gens) ≠ [] := by
    obtain ⟨x, hx⟩ := List.exists_mem_of_ne_nil _ hne
    exact List.ne_nil_of_mem ((hmem x).2 hx)
  obtain ⟨g, e1, e2, e3, e4⟩ := generate_good h2 (gens := unique (sortRows gens))
    (fun r hr => ⟨hg r ((hmem r).1 hr), h3 r hr⟩) hne'
  refine ⟨g, e1, ?_, ?_, ?_, e4⟩
  · intro r hr; rw [e2]; exact h3 r ((hmem r).2 hr)
  · rcases h4 with h4 | ⟨r, hr, h4⟩
    · obtain ⟨x, hx⟩ := List.exists_mem_of_ne_nil _ hne
      have := h3 x ((hmem x).2 hx)
      exact ⟨x, hx, by omega⟩
    · exact ⟨r, (hmem r).1 hr, by rw [e2, h4]⟩
  · rw [← generated_congr hmem]; exact e3

end Group
end Ringing
