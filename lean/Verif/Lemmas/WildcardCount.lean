import Verif.Lemmas.MusicState
import Mathlib.Data.List.Permutation
import Mathlib.Data.Finset.Card
import Mathlib.Data.Nat.Factorial.Basic
import Mathlib.Algebra.BigOperators.Group.Finset.Basic
import Mathlib.Algebra.BigOperators.Fin
import Mathlib.Data.Finset.Union
/-! Counting the rows that match a pattern. -/
namespace Spec

theorem matches_append (p q : List Tok) : ∀ r, Matches (p ++ q) r ↔ ∃ a t, r = a ++ t ∧ Matches p a ∧ Matches q t := by
  induction p with
  | nil => intro r; simp [Matches]
  | cons x p ih =>
    intro r
    cases x with
    | bell b =>
      simp only [List.cons_append, Matches, ih]
      constructor
      · rintro ⟨t, rfl, a, u, rfl, h1, h2⟩; exact ⟨b :: a, u, rfl, ⟨a, rfl, h1⟩, h2⟩
      · rintro ⟨a, u, rfl, ⟨t, rfl, h1⟩, h2⟩; exact ⟨t ++ u, rfl, t, u, rfl, h1, h2⟩
    | any =>
      simp only [List.cons_append, Matches, ih]
      constructor
      · rintro ⟨y, t, rfl, a, u, rfl, h1, h2⟩; exact ⟨y :: a, u, rfl, ⟨y, a, rfl, h1⟩, h2⟩
      · rintro ⟨a, u, rfl, ⟨y, t, rfl, h1⟩, h2⟩; exact ⟨y, t ++ u, rfl, t, u, rfl, h1, h2⟩
    | set l =>
      simp only [List.cons_append, Matches, ih]
      constructor
      · rintro ⟨y, t, rfl, hy, a, u, rfl, h1, h2⟩; exact ⟨y :: a, u, rfl, ⟨y, a, rfl, hy, h1⟩, h2⟩
      · rintro ⟨a, u, rfl, ⟨y, t, rfl, hy, h1⟩, h2⟩; exact ⟨y, t ++ u, rfl, hy, t, u, rfl, h1, h2⟩
    | star =>
      simp only [List.cons_append, Matches, ih]
      constructor
      · rintro ⟨c, t, rfl, a, u, rfl, h1, h2⟩; exact ⟨c ++ a, u, by simp, ⟨c, a, rfl, h1⟩, h2⟩
      · rintro ⟨a, u, rfl, ⟨c, t, rfl, h1⟩, h2⟩; exact ⟨c, t ++ u, by simp, t, u, rfl, h1, h2⟩

theorem ones_append (p q : List Tok) : ones (p ++ q) = ones p + ones q := by simp [ones]

theorem matches_ones {p : List Tok} {r : List Nat} (h : Matches p r) : ones p ≤ r.length := by
  by_contra hc
  exact (readings_ne_nil p r).2 h (readings_short (by omega))

theorem matches_length {p : List Tok} (hp : Tok.star ∉ p) {r : List Nat} (h : Matches p r) : r.length = p.length := by
  by_contra hc
  exact (readings_ne_nil p r).2 h (readings_long hp hc)

theorem matches_anys (i : Nat) : ∀ r, Matches (List.replicate i .any) r ↔ r.length = i := by
  induction i with
  | zero => intro r; simp [Matches]
  | succ i ih =>
    intro r
    simp only [List.replicate_succ, Matches, ih]
    constructor
    · rintro ⟨x, t, rfl, h⟩; simp [h]
    · intro h
      cases r with
      | nil => simp at h
      | cons x t => exact ⟨x, t, rfl, by simpa using h⟩

theorem matches_star (r : List Nat) : Matches [.star] r := ⟨r, [], by simp, rfl⟩

open Classical in
/-- The rows on `b` bells that match. -/
noncomputable def rowsOf (b : Nat) (p : List Tok) : Finset (List Nat) :=
  (List.range b).permutations.toFinset.filter (Matches p)

theorem mem_rowsOf {b : Nat} {p : List Tok} {r : List Nat} : r ∈ rowsOf b p ↔ r.Perm (List.range b) ∧ Matches p r := by
  simp [rowsOf]

theorem rowsOf_congr {b : Nat} {p q : List Tok} (h : ∀ r : List Nat, r.length = b → (Matches p r ↔ Matches q r)) : rowsOf b p = rowsOf b q := by
  ext r
  rw [mem_rowsOf, mem_rowsOf]
  constructor
  · rintro ⟨h1, h2⟩; exact ⟨h1, (h r (by simpa using h1.length_eq)).1 h2⟩
  · rintro ⟨h1, h2⟩; exact ⟨h1, (h r (by simpa using h1.length_eq)).2 h2⟩

/-! ### Fixed bells and question marks -/

theorem fixed_append (p q : List Tok) : fixed (p ++ q) = fixed p ++ fixed q := by simp [fixed]

theorem fixed_mem {p : List Tok} {x : Nat} : x ∈ fixed p ↔ Tok.bell x ∈ p := by
  simp only [fixed, List.mem_filterMap]
  constructor
  · rintro ⟨t, ht, e⟩
    cases t <;> simp at e
    subst e; exact ht
  · intro h; exact ⟨_, h, rfl⟩

/-- Only bells and question marks. -/
def Bare (p : List Tok) : Prop := ∀ t ∈ p, t = .any ∨ ∃ x, t = .bell x

theorem Bare.noStar {p : List Tok} (h : Bare p) : Tok.star ∉ p := by
  intro hm
  rcases h _ hm with h | ⟨x, h⟩ <;> cases h

/-- The sequences with the elements of a list that match. -/
def sols : List Tok → List Nat → List (List Nat)
  | [], S => if S = [] then [[]] else []
  | .bell x :: p, S => if x ∈ S then (sols p (S.erase x)).map (x :: ·) else []
  | _ :: p, S => S.flatMap fun x => (sols p (S.erase x)).map (x :: ·)

theorem mem_sols {p : List Tok} (hp : Bare p) : ∀ {S r : List Nat}, r ∈ sols p S ↔ r.Perm S ∧ Matches p r := by
  induction p with
  | nil =>
    intro S r
    rw [sols, Matches]
    split
    · rename_i h; subst h; simp
    · rename_i h
      constructor
      · intro h; simp at h
      · rintro ⟨h1, rfl⟩; exact absurd h1.symm.eq_nil h
  | cons t p ih =>
    intro S r
    have ih := @ih fun t ht => hp t (List.mem_cons_of_mem _ ht)
    rcases hp t (by simp) with rfl | ⟨x, rfl⟩
    · rw [sols, Matches]
      · simp only [List.mem_flatMap, List.mem_map, ih]
        constructor
        · rintro ⟨x, hx, t, ⟨h1, h2⟩, rfl⟩
          exact ⟨(h1.cons x).trans (List.perm_cons_erase hx).symm, x, t, rfl, h2⟩
        · rintro ⟨h1, x, t, rfl, h2⟩
          have hx : x ∈ S := h1.subset (by simp)
          exact ⟨x, hx, t, ⟨(h1.trans (List.perm_cons_erase hx)).cons_inv, h2⟩, rfl⟩
      · simp
    · rw [sols, Matches]
      split
      · rename_i hx
        simp only [List.mem_map, ih]
        constructor
        · rintro ⟨t, ⟨h1, h2⟩, rfl⟩
          exact ⟨(h1.cons x).trans (List.perm_cons_erase hx).symm, t, rfl, h2⟩
        · rintro ⟨h1, t, rfl, h2⟩
          exact ⟨t, ⟨(h1.trans (List.perm_cons_erase hx)).cons_inv, h2⟩, rfl⟩
      · rename_i hx
        constructor
        · intro h; simp at h
        · rintro ⟨h1, t, rfl, -⟩; exact absurd (h1.subset (by simp)) hx

theorem nodup_sols {p : List Tok} (hp : Bare p) : ∀ {S : List Nat}, S.Nodup → (sols p S).Nodup := by
  induction p with
  | nil => intro S _; rw [sols]; split <;> simp
  | cons t p ih =>
    intro S hS
    have ih := @ih fun t ht => hp t (List.mem_cons_of_mem _ ht)
    have hm : ∀ x, ((sols p (S.erase x)).map (x :: ·)).Nodup := fun x =>
      (ih (hS.erase x)).map (fun a b h => (List.cons.inj h).2)
    rcases hp t (by simp) with rfl | ⟨x, rfl⟩
    · rw [sols]
      · rw [List.nodup_flatMap]
        refine ⟨fun x _ => hm x, ?_⟩
        refine hS.imp fun {a b} hab => ?_
        intro y hy hy'
        obtain ⟨u, -, rfl⟩ := List.mem_map.1 hy
        obtain ⟨v, -, e⟩ := List.mem_map.1 hy'
        exact hab (List.cons.inj e).1.symm
      · simp
    · rw [sols]; split
      · exact hm x
      · simp

theorem length_sols {p : List Tok} (hp : Bare p) : ∀ {S : List Nat}, S.Nodup → (fixed p).Nodup → (∀ x ∈ fixed p, x ∈ S) → S.length = p.length →
    (sols p S).length = (p.count .any).factorial := by
  induction p with
  | nil => intro S _ _ _ h; rw [sols, if_pos (List.length_eq_zero_iff.1 h)]; rfl
  | cons t p ih =>
    intro S hS hf hsub hl
    have hp' : Bare p := fun t ht => hp t (List.mem_cons_of_mem _ ht)
    have ih := @ih hp'
    rcases hp t (by simp) with rfl | ⟨x, rfl⟩
    · have hfe : fixed (.any :: p) = fixed p := rfl
      rw [hfe] at hf hsub
      rw [sols]
      · rw [List.count_cons_self, Nat.factorial_succ]
        -- each choice
        have hch : ∀ x ∈ S, ((sols p (S.erase x)).map (x :: ·)).length = if x ∈ fixed p then 0 else (p.count .any).factorial := by
          intro x hx
          rw [List.length_map]
          split
          · rename_i hxf
            rw [List.length_eq_zero_iff, List.eq_nil_iff_forall_not_mem]
            intro r hr
            obtain ⟨h1, h2⟩ := (mem_sols hp').1 hr
            obtain ⟨a, c, e⟩ := List.append_of_mem (fixed_mem.1 hxf)
            rw [e, matches_append] at h2
            obtain ⟨u, v, rfl, -, w, rfl, -⟩ := h2
            have : x ∈ S.erase x := h1.subset (by simp)
            exact absurd this (hS.not_mem_erase)
          · rename_i hxf
            refine ih (hS.erase x) hf (fun y hy => ?_) (by rw [List.length_erase_of_mem hx]; simp at hl; omega)
            exact (List.mem_erase_of_ne (fun e => hxf (by rw [← e]; exact hy))).2 (hsub y hy)
        rw [List.length_flatMap, List.map_congr_left hch]
        have hsum : ∀ (S : List Nat) (c : Nat), (S.map fun x => if x ∈ fixed p then 0 else c).sum = (S.countP (· ∉ fixed p)) * c := by
          intro S c
          induction S with
          | nil => simp
          | cons y S ihS =>
            rw [List.map_cons, List.sum_cons, ihS, List.countP_cons]
            by_cases h : y ∈ fixed p
            · simp [h]
            · simp [h, Nat.add_mul, Nat.add_comm]
        rw [hsum]
        congr 1
        have hc1 : S.countP (· ∈ fixed p) = (fixed p).length := by
          rw [List.countP_eq_length_filter]
          refine List.Perm.length_eq ?_
          rw [List.perm_ext_iff_of_nodup (hS.filter _) hf]
          intro y
          simp only [List.mem_filter, decide_eq_true_eq]
          exact ⟨fun h => h.2, fun h => ⟨hsub y h, h⟩⟩
        have hc2 : ∀ q : List Tok, Bare q → q.length = q.count .any + (fixed q).length := by
          intro q hq
          induction q with
          | nil => rfl
          | cons t q ihq =>
            have := ihq (fun t ht => hq t (List.mem_cons_of_mem _ ht))
            rcases hq t (by simp) with rfl | ⟨x, rfl⟩
            · simp [fixed] at this ⊢; omega
            · simp [fixed] at this ⊢; omega
        have h3 := List.length_eq_countP_add_countP (l := S) (fun x => decide (x ∈ fixed p))
        have h4 := hc2 p hp'
        have h5 : S.countP (fun x => decide (x ∉ fixed p)) = S.countP (fun a => decide ¬(decide (a ∈ fixed p)) = true) := by
          congr 1; funext a; simp
        rw [h5]
        simp only [List.length_cons] at hl
        omega
      · simp
    · have hfe : fixed (.bell x :: p) = x :: fixed p := rfl
      rw [hfe] at hf hsub
      have hx : x ∈ S := hsub x (by simp)
      rw [sols, if_pos hx, List.length_map, List.count_cons_of_ne (by simp)]
      refine ih (hS.erase x) (List.nodup_cons.1 hf).2 (fun y hy => ?_) (by rw [List.length_erase_of_mem hx]; simp at hl; omega)
      exact (List.mem_erase_of_ne (fun e => (List.nodup_cons.1 hf).1 (by rw [← e]; exact hy))).2 (hsub y (by simp [hy]))

/-- The rows with some fixed bells: those that are left can be in any order. -/
theorem card_bare {b : Nat} {p : List Tok} (hp : Bare p) (hf : (fixed p).Nodup) (hb : ∀ x ∈ fixed p, x < b) (hl : p.length = b) :
    (rowsOf b p).card = (p.count .any).factorial := by
  have : rowsOf b p = (sols p (List.range b)).toFinset := by
    ext r
    rw [mem_rowsOf, List.mem_toFinset, mem_sols hp]
  rw [this, List.toFinset_card_of_nodup (nodup_sols hp List.nodup_range),
    length_sols hp List.nodup_range hf (fun x hx => List.mem_range.2 (hb x hx)) (by simp [hl])]

/-! ### Sets and stars -/

theorem nodup_of_mem {b : Nat} {p : List Tok} {r : List Nat} (h : r ∈ rowsOf b p) : r.Nodup :=
  (mem_rowsOf.1 h).1.nodup_iff.2 List.nodup_range

theorem bell_at {d z : List Tok} {x : Nat} (hd : Tok.star ∉ d) {r : List Nat} (h : Matches (d ++ .bell x :: z) r) : r[d.length]? = some x := by
  rw [matches_append] at h
  obtain ⟨a, t, rfl, h1, t', rfl, -⟩ := h
  rw [← matches_length hd h1]; simp

theorem card_set {b : Nat} {d z : List Tok} {l : List Nat} (hd : Tok.star ∉ d) :
    (rowsOf b (d ++ .set l :: z)).card = ∑ x ∈ l.toFinset.filter (· ∉ fixed d), (rowsOf b (d ++ .bell x :: z)).card := by
  rw [← Finset.card_biUnion]
  · congr 1
    ext r
    simp only [Finset.mem_biUnion, mem_rowsOf, Finset.mem_filter, List.mem_toFinset]
    constructor
    · rintro ⟨h1, h2⟩
      have hn : r.Nodup := h1.nodup_iff.2 List.nodup_range
      rw [matches_append] at h2
      obtain ⟨a, t, rfl, h3, x, t', rfl, hx, h4⟩ := h2
      refine ⟨x, ⟨hx, ?_⟩, h1, ?_⟩
      · intro hxf
        obtain ⟨u, v, e⟩ := List.append_of_mem (fixed_mem.1 hxf)
        rw [e, matches_append] at h3
        obtain ⟨y, w, rfl, -, w', rfl, -⟩ := h3
        rw [List.nodup_append] at hn
        exact hn.2.2 x (by simp) x (by simp) rfl
      · rw [matches_append]; exact ⟨a, x :: t', rfl, h3, t', rfl, h4⟩
    · rintro ⟨x, ⟨hx, -⟩, h1, h2⟩
      rw [matches_append] at h2 ⊢
      obtain ⟨a, t, rfl, h3, t', rfl, h4⟩ := h2
      exact ⟨h1, a, x :: t', rfl, h3, x, t', rfl, hx, h4⟩
  · intro x _ y _ hxy
    rw [Function.onFun, Finset.disjoint_left]
    intro r h1 h2
    have e1 := bell_at hd (mem_rowsOf.1 h1).2
    have e2 := bell_at hd (mem_rowsOf.1 h2).2
    rw [e1] at e2
    exact hxy (Option.some.inj e2)

theorem matches_star_iff (d z : List Tok) (r : List Nat) :
    Matches (d ++ .star :: z) r ↔ ∃ i, Matches (d ++ (List.replicate i .any ++ z)) r := by
  simp only [matches_append, Matches]
  constructor
  · rintro ⟨a, t, rfl, h1, u, v, rfl, h2⟩
    exact ⟨u.length, a, u ++ v, rfl, h1, u, v, rfl, (matches_anys _ _).2 rfl, h2⟩
  · rintro ⟨i, a, t, rfl, h1, u, v, rfl, -, h2⟩
    exact ⟨a, u ++ v, rfl, h1, u, v, rfl, h2⟩

theorem ones_anys (i : Nat) : ones (List.replicate i .any) = i := by
  simp [ones]

theorem rowsOf_lastStar {b : Nat} {d z : List Tok} (hd : Tok.star ∉ d) (hz : Tok.star ∉ z) (hb : ones (d ++ z) ≤ b) :
    rowsOf b (d ++ .star :: z) = rowsOf b (d ++ (List.replicate (b - ones (d ++ z)) .any ++ z)) := by
  apply rowsOf_congr
  intro r hr
  rw [matches_star_iff]
  constructor
  · rintro ⟨i, h⟩
    have hl := matches_length (by simp [hd, hz]) h
    have h1 := Ringing.MNode.ones_of_noStar hd
    have h2 := Ringing.MNode.ones_of_noStar hz
    rw [ones_append, h1, h2] at hb ⊢
    simp at hl
    rwa [show b - (d.length + z.length) = i by omega]
  · intro h; exact ⟨_, h⟩

theorem card_star {b : Nat} {d z z1 z2 : List Tok} {x : Nat} (hd : Tok.star ∉ d) (hz : z = z1 ++ .bell x :: z2) (hz1 : Tok.star ∉ z1)
    (hb : ones (d ++ z) ≤ b) :
    (rowsOf b (d ++ .star :: z)).card = ∑ i ∈ Finset.range (b - ones (d ++ z) + 1), (rowsOf b (d ++ (List.replicate i .any ++ z))).card := by
  rw [← Finset.card_biUnion]
  · congr 1
    ext r
    simp only [Finset.mem_biUnion, mem_rowsOf, Finset.mem_range, matches_star_iff]
    constructor
    · rintro ⟨h1, i, h2⟩
      refine ⟨i, ?_, h1, h2⟩
      have := matches_ones h2
      rw [ones_append, ones_append, ones_anys] at this
      have hl : r.length = b := by simpa using h1.length_eq
      rw [ones_append] at hb ⊢
      omega
    · rintro ⟨i, -, h1, h2⟩; exact ⟨h1, i, h2⟩
  · intro i _ j _ hij
    rw [Function.onFun, Finset.disjoint_left]
    intro r h1 h2
    have hn := nodup_of_mem h1
    have key : ∀ i, r ∈ rowsOf b (d ++ (List.replicate i .any ++ z)) → r[d.length + (i + z1.length)]? = some x := by
      intro i h
      have h := (mem_rowsOf.1 h).2
      rw [hz, ← List.append_assoc, ← List.append_assoc] at h
      have := bell_at (by simp [hd, hz1]) h
      simpa [Nat.add_assoc] using this
    have e1 := key i h1
    have e2 := key j h2
    obtain ⟨l1, _⟩ := List.getElem?_eq_some_iff.1 e1
    have := (List.getElem?_inj l1 hn).1 (e1.trans e2.symm)
    omega

end Spec
