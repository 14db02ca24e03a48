import Verif.Spec.MaskBlocks
import Mathlib.Data.List.Basic

/-! Lemmas on the expansion of masks. -/
namespace Ringing
namespace Mask
open MethodUtils

abbrev LL := List (List Change)

/-- `reflectC` of a written block. -/
theorem reflectC_eq {w : Block} (h : Written w) : reflectC w = .ok { w with data := reflected w.isSym w.data } := by
  unfold reflectC reflected
  cases hs : w.isSym with
  | false => rw [if_neg (by simp), if_neg (by simp)]; obtain ⟨a, b, c⟩ := w; simp only at hs; subst hs; rfl
  | true => rw [if_pos rfl, if_neg (h.sym hs), if_pos rfl]

theorem star_split {w : Block} (h : Written w) {i : Nat} (hi : w.star = some i) :
    ∃ p q, w.data = p ++ [] :: q ∧ p.length = i := by
  have h1 := h.star i hi
  obtain ⟨h2, h3⟩ := List.getElem?_eq_some_iff.1 h1
  refine ⟨w.data.take i, w.data.drop (i + 1), ?_, by rw [List.length_take]; omega⟩
  rw [← h3, ← List.drop_eq_getElem_cons h2, List.take_append_drop]

theorem fills_split {w : Block} {i : Nat} (hi : w.star = some i) {p q : LL} (hd : w.data = p ++ [] :: q) (hp : p.length = i) (l : LL) :
    Fills w l ↔ ∃ k, (w.isSym = true → q = [] → 0 < k) ∧ l = reflected w.isSym (p ++ List.replicate k [] ++ q) := by
  unfold Fills
  rw [hi]
  simp only
  rw [hd, ← hp, List.take_left, List.length_append, List.length_cons,
    show p ++ [] :: q = (p ++ [[]]) ++ q by simp, show p.length + 1 = (p ++ [[]]).length by simp, List.drop_left]
  have : (p.length + [([] : List Change)].length = p.length + (q.length + 1)) ↔ q = [] := by
    rw [List.length_singleton, ← List.length_eq_zero_iff]; omega
  simp only [List.length_append, this]

theorem insertEmpty_eq {p q : LL} {n : Nat} (h : n + (p.length + q.length) ≤ 2 ^ 50) :
    insertEmptyC (p ++ q) p.length n = .ok (p ++ List.replicate n [] ++ q) := by
  unfold insertEmptyC
  rw [if_neg (by rw [List.length_append]; omega), List.take_left, List.drop_left]

theorem insertEmpty_throw {l : LL} {p n : Nat} (h : 2 ^ 62 ≤ n) : insertEmptyC l p n = .throw .logicError := by
  unfold insertEmptyC
  rw [if_pos (by omega)]

theorem replicate_add_one (n : Nat) (q : LL) : List.replicate n [] ++ [] :: q = List.replicate (n + 1) [] ++ q := by
  rw [List.replicate_add]; simp

/-- What `expand_block` does with a block and the number `N` of positions wanted. -/
def Good (w : Block) (N : Int) (r : Out LL) : Prop :=
  (∃ l, r = .ok l ∧ Fills w l ∧ (l.length : Int) = N) ∨
  ((r = .throw .invalidArgument ∨ r = .throw .logicError) ∧ ∀ l, Fills w l → (l.length : Int) ≠ N)

theorem length_reflected (s : Bool) (h : LL) : (reflected s h).length = if s then h.length + (h.length - 1) else h.length := by
  unfold reflected
  cases s <;> simp

theorem expand_spec {w : Block} (h : Written w) {i : Nat} (hi : w.star = some i) {N : Int} {by' : Nat}
    (hb : (by' : Int) = (N - (reflected w.isSym w.data).length) % 2 ^ 64) (h1 : (reflected w.isSym w.data).length < 2 ^ 40) (h2 : N < 2 ^ 40) (h3 : -2 ^ 41 < N) :
    Good w N (expandBlockC (reflected w.isSym w.data) w.isSym i by') := by
  obtain ⟨p, q, hd, hp⟩ := star_split h hi
  have hf := fills_split hi hd hp
  unfold Good
  simp only [hf]
  rw [hd] at hb h1 ⊢
  rw [length_reflected] at hb h1
  unfold expandBlockC
  rw [length_reflected]
  have key : ∀ k, (reflected w.isSym (p ++ List.replicate k [] ++ q)).length =
      if w.isSym then (p.length + k + q.length) + (p.length + k + q.length - 1) else p.length + k + q.length := by
    intro k; rw [length_reflected]; simp [Nat.add_assoc]
  cases hs : w.isSym with
  | false =>
    rw [hs] at hb h1 key hf
    simp only [Bool.false_eq_true, if_false, false_and] at hb h1 key ⊢
    rw [List.length_append, List.length_cons] at hb h1
    obtain ⟨D, hD⟩ : ∃ D : Int, D = N - (p.length + (q.length + 1)) + 1 := ⟨_, rfl⟩
    by_cases hneg : D < 0
    · right
      refine ⟨.inr ?_, fun l hl => ?_⟩
      · have hn : 2 ^ 62 < (by' + 1) % 2 ^ 64 := by omega
        rw [if_neg (by omega), if_pos (by omega)]
        exact insertEmpty_throw (by omega)
      · obtain ⟨k, -, rfl⟩ := hl
        rw [key]; omega
    · left
      have hn : (by' + 1) % 2 ^ 64 = D.toNat := by omega
      rw [hn]
      refine ⟨p ++ List.replicate D.toNat [] ++ q, ?_, ⟨D.toNat, by simp, rfl⟩, by simp; omega⟩
      unfold reflected
      simp only [Bool.false_eq_true, if_false]
      by_cases h0 : D.toNat = 0
      · rw [if_pos h0, h0, ← hp, List.eraseIdx_append_of_length_le (Nat.le_refl _)]; simp
      · rw [if_neg h0]
        by_cases h1' : D.toNat > 1
        · rw [if_pos h1', ← hp, insertEmpty_eq (by rw [List.length_cons]; omega), List.append_assoc, replicate_add_one, ← List.append_assoc]
          rw [Nat.sub_add_cancel (by omega)]
        · have : D.toNat = 1 := by omega
          rw [if_neg h1', this]; simp
  | true =>
    rw [hs] at hb h1 key hf
    simp only [if_true, true_and] at hb h1 key ⊢
    have hlen : (p ++ ([] : List Change) :: q).length = p.length + q.length + 1 := by simp; omega
    rw [hlen] at hb h1 ⊢
    rw [if_neg (by omega)]
    by_cases hq : q = []
    · subst hq
      rw [List.length_nil] at hb h1 key ⊢
      rw [if_pos (by omega)]
      obtain ⟨D, hD⟩ : ∃ D : Int, D = N - (p.length + 0 + 1 + (p.length + 0 + 1 - 1)) + 1 := ⟨_, rfl⟩
      by_cases hev : D % 2 = 0
      · right
        refine ⟨.inl (by rw [if_pos (by omega)]), fun l hl => ?_⟩
        obtain ⟨k, hk, rfl⟩ := hl
        rw [key]; have := hk trivial rfl; omega
      · rw [if_neg (by omega)]
        by_cases hneg : D < 0
        · right
          refine ⟨.inr ?_, fun l hl => ?_⟩
          · rw [if_pos (by omega)]; exact insertEmpty_throw (by omega)
          · obtain ⟨k, hk, rfl⟩ := hl
            rw [key]; have := hk trivial rfl; omega
        · left
          obtain ⟨k, hk⟩ : ∃ k : Nat, D = 2 * (k + 1) - 1 := ⟨((D - 1) / 2).toNat, by omega⟩
          have hn : (by' + 1) % 2 ^ 64 = 2 * k + 1 := by omega
          rw [hn]
          have e : reflected true (p ++ List.replicate (k + 1) [] ++ []) = p ++ List.replicate (2 * k + 1) [] ++ p.reverse := by
            unfold reflected
            rw [if_pos rfl, List.append_nil, List.reverse_append, List.reverse_replicate, List.replicate_succ, List.cons_append, List.drop_one, List.tail_cons,
              ← List.replicate_succ, show 2 * k + 1 = (k + 1) + k by omega]
            simp
            rw [← List.append_assoc, List.replicate_append_replicate]
          refine ⟨_, ?_, ⟨k + 1, fun _ _ => by omega, rfl⟩, by rw [key]; omega⟩
          rw [e]
          have e0 : reflected true (p ++ [] :: []) = p ++ ([] :: p.reverse) := by unfold reflected; simp
          rw [e0]
          by_cases hk0 : k = 0
          · subst hk0; rw [if_neg (by omega)]; simp
          · rw [if_pos (by omega), ← hp, insertEmpty_eq (by rw [List.length_cons, List.length_reverse]; omega), List.append_assoc, replicate_add_one, ← List.append_assoc,
              Nat.add_sub_cancel]
    · have hq0 : 0 < q.length := List.length_pos_iff.2 hq
      rw [if_neg (by omega)]
      obtain ⟨D, hD⟩ : ∃ D : Int, D = N - (p.length + q.length + 1 + (p.length + q.length + 1 - 1)) + 2 := ⟨_, rfl⟩
      by_cases hodd : D % 2 = 1
      · right
        refine ⟨.inl (by rw [if_pos (by omega)]), fun l hl => ?_⟩
        obtain ⟨k, -, rfl⟩ := hl
        rw [key]; omega
      · rw [if_neg (by omega)]
        by_cases hneg : D < 0
        · right
          refine ⟨.inr ?_, fun l hl => ?_⟩
          · rw [if_neg (by omega), if_pos (by omega), insertEmpty_throw (by omega)]; rfl
          · obtain ⟨k, -, rfl⟩ := hl
            rw [key]; omega
        · left
          obtain ⟨k, hk⟩ : ∃ k : Nat, D = 2 * k := ⟨(D / 2).toNat, by omega⟩
          have hn : (by' + 2) % 2 ^ 64 = 2 * k := by omega
          rw [hn]
          obtain ⟨M, hM⟩ : ∃ M, M = q ++ q.reverse.drop 1 := ⟨_, rfl⟩
          have hMl : M.length = q.length + (q.length - 1) := by rw [hM]; simp
          have e : ∀ k, reflected true (p ++ List.replicate k [] ++ q) = p ++ (List.replicate k [] ++ (M ++ (List.replicate k [] ++ p.reverse))) := by
            intro k
            unfold reflected
            obtain ⟨x, xs, hx⟩ : ∃ x xs, q.reverse = x :: xs := by
              cases hr : q.reverse with
              | nil => exact absurd (List.reverse_eq_nil_iff.1 hr) hq
              | cons x xs => exact ⟨x, xs, rfl⟩
            rw [if_pos rfl, hM, List.reverse_append, List.reverse_append, List.reverse_replicate, hx]
            simp
          refine ⟨_, ?_, ⟨k, fun _ hc => absurd hc hq, rfl⟩, by rw [key]; omega⟩
          have e0 := e 1
          rw [show p ++ List.replicate 1 [] ++ q = p ++ [] :: q by simp] at e0
          rw [e, e0]
          by_cases hk0 : k = 0
          · subst hk0
            rw [if_pos rfl]
            have s1 : p ++ (List.replicate 1 [] ++ (M ++ (List.replicate 1 [] ++ p.reverse))) = (p ++ [] :: M) ++ ([] :: p.reverse) := by simp
            rw [s1, show p.length + q.length + 1 + (p.length + q.length + 1 - 1) - 1 - i = (p ++ ([] : List Change) :: M).length by
              rw [List.length_append, List.length_cons, hMl]; omega, List.eraseIdx_append_of_length_le (Nat.le_refl _), Nat.sub_self, List.eraseIdx_cons_zero,
              List.append_assoc, ← hp, List.eraseIdx_append_of_length_le (Nat.le_refl _)]
            simp
          · rw [if_neg (by omega)]
            by_cases hk1 : k = 1
            · subst hk1; rw [if_neg (by omega)]
            · rw [if_pos (by omega)]
              have s1 : p ++ (List.replicate 1 [] ++ (M ++ (List.replicate 1 [] ++ p.reverse))) = (p ++ [] :: M) ++ ([] :: p.reverse) := by simp
              rw [s1, show p.length + q.length + 1 + (p.length + q.length + 1 - 1) - 1 - i = (p ++ ([] : List Change) :: M).length by
                rw [List.length_append, List.length_cons, hMl]; omega, insertEmpty_eq (by
                  rw [List.length_append, List.length_cons, List.length_cons, List.length_reverse, hMl]; omega), Out.ok_bind,
                show (p ++ [] :: M) ++ List.replicate (2 * k / 2 - 1) [] ++ [] :: p.reverse = p ++ ([] :: (M ++ (List.replicate (2 * k / 2 - 1) [] ++ [] :: p.reverse))) by simp,
                ← hp, insertEmpty_eq (by
                  simp only [List.length_append, List.length_cons, List.length_reverse, List.length_replicate, hMl]; omega),
                replicate_add_one, List.append_assoc, replicate_add_one]
              rw [show 2 * k / 2 - 1 + 1 = k by omega]

end Mask
end Ringing
