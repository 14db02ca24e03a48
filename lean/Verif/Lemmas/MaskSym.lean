import Verif.Spec.MaskBlocks
import Verif.Lemmas.Mask
import Mathlib.Tactic.ByContra
import Mathlib.Tactic.Push

/-! Lemmas on the symmetries of masks. -/
namespace Ringing
namespace Mask

/-- The changes of a mask. -/
def Fine (n : Nat) (l : List (List Change)) : Prop := ∀ x ∈ l, ∀ c ∈ x, c.WF ∧ c.n = n

theorem Fine.getD {n : Nat} {l : List (List Change)} (h : Fine n l) (d : Nat) : ∀ c ∈ l.getD d [], c.WF ∧ c.n = n := by
  intro c hc
  rw [List.getD_eq_getElem?_getD] at hc
  cases he : l[d]? with
  | none => rw [he] at hc; simp at hc
  | some x => rw [he] at hc; exact h x (List.mem_of_getElem? he) c hc

theorem unorderedEqual_iff {n : Nat} {a b : List Change} (ha : ∀ c ∈ a, c.WF ∧ c.n = n) (hb : ∀ c ∈ b, c.WF ∧ c.n = n) :
    unorderedEqual a b = true ↔ ∀ c ∈ a, c ∈ b := by
  unfold unorderedEqual
  rw [List.all_eq_true]
  refine forall₂_congr fun c hc => ?_
  rw [List.any_eq_true]
  constructor
  · rintro ⟨y, hy, he⟩
    rw [← (eq_iff (hb y hy) (ha c hc)).1 he]; exact hy
  · intro h; exact ⟨c, h, (eq_iff (ha c hc) (ha c hc)).2 rfl⟩

theorem rev_ok {n : Nat} {a : List Change} (ha : ∀ c ∈ a, c.WF ∧ c.n = n) : ∀ c ∈ a.map Change.reverse, c.WF ∧ c.n = n := by
  intro c hc
  obtain ⟨x, hx, rfl⟩ := List.mem_map.1 hc
  exact ⟨(ha x hx).1.reverse, (ha x hx).2⟩

theorem mem_rev {n : Nat} {a : List Change} (ha : ∀ c ∈ a, c.WF ∧ c.n = n) {c : Change} (hc : c.WF) : c ∈ a.map Change.reverse ↔ c.reverse ∈ a := by
  rw [List.mem_map]
  constructor
  · rintro ⟨x, hx, rfl⟩; rw [(ha x hx).1.reverse_reverse]; exact hx
  · intro h; exact ⟨_, h, hc.reverse_reverse⟩

theorem guard_iff (a b : List Change) (x : Bool) : (!(!a.isEmpty && !b.isEmpty && !x)) = true ↔ (a = [] ∨ b = [] ∨ x = true) := by
  cases a <;> cases b <;> cases x <;> simp

theorem crossOk_iff {n : Nat} {a1 b1 a2 b2 : List Change} (h1 : ∀ c ∈ a1, c.WF ∧ c.n = n) (h2 : ∀ c ∈ b1, c.WF ∧ c.n = n)
    (h3 : ∀ c ∈ a2, c.WF ∧ c.n = n) (h4 : ∀ c ∈ b2, c.WF ∧ c.n = n) :
    crossOk a1 b1 a2 b2 = true ↔ (a1 = [] ∨ b2 = [] ∨ ∀ c ∈ a1, c ∈ b2.map Change.reverse) ∧ (b1 = [] ∨ a2 = [] ∨ ∀ c ∈ b1, c ∈ a2.map Change.reverse) := by
  unfold crossOk reverseAllowed
  rw [Bool.and_eq_true, guard_iff, guard_iff, unorderedEqual_iff h1 (rev_ok h4), unorderedEqual_iff h2 (rev_ok h3)]

/-- The tests at all positions that are paired, from both ends, compare both inclusions. -/
theorem crossed_iff {n : Nat} {above below : List (List Change)} (ha : Fine n above) (hb : Fine n below) (R : Nat → Nat → Prop) (hR : ∀ d d2, R d d2 → R d2 d) :
    (∀ d d2, R d d2 → crossOk (above.getD d []) (below.getD d []) (above.getD d2 []) (below.getD d2 []) = true) ↔ ∀ d d2, R d d2 → Crossed above below d d2 := by
  have e := fun d d2 => crossOk_iff (ha.getD d) (hb.getD d) (ha.getD d2) (hb.getD d2)
  simp only [e]
  unfold Crossed Agree
  constructor
  · intro h d d2 hd
    rcases (h d d2 hd).1 with h1 | h1 | h1
    · exact .inl h1
    · exact .inr (.inl (by rw [h1]; rfl))
    · rcases (h d2 d (hR _ _ hd)).2 with h2 | h2 | h2
      · exact .inr (.inl (by rw [h2]; rfl))
      · exact .inl h2
      · refine .inr (.inr fun c => ⟨h1 c, fun hc => ?_⟩)
        obtain ⟨x, hx, rfl⟩ := List.mem_map.1 hc
        have := h2 x hx
        exact (mem_rev (ha.getD d) (hb.getD d2 x hx).1).1 this
  · intro h d d2 hd
    constructor
    · rcases h d d2 hd with h1 | h1 | h1
      · exact .inl h1
      · exact .inr (.inl (List.map_eq_nil_iff.1 h1))
      · exact .inr (.inr fun c hc => (h1 c).1 hc)
    · rcases h d2 d (hR _ _ hd) with h1 | h1 | h1
      · exact .inr (.inl h1)
      · exact .inl (List.map_eq_nil_iff.1 h1)
      · refine .inr (.inr fun c hc => ?_)
        rw [mem_rev (ha.getD d2) (hb.getD d c hc).1]
        exact (h1 _).2 (List.mem_map.2 ⟨c, hc, rfl⟩)

theorem mirrored_iff {n : Nat} {x : List (List Change)} (hx : Fine n x) (R : Nat → Nat → Prop) (hR : ∀ d d2, R d d2 → R d2 d) :
    (∀ d d2, R d d2 → x.getD d [] = [] ∨ x.getD d2 [] = [] ∨ unorderedEqual (x.getD d []) (x.getD d2 []) = true) ↔
      ∀ d d2, R d d2 → Agree (x.getD d []) (x.getD d2 []) := by
  unfold Agree
  constructor
  · intro h d d2 hd
    rcases h d d2 hd with h1 | h1 | h1
    · exact .inl h1
    · exact .inr (.inl h1)
    · rcases h d2 d (hR _ _ hd) with h2 | h2 | h2
      · exact .inr (.inl h2)
      · exact .inl h2
      · exact .inr (.inr fun c => ⟨(unorderedEqual_iff (hx.getD _) (hx.getD _)).1 h1 c, (unorderedEqual_iff (hx.getD _) (hx.getD _)).1 h2 c⟩)
  · intro h d d2 hd
    rcases h d d2 hd with h1 | h1 | h1
    · exact .inl h1
    · exact .inr (.inl h1)
    · exact .inr (.inr ((unorderedEqual_iff (hx.getD _) (hx.getD _)).2 fun c hc => (h1 c).1 hc))

theorem consistentLoop_spec {A : Args} {above below : List (List Change)} (t : Nat → Bool) {k depth : Nat}
    (h : ∀ d, depth ≤ d → d < depth + k → consistentAtC A above below d = .ok (t d)) :
    ∃ b, consistentLoopC A above below k depth = .ok b ∧ (b = true ↔ ∀ d, depth ≤ d → d < depth + k → t d = true) := by
  induction k generalizing depth with
  | zero => exact ⟨true, rfl, by simp; intro d h1 h2; omega⟩
  | succ k ih =>
    unfold consistentLoopC
    rw [h depth (Nat.le_refl _) (by omega), Out.ok_bind]
    cases ht : t depth with
    | false =>
      refine ⟨false, rfl, by simp; exact ⟨depth, Nat.le_refl _, by omega, ht⟩⟩
    | true =>
      obtain ⟨b, hb1, hb2⟩ := ih (depth := depth + 1) (fun d h1 h2 => h d (by omega) (by omega))
      refine ⟨b, hb1, hb2.trans ⟨fun g d h1 h2 => ?_, fun g d h1 h2 => g d (by omega) (by omega)⟩⟩
      by_cases hd : d = depth
      · rw [hd]; exact ht
      · exact g d (by omega) (by omega)

end Mask
end Ringing
