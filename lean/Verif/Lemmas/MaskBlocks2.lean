import Verif.Lemmas.MaskBlocks

/-! Lemmas on the expansion of masks: the loop over the blocks. -/
namespace Ringing
namespace Mask
open MethodUtils

theorem fills_unique {w : Block} (h : Written w) {l l' : LL} (h1 : Fills w l) (h2 : Fills w l') (hl : l.length = l'.length) : l = l' := by
  cases hi : w.star with
  | none => unfold Fills at h1 h2; rw [hi] at h1 h2; simp only at h1 h2; rw [h1, h2]
  | some i =>
    obtain ⟨p, q, hd, hp⟩ := star_split h hi
    obtain ⟨k, -, rfl⟩ := (fills_split hi hd hp l).1 h1
    obtain ⟨k', -, rfl⟩ := (fills_split hi hd hp l').1 h2
    rw [length_reflected, length_reflected] at hl
    simp only [List.length_append, List.length_replicate] at hl
    have : k = k' := by split at hl <;> omega
    rw [this]

theorem fills_none {w : Block} (hi : w.star = none) (l : LL) : Fills w l ↔ l = reflected w.isSym w.data := by
  unfold Fills; rw [hi]

theorem subSize_eq {a b : Nat} (ha : a < 2 ^ 64) (hb : b < 2 ^ 64) : ((subSize a b : Nat) : Int) = ((a : Int) - b) % 2 ^ 64 := by
  unfold subSize; omega

theorem pos_of_star {w : Block} (h : Written w) {i : Nat} (hi : w.star = some i) : reflected w.isSym w.data ≠ [] := by
  obtain ⟨p, q, hd, -⟩ := star_split h hi
  rw [hd]; unfold reflected; split <;> simp

def Bad {α : Type} (r : Out α) : Prop := r = .throw .invalidArgument ∨ r = .throw .logicError

theorem Bad.bind {α β : Type} {r : Out α} (h : Bad r) (f : α → Out β) : Bad (r >>= f) := by
  rcases h with rfl | rfl
  · exact .inl rfl
  · exact .inr rfl

/-- What a turn does with a block of known length. -/
def KnownStep (s : Blocks) (w : Block × Option Block) (r : Out Blocks) : Prop :=
  (∃ la lb, FillsPair w (la, lb) ∧ (∀ l, FillsPair w l → l = (la, lb)) ∧ la.length ≤ weight w ∧ r = .ok (appendBlock s false la lb)) ∨
  (Bad r ∧ ∀ l, ¬FillsPair w l)

theorem turnC_eq (hunts : Nat) (s : Blocks) {w : Block × Option Block} (hw : WrittenPair w) :
    turnC hunts s w = addBlockC hunts s ({ w.1 with data := reflected w.1.isSym w.1.data }, w.2.map fun b => { b with data := reflected b.isSym b.data }) := by
  unfold turnC
  rw [reflectC_eq hw.1, Out.ok_bind]
  cases h : w.2 with
  | none => rfl
  | some b => unfold reflectOptC; simp only; rw [reflectC_eq (hw.2 b h), Out.ok_bind, Out.ok_bind]; rfl

theorem known_step {hunts : Nat} (s : Blocks) {w : Block × Option Block} (hw : WrittenPair w) (hh : w.2 ≠ none → hunts ≠ 0) (hk : ¬Unknown w)
    (hsz : weight w < 2 ^ 40) : KnownStep s w (turnC hunts s w) := by
  rw [turnC_eq _ _ hw]
  obtain ⟨a, b⟩ := w
  have ha : Written a := hw.1
  unfold Unknown at hk
  unfold weight at hsz
  unfold KnownStep FillsPair addBlockC weight
  cases b with
  | none =>
    simp only [Option.getD_none, Option.map_none] at hsz hk ⊢
    have hn : a.star = none := by by_contra h; exact hk ⟨h, h⟩
    simp only [hn, fills_none hn]
    refine .inl ⟨_, _, ⟨rfl, rfl, rfl⟩, fun l hl => Prod.ext hl.2.1 hl.2.2, by omega, rfl⟩
  | some b =>
    have hb : Written b := hw.2 b rfl
    simp only [Option.getD_some, Option.map_some] at hsz hk ⊢
    rw [if_neg (hh (by simp))]
    cases ia : a.star with
    | none =>
      cases ib : b.star with
      | none =>
        simp only [fills_none ia, fills_none ib]
        by_cases hl : (reflected a.isSym a.data).length = (reflected b.isSym b.data).length
        · rw [if_neg (by rw [not_not]; exact hl)]
          exact .inl ⟨_, _, ⟨hl, rfl, rfl⟩, fun l hl => Prod.ext hl.2.1 hl.2.2, by omega, rfl⟩
        · rw [if_pos hl]
          refine .inr ⟨.inl rfl, fun l h => hl ?_⟩
          rw [← h.2.1, ← h.2.2]; exact h.1
      | some i =>
        simp only [fills_none ia]
        rcases expand_spec hb ib (N := (reflected a.isSym a.data).length) (by' := subSize (reflected a.isSym a.data).length (reflected b.isSym b.data).length)
          (subSize_eq (by omega) (by omega)) (by omega) (by omega) (by omega) with ⟨l, hl, hf, hn⟩ | ⟨hbad, hno⟩
        · rw [hl, Out.ok_bind, if_neg (by omega)]
          refine .inl ⟨_, _, ⟨by omega, rfl, hf⟩, fun x hx => Prod.ext hx.2.1 (fills_unique hb hx.2.2 hf ?_), by omega, rfl⟩
          show x.2.length = l.length
          rw [← hx.1, hx.2.1]; omega
        · refine .inr ⟨Bad.bind hbad _, fun x hx => hno _ hx.2.2 ?_⟩
          rw [← hx.1, hx.2.1]
    | some i =>
      cases ib : b.star with
      | none =>
        simp only [fills_none ib]
        rcases expand_spec ha ia (N := (reflected b.isSym b.data).length) (by' := subSize (reflected b.isSym b.data).length (reflected a.isSym a.data).length)
          (subSize_eq (by omega) (by omega)) (by omega) (by omega) (by omega) with ⟨l, hl, hf, hn⟩ | ⟨hbad, hno⟩
        · rw [hl, Out.ok_bind, if_neg (by omega)]
          refine .inl ⟨_, _, ⟨by omega, hf, rfl⟩, fun x hx => Prod.ext (fills_unique ha hx.2.1 hf ?_) hx.2.2, by omega, rfl⟩
          show x.1.length = l.length
          rw [hx.1, hx.2.2]; omega
        · refine .inr ⟨Bad.bind hbad _, fun x hx => hno _ hx.2.1 ?_⟩
          rw [hx.1, hx.2.2]
      | some i => exact absurd ⟨by rw [ia]; simp, by rw [ib]; simp⟩ hk

theorem unknown_step {hunts : Nat} (s : Blocks) {w : Block × Option Block} (hw : WrittenPair w) (hh : w.2 ≠ none → hunts ≠ 0) (hk : Unknown w) :
    ∃ ia ib, w.1.star = some ia ∧ (w.2.getD w.1).star = some ib ∧
      turnC hunts s w = if s.a1 ≠ [] then .throw .invalidArgument else
        .ok (appendBlock { s with starA := ia, symA := w.1.isSym, starB := ib, symB := (w.2.getD w.1).isSym } true
          (reflected w.1.isSym w.1.data) (reflected (w.2.getD w.1).isSym (w.2.getD w.1).data)) := by
  rw [turnC_eq _ _ hw]
  obtain ⟨a, b⟩ := w
  unfold Unknown at hk
  unfold addBlockC
  cases b with
  | none =>
    simp only [Option.getD_none, Option.map_none] at hk ⊢
    obtain ⟨ia, hia⟩ := Option.ne_none_iff_exists'.1 hk.1
    refine ⟨ia, ia, hia, hia, ?_⟩
    rw [hia]
  | some b =>
    simp only [Option.getD_some, Option.map_some] at hk ⊢
    rw [if_neg (hh (by simp))]
    obtain ⟨ia, hia⟩ := Option.ne_none_iff_exists'.1 hk.1
    obtain ⟨ib, hib⟩ := Option.ne_none_iff_exists'.1 hk.2
    refine ⟨ia, ib, hia, hib, ?_⟩
    rw [hia, hib]

theorem addBlocksC_append (hunts : Nat) (x y : List (Block × Option Block)) (s : Blocks) :
    addBlocksC hunts (x ++ y) s = addBlocksC hunts x s >>= addBlocksC hunts y := by
  induction x generalizing s with
  | nil => rfl
  | cons b x ih =>
    rw [List.cons_append]
    unfold addBlocksC
    cases turnC hunts s b with
    | ok s' => rw [Out.ok_bind, Out.ok_bind, ih]
    | throw e => rfl
    | ub => rfl
    | timeout => rfl

theorem appendBlock_nil (s : Blocks) : appendBlock s false [] [] = s := by
  obtain ⟨a0, b0, a1, b1, a2, b2, _, _, _, _⟩ := s
  unfold appendBlock
  by_cases h1 : a1 = [] <;> by_cases h2 : b1 = [] <;> simp [h1, h2]

theorem appendBlock_append (s : Blocks) (a b a' b' : LL) :
    appendBlock (appendBlock s false a b) false a' b' = appendBlock s false (a ++ a') (b ++ b') := by
  unfold appendBlock
  by_cases h1 : s.a1 = [] <;> by_cases h2 : s.b1 = [] <;> simp [h1, h2]

abbrev up (ls : List (LL × LL)) : LL := ls.flatMap (·.1)
abbrev down (ls : List (LL × LL)) : LL := ls.flatMap (·.2)

theorem known_loop {hunts : Nat} {ws : List (Block × Option Block)} (s : Blocks) (hw : ∀ w ∈ ws, WrittenPair w) (hh : ∀ w ∈ ws, w.2 ≠ none → hunts ≠ 0)
    (hk : ∀ w ∈ ws, ¬Unknown w) (hsz : (ws.map weight).sum < 2 ^ 40) :
    (∃ ls, List.Forall₂ FillsPair ws ls ∧ (∀ l, List.Forall₂ FillsPair ws l → l = ls) ∧ (up ls).length ≤ (ws.map weight).sum ∧
      addBlocksC hunts ws s = .ok (appendBlock s false (up ls) (down ls))) ∨
    (Bad (addBlocksC hunts ws s) ∧ ∀ l, ¬List.Forall₂ FillsPair ws l) := by
  induction ws generalizing s with
  | nil =>
    refine .inl ⟨[], .nil, fun l hl => by cases hl; rfl, by simp, ?_⟩
    rw [show up [] = [] from rfl, show down [] = [] from rfl, appendBlock_nil]; rfl
  | cons w ws ih =>
    rw [List.map_cons, List.sum_cons] at hsz ⊢
    unfold addBlocksC
    rcases known_step s (hw w (by simp)) (hh w (by simp)) (hk w (by simp)) (by omega) with ⟨la, lb, hf, hu, hlen, hr⟩ | ⟨hb, hno⟩
    · rw [hr, Out.ok_bind]
      rcases ih (appendBlock s false la lb) (fun w h => hw w (by simp [h])) (fun w h => hh w (by simp [h])) (fun w h => hk w (by simp [h])) (by omega) with
        ⟨ls, hF, hU, hL, hR⟩ | ⟨hb, hno⟩
      · refine .inl ⟨(la, lb) :: ls, .cons hf hF, fun l hl => ?_, ?_, ?_⟩
        · cases hl with
          | cons h1 h2 => rw [hu _ h1, hU _ h2]
        · rw [show up ((la, lb) :: ls) = la ++ up ls from rfl, List.length_append]; omega
        · rw [hR, appendBlock_append]; rfl
      · refine .inr ⟨hb, fun l hl => ?_⟩
        cases hl with
        | cons h1 h2 => exact hno _ h2
    · refine .inr ⟨hb.bind _, fun l hl => ?_⟩
      cases hl with
      | cons h1 h2 => exact hno _ h1

end Mask
end Ringing
