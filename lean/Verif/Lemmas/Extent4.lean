import Verif.Lemmas.Extent2
import Verif.Lemmas.Change3
import Mathlib.Data.List.Chain
import Mathlib.Data.Nat.Fib.Basic

/-! The enumeration of changes by `changes_iterator`. -/
namespace Ringing
open Spec Change

/-- All the changes of the `m` places from `p` on, in the order of `changes_iterator`. -/
def enumCh (p : Nat) : Nat → List (List Nat)
  | 0 => [[]]
  | 1 => [[]]
  | m + 2 => (enumCh (p + 2) m).map (p :: ·) ++ enumCh (p + 1) (m + 1)

/-- As many swaps as possible from `p` on. -/
def firstCh (p : Nat) : Nat → List Nat
  | 0 => []
  | 1 => []
  | m + 2 => p :: firstCh (p + 2) m

/-- The stack of the iterator, bottom first. -/
def path (p : Nat) : Nat → List Nat → List Nat
  | 0, _ => [p]
  | 1, _ => [p]
  | m + 2, L => if L.head? = some p then p :: path (p + 2) m L.tail else p :: path (p + 1) (m + 1) L

theorem enum_head (p m : Nat) : (enumCh p m).head? = some (firstCh p m) := by
  induction p, m using enumCh.induct with
  | case1 => rfl
  | case2 => rfl
  | case3 p m ih1 ih2 => simp [enumCh, firstCh, ih1]

theorem enum_last (p m : Nat) : (enumCh p m).getLast? = some [] := by
  induction p, m using enumCh.induct with
  | case1 => rfl
  | case2 => rfl
  | case3 p m ih1 ih2 => rw [enumCh, List.getLast?_append, ih2]; rfl

theorem mem_enum (p m : Nat) (L : List Nat) :
    L ∈ enumCh p m ↔ Gap L ∧ ∀ s ∈ L, p ≤ s ∧ s + 2 ≤ p + m := by
  induction p, m using enumCh.induct generalizing L with
  | case1 p =>
    simp only [enumCh, List.mem_singleton]
    constructor
    · rintro rfl; simp [Gap]
    · rintro ⟨-, h⟩
      cases L with
      | nil => rfl
      | cons s L => have := h s (by simp); omega
  | case2 p =>
    simp only [enumCh, List.mem_singleton]
    constructor
    · rintro rfl; simp [Gap]
    · rintro ⟨-, h⟩
      cases L with
      | nil => rfl
      | cons s L => have := h s (by simp); omega
  | case3 p m ih1 ih2 =>
    rw [enumCh, List.mem_append, List.mem_map, ih2]
    constructor
    · rintro (⟨a, ha, rfl⟩ | ⟨h1, h2⟩)
      · rw [ih1] at ha
        refine ⟨List.pairwise_cons.2 ⟨fun t ht => (ha.2 t ht).1, ha.1⟩, ?_⟩
        intro s hs
        rcases List.mem_cons.1 hs with rfl | hs
        · omega
        · have := ha.2 s hs; omega
      · exact ⟨h1, fun s hs => by have := h2 s hs; omega⟩
    · rintro ⟨h1, h2⟩
      cases L with
      | nil => right; exact ⟨h1, by simp⟩
      | cons s L =>
        have hs := h2 s (by simp)
        by_cases he : s = p
        · subst he
          left
          refine ⟨L, (ih1 L).2 ⟨h1.tail, ?_⟩, rfl⟩
          intro t ht
          have := h1.le t ht; have := h2 t (by simp [ht]); omega
        · right
          refine ⟨h1, ?_⟩
          intro t ht
          have h3 := h2 t ht
          rcases List.mem_cons.1 ht with rfl | ht
          · omega
          · have := h1.le t ht; omega

theorem nodup_enum (p m : Nat) : (enumCh p m).Nodup := by
  induction p, m using enumCh.induct with
  | case1 => simp [enumCh]
  | case2 => simp [enumCh]
  | case3 p m ih1 ih2 =>
    rw [enumCh, List.nodup_append]
    refine ⟨?_, ih2, ?_⟩
    · rw [List.nodup_map_iff (by intro a b h; simpa using h)]; exact ih1
    · intro a ha b hb hab
      subst hab
      rw [List.mem_map] at ha
      obtain ⟨c, -, rfl⟩ := ha
      have := ((mem_enum _ _ _).1 hb).2 p (by simp); omega

theorem length_enum (p m : Nat) : (enumCh p m).length = Nat.fib (m + 1) := by
  induction p, m using enumCh.induct with
  | case1 => rfl
  | case2 => rfl
  | case3 p m ih1 ih2 => rw [enumCh, List.length_append, List.length_map, ih1, ih2, ← Nat.fib_add_two]

/-- The successor of a change: drop the last swap and fill up from the next place. -/
def SuccCh (hi : Nat) (a b : List Nat) : Prop :=
  ∃ L s, a = L ++ [s] ∧ b = L ++ firstCh (s + 1) (hi - (s + 1))

theorem chain_enum (p m : Nat) : (enumCh p m).IsChain (SuccCh (p + m)) := by
  induction p, m using enumCh.induct with
  | case1 => simp [enumCh]
  | case2 => simp [enumCh]
  | case3 p m ih1 ih2 =>
    rw [enumCh, List.isChain_append]
    refine ⟨?_, ?_, ?_⟩
    · rw [List.isChain_map]
      refine ih1.imp ?_
      rintro a b ⟨L, s, rfl, rfl⟩
      exact ⟨p :: L, s, rfl, by rw [show p + (m + 2) = p + 2 + m by omega]; rfl⟩
    · rw [show p + (m + 2) = p + 1 + (m + 1) by omega]; exact ih2
    · intro a ha b hb
      rw [List.getLast?_map, enum_last] at ha
      rw [enum_head] at hb
      simp at ha hb
      subst ha; subst hb
      exact ⟨[], p, rfl, by rw [show p + (m + 2) - (p + 1) = m + 1 by omega]; rfl⟩

theorem path_nil (p m : Nat) : path p (m + 1) [] = List.range' p (m + 1) := by
  induction m generalizing p with
  | zero => simp [path]
  | succ m ih => rw [path, if_neg (by simp), ih]; rfl

theorem firstCh_ge (p m : Nat) : ∀ s ∈ firstCh p m, p ≤ s ∧ s + 2 ≤ p + m := by
  have : firstCh p m ∈ enumCh p m := List.mem_of_mem_head? (by rw [enum_head]; simp)
  exact ((mem_enum _ _ _).1 this).2

theorem path_first (p m : Nat) : path p (m + 2) (firstCh p (m + 2)) = p :: path (p + 2) m (firstCh (p + 2) m) := by
  rw [path, firstCh]; simp

theorem path_split (p m : Nat) (L : List Nat) : ∀ s, Gap (L ++ [s]) →
    (∀ t ∈ L ++ [s], p ≤ t ∧ t + 2 ≤ p + m) →
    ∃ Q : List Nat, Q.length ≤ s - p ∧ path p m (L ++ [s]) = Q ++ s :: path (s + 2) (p + m - (s + 2)) [] ∧
      ∀ T : List Nat, (∀ t ∈ T, s < t) → path p m (L ++ T) = Q ++ s :: path (s + 1) (p + m - (s + 1)) T := by
  induction p, m, L using path.induct with
  | case1 p L =>
    intro s _ h
    have := h s (by simp); omega
  | case2 p L =>
    intro s _ h
    have := h s (by simp); omega
  | case3 p m L hL ih =>
    intro s hg h
    obtain ⟨q, L', rfl⟩ : ∃ q L', L = q :: L' := by
      cases L with
      | nil => simp at hL
      | cons q L' => exact ⟨q, L', rfl⟩
    simp only [List.head?_cons, Option.some.injEq] at hL
    subst hL
    simp only [List.tail_cons] at ih
    obtain ⟨Q, hQ, h1, h2⟩ := ih s hg.tail (by
      intro t ht
      have := hg.le t ht; have := h t (List.mem_cons_of_mem _ ht); omega)
    have hqs : q + 2 ≤ s := hg.le s (by simp)
    refine ⟨q :: Q, by simp; omega, ?_, ?_⟩
    · rw [List.cons_append, path]; simp only [List.head?_cons, if_true, List.tail_cons]
      rw [h1, show q + 2 + m = q + (m + 2) by omega]; rfl
    · intro T hT
      rw [List.cons_append, path]; simp only [List.head?_cons, if_true, List.tail_cons]
      rw [h2 T hT, show q + 2 + m = q + (m + 2) by omega]; rfl
  | case4 p m L hL ih =>
    intro s hg h
    by_cases hs : L = [] ∧ s = p
    · obtain ⟨rfl, rfl⟩ := hs
      refine ⟨[], by simp, ?_, ?_⟩
      · simp only [List.nil_append]
        rw [show s + (m + 1 + 1) - (s + 2) = m by omega, path]; simp
      · intro T hT
        simp only [List.nil_append]
        rw [path, if_neg]
        · rw [show s + (m + 2) - (s + 1) = m + 1 by omega]
        · cases T with
          | nil => simp
          | cons t T => have := hT t (by simp); simp; omega
    · have hne : ∀ t ∈ L ++ [s], p + 1 ≤ t := by
        intro t ht
        have h3 := h t ht
        cases L with
        | nil =>
          simp only [List.nil_append, List.mem_singleton] at ht
          subst ht
          simp at hs; omega
        | cons q L' =>
          have hq := h q (by simp)
          simp only [List.head?_cons, Option.some.injEq] at hL
          rcases List.mem_cons.1 ht with rfl | ht
          · omega
          · have := hg.le t ht; omega
      obtain ⟨Q, hQ, h1, h2⟩ := ih s hg (by intro t ht; have := hne t ht; have := h t ht; omega)
      have hps := hne s (by simp)
      refine ⟨p :: Q, by simp; omega, ?_, ?_⟩
      · rw [path, if_neg, h1, show p + 1 + (m + 1) = p + (m + 2) by omega]; rfl
        cases L with
        | nil => simp; omega
        | cons q L' => simpa using hL
      · intro T hT
        rw [path, if_neg, h2 T hT, show p + 1 + (m + 1) = p + (m + 2) by omega]; rfl
        cases L with
        | nil =>
          cases T with
          | nil => simp
          | cons t T => have := hT t (by simp); simp; omega
        | cons q L' => simpa using hL

/-! The elementary operations. -/

theorem swappair_last {L : List Nat} {s : Nat} (h : ∀ t ∈ L, t + 2 ≤ s) :
    swappairLoop s (L ++ [s]) = .ok (false, L) := by
  induction L with
  | nil => simp [swappairLoop]
  | cons t L ih =>
    have := h t (by simp)
    rw [List.cons_append]
    unfold swappairLoop
    rw [if_pos (by omega), if_neg (by omega), if_neg (by omega),
      if_neg (by omega), ih (fun t ht => h t (by simp [ht]))]
    rfl

theorem swappair_new {L : List Nat} {s : Nat} (h : ∀ t ∈ L, t + 2 ≤ s) :
    swappairLoop s L = .ok (true, L ++ [s]) := by
  induction L with
  | nil => simp [swappairLoop]
  | cons t L ih =>
    have := h t (by simp)
    unfold swappairLoop
    rw [if_pos (by omega), if_neg (by omega), if_neg (by omega),
      if_neg (by omega), ih (fun t ht => h t (by simp [ht]))]
    rfl

theorem findswapLoop_of_lt {L : List Nat} {w : Nat} (h : ∀ t ∈ L, t < w) : findswapLoop w L = false := by
  induction L with
  | nil => rfl
  | cons t L ih =>
    have := h t (by simp)
    rw [findswapLoop, if_pos (by omega), if_neg (by omega), ih (fun t ht => h t (by simp [ht]))]

theorem back2_eq {x : Nat} (h2 : 2 ≤ x) (h : x ≤ 256) : ChIter.back2 x = x - 2 := by
  unfold ChIter.back2 u32 toBell
  omega

theorem fill_spec {nw nh nt : Nat} (h : nh + nw ≤ nt) (ht : nt ≤ 255) : ∀ (k x fuel : Nat)
    (L rest : List Nat), x + k = nh + nw → 0 < nh + nw → k < fuel → (∀ t ∈ L, t + 2 ≤ x) →
    ChIter.fillC nw nh fuel ⟨nt, L⟩ (x :: rest) =
      .ok (⟨nt, L ++ firstCh x k⟩, (path x k (firstCh x k)).reverse ++ rest) := by
  intro k
  induction k using Nat.strong_induction_on with
  | _ k ih =>
    intro x fuel L rest hk hpos hf hL
    obtain ⟨fuel, rfl⟩ : ∃ f, fuel = f + 1 := ⟨fuel - 1, by omega⟩
    have hu : u32 (nw + nh + 2 ^ 32 - 1) = nh + nw - 1 := by unfold u32; omega
    unfold ChIter.fillC
    rw [hu]
    match k, ih, hk, hf with
    | 0, _, hk, _ => rw [if_neg (by omega)]; simp [firstCh, path]
    | 1, _, hk, _ => rw [if_neg (by omega)]; simp [firstCh, path]
    | k + 2, ih, hk, hf =>
      rw [if_pos (by omega), toBell_of_lt (by omega)]
      have hsw : Change.swappairC ⟨nt, L⟩ x = .ok (true, ⟨nt, L ++ [x]⟩) := by
        unfold Change.swappairC
        rw [if_neg (by simp only; omega)]
        simp only [swappair_new hL, Out.ok_bind, Out.pure_eq]
      rw [hsw, Out.ok_bind]
      show ChIter.fillC nw nh fuel ⟨nt, L ++ [x]⟩ (u32 (x + 2) :: x :: rest) = _
      rw [u32_of_lt (by omega), ih k (by omega) (x + 2) fuel (L ++ [x]) (x :: rest) (by omega) hpos (by omega) (by
        intro t ht
        rcases List.mem_append.1 ht with h' | h'
        · have := hL t h'; omega
        · simp at h'; omega), path_first]
      simp [firstCh]

theorem pop_spec {nh n s : Nat} {L rest : List Nat} (hn : n ≤ 255) (hs : nh ≤ s) (hsn : s + 2 ≤ n)
    (hL : ∀ t ∈ L, t + 2 ≤ s) : ∀ k, s + 2 + k ≤ n →
    ChIter.popC nh ⟨n, L ++ [s]⟩ ((List.range' (s + 2) (k + 1)).reverse ++ rest) = .ok ((s + 2) :: rest) := by
  have hfs : ∀ x, s + 2 ≤ x → x ≤ n → Change.findswap ⟨n, L ++ [s]⟩ (ChIter.back2 x) = decide (x = s + 2) := by
    intro x hx hxn
    rw [back2_eq (by omega) (by omega)]
    unfold Change.findswap
    rw [if_neg (by simp only; omega)]
    simp only
    by_cases he : x = s + 2
    · subst he
      simp only [Nat.add_sub_cancel, decide_true]
      have : ∀ M : List Nat, (∀ t ∈ M, t + 2 ≤ s) → findswapLoop s (M ++ [s]) = true := by
        intro M hM
        induction M with
        | nil => simp [findswapLoop]
        | cons t M ih =>
          have := hM t (by simp)
          rw [List.cons_append, findswapLoop, if_pos (by omega), if_neg (by omega),
            ih (fun t ht => hM t (by simp [ht]))]
      exact this L hL
    · rw [findswapLoop_of_lt]
      · simp [he]
      · intro t ht
        rcases List.mem_append.1 ht with h' | h'
        · have := hL t h'; omega
        · simp at h'; omega
  intro k
  induction k with
  | zero =>
    intro hk
    show ChIter.popC nh _ ((s + 2) :: rest) = _
    rw [ChIter.popC, hfs _ (le_refl _) (by omega), if_neg (by simp)]
  | succ k ih =>
    intro hk
    have e := List.range'_append (s := s + 2) (m := k + 1) (n := 1) (step := 1)
    rw [← e, List.reverse_append]
    simp only [Nat.one_mul, List.range'_one, List.reverse_singleton, List.cons_append, List.nil_append]
    rw [ChIter.popC, hfs _ (by omega) (by omega), if_pos]
    · exact ih (by omega)
    · refine ⟨by omega, ?_⟩
      simp

/-- One step of the iterator from a change with at least one swap. -/
theorem next_succ {nw nh nt s : Nat} {L : List Nat} (h : nh + nw ≤ nt) (ht : nt ≤ 255)
    (hg : Gap (L ++ [s])) (hin : ∀ t ∈ L ++ [s], nh ≤ t ∧ t + 2 ≤ nh + nw) :
    ChIter.nextC nw nh ⟨false, ⟨nt, L ++ [s]⟩, (path nh nw (L ++ [s])).reverse⟩ =
      .ok ⟨false, ⟨nt, L ++ firstCh (s + 1) (nh + nw - (s + 1))⟩,
        (path nh nw (L ++ firstCh (s + 1) (nh + nw - (s + 1)))).reverse⟩ := by
  obtain ⟨Q, hQ, h1, h2⟩ := path_split nh nw L s hg hin
  have hs := hin s (by simp)
  have hL : ∀ t ∈ L, t + 2 ≤ s := by
    intro t ht'
    have := (List.pairwise_append.1 hg).2.2 t ht' s (by simp); exact this
  rw [h2 (firstCh (s + 1) (nh + nw - (s + 1))) (fun t ht' => by have := firstCh_ge _ _ t ht'; omega)]
  -- the part of the stack above `s`
  set S := path (s + 2) (nh + nw - (s + 2)) [] with hS
  have hSr : ∃ k, s + 2 + k ≤ nh + nw ∧ S = List.range' (s + 2) (k + 1) ∧
      (k + 1 = nh + nw - (s + 2) ∨ (k = 0 ∧ nh + nw = s + 2)) := by
    rcases Nat.eq_zero_or_pos (nh + nw - (s + 2)) with h0 | h0
    · refine ⟨0, by omega, ?_, Or.inr ⟨rfl, by omega⟩⟩
      rw [hS, h0]; simp [path]
    · refine ⟨nh + nw - (s + 2) - 1, by omega, ?_, Or.inl (by omega)⟩
      rw [hS, show nh + nw - (s + 2) = nh + nw - (s + 2) - 1 + 1 by omega, path_nil]; simp
  obtain ⟨k, hk, hSk, hkk⟩ := hSr
  have hstk : (path nh nw (L ++ [s])).reverse = (List.range' (s + 2) (k + 1)).reverse ++ (s :: Q.reverse) := by
    rw [h1, hSk]; simp
  have hstk2 : (path nh nw (L ++ [s])).reverse =
      (s + 2 + k) :: ((List.range' (s + 2) k).reverse ++ (s :: Q.reverse)) := by
    rw [hstk]
    have e := List.range'_append (s := s + 2) (m := k) (n := 1) (step := 1)
    rw [← e, List.reverse_append]; simp
  unfold ChIter.nextC
  simp only
  rw [if_neg (by omega), hstk2]
  simp only
  rw [if_neg]
  · rw [← hstk2, hstk, pop_spec (by omega) hs.1 (by omega) hL k (by omega), Out.ok_bind]
    have hun : ChIter.unswapC ⟨nt, L ++ [s]⟩ ((s + 2) :: (s :: Q.reverse)) = .ok (⟨nt, L⟩, (s + 1) :: s :: Q.reverse) := by
      unfold ChIter.unswapC
      simp only
      rw [back2_eq (by omega) (by omega), if_pos]
      · have hsw : Change.swappairC ⟨nt, L ++ [s]⟩ s = .ok (false, ⟨nt, L⟩) := by
          unfold Change.swappairC
          rw [if_neg (by simp only; omega)]
          simp only [swappair_last hL, Out.ok_bind, Out.pure_eq]
        rw [show s + 2 - 2 = s by omega, hsw]
        simp
      · have hwf : Change.WF ⟨nt, L ++ [s]⟩ := ⟨ht, hg, fun t ht' => by have := hin t ht'; simp only; omega⟩
        rw [hwf.findswap_eq]; simp
    rw [hun, Out.ok_bind]
    show (ChIter.fillC nw nh 256 ⟨nt, L⟩ ((s + 1) :: s :: Q.reverse) >>= _) = _
    rw [fill_spec h ht (nh + nw - (s + 1)) (s + 1) 256 L (s :: Q.reverse) (by omega) (by omega) (by omega)
      (fun t ht' => by have := hL t ht'; omega), Out.ok_bind]
    simp
  · rintro ⟨c1, c2⟩
    simp at c1
    omega

theorem nextN_succ (nw nh k : Nat) (it : ChIter) :
    ChIter.nextN nw nh (k + 1) it = ChIter.nextN nw nh k it >>= ChIter.nextC nw nh := by
  induction k generalizing it with
  | zero => simp [ChIter.nextN]; cases ChIter.nextC nw nh it <;> rfl
  | succ k ih =>
    rw [ChIter.nextN]
    conv_rhs => rw [ChIter.nextN]
    rw [bind_assoc]
    congr 1; funext it'; exact ih it'

theorem start_first {nw nh nt : Nat} (h : nh + nw ≤ nt) (ht : nt ≤ 255) :
    ChIter.startC nw nh nt = .ok ⟨false, ⟨nt, firstCh nh nw⟩, (path nh nw (firstCh nh nw)).reverse⟩ := by
  unfold ChIter.startC
  simp only
  by_cases h1 : nw > 1
  · rw [if_pos h1]
    unfold ChIter.nextC
    simp only
    rw [if_neg (by omega), if_neg (by simp; omega)]
    rw [ChIter.popC, if_neg (by omega), Out.ok_bind]
    have : ChIter.unswapC ⟨nt, []⟩ [nh] = .ok (⟨nt, []⟩, [nh]) := by
      unfold ChIter.unswapC Change.findswap
      simp [findswapLoop]
    rw [this, Out.ok_bind]
    show (ChIter.fillC nw nh 256 ⟨nt, []⟩ [nh] >>= _) = _
    rw [fill_spec h ht nw nh 256 [] [] rfl (by omega) (by omega) (by simp), Out.ok_bind]
    simp
  · rw [if_neg h1]
    obtain rfl | rfl : nw = 0 ∨ nw = 1 := by omega
    · simp [firstCh, path]
    · simp [firstCh, path]

theorem nextN_enum {nw nh nt : Nat} (h : nh + nw ≤ nt) (ht : nt ≤ 255) {it0 : ChIter}
    (h0 : ChIter.startC nw nh nt = .ok it0) : ∀ k (hk : k < (enumCh nh nw).length),
    ChIter.nextN nw nh k it0 = .ok ⟨false, ⟨nt, (enumCh nh nw)[k]⟩,
      (path nh nw (enumCh nh nw)[k]).reverse⟩ := by
  rw [start_first h ht] at h0
  injection h0 with h0
  intro k
  induction k with
  | zero =>
    intro hk
    have e : (enumCh nh nw)[0] = firstCh nh nw := by
      have := enum_head nh nw
      rw [List.head?_eq_getElem?, List.getElem?_eq_getElem hk] at this
      injection this
    rw [ChIter.nextN, ← h0, e]
  | succ k ih =>
    intro hk
    rw [nextN_succ, ih (by omega), Out.ok_bind]
    have hc := List.isChain_iff_getElem.1 (chain_enum nh nw) k hk
    obtain ⟨L, s, e1, e2⟩ := hc
    have hm := (mem_enum nh nw _).1 (List.getElem_mem (show k < (enumCh nh nw).length by omega))
    rw [e1] at hm ⊢
    rw [e2]
    exact next_succ h ht hm.1 hm.2

theorem nextN_end {nw nh nt : Nat} (h : nh + nw ≤ nt) (ht : nt ≤ 255) {it0 : ChIter}
    (h0 : ChIter.startC nw nh nt = .ok it0) :
    ∃ it, ChIter.nextN nw nh (enumCh nh nw).length it0 = .ok it ∧ it.fin = true := by
  have hpos : 0 < (enumCh nh nw).length := by rw [length_enum]; exact Nat.fib_pos.2 (by omega)
  have hl := nextN_enum h ht h0 ((enumCh nh nw).length - 1) (by omega)
  have e : (enumCh nh nw)[(enumCh nh nw).length - 1] = [] := by
    have := enum_last nh nw
    rw [List.getLast?_eq_getElem?, List.getElem?_eq_getElem (by omega)] at this
    injection this
  rw [e] at hl
  conv => enter [1, it, 1, 1]; rw [← Nat.sub_add_cancel hpos]
  rw [nextN_succ, hl, Out.ok_bind]
  unfold ChIter.nextC
  by_cases h0 : nw = 0
  · rw [if_pos h0]; exact ⟨_, rfl, rfl⟩
  · rw [if_neg h0]
    obtain ⟨m, rfl⟩ : ∃ m, nw = m + 1 := ⟨nw - 1, by omega⟩
    have hr : (path nh (m + 1) []).reverse = (nh + m) :: (List.range' nh m).reverse := by
      rw [path_nil]
      have e := List.range'_append (s := nh) (m := m) (n := 1) (step := 1)
      rw [← e, List.reverse_append]; simp
    simp only [hr]
    rw [if_pos (by simp; omega)]
    exact ⟨_, rfl, rfl⟩

end Ringing
