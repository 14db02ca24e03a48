import Verif.Lemmas.Method2
/-! Lemmas for the method predicates: paths, plain hunting, runs of blows. -/
namespace Ringing
open Spec

theorem follow_cons (ss : List Nat) (css : List (List Nat)) (p : Nat) :
    follow (ss :: css) p = follow css (moveTo ss p) := rfl

theorem follow_append (a b : List (List Nat)) (p : Nat) : follow (a ++ b) p = follow b (follow a p) := by
  induction a generalizing p with
  | nil => rfl
  | cons s a ih => rw [List.cons_append, follow_cons, follow_cons, ih]

theorem follow_take_succ {css : List (List Nat)} {k : Nat} (hk : k < css.length) (b : Nat) :
    follow (css.take (k + 1)) b = moveTo css[k] (follow (css.take k) b) := by
  rw [← List.take_append_getElem hk, follow_append]; rfl

theorem move_zero (ss : List Nat) (css : List (List Nat)) (b : Nat) :
    move (ss :: css) b 0 = (moveTo ss b : Int) - b := rfl

theorem move_succ (ss : List Nat) (css : List (List Nat)) (b k : Nat) :
    move (ss :: css) b (k + 1) = move css (moveTo ss b) k := rfl

namespace Method

/-- One step of the plain hunting loop. -/
theorem plainLoop_cons {c : Change} (hc : c.WF) (cs : List Change) {p : Nat} (hp : p < 256) (dir : Bool)
    (dc : Nat) :
    plainLoop (c :: cs) p dir dc =
      (if (moveTo c.swaps p : Int) - p = (if dir then 1 else -1) then none
      else if (moveTo c.swaps p : Int) - p = (if dir then -1 else 1)
        then plainLoop cs (moveTo c.swaps p : Nat) dir dc
      else plainLoop cs (moveTo c.swaps p : Nat) (!dir) (dc + 1)) := by
  have hb := hc.2.2
  have hn := hc.1
  have key : ∀ x : Nat, x < 256 → (findswapInt c (x : Int) = true ↔ x ∈ c.swaps) := by
    intro x hx
    unfold findswapInt
    have : ((x : Int) % 256).toNat = x := by omega
    rw [this, hc.findswap_eq]
  have km : findswapInt c (-1) = false := by
    unfold findswapInt
    have : ((-1 : Int) % 256).toNat = 255 := by decide
    rw [this, Bool.eq_false_iff]
    intro h
    rw [hc.findswap_eq] at h
    have := hb _ h; omega
  have down : ∀ x : Nat, x < 256 → (findswapInt c ((x : Int) - 1) = true ↔ x ≠ 0 ∧ x - 1 ∈ c.swaps) := by
    intro x hx
    rcases Nat.eq_zero_or_pos x with rfl | h0
    · have : (((0 : Nat) : Int) - 1) = -1 := by omega
      rw [this, km]; simp
    · have : ((x : Int) - 1) = ((x - 1 : Nat) : Int) := by omega
      rw [this, key _ (by omega)]; simp; omega
  have ns := hc.gap
  have m1 : p ∈ c.swaps → moveTo c.swaps p = p + 1 := fun h => Change.moveTo_mem h
  have m2 : (p ≠ 0 ∧ p - 1 ∈ c.swaps) → moveTo c.swaps p + 1 = p := by
    rintro ⟨h0, h⟩
    have := Change.moveTo_mem_succ ns h
    have e : p - 1 + 1 = p := by omega
    rw [e] at this; omega
  have m3 : p ∉ c.swaps → ¬ (p ≠ 0 ∧ p - 1 ∈ c.swaps) → moveTo c.swaps p = p := by
    intro h1 h2; unfold moveTo; rw [if_neg h1, if_neg h2]
  have k1 := key p hp
  have k2 := down p hp
  rw [plainLoop]
  cases dir
  · simp only [Bool.false_eq_true, if_false, add_zero, sub_zero, Bool.not_false]
    by_cases h2 : p ≠ 0 ∧ p - 1 ∈ c.swaps
    · rw [if_pos (k2.2 h2), if_pos (by have := m2 h2; omega)]
    · rw [if_neg (fun h => h2 (k2.1 h))]
      by_cases h1 : p ∈ c.swaps
      · have := m1 h1
        rw [if_pos (k1.2 h1), if_neg (by omega), if_pos (by omega), this]; simp
      · have := m3 h1 h2
        rw [if_neg (fun h => h1 (k1.1 h)), if_neg (by omega), if_neg (by omega), this]
  · simp only [if_true, Bool.not_true, sub_add_cancel]
    by_cases h1 : p ∈ c.swaps
    · rw [if_pos (k1.2 h1), if_pos (by have := m1 h1; omega)]
    · rw [if_neg (fun h => h1 (k1.1 h))]
      by_cases h2 : p ≠ 0 ∧ p - 1 ∈ c.swaps
      · have := m2 h2
        rw [if_pos (k2.2 h2), if_neg (by omega), if_pos (by omega)]
        congr 1; omega
      · have := m3 h1 h2
        rw [if_neg (fun h => h2 (k2.1 h)), if_neg (by omega), if_neg (by omega), this]

theorem moveTo_lt_256 {c : Change} (hc : c.WF) {p : Nat} (hp : p < 256) : moveTo c.swaps p < 256 := by
  have := hc.1
  exact Change.moveTo_lt hc.gap hc.2.2 (by omega) hp

/-- `q` more places are made, with the directions between them. -/
def Hunts (css : List (List Nat)) (p : Nat) (d : Int) : Nat → Prop
  | 0 => ∀ k, k < css.length → move css p k = d
  | 1 => ∃ j, j < css.length ∧ ∀ k, k < css.length →
      move css p k = (if k = j then 0 else if k < j then d else -d)
  | _ => ∃ i j, i < j ∧ j < css.length ∧ ∀ k, k < css.length →
      move css p k = (if k = i ∨ k = j then 0 else if i < k ∧ k < j then -d else d)

theorem hunts_cons0 {ss : List Nat} {css : List (List Nat)} {p : Nat} {d : Int} :
    Hunts (ss :: css) p d 0 ↔ (moveTo ss p : Int) - p = d ∧ Hunts css (moveTo ss p) d 0 := by
  simp only [Hunts]
  constructor
  · intro h
    exact ⟨by rw [← move_zero ss css]; exact h 0 (by simp), fun k hk => by
      rw [← move_succ ss css]; exact h (k + 1) (by simpa using hk)⟩
  · rintro ⟨h1, h2⟩ k hk
    cases k with
    | zero => exact h1
    | succ k => rw [move_succ]; exact h2 k (by simpa using hk)

theorem hunts_cons1 {ss : List Nat} {css : List (List Nat)} {p : Nat} {d : Int} :
    Hunts (ss :: css) p d 1 ↔ ((moveTo ss p : Int) - p = d ∧ Hunts css (moveTo ss p) d 1) ∨
      ((moveTo ss p : Int) - p = 0 ∧ Hunts css (moveTo ss p) (-d) 0) := by
  simp only [Hunts]
  constructor
  · rintro ⟨j, hj, h⟩
    have h0 := h 0 (by simp)
    rw [move_zero] at h0
    cases j with
    | zero =>
      right
      refine ⟨by simpa using h0, fun k hk => ?_⟩
      have := h (k + 1) (by simpa using hk)
      rw [move_succ] at this
      simpa using this
    | succ j =>
      left
      refine ⟨by simpa using h0, j, by simpa using hj, fun k hk => ?_⟩
      have := h (k + 1) (by simpa using hk)
      rw [move_succ] at this
      rw [this]
      simp
  · rintro (⟨h0, j, hj, h⟩ | ⟨h0, h⟩)
    · refine ⟨j + 1, by simpa using hj, fun k hk => ?_⟩
      cases k with
      | zero => rw [move_zero]; simpa using h0
      | succ k => rw [move_succ, h k (by simpa using hk)]; simp
    · refine ⟨0, by simp, fun k hk => ?_⟩
      cases k with
      | zero => rw [move_zero]; simpa using h0
      | succ k => rw [move_succ, h k (by simpa using hk)]; simp

theorem hunts_cons2 {ss : List Nat} {css : List (List Nat)} {p : Nat} {d : Int} :
    Hunts (ss :: css) p d 2 ↔ ((moveTo ss p : Int) - p = d ∧ Hunts css (moveTo ss p) d 2) ∨
      ((moveTo ss p : Int) - p = 0 ∧ Hunts css (moveTo ss p) (-d) 1) := by
  simp only [Hunts]
  constructor
  · rintro ⟨i, j, hij, hj, h⟩
    have h0 := h 0 (by simp)
    rw [move_zero] at h0
    cases i with
    | zero =>
      right
      obtain ⟨j, rfl⟩ : ∃ j', j = j' + 1 := ⟨j - 1, by omega⟩
      refine ⟨by simpa using h0, j, by simpa using hj, fun k hk => ?_⟩
      have := h (k + 1) (by simpa using hk)
      rw [move_succ] at this
      rw [this]
      simp
    | succ i =>
      left
      obtain ⟨j, rfl⟩ : ∃ j', j = j' + 1 := ⟨j - 1, by omega⟩
      have e : ¬ (0 = i + 1 ∨ 0 = j + 1) := by omega
      rw [if_neg e, if_neg (by omega)] at h0
      refine ⟨h0, i, j, by omega, by simpa using hj, fun k hk => ?_⟩
      have := h (k + 1) (by simpa using hk)
      rw [move_succ] at this
      rw [this]
      simp
  · rintro (⟨h0, i, j, hij, hj, h⟩ | ⟨h0, j, hj, h⟩)
    · refine ⟨i + 1, j + 1, by omega, by simpa using hj, fun k hk => ?_⟩
      cases k with
      | zero => rw [move_zero, if_neg (by omega), if_neg (by omega)]; exact h0
      | succ k => rw [move_succ, h k (by simpa using hk)]; simp
    · refine ⟨0, j + 1, by omega, by simpa using hj, fun k hk => ?_⟩
      cases k with
      | zero => rw [move_zero]; simpa using h0
      | succ k => rw [move_succ, h k (by simpa using hk)]; simp

theorem step_cases (c : Change) (p : Nat) :
    (moveTo c.swaps p : Int) - p = 1 ∨ (moveTo c.swaps p : Int) - p = -1 ∨
      (moveTo c.swaps p : Int) - p = 0 := by
  unfold moveTo
  split_ifs <;> omega

/-- The loop of `isplain`: where it ends and when. -/
theorem plainLoop_spec {cs : List Change} (h : ∀ c ∈ cs, c.WF) : ∀ {p : Nat}, p < 256 → ∀ (dir : Bool) (dc : Nat),
    (∀ x y e, plainLoop cs p dir dc = some (x, y, e) → x = follow (cs.map Change.swaps) p ∧ dc ≤ e) ∧
    (∀ q, q ≤ 2 → ((∃ x y, plainLoop cs p dir dc = some (x, y, dc + q)) ↔
      Hunts (cs.map Change.swaps) p (if dir then -1 else 1) q)) := by
  induction cs with
  | nil =>
    intro p hp dir dc
    refine ⟨?_, ?_⟩
    · rintro x y e h; simp only [plainLoop, Option.some.injEq, Prod.mk.injEq] at h
      obtain ⟨rfl, -, rfl⟩ := h
      exact ⟨rfl, le_rfl⟩
    · intro q hq
      simp only [plainLoop, Option.some.injEq, Prod.mk.injEq]
      have : q = 0 ∨ q = 1 ∨ q = 2 := by omega
      rcases this with rfl | rfl | rfl
      · simp [Hunts]
      · simp [Hunts]
      · simp [Hunts]
  | cons c cs ih =>
    intro p hp dir dc
    have hc := h c (by simp)
    have hlt := moveTo_lt_256 hc hp
    have ih' := ih (fun d hd => h d (by simp [hd])) hlt
    rw [plainLoop_cons hc cs hp, List.map_cons]
    have hs := step_cases c p
    generalize hm : moveTo c.swaps p = p' at *
    by_cases h1 : (p' : Int) - p = (if dir then 1 else -1)
    · rw [if_pos h1]
      refine ⟨by simp, fun q hq => ?_⟩
      simp only [reduceCtorEq, exists_false, false_iff]
      have e1 : (p' : Int) - p ≠ (if dir then -1 else 1) := by rw [h1]; cases dir <;> simp
      have e2 : (p' : Int) - p ≠ 0 := by rw [h1]; cases dir <;> simp
      have : q = 0 ∨ q = 1 ∨ q = 2 := by omega
      rcases this with rfl | rfl | rfl
      · rw [hunts_cons0, hm]; tauto
      · rw [hunts_cons1, hm]; tauto
      · rw [hunts_cons2, hm]; tauto
    · rw [if_neg h1]
      by_cases h2 : (p' : Int) - p = (if dir then -1 else 1)
      · rw [if_pos h2]
        obtain ⟨i1, i2⟩ := ih' dir dc
        have e2 : (p' : Int) - p ≠ 0 := by rw [h2]; cases dir <;> simp
        refine ⟨?_, fun q hq => ?_⟩
        · intro x y e he
          obtain ⟨rfl, h4⟩ := i1 x y e he
          exact ⟨by rw [follow_cons, hm], h4⟩
        · rw [i2 q hq]
          have : q = 0 ∨ q = 1 ∨ q = 2 := by omega
          rcases this with rfl | rfl | rfl
          · rw [hunts_cons0, hm]; tauto
          · rw [hunts_cons1, hm]; tauto
          · rw [hunts_cons2, hm]; tauto
      · rw [if_neg h2]
        have h3 : (p' : Int) - p = 0 := by
          clear ih' ih
          cases dir <;> simp only [Bool.false_eq_true, if_false, if_true] at h1 h2 <;> omega
        obtain ⟨i1, i2⟩ := ih' (!dir) (dc + 1)
        refine ⟨?_, fun q hq => ?_⟩
        · intro x y e he
          obtain ⟨rfl, h4⟩ := i1 x y e he
          exact ⟨by rw [follow_cons, hm], by omega⟩
        · have hneg : (if (!dir) = true then (-1 : Int) else 1) = -(if dir = true then -1 else 1) := by
            cases dir <;> simp
          have : q = 0 ∨ q = 1 ∨ q = 2 := by omega
          rcases this with rfl | rfl | rfl
          · rw [hunts_cons0, hm]
            constructor
            · rintro ⟨x, y, he⟩
              have := (i1 _ _ _ he).2; omega
            · tauto
          · rw [hunts_cons1, hm, ← hneg, ← i2 0 (by omega)]
            simp only [Nat.add_zero]
            tauto
          · rw [hunts_cons2, hm, ← hneg, ← i2 1 (by omega)]
            simp only [Nat.add_assoc, Nat.reduceAdd]
            tauto

/-! ### Runs of blows -/

theorem le_runLen {p : Nat} : ∀ {l : List Change} {k : Nat}, k ≤ runLen p l ↔
    k ≤ l.length ∧ ∀ t, t < k → ∃ c, l[t]? = some c ∧ c.findplace p = true := by
  intro l
  induction l with
  | nil => intro k; simp [runLen]; intro h; subst h; simp
  | cons c cs ih =>
    intro k
    rw [runLen]
    cases k with
    | zero => simp
    | succ k =>
      by_cases hc : c.findplace p
      · rw [if_pos hc]
        constructor
        · intro h
          obtain ⟨h1, h2⟩ := ih.1 (show k ≤ _ by omega)
          refine ⟨by simpa using h1, fun t ht => ?_⟩
          cases t with
          | zero => exact ⟨c, rfl, hc⟩
          | succ t => simpa using h2 t (by omega)
        · rintro ⟨h1, h2⟩
          have := ih.2 ⟨by simpa using h1, fun t ht => by simpa using h2 (t + 1) (by omega)⟩
          omega
      · rw [if_neg hc]
        constructor
        · omega
        · rintro ⟨-, h2⟩
          obtain ⟨d, h3, h4⟩ := h2 0 (by omega)
          simp at h3; subst h3; exact absurd h4 hc

theorem runLen_le (p : Nat) (l : List Change) : runLen p l ≤ l.length := (le_runLen.1 le_rfl).1

/-- A circular run of changes with a place at `p`. -/
def Run (l : List Change) (i k p : Nat) : Prop :=
  ∀ t, t < k → ∃ c, l[(i + t) % l.length]? = some c ∧ c.findplace p = true

theorem run_runAt {m : Method} {i p : Nat} (hi : i < m.length) :
    ∃ k, runAt m i p = 2 + k ∧ k ≤ m.length ∧ Run m.ch i k p := by
  unfold runAt
  have hd : (m.ch.drop i).length = m.length - i := by simp
  have h1 := le_runLen.1 (le_refl (runLen p (m.ch.drop i)))
  have h2 := le_runLen.1 (le_refl (runLen p (m.ch.take i)))
  simp only
  split_ifs with h
  · refine ⟨runLen p (m.ch.drop i) + runLen p (m.ch.take i), by omega, ?_, ?_⟩
    · have := h2.1; simp at this; omega
    · intro t ht
      by_cases ht' : t < runLen p (m.ch.drop i)
      · obtain ⟨c, h3, h4⟩ := h1.2 t ht'
        rw [List.getElem?_drop] at h3
        exact ⟨c, by rw [Nat.mod_eq_of_lt (by show _ < m.length; omega)]; exact h3, h4⟩
      · have hl := h2.1
        simp at hl
        obtain ⟨c, h3, h4⟩ := h2.2 (t - runLen p (m.ch.drop i)) (by omega)
        rw [List.getElem?_take_of_lt (by omega)] at h3
        refine ⟨c, ?_, h4⟩
        rw [mod_two (by show _ < 2 * m.length; omega), if_neg (by show ¬ _ < m.length; omega)]
        rw [← h3]; congr 1
        show i + t - m.length = _; omega
  · refine ⟨_, rfl, by omega, ?_⟩
    intro t ht
    obtain ⟨c, h3, h4⟩ := h1.2 t ht
    rw [List.getElem?_drop] at h3
    exact ⟨c, by rw [Nat.mod_eq_of_lt (by show _ < m.length; omega)]; exact h3, h4⟩

theorem runAt_ge {m : Method} {i k p : Nat} (hi : i < m.length) (hk : k ≤ m.length) (h : Run m.ch i k p) :
    2 + k ≤ runAt m i p := by
  unfold runAt
  simp only
  have hd : (m.ch.drop i).length = m.length - i := by simp
  by_cases hk' : k < m.length - i
  · have : k ≤ runLen p (m.ch.drop i) := by
      rw [le_runLen]
      refine ⟨by omega, fun t ht => ?_⟩
      obtain ⟨c, h3, h4⟩ := h t ht
      rw [Nat.mod_eq_of_lt (by show _ < m.length; omega)] at h3
      exact ⟨c, by rw [List.getElem?_drop]; exact h3, h4⟩
    split_ifs <;> omega
  · have h1 : m.length - i ≤ runLen p (m.ch.drop i) := by
      rw [le_runLen]
      refine ⟨by omega, fun t ht => ?_⟩
      obtain ⟨c, h3, h4⟩ := h t (by omega)
      rw [Nat.mod_eq_of_lt (by show _ < m.length; omega)] at h3
      exact ⟨c, by rw [List.getElem?_drop]; exact h3, h4⟩
    have h2 := runLen_le p (m.ch.drop i)
    rw [if_pos (by omega)]
    have : k - (m.length - i) ≤ runLen p (m.ch.take i) := by
      rw [le_runLen]
      refine ⟨by rw [List.length_take]; show _ ≤ min i m.length; omega, fun t ht => ?_⟩
      obtain ⟨c, h3, h4⟩ := h (m.length - i + t) (by omega)
      refine ⟨c, ?_, h4⟩
      rw [List.getElem?_take_of_lt (by omega), ← h3, mod_two (by show _ < 2 * m.length; omega),
        if_neg (by show ¬ _ < m.length; omega)]
      congr 1
      show _ = i + (m.length - i + t) - m.length; omega
    omega

/-- A run can be extended backwards to one the code looks at. -/
theorem exists_start {m : Method} {p k : Nat} : ∀ {i : Nat}, i < m.length →
    Run m.ch i k p → ∃ i', i' < m.length ∧ Run m.ch i' k p ∧
      (i' = 0 ∨ ∃ c, m.ch[i' - 1]? = some c ∧ c.findplace p = false) := by
  intro i
  induction i with
  | zero => intro hi h; exact ⟨0, hi, h, .inl rfl⟩
  | succ i ih =>
    intro hi h
    by_cases hc : (m.ch[i]'(by show i < m.length; omega)).findplace p
    · apply ih (by omega)
      intro t ht
      cases t with
      | zero => exact ⟨_, by
          rw [Nat.add_zero, Nat.mod_eq_of_lt (by show _ < m.length; omega)]
          exact List.getElem?_eq_getElem (by show i < m.length; omega), hc⟩
      | succ t =>
        obtain ⟨c, h3, h4⟩ := h t (by omega)
        exact ⟨c, by rw [← h3]; congr 2; omega, h4⟩
    · refine ⟨i + 1, hi, h, .inr ⟨_, List.getElem?_eq_getElem (by show i < m.length; omega), ?_⟩⟩
      simpa using hc

theorem foldl_max_ge {α : Type} (g : α → Option Nat) (l : List α) : ∀ (a : Nat),
    let r := l.foldl (fun mx x => match g x with | none => mx | some v => max mx v) a
    a ≤ r ∧ (∀ x ∈ l, ∀ v, g x = some v → v ≤ r) ∧ (r = a ∨ ∃ x ∈ l, g x = some r) := by
  induction l with
  | nil => intro a; simp
  | cons x l ih =>
    intro a
    simp only [List.foldl_cons]
    cases hg : g x with
    | none =>
      obtain ⟨h1, h2, h3⟩ := ih a
      refine ⟨h1, ?_, ?_⟩
      · intro y hy v hv
        rcases List.mem_cons.1 hy with rfl | hy
        · rw [hg] at hv; cases hv
        · exact h2 y hy v hv
      · rcases h3 with h3 | ⟨y, hy, hv⟩
        · left; exact h3
        · right; exact ⟨y, by simp [hy], hv⟩
    | some w =>
      obtain ⟨h1, h2, h3⟩ := ih (max a w)
      simp only at h1 h2 h3 ⊢
      refine ⟨le_trans (le_max_left _ _) h1, ?_, ?_⟩
      · intro y hy v hv
        rcases List.mem_cons.1 hy with rfl | hy
        · rw [hg] at hv; cases hv; exact le_trans (le_max_right _ _) h1
        · exact h2 y hy v hv
      · rcases h3 with h3 | ⟨y, hy, hv⟩
        · rcases le_total a w with hle | hle
          · right
            rw [max_eq_right hle] at h3
            exact ⟨x, by simp, by rw [max_eq_right hle, h3]; exact hg⟩
          · left; rw [max_eq_left hle] at h3 ⊢; exact h3
        · right; exact ⟨y, by simp [hy], hv⟩

/-- The value examined by `maxblows` at change `i` and place `p`. -/
def blowVal (m : Method) (x : Nat × Nat) : Option Nat :=
  if (m.ch.getD x.1 ⟨0, []⟩).findplace x.2 then
    if x.1 ≠ 0 ∧ (m.ch.getD (x.1 - 1) ⟨0, []⟩).findplace x.2 then none else some (runAt m x.1 x.2)
  else none

theorem maxblows_eq (m : Method) : ∃ M : Nat, maxblows m = (M : Int) - 1 ∧
    M = ((List.range m.length).flatMap fun i => (List.range m.b).map fun p => (i, p)).foldl
      (fun mx x => match blowVal m x with | none => mx | some v => max mx v) 0 := by
  refine ⟨_, rfl, ?_⟩
  rw [List.foldl_flatMap]
  congr 1
  funext a i
  rw [List.foldl_map]
  congr 1
  funext a p
  unfold blowVal
  split_ifs <;> rfl

theorem maxblows_spec (m : Method) :
    (maxblows m = -1 ∧ ∀ i k p, i < m.length → p < m.b → 0 < k → ¬ Run m.ch i k p) ∨
    (∃ i k p, i < m.length ∧ p < m.b ∧ 0 < k ∧ k ≤ m.length ∧ Run m.ch i k p ∧ maxblows m = (k : Int) + 1 ∧
      ∀ i' k' p', i' < m.length → p' < m.b → k' ≤ m.length → Run m.ch i' k' p' → k' ≤ k) := by
  obtain ⟨M, e, hM⟩ := maxblows_eq m
  obtain ⟨-, h2, h3⟩ := foldl_max_ge (blowVal m)
    ((List.range m.length).flatMap fun i => (List.range m.b).map fun p => (i, p)) 0
  rw [← hM] at h2 h3
  have mem : ∀ i p, (i, p) ∈ ((List.range m.length).flatMap fun i => (List.range m.b).map fun p => (i, p)) ↔
      i < m.length ∧ p < m.b := by
    intro i p
    simp
  have good : ∀ i k p, i < m.length → p < m.b → 0 < k → k ≤ m.length → Run m.ch i k p → 2 + k ≤ M := by
    intro i k p hi hp hk hk' hr
    obtain ⟨i', h4, h5, h6⟩ := exists_start hi hr
    refine le_trans (runAt_ge h4 hk' h5) (h2 (i', p) ((mem _ _).2 ⟨h4, hp⟩) _ ?_)
    unfold blowVal
    obtain ⟨c, h7, h8⟩ := h5 0 hk
    rw [Nat.add_zero, Nat.mod_eq_of_lt h4] at h7
    rw [if_pos (by rw [List.getD_eq_getElem?_getD, h7]; exact h8), if_neg]
    rintro ⟨h9, h10⟩
    rcases h6 with h6 | ⟨d, h6, h6'⟩
    · exact h9 h6
    · simp only at h10
      rw [List.getD_eq_getElem?_getD, h6] at h10
      simp only [Option.getD_some] at h10
      rw [h6'] at h10; cases h10
  rcases h3 with h3 | ⟨⟨i, p⟩, hx, hv⟩
  · left
    refine ⟨by omega, ?_⟩
    intro i k p hi hp hk hr
    have := good i 1 p hi hp (by omega) (by omega) (fun t ht => hr t (by omega))
    omega
  · right
    obtain ⟨hi, hp⟩ := (mem _ _).1 hx
    obtain ⟨k, h4, h5, h6⟩ := run_runAt (p := p) hi
    unfold blowVal at hv
    simp only at hv
    split_ifs at hv with ha hb
    have hMv : runAt m i p = M := by injection hv
    have hk : 0 < k := by
      have := runAt_ge (k := 1) (p := p) hi (by omega) (by
        intro t ht
        have : t = 0 := by omega
        subst this
        refine ⟨m.ch[i], ?_, ?_⟩
        · rw [Nat.add_zero, Nat.mod_eq_of_lt hi]; exact List.getElem?_eq_getElem hi
        · rw [List.getD_eq_getElem?_getD, List.getElem?_eq_getElem hi] at ha; exact ha)
      omega
    refine ⟨i, k, p, hi, hp, hk, h5, h6, by omega, ?_⟩
    intro i' k' p' hi' hp' hk' hr'
    rcases Nat.eq_zero_or_pos k' with h0 | h0
    · omega
    · have := good i' k' p' hi' hp' h0 hk' hr'
      omega

end Method
end Ringing
