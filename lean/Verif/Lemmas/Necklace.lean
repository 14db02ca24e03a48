import Verif.Model.Search
import Mathlib.Tactic.Ring
import Mathlib.Data.List.Rotate
import Mathlib.Data.List.GetD
/-! Words and their rotations: what the test for canonical form does. -/
namespace Ringing
namespace Search

/-- Letter `i` of a word, 0 beyond the end. -/
abbrev lt (c : List Nat) (i : Nat) : Nat := c.getD i 0

theorem lt_append_left {c d : List Nat} {i : Nat} (h : i < c.length) : lt (c ++ d) i = lt c i := by
  unfold lt; rw [List.getD_append _ _ _ _ h]

theorem lt_snoc (c : List Nat) (k : Nat) : lt (c ++ [k]) c.length = k := by
  unfold lt; simp [List.getD_eq_getElem?_getD]

/-- The pure version of `possiblyC`. -/
def poss (c : List Nat) (cur : Nat) : Option Nat :=
  if c = [] then some cur
  else if cur = 0 then some c.length
  else if lt c (c.length - 1 - cur) < lt c (c.length - 1) then some c.length
  else if lt c (c.length - 1) < lt c (c.length - 1 - cur) then none
  else some cur

/-- The state of the test after the word `c`: `p` is the period, and the first `p` letters are a Lyndon
word. -/
structure Pre (c : List Nat) (p : Nat) : Prop where
  pos : c ≠ [] → 0 < p
  le : p ≤ c.length
  per : ∀ i, p ≤ i → i < c.length → lt c i = lt c (i - p)
  lyn : ∀ i, 0 < i → i < p → ∃ j, i + j < p ∧ (∀ t, t < j → lt c t = lt c (i + t)) ∧ lt c j < lt c (i + j)

theorem Pre.nil : Pre [] 0 := ⟨by simp, by simp, by simp, by omega⟩

theorem per_mul {c : List Nat} {p : Nat} (h : ∀ i, p ≤ i → i < c.length → lt c i = lt c (i - p)) (q : Nat) :
    ∀ i, i + q * p < c.length → lt c (i + q * p) = lt c i := by
  induction q with
  | zero => simp
  | succ q ih =>
    intro i hi
    have e : i + (q + 1) * p = i + q * p + p := by ring
    rw [e] at hi ⊢
    rw [h _ (by omega) hi, Nat.add_sub_cancel, ih i (by omega)]

theorem Pre.snoc {c : List Nat} {p k q : Nat} (h : Pre c p) (e : poss (c ++ [k]) p = some q) : Pre (c ++ [k]) q := by
  unfold poss at e
  rw [if_neg (by simp)] at e
  by_cases h0 : p = 0
  · rw [if_pos h0] at e
    injection e with e
    have hc : c = [] := by
      by_contra hc
      have := h.pos hc
      omega
    subst hc
    rw [← e]
    simp only [List.nil_append, List.length_cons, List.length_nil]
    exact ⟨by simp, by simp, by intro i h1 h2; simp at h2; omega, by intro i h1 h2; omega⟩
  rw [if_neg h0] at e
  simp only [List.length_append, List.length_cons, List.length_nil, Nat.zero_add, Nat.add_sub_cancel] at e
  have hle := h.le
  set m := c.length with hm
  have hmp : m - p < m := by omega
  rw [lt_snoc, lt_append_left (by omega)] at e
  by_cases h1 : lt c (m - p) < k
  · rw [if_pos h1] at e
    injection e with e
    subst e
    refine ⟨by simp, by simp [hm], by intro i a b; simp at b; omega, ?_⟩
    intro i hi0 him
    have hdiv := Nat.div_add_mod i p
    have hr := Nat.mod_lt i (show 0 < p by omega)
    set qq := i / p with hqq
    set r := i % p with hr'
    have hi : i = r + qq * p := by rw [Nat.mul_comm]; omega
    have hperi : ∀ t, i + t < m → lt c (i + t) = lt c (r + t) := by
      intro t ht
      have : i + t = (r + t) + qq * p := by omega
      rw [this]; exact per_mul h.per qq _ (by omega)
    -- comparing the letter at `m`
    have hlast : 0 < qq → ∀ x, x + qq * p = m → lt c x = lt c (m - p) := by
      intro hq x hx
      obtain ⟨q', hq'⟩ : ∃ q', qq = q' + 1 := ⟨qq - 1, by omega⟩
      have hx' : x + q' * p = m - p := by
        have : (q' + 1) * p = q' * p + p := by ring
        rw [hq'] at hx
        omega
      rw [← hx', per_mul h.per q' x (by omega)]
    by_cases hr0 : r = 0
    · have hq : 0 < qq := by
        rcases Nat.eq_zero_or_pos qq with h | h
        · rw [h] at hi; omega
        · exact h
      refine ⟨m - i, by omega, ?_, ?_⟩
      · intro t ht
        rw [lt_append_left (by omega), lt_append_left (by omega), hperi t (by omega), hr0, Nat.zero_add]
      · have : i + (m - i) = m := by omega
        rw [this, lt_snoc, lt_append_left (by omega), hlast hq (m - i) (by omega)]
        exact h1
    · obtain ⟨j, hj1, hj2, hj3⟩ := h.lyn r (by omega) hr
      by_cases hij : i + j < m
      · refine ⟨j, by omega, ?_, ?_⟩
        · intro t ht
          rw [lt_append_left (by omega), lt_append_left (by omega), hperi t (by omega)]; exact hj2 t ht
        · rw [lt_append_left (by omega), lt_append_left (by omega), hperi j hij]; exact hj3
      · have hq : 0 < qq := by
          rcases Nat.eq_zero_or_pos qq with h' | h'
          · rw [h'] at hi; omega
          · exact h'
        refine ⟨m - i, by omega, ?_, ?_⟩
        · intro t ht
          rw [lt_append_left (by omega), lt_append_left (by omega), hperi t (by omega)]; exact hj2 t (by omega)
        · have : i + (m - i) = m := by omega
          rw [this, lt_snoc, lt_append_left (by omega)]
          have e1 := hlast hq (r + (m - i)) (by omega)
          have e2 : lt c (m - i) ≤ lt c (r + (m - i)) := by
            by_cases hlt : m - i < j
            · rw [hj2 _ hlt]
            · have : m - i = j := by omega
              rw [this]; omega
          omega
  · rw [if_neg h1] at e
    split at e
    · cases e
    · rename_i h2
      injection e with e
      subst e
      refine ⟨fun _ => by omega, by simp; omega, ?_, ?_⟩
      · intro i a b
        simp only [List.length_append, List.length_cons, List.length_nil] at b
        by_cases him : i < m
        · rw [lt_append_left him, lt_append_left (by omega)]; exact h.per i a him
        · have : i = m := by omega
          rw [this, lt_snoc, lt_append_left (by omega)]; omega
      · intro i a b
        obtain ⟨j, b1, b2, b3⟩ := h.lyn i a b
        refine ⟨j, b1, ?_, ?_⟩
        · intro t ht
          rw [lt_append_left (by omega), lt_append_left (by omega)]; exact b2 t ht
        · rw [lt_append_left (by omega), lt_append_left (by omega)]; exact b3

/-- The accepted words, with the state. -/
inductive Cn : List Nat → Nat → Prop
  | nil : Cn [] 0
  | snoc {c p k q} : Cn c p → poss (c ++ [k]) p = some q → Cn (c ++ [k]) q

theorem Cn.pre {c : List Nat} {p : Nat} (h : Cn c p) : Pre c p := by
  induction h with
  | nil => exact Pre.nil
  | snoc _ e ih => exact ih.snoc e

/-- `c` is smaller than `d` (of the same length), at some position. -/
def Less (c d : List Nat) : Prop := ∃ j, j < c.length ∧ (∀ t, t < j → lt c t = lt d t) ∧ lt c j < lt d j

theorem Less.irrefl {c : List Nat} : ¬ Less c c := fun ⟨_, _, _, h⟩ => absurd h (by omega)

theorem Less.trans {a b c : List Nat} (hab : a.length = b.length) (h1 : Less a b) (h2 : Less b c) : Less a c := by
  obtain ⟨i, i1, i2, i3⟩ := h1
  obtain ⟨j, j1, j2, j3⟩ := h2
  rcases Nat.lt_trichotomy i j with h | h | h
  · exact ⟨i, i1, fun t ht => by rw [i2 t ht, j2 t (by omega)], by rw [← j2 i h]; exact i3⟩
  · subst h
    exact ⟨i, i1, fun t ht => by rw [i2 t ht, j2 t ht], by omega⟩
  · exact ⟨j, by omega, fun t ht => by rw [i2 t (by omega), j2 t ht], by rw [i2 j h]; exact j3⟩

theorem ext_lt {c d : List Nat} (hl : c.length = d.length) (h : ∀ i, i < c.length → lt c i = lt d i) : c = d := by
  apply List.ext_getElem hl
  intro i h1 h2
  have := h i h1
  unfold lt at this
  rwa [List.getD_eq_getElem _ _ h1, List.getD_eq_getElem _ _ h2] at this

theorem Less.total {c d : List Nat} (hl : c.length = d.length) : Less c d ∨ c = d ∨ Less d c := by
  by_cases h : ∃ i, i < c.length ∧ lt c i ≠ lt d i
  · have hm := @Nat.find_min _ _ h
    obtain ⟨h1, h2⟩ := Nat.find_spec h
    set i := Nat.find h
    have hpre : ∀ t, t < i → lt c t = lt d t := by
      intro t ht
      by_contra hc
      exact hm ht ⟨by omega, hc⟩
    rcases Nat.lt_or_gt_of_ne h2 with g | g
    · exact Or.inl ⟨i, h1, hpre, g⟩
    · exact Or.inr (Or.inr ⟨i, by omega, fun t ht => (hpre t ht).symm, g⟩)
  · right; left
    apply ext_lt hl
    intro i hi
    by_contra hc
    exact h ⟨i, hi, hc⟩

theorem lt_rotate {c : List Nat} {k i : Nat} (hk : k ≤ c.length) (hi : i < c.length) :
    lt (c.rotate k) i = lt c (if k + i < c.length then k + i else k + i - c.length) := by
  unfold lt
  rw [List.getD_eq_getElem _ _ (by simpa using hi), List.getElem_rotate]
  rw [List.getD_eq_getElem _ _ (by split <;> omega)]
  congr 1
  split
  · rw [Nat.mod_eq_of_lt (by omega)]; omega
  · rw [Nat.mod_eq_sub_mod (by omega), Nat.mod_eq_of_lt (by omega)]; omega

/-- No rotation is smaller. -/
def Least (c : List Nat) : Prop := ∀ k, k < c.length → ¬ Less (c.rotate k) c

/-- Every word has a least rotation. -/
theorem exists_least (c : List Nat) (hc : c ≠ []) : ∃ k, k < c.length ∧ Least (c.rotate k) := by
  have hpos : 0 < c.length := List.length_pos_of_ne_nil hc
  have key : ∀ n, 0 < n → n ≤ c.length → ∃ k, k < n ∧ ∀ j, j < n → ¬ Less (c.rotate j) (c.rotate k) := by
    intro n
    induction n with
    | zero => intro h; omega
    | succ n ih =>
      intro _ hn
      rcases Nat.eq_zero_or_pos n with h0 | h0
      · subst h0
        refine ⟨0, by omega, fun j hj => ?_⟩
        have : j = 0 := by omega
        subst this; exact Less.irrefl
      · obtain ⟨k, hk1, hk2⟩ := ih h0 (by omega)
        by_cases hl : Less (c.rotate n) (c.rotate k)
        · refine ⟨n, by omega, fun j hj hl' => ?_⟩
          by_cases hjn : j = n
          · subst hjn; exact Less.irrefl hl'
          · exact hk2 j (by omega) (hl'.trans (by simp) hl)
        · refine ⟨k, by omega, fun j hj => ?_⟩
          by_cases hjn : j = n
          · subst hjn; exact hl
          · exact hk2 j (by omega)
  obtain ⟨k, hk1, hk2⟩ := key c.length hpos le_rfl
  refine ⟨k, hk1, fun j hj hl => ?_⟩
  rw [List.rotate_rotate] at hl
  rw [← List.rotate_mod c (k + j)] at hl
  exact hk2 _ (Nat.mod_lt _ hpos) hl

/-- No suffix is smaller than the beginning. -/
def Pren (c : List Nat) : Prop :=
  ∀ i j, i + j < c.length → (∀ t, t < j → lt c (i + t) = lt c t) → ¬ lt c (i + j) < lt c j

theorem Least.pren {c : List Nat} (h : Least c) : Pren c := by
  intro i j hij he hlt
  refine h i (by omega) ⟨j, by simp; omega, fun t ht => ?_, ?_⟩
  · rw [lt_rotate (by omega) (by omega), if_pos (by omega)]; exact he t ht
  · rw [lt_rotate (by omega) (by omega), if_pos (by omega)]; exact hlt

/-- A word no suffix of which is smaller than the beginning is never rejected. -/
theorem Pren.cn {c : List Nat} (h : Pren c) : ∀ m, m ≤ c.length → ∃ p, Cn (c.take m) p := by
  intro m
  induction m with
  | zero => intro _; exact ⟨0, by simpa using Cn.nil⟩
  | succ m ih =>
    intro hm
    obtain ⟨p, hp⟩ := ih (by omega)
    have hm' : m < c.length := by omega
    have htk : c.take (m + 1) = c.take m ++ [c[m]] := by rw [List.take_append_getElem hm']
    have hlen : (c.take m).length = m := by simp; omega
    have hpre := hp.pre
    cases hq : poss (c.take (m + 1)) p with
    | some q => exact ⟨q, by rw [htk] at hq ⊢; exact hp.snoc hq⟩
    | none =>
      exfalso
      rw [htk] at hq
      unfold poss at hq
      rw [if_neg (List.append_ne_nil_of_right_ne_nil _ (by simp))] at hq
      split at hq
      · cases hq
      rename_i h0
      simp only [List.length_append, List.length_cons, List.length_nil, Nat.zero_add, Nat.add_sub_cancel, hlen] at hq
      have hle := hpre.le
      rw [hlen] at hle
      split at hq
      · cases hq
      split at hq
      · rename_i h1 h2
        have e1 : lt (c.take m ++ [c[m]]) m = lt c m := by
          rw [← htk]; unfold lt; simp [List.getD_eq_getElem?_getD, List.getElem?_take]
        have e2 : ∀ x, x < m → lt (c.take m ++ [c[m]]) x = lt c x := by
          intro x hx
          rw [← htk]; unfold lt; simp [List.getD_eq_getElem?_getD, List.getElem?_take, show x < m + 1 by omega]
        have e3 : ∀ x, x < m → lt (c.take m) x = lt c x := by
          intro x hx
          unfold lt; simp [List.getD_eq_getElem?_getD, List.getElem?_take, hx]
        rw [e1, e2 _ (by omega)] at h2
        refine h p (m - p) (by omega) (fun t ht => ?_) ?_
        · have := hpre.per (p + t) (by omega) (by rw [hlen]; omega)
          rw [e3 _ (by omega), e3 _ (by omega), Nat.add_sub_cancel_left] at this
          exact this
        · have : p + (m - p) = m := by omega
          rw [this]; exact h2
      · cases hq

theorem Pren.cn' {c : List Nat} (h : Pren c) : ∃ p, Cn c p := by
  have := h.cn c.length le_rfl
  rwa [List.take_length] at this

/-- For a least rotation the period divides the length. -/
theorem Least.dvd {c : List Nat} (h : Least c) {p : Nat} (hp : Pre c p) (hc : c ≠ []) : c.length % p = 0 := by
  by_contra hs
  have hp0 := hp.pos hc
  have hle := hp.le
  have hdiv := Nat.div_add_mod c.length p
  have hr := Nat.mod_lt c.length hp0
  set s := c.length % p with hs'
  set q := c.length / p with hq
  have hq0 : 0 < q := Nat.div_pos hle hp0
  have hn : c.length = s + q * p := by rw [Nat.mul_comm]; omega
  have hqp : p ≤ q * p := Nat.le_mul_of_pos_left p hq0
  obtain ⟨j, j1, j2, j3⟩ := hp.lyn s (by omega) hr
  refine h (q * p) (by omega) ⟨s + j, by simp; omega, fun t ht => ?_, ?_⟩
  · rw [lt_rotate (by omega) (by omega)]
    split
    · rw [Nat.add_comm]; exact per_mul hp.per q t (by omega)
    · have : q * p + t - c.length = t - s := by omega
      rw [this, j2 (t - s) (by omega)]
      congr 1; omega
  · rw [lt_rotate (by omega) (by omega), if_neg (by omega)]
    have : q * p + (s + j) - c.length = j := by omega
    rw [this]; exact j3

/-- If the period divides the length, no rotation is smaller. -/
theorem Pre.least {c : List Nat} {p : Nat} (h : Pre c p) (hd : c.length % p = 0) : Least c := by
  intro k hk hl
  have hp0 := h.pos (by intro e; subst e; simp at hk)
  obtain ⟨q, hq⟩ : ∃ q, c.length = q * p := ⟨c.length / p, by
    have := Nat.div_add_mod c.length p
    rw [hd, Nat.mul_comm] at this; omega⟩
  obtain ⟨j, j1, j2, j3⟩ := hl
  rw [List.length_rotate] at j1
  -- the word read round the circle has period p
  have hcirc : ∀ i, i < c.length → lt c i = lt c (i % p) := by
    intro i hi
    have := Nat.div_add_mod i p
    have e : i = i % p + i / p * p := by rw [Nat.mul_comm (i / p)]; omega
    conv_lhs => rw [e]
    exact per_mul h.per (i / p) _ (by omega)
  have hrot : ∀ i, i < c.length → lt (c.rotate k) i = lt c ((k + i) % p) := by
    intro i hi
    rw [lt_rotate (by omega) hi]
    split
    · rename_i h'
      rw [hcirc _ h']
    · rw [hcirc _ (by omega)]
      congr 1
      have e : k + i = (k + i - c.length) + q * p := by omega
      conv_rhs => rw [e]
      rw [Nat.add_mul_mod_self_right]
  set r := k % p with hr
  have hrp := Nat.mod_lt k hp0
  have hkr : ∀ i, (k + i) % p = (r + i) % p := by intro i; rw [hr, Nat.mod_add_mod]
  by_cases hr0 : r = 0
  · rw [hrot j j1, hkr, hr0, Nat.zero_add, ← hcirc j j1] at j3
    omega
  · obtain ⟨i, i1, i2, i3⟩ := h.lyn r (by omega) hrp
    have hle := h.le
    -- the rotation is greater at `i`, equal before
    have hi : ∀ t, r + t < p → lt (c.rotate k) t = lt c (r + t) := by
      intro t ht
      rw [hrot t (by omega), hkr, Nat.mod_eq_of_lt ht]
    rcases Nat.lt_trichotomy i j with g | g | g
    · have := j2 i g
      rw [hi i i1] at this; omega
    · subst g
      rw [hi i i1] at j3; omega
    · rw [hi j (by omega), ← i2 j g] at j3; omega

/-- Of an accepted word no suffix is smaller than the beginning. -/
theorem Pre.suffix {c : List Nat} {p : Nat} (h : Pre c p) {i : Nat} (hi : i < c.length) :
    (∀ t, i + t < c.length → lt c (i + t) = lt c t) ∨
    ∃ j, i + j < c.length ∧ (∀ t, t < j → lt c (i + t) = lt c t) ∧ lt c j < lt c (i + j) := by
  have hp0 := h.pos (by intro e; subst e; simp at hi)
  have hdiv := Nat.div_add_mod i p
  have hr := Nat.mod_lt i hp0
  set q := i / p with hq
  set r := i % p with hr'
  have hi' : i = r + q * p := by rw [Nat.mul_comm]; omega
  have hper : ∀ t, i + t < c.length → lt c (i + t) = lt c (r + t) := by
    intro t ht
    have : i + t = (r + t) + q * p := by omega
    rw [this]; exact per_mul h.per q _ (by omega)
  by_cases hr0 : r = 0
  · left; intro t ht; rw [hper t ht, hr0, Nat.zero_add]
  · obtain ⟨j, j1, j2, j3⟩ := h.lyn r (by omega) hr
    by_cases hij : i + j < c.length
    · right
      exact ⟨j, hij, fun t ht => by rw [hper t (by omega), j2 t ht], by rw [hper j hij]; exact j3⟩
    · left
      intro t ht
      rw [hper t ht, j2 t (by omega)]

theorem Pre.pren {c : List Nat} {p : Nat} (h : Pre c p) : Pren c := by
  intro i j hij he hlt
  rcases h.suffix (i := i) (by omega) with g | ⟨x, x1, x2, x3⟩
  · have := g j hij; omega
  · rcases Nat.lt_trichotomy x j with q | q | q
    · have := he x q; omega
    · subst q; omega
    · have := x2 j q; omega

/-- A least rotation that is not constant does not end as it begins. -/
theorem Least.really {c : List Nat} (h : Least c) : really false c = true := by
  unfold Search.really
  rw [Bool.false_or]
  split
  · rfl
  · rename_i hall
    simp only [ne_eq, decide_not, Bool.not_eq_true', decide_eq_false_iff_not]
    intro hlast
    apply hall
    have hc : c ≠ [] := by intro e; subst e; simp at hall
    have hpos : 0 < c.length := List.length_pos_of_ne_nil hc
    -- the first letter is the least
    have hmin : ∀ i, i < c.length → lt c 0 ≤ lt c i := by
      intro i hi
      by_contra hlt
      refine h i hi ⟨0, by simpa using hpos, by omega, ?_⟩
      rw [lt_rotate (by omega) hpos, if_pos (by omega), Nat.add_zero]; omega
    have hl0 : lt c (c.length - 1) = lt c 0 := by
      rw [List.getLast?_eq_getElem?, List.head?_eq_getElem?] at hlast
      unfold lt
      rw [List.getD_eq_getElem?_getD, List.getD_eq_getElem?_getD, hlast]
    have hconst : ∀ i, i < c.length → lt c i = lt c 0 := by
      intro i
      induction i with
      | zero => intro _; rfl
      | succ i ih =>
        intro hi
        by_contra hne
        have hgt : lt c 0 < lt c (i + 1) := by have := hmin _ hi; omega
        have hpre : ∀ t, t ≤ i → lt c t = lt c 0 := by
          intro t
          -- all letters up to `i` equal the first: take the first that differs
          intro ht
          by_contra hne'
          have hex : ∃ t, t < c.length ∧ lt c t ≠ lt c 0 := ⟨t, by omega, hne'⟩
          have hm := @Nat.find_min _ _ hex
          obtain ⟨f1, f2⟩ := Nat.find_spec hex
          have hle : Nat.find hex ≤ t := Nat.find_min' hex ⟨by omega, hne'⟩
          set x := Nat.find hex
          have hx0 : x ≠ 0 := by intro e; rw [e] at f2; exact f2 rfl
          have hxpre : ∀ t, t < x → lt c t = lt c 0 := by
            intro t ht; by_contra hc; exact hm ht ⟨by omega, hc⟩
          refine h (c.length - 1) (by omega) ⟨x, by simpa using f1, fun t ht => ?_, ?_⟩
          · rw [lt_rotate (by omega) (by omega)]
            split
            · have : t = 0 := by omega
              subst this; rw [Nat.add_zero, hl0]
            · have : c.length - 1 + t - c.length = t - 1 := by omega
              rw [this, hxpre _ (by omega), hxpre t ht]
          · rw [lt_rotate (by omega) f1, if_neg (by omega)]
            have : c.length - 1 + x - c.length = x - 1 := by omega
            rw [this, hxpre _ (by omega)]
            have := hmin x f1
            omega
        refine h (c.length - 1) (by omega) ⟨i + 1, by simpa using hi, fun t ht => ?_, ?_⟩
        · rw [lt_rotate (by omega) (by omega)]
          split
          · have : t = 0 := by omega
            subst this; rw [Nat.add_zero, hl0]
          · have : c.length - 1 + t - c.length = t - 1 := by omega
            rw [this, hpre _ (by omega), hpre t (by omega)]
        · rw [lt_rotate (by omega) hi, if_neg (by omega)]
          have : c.length - 1 + (i + 1) - c.length = i := by omega
          rw [this, hpre i le_rfl]; exact hgt
    rw [List.all_eq_true]
    intro x hx
    obtain ⟨i, hi, rfl⟩ := List.mem_iff_getElem.1 hx
    have := hconst i hi
    unfold lt at this
    rw [List.getD_eq_getElem _ _ hi, List.getD_eq_getElem _ _ hpos] at this
    rw [this, List.head?_eq_getElem?, List.getElem?_eq_getElem hpos]
    simp

/-- The rotations of a word with a period that divides its length. -/
theorem rotate_mod_period {c : List Nat} {p : Nat} (h : Pre c p) (hd : c.length % p = 0) (hc : c ≠ []) (k : Nat) :
    c.rotate k = c.rotate (k % p) := by
  have hp0 := h.pos hc
  have hle := h.le
  obtain ⟨q, hq⟩ : ∃ q, c.length = q * p := ⟨c.length / p, by
    have := Nat.div_add_mod c.length p
    rw [hd, Nat.mul_comm] at this; omega⟩
  have hcirc : ∀ i, i < c.length → lt c i = lt c (i % p) := by
    intro i hi
    have := Nat.div_add_mod i p
    have e : i = i % p + i / p * p := by rw [Nat.mul_comm (i / p)]; omega
    conv_lhs => rw [e]
    exact per_mul h.per (i / p) _ (by omega)
  have hrot : ∀ k i, i < c.length → lt (c.rotate k) i = lt c ((k + i) % p) := by
    intro k i hi
    have : lt (c.rotate k) i = lt c ((i + k) % c.length) := by
      unfold lt
      rw [List.getD_eq_getElem _ _ (by simpa using hi), List.getElem_rotate,
        List.getD_eq_getElem _ _ (Nat.mod_lt _ (by omega))]
    rw [this, hcirc _ (Nat.mod_lt _ (by omega))]
    congr 1
    rw [hq, Nat.mod_mul_left_mod, Nat.add_comm]
  apply ext_lt (by simp)
  intro i hi
  rw [List.length_rotate] at hi
  rw [hrot _ _ hi, hrot _ _ hi]
  congr 1
  rw [Nat.mod_add_mod]

/-- ... and the first `p` of them are different. -/
theorem rotate_inj {c : List Nat} {p : Nat} (h : Pre c p) (hd : c.length % p = 0) {i j : Nat} (hij : i < j)
    (hj : j < p) : c.rotate i ≠ c.rotate j := by
  intro e
  have hle := h.le
  have hc : c ≠ [] := by intro e; subst e; simp at hle; omega
  -- rotating further, the rotation by j - i is the word itself
  have hrr : ∀ x y, (c.rotate x).rotate y = c.rotate (x + y) := fun x y => List.rotate_rotate _ _ _
  have e1 : c.rotate (j - i) = c := by
    have e2 := congrArg (fun l => l.rotate (c.length - i)) e
    simp only [hrr] at e2
    rw [show i + (c.length - i) = c.length by omega, List.rotate_length,
      show j + (c.length - i) = c.length + (j - i) by omega, ← hrr, List.rotate_length] at e2
    exact e2.symm
  obtain ⟨x, x1, x2, x3⟩ := h.lyn (j - i) (by omega) (by omega)
  have := lt_rotate (c := c) (k := j - i) (i := x) (by omega) (by omega)
  rw [e1, if_pos (by omega)] at this
  omega

end Search
end Ringing
