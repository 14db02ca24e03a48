import Verif.Lemmas.Change2
import Verif.Lemmas.RowC

namespace Ringing
open Spec
namespace Change

theorem moveTo_cons_comp {s : Nat} {ss : List Nat} (h : Gap (s :: ss)) (i : Nat) :
    moveTo (s :: ss) i = moveTo [s] (moveTo ss i) := by
  have hle := h.le
  by_cases h1 : i = s
  · subst h1
    rw [moveTo_cons_self, moveTo_of_lt (ss := ss) (fun t ht => by have := hle t ht; omega), moveTo_cons_self]
  · by_cases h2 : i = s + 1
    · subst h2
      rw [moveTo_cons_succ h, moveTo_of_lt (i := s + 1) (fun t ht => by have := hle t ht; omega),
        moveTo_cons_succ (by simp [Gap])]
    · rw [moveTo_cons_ne h1 h2]
      have e1 : moveTo ss i ≠ s := by
        intro e
        have : moveTo ss s = s := moveTo_of_lt (fun t ht => by have := hle t ht; omega)
        exact h1 (moveTo_inj h.tail (by rw [e, this]))
      have e2 : moveTo ss i ≠ s + 1 := by
        intro e
        have : moveTo ss (s + 1) = s + 1 := moveTo_of_lt (fun t ht => by have := hle t ht; omega)
        exact h2 (moveTo_inj h.tail (by rw [e, this]))
      rw [moveTo_cons_ne e1 e2, moveTo_nil]

end Change

namespace Row
open Change

theorem swapC_spec {r : Row} {s : Nat} (h : s + 1 < r.length) :
    ∃ r', swapC r s (s + 1) = .ok r' ∧ r'.length = r.length ∧ ∀ i, fn r' i = fn r (moveTo [s] i) := by
  unfold swapC
  rw [vget_ok (show s < r.length by omega), Out.ok_bind, vget_ok h, Out.ok_bind,
    vset_ok _ (show s < r.length by omega), Out.ok_bind, vset_ok _ (by simpa using h)]
  refine ⟨_, rfl, by simp, ?_⟩
  intro i
  by_cases hi : i < r.length
  · rw [fn_of_lt (by simpa using hi)]
    simp only [List.getElem_set]
    by_cases h1 : s + 1 = i
    · subst h1; rw [if_pos rfl, moveTo_cons_succ (by simp [Gap]), fn_of_lt]
    · rw [if_neg h1]
      by_cases h2 : s = i
      · subst h2; rw [if_pos rfl, moveTo_cons_self, fn_of_lt]
      · rw [if_neg h2, moveTo_cons_ne (by omega) (by omega), moveTo_nil, fn_of_lt]
  · rw [fn_of_ge (by simp; omega), moveTo_cons_ne (by omega) (by omega), moveTo_nil,
      fn_of_ge (by omega)]

theorem applySwapsC_spec {ss : List Nat} (h : Gap ss) : ∀ {r : Row}, (∀ s ∈ ss, s + 2 ≤ r.length) →
    ∃ r', applySwapsC ss r = .ok r' ∧ r'.length = r.length ∧ ∀ i, fn r' i = fn r (moveTo ss i) := by
  induction ss with
  | nil => intro r _; exact ⟨r, rfl, rfl, fun i => by rw [moveTo_nil]⟩
  | cons s ss ih =>
    intro r hr
    have hs := hr s (by simp)
    obtain ⟨r1, e1, l1, f1⟩ := swapC_spec (r := r) (s := s) (by omega)
    obtain ⟨r2, e2, l2, f2⟩ := ih h.tail (r := r1) (fun t ht => by rw [l1]; exact hr t (by simp [ht]))
    refine ⟨r2, ?_, by rw [l2, l1], ?_⟩
    · unfold applySwapsC
      rw [if_pos (by omega), e1, Out.ok_bind, e2]
    · intro i
      rw [f2, f1, moveTo_cons_comp h]

theorem length_apply (r : Row) (c : Change) : (apply r c).length = max r.length c.n := by simp [apply]

theorem fn_apply {c : Change} (hc : c.WF) (r : Row) (i : Nat) : fn (apply r c) i = fn r (c.pos i) := by
  by_cases h : i < max r.length c.n
  · exact fn_map_range h
  · rw [fn_of_ge (by rw [length_apply]; omega), hc.pos_of_ge (by omega), fn_of_ge (by omega)]

theorem fn_pad_append {r : Row} {m : Nat} (hm : m ≤ 256) (i : Nat) :
    fn (r ++ (List.range' r.length (m - r.length)).map toBell) i = fn r i := by
  by_cases h : i < r.length
  · rw [fn_of_lt (by simp; omega), fn_of_lt h, List.getElem_append_left h]
  · rw [fn_of_ge (show r.length ≤ i by omega)]
    by_cases h2 : i < m
    · rw [fn_of_lt (by simp; omega), List.getElem_append_right (by omega)]
      simp only [List.getElem_map, List.getElem_range']
      rw [toBell_of_lt (by omega)]; omega
    · rw [fn_of_ge (by simp; omega)]

theorem applyC_eq {c : Change} (hc : c.WF) (r : Row) : applyC r c = .ok (apply r c) := by
  have hn := hc.1
  unfold applyC
  simp only
  generalize hr' : r ++ (List.range' r.length (c.n - r.length)).map toBell = r'
  have hl : r'.length = max r.length c.n := by subst hr'; simp; omega
  have hf : ∀ i, fn r' i = fn r i := by subst hr'; exact fn_pad_append (by omega)
  split
  · rename_i h
    obtain ⟨r2, e2, l2, f2⟩ := applySwapsC_spec hc.gap (r := r') (fun s hs => by
      have := hc.2.2 s hs; omega)
    rw [e2]
    congr 1
    apply ext_fn
    · rw [l2, hl, length_apply]
    · intro i _
      rw [f2, hf, fn_apply hc, hc.pos_eq]
  · rename_i h
    congr 1
    have h0 : c.n = 0 := by
      by_contra h0
      apply h
      refine ⟨h0, ?_⟩
      intro he
      have : r'.length = 0 := by simpa [List.isEmpty_iff] using he
      omega
    apply ext_fn
    · rw [hl, length_apply]
    · intro i _
      rw [hf, fn_apply hc, hc.pos_of_ge (by omega)]

theorem valid_apply {c : Change} (hc : c.WF) {r : Row} (hr : Valid r) : Valid (apply r c) := by
  have hn := hc.1
  have hl := hr.len
  apply valid_map_range (by omega)
  · intro i hi
    exact hr.fn_lt (by omega) (hc.pos_lt (by omega) hi)
  · intro i j _ _ e
    exact hc.pos_inj (hr.fn_inj e)

theorem apply_apply {c : Change} (hc : c.WF) {r : Row} : apply (apply r c) c = mul r (rounds c.n) := by
  apply ext_fn
  · simp [length_apply]
  · intro i _
    rw [fn_apply hc, fn_apply hc, hc.pos_pos, fn_mul, fn_rounds]

theorem apply_eq_mul {c : Change} (hc : c.WF) (r : Row) : apply r c = mul r (apply (rounds c.n) c) := by
  apply ext_fn
  · simp [length_apply]
  · intro i _
    rw [fn_apply hc, fn_mul, fn_apply hc, fn_rounds]

theorem mul_apply {c : Change} (hc : c.WF) (a r : Row) : mul a (apply r c) = apply (mul a r) c := by
  rw [apply_eq_mul hc, apply_eq_mul hc (mul a r), mul_assoc']

end Row

namespace Change
open Row

theorem sign_swap_row {n s : Nat} (hn : n ≤ 255) (hs : s + 2 ≤ n) :
    Row.sign (apply (rounds n) ⟨n, [s]⟩) = -1 := by
  have hc : (⟨n, [s]⟩ : Change).WF := ⟨hn, by simp, by simp; omega⟩
  have hv : Valid (apply (rounds n) ⟨n, [s]⟩) := valid_apply hc (valid_rounds (by omega))
  have hl : (apply (rounds n) ⟨n, [s]⟩).length = n := by simp [length_apply]
  rw [sign_eq_permFin hv (m := n) (by omega) (by omega)]
  have : permFin _ hv n (by omega) = Equiv.swap (⟨s, by omega⟩ : Fin n) ⟨s + 1, by omega⟩ := by
    ext i
    rw [permFin_val, fn_apply hc, fn_rounds, hc.pos_eq]
    show moveTo [s] _ = _
    by_cases h1 : i.val = s
    · have : i = ⟨s, by omega⟩ := Fin.ext h1
      rw [this, Equiv.swap_apply_left]; exact moveTo_cons_self
    · by_cases h2 : i.val = s + 1
      · have : i = ⟨s + 1, by omega⟩ := Fin.ext h2
        rw [this, Equiv.swap_apply_right]; exact moveTo_cons_succ (by simp [Gap])
      · rw [Equiv.swap_apply_of_ne_of_ne, moveTo_cons_ne h1 h2, moveTo_nil]
        · intro e; exact h1 (congrArg Fin.val e)
        · intro e; exact h2 (congrArg Fin.val e)
  rw [this, Equiv.Perm.sign_swap]
  · rfl
  · intro e; have := congrArg Fin.val e; simp at this

theorem sign_change_row {n : Nat} (hn : n ≤ 255) : ∀ {ss : List Nat}, Gap ss → (∀ s ∈ ss, s + 2 ≤ n) →
    Row.sign (apply (rounds n) ⟨n, ss⟩) = if ss.length % 2 = 1 then -1 else 1 := by
  intro ss
  induction ss with
  | nil =>
    intro _ _
    have hc : (⟨n, []⟩ : Change).WF := ⟨hn, by simp, by simp⟩
    have : apply (rounds n) ⟨n, []⟩ = rounds n := by
      apply ext_fn
      · simp [length_apply]
      · intro i _; rw [fn_apply hc, hc.pos_eq]; simp [moveTo_nil]
    rw [this, sign_rounds (by omega)]; simp
  | cons s ss ih =>
    intro hg hb
    have hc1 : (⟨n, [s]⟩ : Change).WF := ⟨hn, by simp, by simpa using hb s (by simp)⟩
    have hc2 : (⟨n, ss⟩ : Change).WF := ⟨hn, hg.tail, fun t ht => hb t (by simp [ht])⟩
    have hc : (⟨n, s :: ss⟩ : Change).WF := ⟨hn, hg, hb⟩
    have : apply (rounds n) ⟨n, s :: ss⟩ =
        mul (apply (rounds n) ⟨n, [s]⟩) (apply (rounds n) ⟨n, ss⟩) := by
      apply ext_fn
      · simp [length_apply]
      · intro i _
        rw [fn_apply hc, fn_mul, fn_apply hc1, fn_apply hc2, hc.pos_eq, hc1.pos_eq, hc2.pos_eq,
          fn_rounds, fn_rounds, fn_rounds]
        exact moveTo_cons_comp hg i
    rw [this, sign_mul (valid_apply hc1 (valid_rounds (by omega))) (valid_apply hc2 (valid_rounds (by omega))),
      sign_swap_row hn (hb s (by simp)), ih hg.tail (fun t ht => hb t (by simp [ht]))]
    simp only [List.length_cons]
    split <;> split <;> omega

theorem WF.sign_apply {c : Change} (hc : c.WF) {r : Row} (hr : Valid r) :
    Row.sign (apply r c) = Row.sign r * c.sign := by
  have hn := hc.1
  rw [apply_eq_mul hc, sign_mul hr (valid_apply hc (valid_rounds (by omega)))]
  congr 1
  rw [show c = ⟨c.n, c.swaps⟩ from rfl, sign_change_row hn hc.gap hc.2.2]
  unfold Change.sign
  by_cases h : c.n = 0
  · simp [h, hc.swaps_nil h]
  · simp [h]

/-! ### swappair -/

theorem swappairLoop_spec (w : Nat) : ∀ {ss : List Nat}, Gap ss →
    (w ∈ ss → ∃ l, swappairLoop w ss = .ok (false, l) ∧ Gap l ∧ ∀ x, x ∈ l ↔ x ∈ ss ∧ x ≠ w) ∧
    ((∃ s ∈ ss, s + 1 = w ∧ ∀ t ∈ ss, t ≤ s) → swappairLoop w ss = .ub) ∧
    (w ∉ ss → ¬ (∃ s ∈ ss, s + 1 = w ∧ ∀ t ∈ ss, t ≤ s) →
      ∃ l, swappairLoop w ss = .ok (true, l) ∧ Gap l ∧
        ∀ x, x ∈ l ↔ x = w ∨ (x ∈ ss ∧ x + 1 ≠ w ∧ x ≠ w + 1)) := by
  intro ss
  induction ss with
  | nil =>
    intro _
    refine ⟨by simp, by simp, fun _ _ => ⟨[w], rfl, by simp [Gap], by simp⟩⟩
  | cons s ss ih =>
    intro hg
    have hle := hg.le
    have ih := ih hg.tail
    unfold swappairLoop
    by_cases h1 : s ≤ w + 1
    · rw [if_pos h1]
      by_cases h2 : s = w
      · subst h2
        rw [if_pos rfl]
        refine ⟨fun _ => ⟨ss, rfl, hg.tail, ?_⟩, ?_, ?_⟩
        · intro x
          constructor
          · intro hx; have := hle x hx; exact ⟨by simp [hx], by omega⟩
          · rintro ⟨hx, hne⟩
            rcases List.mem_cons.1 hx with h | h
            · exact absurd h hne
            · exact h
        · rintro ⟨t, ht, ht1, ht2⟩
          have := ht2 s (by simp); omega
        · intro h; simp at h
      · rw [if_neg h2]
        by_cases h3 : s + 1 = w
        · rw [if_pos h3]
          have hw : w ∉ s :: ss := by
            intro hm
            rcases List.mem_cons.1 hm with h | h
            · omega
            · have := hle w h; omega
          refine ⟨fun h => absurd h hw, ?_, ?_⟩
          · rintro ⟨t, ht, ht1, ht2⟩
            cases ss with
            | nil => rfl
            | cons u us =>
              have := ht2 u (by simp); have := hle u (by simp); omega
          · intro _ hno
            cases ss with
            | nil => exact absurd ⟨s, by simp, h3, by simp⟩ hno
            | cons u us =>
              have hu := hle u (by simp)
              have hgu := hg.tail.le
              simp only
              by_cases h4 : u = w + 1
              · rw [if_pos h4]
                refine ⟨w :: us, rfl, ?_, ?_⟩
                · refine List.pairwise_cons.2 ⟨fun t ht => ?_, hg.tail.tail⟩
                  have := hgu t ht; omega
                · intro x
                  simp only [List.mem_cons]
                  constructor
                  · rintro (h | h)
                    · exact Or.inl h
                    · have := hgu x h; exact Or.inr ⟨Or.inr (Or.inr h), by omega, by omega⟩
                  · rintro (h | ⟨h | h | h, h5, h6⟩)
                    · exact Or.inl h
                    · omega
                    · omega
                    · exact Or.inr h
              · rw [if_neg h4]
                refine ⟨w :: u :: us, rfl, ?_, ?_⟩
                · refine List.pairwise_cons.2 ⟨fun t ht => ?_, hg.tail⟩
                  rcases List.mem_cons.1 ht with h | h
                  · omega
                  · have := hgu t h; omega
                · intro x
                  simp only [List.mem_cons]
                  constructor
                  · rintro (h | h | h)
                    · exact Or.inl h
                    · exact Or.inr ⟨Or.inr (Or.inl h), by omega, by omega⟩
                    · have := hgu x h; exact Or.inr ⟨Or.inr (Or.inr h), by omega, by omega⟩
                  · rintro (h | ⟨h | h | h, h5, h6⟩)
                    · exact Or.inl h
                    · omega
                    · exact Or.inr (Or.inl h)
                    · exact Or.inr (Or.inr h)
        · rw [if_neg h3]
          by_cases h4 : s = w + 1
          · rw [if_pos h4]
            have hw : w ∉ s :: ss := by
              intro hm
              rcases List.mem_cons.1 hm with h | h
              · omega
              · have := hle w h; omega
            refine ⟨fun h => absurd h hw, ?_, fun _ _ => ⟨w :: ss, rfl, ?_, ?_⟩⟩
            · rintro ⟨t, ht, ht1, ht2⟩
              have := ht2 s (by simp); omega
            · refine List.pairwise_cons.2 ⟨fun t ht => ?_, hg.tail⟩
              have := hle t ht; omega
            · intro x
              simp only [List.mem_cons]
              constructor
              · rintro (h | h)
                · exact Or.inl h
                · have := hle x h; exact Or.inr ⟨Or.inr h, by omega, by omega⟩
              · rintro (h | ⟨h | h, h5, h6⟩)
                · exact Or.inl h
                · omega
                · exact Or.inr h
          · rw [if_neg h4]
            obtain ⟨i1, i2, i3⟩ := ih
            refine ⟨?_, ?_, ?_⟩
            · intro hm
              obtain ⟨l, l1, l2, l3⟩ := i1 (by
                rcases List.mem_cons.1 hm with h | h
                · omega
                · exact h)
              refine ⟨s :: l, by rw [l1]; rfl, ?_, ?_⟩
              · refine List.pairwise_cons.2 ⟨fun t ht => hle t ((l3 t).1 ht).1, l2⟩
              · intro x
                simp only [List.mem_cons, l3]
                constructor
                · rintro (h | h)
                  · exact ⟨Or.inl h, by omega⟩
                  · exact ⟨Or.inr h.1, h.2⟩
                · rintro ⟨h | h, h5⟩
                  · exact Or.inl h
                  · exact Or.inr ⟨h, h5⟩
            · rintro ⟨t, ht, ht1, ht2⟩
              rw [i2]
              · rfl
              · rcases List.mem_cons.1 ht with h | h
                · omega
                · exact ⟨t, h, ht1, fun u hu => ht2 u (by simp [hu])⟩
            · intro hw hno
              obtain ⟨l, l1, l2, l3⟩ := i3 (fun h => hw (by simp [h])) (by
                rintro ⟨t, ht, ht1, ht2⟩
                apply hno
                refine ⟨t, by simp [ht], ht1, ?_⟩
                intro u hu
                rcases List.mem_cons.1 hu with h | h
                · have := hle t ht; omega
                · exact ht2 u h)
              refine ⟨s :: l, by rw [l1]; rfl, ?_, ?_⟩
              · refine List.pairwise_cons.2 ⟨fun t ht => ?_, l2⟩
                rcases (l3 t).1 ht with h | h
                · omega
                · exact hle t h.1
              · intro x
                simp only [List.mem_cons, l3]
                constructor
                · rintro (h | h | h)
                  · exact Or.inr ⟨Or.inl h, by omega, by omega⟩
                  · exact Or.inl h
                  · exact Or.inr ⟨Or.inr h.1, h.2⟩
                · rintro (h | ⟨h | h, h5⟩)
                  · exact Or.inr (Or.inl h)
                  · exact Or.inl h
                  · exact Or.inr (Or.inr ⟨h, h5⟩)
    · rw [if_neg h1]
      have hw : w ∉ s :: ss := by
        intro hm
        rcases List.mem_cons.1 hm with h | h
        · omega
        · have := hle w h; omega
      refine ⟨fun h => absurd h hw, ?_, fun _ _ => ⟨w :: s :: ss, rfl, ?_, ?_⟩⟩
      · rintro ⟨t, ht, ht1, ht2⟩
        have := ht2 s (by simp); omega
      · refine List.pairwise_cons.2 ⟨fun t ht => ?_, hg⟩
        rcases List.mem_cons.1 ht with h | h
        · omega
        · have := hle t h; omega
      · intro x
        simp only [List.mem_cons]
        constructor
        · rintro (h | h | h)
          · exact Or.inl h
          · exact Or.inr ⟨Or.inl h, by omega, by omega⟩
          · have := hle x h; exact Or.inr ⟨Or.inr h, by omega, by omega⟩
        · rintro (h | ⟨h | h, h5⟩)
          · exact Or.inl h
          · exact Or.inr (Or.inl h)
          · exact Or.inr (Or.inr h)

/-! ### internal -/

theorem internalLoop_spec {n : Nat} : ∀ {ss : List Nat} {b : Nat}, Gap ss → (∀ s ∈ ss, s + 2 ≤ n) →
    (∀ s ∈ ss, b + 2 ≤ s) → b + 2 ≤ n →
    (internalLoop n ss b = true ↔ ∃ i, b + 2 ≤ i ∧ i + 1 < n ∧ moveTo ss i = i) := by
  intro ss
  induction ss with
  | nil =>
    intro b _ _ _ _
    simp only [internalLoop, decide_eq_true_eq, moveTo_nil, and_true]
    constructor
    · intro h; exact ⟨b + 2, by omega, by omega⟩
    · rintro ⟨i, h1, h2⟩; omega
  | cons s ss ih =>
    intro b hg hn hb hbn
    have hle := hg.le
    have hs := hb s (by simp)
    have hsn := hn s (by simp)
    unfold internalLoop
    by_cases h : s > b + 2
    · rw [if_pos h]
      refine ⟨fun _ => ⟨b + 2, le_rfl, by omega, moveTo_of_lt ?_⟩, fun _ => rfl⟩
      intro t ht
      rcases List.mem_cons.1 ht with h' | h'
      · omega
      · have := hle t h'; omega
    · rw [if_neg h, ih hg.tail (fun t ht => hn t (by simp [ht])) hle hsn]
      constructor
      · rintro ⟨i, h1, h2, h3⟩
        exact ⟨i, by omega, h2, by rw [moveTo_cons_ne (by omega) (by omega)]; exact h3⟩
      · rintro ⟨i, h1, h2, h3⟩
        by_cases e1 : i = s
        · subst e1; rw [moveTo_cons_self] at h3; omega
        · by_cases e2 : i = s + 1
          · subst e2; rw [moveTo_cons_succ hg] at h3; omega
          · exact ⟨i, by omega, h2, by rw [moveTo_cons_ne e1 e2] at h3; exact h3⟩

theorem WF.internal_eq {c : Change} (h : c.WF) :
    c.internal = true ↔ ∃ i, 0 < i ∧ i + 1 < c.n ∧ moveTo c.swaps i = i := by
  unfold internal
  by_cases h3 : c.n < 3
  · rw [if_pos h3]
    simp only [Bool.false_eq_true, false_iff]
    rintro ⟨i, h1, h2, -⟩; omega
  · rw [if_neg h3]
    have hg := h.gap
    have hn := h.2.2
    cases hs : c.swaps with
    | nil => simp only [true_iff]; exact ⟨1, by omega, by omega, moveTo_nil _⟩
    | cons s ss =>
      rw [hs] at hg hn
      have hle := hg.le
      have hsn := hn s (by simp)
      simp only
      by_cases h1 : s > 1
      · rw [if_pos h1]
        simp only [true_iff]
        refine ⟨1, by omega, by omega, moveTo_of_lt ?_⟩
        intro t ht
        rcases List.mem_cons.1 ht with h' | h'
        · omega
        · have := hle t h'; omega
      · rw [if_neg h1, internalLoop_spec hg.tail (fun t ht => hn t (by simp [ht])) hle hsn]
        constructor
        · rintro ⟨i, i1, i2, i3⟩
          exact ⟨i, by omega, i2, by rw [moveTo_cons_ne (by omega) (by omega)]; exact i3⟩
        · rintro ⟨i, i1, i2, i3⟩
          by_cases e1 : i = s
          · subst e1; rw [moveTo_cons_self] at i3; omega
          · by_cases e2 : i = s + 1
            · subst e2; rw [moveTo_cons_succ hg] at i3; omega
            · exact ⟨i, by omega, i2, by rw [moveTo_cons_ne e1 e2] at i3; exact i3⟩

/-! ### reverse -/

theorem WF.mem_reverse {c : Change} (h : c.WF) (x : Nat) :
    x ∈ (reverse c).swaps ↔ x + 2 ≤ c.n ∧ c.n - 2 - x ∈ c.swaps := by
  simp only [reverse, List.mem_map, List.mem_reverse]
  constructor
  · rintro ⟨s, hs, rfl⟩
    have := h.2.2 s hs
    exact ⟨by omega, by rw [show c.n - 2 - (c.n - 2 - s) = s by omega]; exact hs⟩
  · rintro ⟨h1, h2⟩
    exact ⟨_, h2, by omega⟩

theorem WF.reverse {c : Change} (h : c.WF) : (reverse c).WF := by
  refine ⟨h.1, ?_, ?_⟩
  · simp only [Change.reverse, List.pairwise_map, List.pairwise_reverse]
    have := h.2.1
    refine this.imp_of_mem ?_
    intro s t hs ht hst
    have := h.2.2 s hs; have := h.2.2 t ht; omega
  · intro s hs; exact ((h.mem_reverse s).1 hs).1

theorem WF.reverse_reverse {c : Change} (h : c.WF) : Change.reverse (Change.reverse c) = c := by
  have : (Change.reverse (Change.reverse c)).swaps = c.swaps := by
    simp only [Change.reverse, List.map_reverse, List.reverse_reverse, List.map_map]
    conv_rhs => rw [← List.map_id c.swaps]
    apply List.map_congr_left
    intro s hs
    have := h.2.2 s hs
    simp only [Function.comp, id]; omega
  cases c
  simp only [Change.reverse, Change.mk.injEq, true_and] at this ⊢
  exact this

theorem WF.pos_reverse {c : Change} (h : c.WF) {i : Nat} (hi : i < c.n) :
    (Change.reverse c).pos i = c.n - 1 - c.pos (c.n - 1 - i) := by
  rw [h.reverse.pos_eq, h.pos_eq]
  have hb := h.2.2
  rcases moveTo_cases h.reverse.gap i with ⟨h1, h2⟩ | ⟨j, h1, h2, h3⟩ | ⟨h1, h2, h3⟩
  · obtain ⟨a, b⟩ := (h.mem_reverse i).1 h1
    rw [h2, show c.n - 1 - i = (c.n - 2 - i) + 1 by omega, moveTo_mem_succ h.gap b]; omega
  · obtain ⟨a, b⟩ := (h.mem_reverse j).1 h1
    rw [h3, h2, show c.n - 1 - (j + 1) = c.n - 2 - j by omega, moveTo_mem b]; omega
  · rw [h1]
    rcases moveTo_cases h.gap (c.n - 1 - i) with ⟨g1, g2⟩ | ⟨j, g1, g2, g3⟩ | ⟨g1, -⟩
    · have := hb _ g1
      have := h3 (i - 1) ((h.mem_reverse _).2 ⟨by omega, by
        rw [show c.n - 2 - (i - 1) = c.n - 1 - i by omega]; exact g1⟩)
      omega
    · have := hb _ g1
      exact absurd ((h.mem_reverse i).2 ⟨by omega, by
        rw [show c.n - 2 - i = j by omega]; exact g1⟩) h2
    · rw [g1]; omega

theorem sign_reverse (c : Change) : (Change.reverse c).sign = c.sign := by
  simp [Change.sign, Change.reverse]

end Change
end Ringing
