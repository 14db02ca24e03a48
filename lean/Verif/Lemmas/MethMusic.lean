import Verif.Model.MethMusic
import Verif.Spec.Touch
import Verif.Lemmas.TableSearch3
import Verif.Lemmas.Method3

/-! Lemmas for C89: the rows of a method. -/
namespace Ringing
namespace MethMusic
open Spec Row TableSearch

/-- `x` is the row after the first `i` of the changes rung from `r`: each bell is where following the changes takes it. -/
def After (cs : List Change) (r : List Nat) (i : Nat) (x : List Nat) : Prop :=
  x.length = r.length ∧ ∀ p, bellAt x (follow ((cs.take i).map Change.swaps) p) = bellAt r p

/-- The rows after each change. -/
def preP : List Change → Row → List Row
  | [], _ => []
  | c :: cs, r => apply r c :: preP cs (apply r c)

/-- The rows before each change. -/
def postP : List Change → Row → List Row
  | [], _ => []
  | c :: cs, r => r :: postP cs (apply r c)

theorem preC_eq {cs : List Change} (h : ∀ c ∈ cs, c.WF) : ∀ r, preC cs r = .ok (preP cs r, applyAll r cs) := by
  induction cs with
  | nil => intro r; rfl
  | cons c cs ih =>
    intro r
    rw [preC, applyC_eq (h c (by simp)), Out.ok_bind, ih (fun d hd => h d (by simp [hd])), Out.ok_bind]
    rfl

theorem postC_eq {cs : List Change} (h : ∀ c ∈ cs, c.WF) : ∀ r, postC cs r = .ok (postP cs r, applyAll r cs) := by
  induction cs with
  | nil => intro r; rfl
  | cons c cs ih =>
    intro r
    rw [postC, applyC_eq (h c (by simp)), Out.ok_bind, ih (fun d hd => h d (by simp [hd])), Out.ok_bind]
    rfl

theorem preP_append (cs ds : List Change) : ∀ r, preP (cs ++ ds) r = preP cs r ++ preP ds (applyAll r cs) := by
  induction cs with
  | nil => intro r; rfl
  | cons c cs ih => intro r; rw [List.cons_append, preP, preP, ih]; rfl

theorem postP_append (cs ds : List Change) : ∀ r, postP (cs ++ ds) r = postP cs r ++ postP ds (applyAll r cs) := by
  induction cs with
  | nil => intro r; rfl
  | cons c cs ih => intro r; rw [List.cons_append, postP, postP, ih]; rfl

theorem post_pre (cs : List Change) : ∀ r, postP cs r ++ [applyAll r cs] = r :: preP cs r := by
  induction cs with
  | nil => intro r; rfl
  | cons c cs ih => intro r; rw [postP, List.cons_append, preP, applyAll_cons, ih]

@[simp] theorem length_preP (cs : List Change) : ∀ r, (preP cs r).length = cs.length := by
  induction cs with
  | nil => intro r; rfl
  | cons c cs ih => intro r; simp [preP, ih]

@[simp] theorem length_postP (cs : List Change) : ∀ r, (postP cs r).length = cs.length := by
  induction cs with
  | nil => intro r; rfl
  | cons c cs ih => intro r; simp [postP, ih]

theorem preP_get (cs : List Change) : ∀ r i (h : i < (preP cs r).length), (preP cs r)[i] = applyAll r (cs.take (i + 1)) := by
  induction cs with
  | nil => intro r i h; simp [preP] at h
  | cons c cs ih =>
    intro r i h
    cases i with
    | zero => rfl
    | succ i => simp only [preP, List.getElem_cons_succ, ih]; rfl

theorem postP_get (cs : List Change) : ∀ r i (h : i < (postP cs r).length), (postP cs r)[i] = applyAll r (cs.take i) := by
  induction cs with
  | nil => intro r i h; simp [postP] at h
  | cons c cs ih =>
    intro r i h
    cases i with
    | zero => rfl
    | succ i => simp only [postP, List.getElem_cons_succ, ih]; rfl

theorem after_applyAll {cs : List Change} {b : Nat} (h : ∀ c ∈ cs, c.WF ∧ c.n = b) {r : Row} (hr : b ≤ r.length) (i : Nat) :
    After cs r i (applyAll r (cs.take i)) := by
  have h' : ∀ c ∈ cs.take i, c.WF ∧ c.n = b := fun c hc => h c (List.mem_of_mem_take hc)
  refine ⟨length_applyAll (b := b) (fun c hc => (h' c hc).2.le) hr, fun p => ?_⟩
  rw [bellAt_eq_fn, bellAt_eq_fn, fn_applyAll_follow fun c hc => (h' c hc).1]

theorem wf_flatten {m : Method} (h : m.WF) (k : Nat) : ∀ c ∈ (List.replicate k m.ch).flatten, c.WF ∧ c.n = m.b := by
  intro c hc
  obtain ⟨l, hl, hc⟩ := List.mem_flatten.1 hc
  rw [(List.mem_replicate.1 hl).2] at hc
  exact h.2 c hc

theorem round_iff {m : Method} (hw : m.WF) {r : Row} (hv : Valid r) (hrl : m.b ≤ r.length) (j : Nat) :
    applyAll r (List.replicate j m.ch).flatten = r ↔ ∀ i, iter (fn (Method.lh m)) j i = i := by
  rw [ring_times hw j hrl]
  constructor
  · intro e i
    have := congrArg (fun x => fn x i) e
    simp only [fn_mul] at this
    rw [← fn_npow]
    exact hv.fn_inj this
  · intro e
    apply ext_fn
    · simp [length_npow, hw.lh_length]; omega
    · intro i _; rw [fn_mul, fn_npow, e]

theorem iter_eq (f : Nat → Nat) (k : Nat) : iter f k = f^[k] := by
  induction k with
  | zero => rfl
  | succ k ih => funext i; rw [iter, ih, Function.iterate_succ_apply']

theorem exists_round {r : Row} (hv : Valid r) : ∃ k, 0 < k ∧ ∀ i, iter (fn r) k i = i := by
  let f : Fin r.length → Fin r.length := fun i => ⟨fn r i, hv.fn_lt le_rfl i.2⟩
  have hf : Function.Injective f := fun a b e => Fin.ext (hv.fn_inj (Fin.mk.inj_iff.1 e))
  let p : Equiv.Perm (Fin r.length) := Equiv.ofBijective f (Finite.injective_iff_bijective.1 hf)
  refine ⟨orderOf p, orderOf_pos p, fun i => ?_⟩
  by_cases hi : i < r.length
  · have h1 : ∀ k (x : Fin r.length), ((p ^ k) x).1 = iter (fn r) k x := by
      intro k
      induction k with
      | zero => intro x; rfl
      | succ k ih => intro x; rw [pow_succ', iter, ← ih]; rfl
    have := h1 (orderOf p) ⟨i, hi⟩
    rw [pow_orderOf_eq_one] at this
    exact this.symm
  · exact iter_ge (n := r.length) (fun x hx => fn_of_ge hx) _ i (by omega)

theorem comesRound_iff {m : Method} (hw : m.WF) (k : Nat) :
    (∀ x, x < m.b → iter (follow (m.ch.map Change.swaps)) k x = x) ↔ ∀ i, iter (fn (Method.lh m)) k i = i := by
  have hf : ∀ x, fn (Method.lh m) (follow (m.ch.map Change.swaps) x) = x := by
    intro x
    unfold Method.lh
    rw [fn_applyAll_follow hw.wf, fn_rounds]
  have hge : ∀ x, m.b ≤ x → fn (Method.lh m) x = x := fun x hx => fn_of_ge (by rw [hw.lh_length]; exact hx)
  constructor
  · intro h i
    by_cases hi : i < m.b
    · have := iter_inv hf k i
      rwa [h i hi] at this
    · exact iter_ge hge k i (by omega)
  · intro h x hx
    have := iter_inv hf k x
    rw [h] at this
    exact this

theorem exists_comesRound {m : Method} (hw : m.WF) : ∃ N, ComesRound m.b (m.ch.map Change.swaps) N := by
  classical
  have h := exists_round hw.lh_valid
  refine ⟨Nat.find h, (Nat.find_spec h).1, (comesRound_iff hw _).2 (Nat.find_spec h).2, fun j h0 hj => ?_⟩
  by_contra hc
  push Not at hc
  exact Nat.find_min h hj ⟨h0, (comesRound_iff hw j).1 hc⟩

theorem courseC_spec {m : Method} (hw : m.WF) {start : Row} (hv : Valid start) (hl : m.b ≤ start.length) {N : Nat}
    (hN : ComesRound m.b (m.ch.map Change.swaps) N) : ∀ k j fuel, k + 1 + j = N → k + 1 ≤ fuel →
    courseC m.ch start fuel (applyAll start (List.replicate j m.ch).flatten) =
      .ok (preP (List.replicate (k + 1) m.ch).flatten (applyAll start (List.replicate j m.ch).flatten)) := by
  obtain ⟨h0, h1, h2⟩ := hN
  have key : ∀ j, applyAll (applyAll start (List.replicate j m.ch).flatten) m.ch = applyAll start (List.replicate (j + 1) m.ch).flatten := by
    intro j
    rw [List.replicate_succ', List.flatten_append, applyAll_append, List.flatten_singleton]
  intro k
  induction k with
  | zero =>
    intro j fuel hj hf
    obtain ⟨f, rfl⟩ : ∃ f, fuel = f + 1 := ⟨fuel - 1, by omega⟩
    rw [courseC, preC_eq hw.wf, Out.ok_bind]
    simp only
    rw [key, if_pos ((round_iff hw hv hl _).2 ((comesRound_iff hw _).1 (by rw [show j + 1 = N by omega]; exact h1)))]
    simp
  | succ k ih =>
    intro j fuel hj hf
    obtain ⟨f, rfl⟩ : ∃ f, fuel = f + 1 := ⟨fuel - 1, by omega⟩
    rw [courseC, preC_eq hw.wf, Out.ok_bind]
    simp only
    rw [key, if_neg, ih (j + 1) f (by omega) (by omega), Out.ok_bind, List.replicate_succ (n := k + 1), List.flatten_cons, preP_append, key]
    rw [round_iff hw hv hl, ← comesRound_iff hw]
    intro h
    obtain ⟨x, hx, hne⟩ := h2 (j + 1) (by omega) (by omega)
    exact hne (h x hx)

theorem course_rows {m : Method} (hw : m.WF) {start : Row} (hv : Valid start) (hl : m.b ≤ start.length) {N : Nat}
    (hN : ComesRound m.b (m.ch.map Change.swaps) N) {fuel : Nat} (hf : N ≤ fuel) :
    courseC m.ch start fuel start = .ok (preP (List.replicate N m.ch).flatten start) := by
  have h0 := hN.1
  have := courseC_spec hw hv hl hN (N - 1) 0 fuel (by omega) (by omega)
  rwa [show N - 1 + 1 = N by omega] at this

/-- Rung backwards: the rows before the changes taken in reverse are those after them. -/
theorem rev_rows {cs : List Change} {b : Nat} (h : ∀ c ∈ cs, c.WF ∧ c.n = b) : ∀ {r : Row}, r.length = b → Valid r →
    postP cs.reverse (applyAll r cs) ++ [applyAll (applyAll r cs) cs.reverse] = (postP cs r ++ [applyAll r cs]).reverse := by
  induction cs using List.reverseRecOn with
  | nil => intro r _ _; rfl
  | append_singleton cs c ih =>
    intro r hr hv
    have hc := h c (by simp)
    have h' : ∀ d ∈ cs, d.WF ∧ d.n = b := fun d hd => h d (by simp [hd])
    have hl : (applyAll r cs).length = b := by rw [length_applyAll (b := b) (fun c hc => (h' c hc).2.le) hr.ge, hr]
    have e : apply (apply (applyAll r cs) c) c = applyAll r cs := by
      rw [apply_apply hc.1, hc.2, mul_rounds hl.ge]
    rw [List.reverse_append, List.reverse_singleton, List.singleton_append, postP, applyAll_append, applyAll_cons, applyAll_cons]
    show _ :: postP cs.reverse (apply (apply (applyAll r cs) c) c) ++ [applyAll (apply (apply (applyAll r cs) c) c) cs.reverse] = _
    rw [e, List.cons_append, ih h' hr hv, postP_append]
    simp [postP, applyAll]

theorem follow_rev {cs : List Change} (h : ∀ c ∈ cs, c.WF) : ∀ p, follow (cs.map Change.swaps) (follow (cs.reverse.map Change.swaps) p) = p := by
  induction cs using List.reverseRecOn with
  | nil => intro p; rfl
  | append_singleton cs c ih =>
    intro p
    rw [List.reverse_append, List.reverse_singleton, List.singleton_append, List.map_cons, List.map_append, follow, Ringing.follow_append,
      ih fun d hd => h d (by simp [hd])]
    exact Change.moveTo_moveTo (h c (by simp)).gap p

theorem After.eq {cs : List Change} {b : Nat} (h : ∀ c ∈ cs, c.WF ∧ c.n = b) {r x : Row} (hr : r.length = b) {i : Nat} (ha : After cs r i x) :
    x = applyAll r (cs.take i) := by
  have h' : ∀ c ∈ cs.take i, c.WF ∧ c.n = b := fun c hc => h c (List.mem_of_mem_take hc)
  obtain ⟨h1, h2⟩ := after_applyAll h hr.ge i
  refine ext_fn (ha.1.trans h1.symm) fun p _ => ?_
  have e := follow_rev (fun c hc => (h' c hc).1) p
  have a1 := ha.2 (follow ((cs.take i).reverse.map Change.swaps) p)
  have a2 := h2 (follow ((cs.take i).reverse.map Change.swaps) p)
  rw [e] at a1 a2
  rw [← bellAt_eq_fn, ← bellAt_eq_fn, a1, a2]

theorem preP_rows {cs : List Change} {b : Nat} (h : ∀ c ∈ cs, c.WF ∧ c.n = b) {r : Row} (hr : r.length = b) : ∀ x ∈ preP cs r, x.length = b := by
  intro x hx
  obtain ⟨i, hi, rfl⟩ := List.getElem_of_mem hx
  rw [preP_get, length_applyAll (b := b) (fun c hc => (h c (List.mem_of_mem_take hc)).2.le) hr.ge, hr]

theorem postP_rows {cs : List Change} {b : Nat} (h : ∀ c ∈ cs, c.WF ∧ c.n = b) {r : Row} (hr : r.length = b) : ∀ x ∈ postP cs r, x.length = b := by
  intro x hx
  obtain ⟨i, hi, rfl⟩ := List.getElem_of_mem hx
  rw [postP_get, length_applyAll (b := b) (fun c hc => (h c (List.mem_of_mem_take hc)).2.le) hr.ge, hr]

theorem applyAll_len {cs : List Change} {b : Nat} (h : ∀ c ∈ cs, c.WF ∧ c.n = b) {r : Row} (hr : r.length = b) : (applyAll r cs).length = b := by
  rw [length_applyAll (b := b) (fun c hc => (h c hc).2.le) hr.ge, hr]

theorem courseC_len {m : Method} (hw : m.WF) {start : Row} : ∀ fuel r, r.length = m.b → ∀ rs, courseC m.ch start fuel r = .ok rs → ∀ x ∈ rs, x.length = m.b := by
  intro fuel
  induction fuel with
  | zero => intro r _ rs h; cases h
  | succ f ih =>
    intro r hr rs h
    rw [courseC, preC_eq hw.wf, Out.ok_bind] at h
    simp only at h
    split at h
    · injection h with h; subst h; exact preP_rows hw.2 hr
    · cases hc : courseC m.ch start f (applyAll r m.ch) with
      | ok q =>
        rw [hc, Out.ok_bind] at h
        injection h with h; subst h
        intro x hx
        rcases List.mem_append.1 hx with h | h
        · exact preP_rows hw.2 hr x h
        · exact ih _ (applyAll_len hw.2 hr) q hc x h
      | throw e => rw [hc] at h; cases h
      | ub => rw [hc] at h; cases h
      | timeout => rw [hc] at h; cases h

theorem revC_mem {ch cs : List Change} {i j : Nat} (h : revC ch i j = .ok cs) : ∀ c ∈ cs, c ∈ ch := by
  unfold revC at h
  split at h
  · injection h with h; subst h
    intro c hc
    exact List.mem_reverse.1 (List.mem_of_mem_take (List.mem_of_mem_drop hc))
  · cases h

theorem rowsC_len {m : Method} (hw : m.WF) {fuel : Nat} {start : Row} (hr : start.length = m.b) {len : Len} {rs : List Row}
    (h : rowsC fuel m start len = .ok rs) : ∀ x ∈ rs, x.length = m.b := by
  have hpost : ∀ cs : List Change, (∀ c ∈ cs, c ∈ m.ch) → (postC cs start = .ok (postP cs start, applyAll start cs)) ∧
      (∀ x ∈ postP cs start, x.length = m.b) ∧ (applyAll start cs).length = m.b := fun cs hc =>
    ⟨postC_eq (fun c h => (hw.2 c (hc c h)).1) _, postP_rows (fun c h => hw.2 c (hc c h)) hr, applyAll_len (fun c h => hw.2 c (hc c h)) hr⟩
  cases len with
  | course => exact courseC_len hw _ _ hr _ h
  | lead =>
    obtain ⟨h1, h2, -⟩ := hpost m.ch fun c h => h
    rw [rowsC, h1] at h
    injection h with h; subst h; exact h2
  | halfLead =>
    obtain ⟨h1, h2, -⟩ := hpost (m.ch.take (m.ch.length / 2)) fun c h => List.mem_of_mem_take h
    rw [rowsC, h1] at h
    injection h with h; subst h; exact h2
  | halfLead2 =>
    obtain ⟨h1, h2, -⟩ := hpost (m.ch.drop (m.ch.length / 2)) fun c h => List.mem_of_mem_drop h
    rw [rowsC, h1] at h
    injection h with h; subst h; exact h2
  | halfLeadR =>
    rw [rowsC] at h
    cases hc : revC m.ch (m.ch.length / 2 + 1) m.ch.length with
    | ok cs =>
      obtain ⟨h1, h2, h3⟩ := hpost cs (revC_mem hc)
      rw [hc, Out.ok_bind, h1] at h
      injection h with h; subst h
      intro x hx
      rcases List.mem_append.1 hx with h | h
      · exact h2 x h
      · rw [List.mem_singleton] at h; rw [h]; exact h3
    | throw e => rw [hc] at h; cases h
    | ub => rw [hc] at h; cases h
    | timeout => rw [hc] at h; cases h
  | halfLead2R =>
    rw [rowsC] at h
    cases hc : revC m.ch 1 (m.ch.length / 2 + 1) with
    | ok cs =>
      obtain ⟨h1, h2, h3⟩ := hpost cs (revC_mem hc)
      rw [hc, Out.ok_bind, h1] at h
      injection h with h; subst h; exact h2
    | throw e => rw [hc] at h; cases h
    | ub => rw [hc] at h; cases h
    | timeout => rw [hc] at h; cases h

end MethMusic
end Ringing
