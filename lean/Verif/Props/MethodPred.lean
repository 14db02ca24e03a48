import Verif.Props.Method
import Verif.Lemmas.Method3

/-! C21: predicates of methods. -/
namespace Ringing
open Spec Row

theorem gap_ext {a b : List Nat} (ha : a.Pairwise (fun s t => s + 2 ≤ t))
    (hb : b.Pairwise (fun s t => s + 2 ≤ t)) (h : ∀ x, x ∈ a ↔ x ∈ b) : a = b := by
  induction a generalizing b with
  | nil =>
    cases b with
    | nil => rfl
    | cons y b => exact absurd ((h y).2 (by simp)) (by simp)
  | cons x a ih =>
    cases b with
    | nil => exact absurd ((h x).1 (by simp)) (by simp)
    | cons y b =>
      rw [List.pairwise_cons] at ha hb
      have hxy : x = y := by
        rcases List.mem_cons.1 ((h x).1 (by simp)) with e | e
        · exact e
        · rcases List.mem_cons.1 ((h y).2 (by simp)) with e' | e'
          · exact e'.symm
          · have := hb.1 x e; have := ha.1 y e'; omega
      subst hxy
      congr 1
      refine ih ha.2 hb.2 fun z => ?_
      constructor
      · intro hz
        rcases List.mem_cons.1 ((h z).1 (by simp [hz])) with e | e
        · have := ha.1 z hz; omega
        · exact e
      · intro hz
        rcases List.mem_cons.1 ((h z).2 (by simp [hz])) with e | e
        · have := hb.1 z hz; omega
        · exact e

/-- C21: `isdouble` holds exactly when the length is even and each change of the second half is the
corresponding change of the first half turned upside down. -/
theorem C21_isdouble {m : Method} (hb : m.b ≤ 255) (hm : ∀ c ∈ m.ch, IsChange c.n c.swaps ∧ c.n = m.b) :
    ∃ b, Method.isdoubleC m = .ok b ∧ (b = true ↔ m.ch.length % 2 = 0 ∧
      ∀ i, i < m.ch.length / 2 → ∀ c d, m.ch[i]? = some c → m.ch[m.ch.length / 2 + i]? = some d →
        ∀ p, p + 2 ≤ m.b → (p ∈ c.swaps ↔ m.b - 2 - p ∈ d.swaps)) := by
  have hw : m.WF := ⟨hb, hm⟩
  unfold Method.isdoubleC
  by_cases ho : m.length % 2 = 1
  · rw [if_pos ho]
    exact ⟨false, rfl, by simp; intro h; have : m.length = m.ch.length := rfl; omega⟩
  · rw [if_neg ho]
    have hlen : m.length = m.ch.length := rfl
    obtain ⟨b, h1, h2⟩ := allUp_ok (lo := 0) (hi := m.length / 2)
      (f := fun i => do
        let c ← Method.at' m i
        let d ← Method.at' m (m.length / 2 + i)
        pure (Change.eq c d.reverse))
      (g := fun i => Change.eq (m.ch.getD i ⟨0, []⟩) (Change.reverse (m.ch.getD (m.length / 2 + i) ⟨0, []⟩)))
      (by
        intro i h1 h2
        have e1 : i < m.length := by omega
        have e2 : m.length / 2 + i < m.length := by omega
        simp only [Method.WF.at_ok e1, Method.WF.at_ok e2, Out.ok_bind, Out.pure_eq]
        rw [List.getD_eq_getElem?_getD, List.getD_eq_getElem?_getD, List.getElem?_eq_getElem e1,
          List.getElem?_eq_getElem e2]; rfl)
    refine ⟨b, h1, h2.trans ?_⟩
    constructor
    · intro h
      refine ⟨by omega, fun i hi c d hc hd p hp => ?_⟩
      have := h i (by omega) (by omega)
      rw [List.getD_eq_getElem?_getD, List.getD_eq_getElem?_getD, hc, hlen, hd] at this
      simp only [Option.getD_some] at this
      have wc := hm c (List.mem_of_getElem? hc)
      have wd := hm d (List.mem_of_getElem? hd)
      rw [Change.WF.eq_iff wc.1 (Change.WF.reverse wd.1)] at this
      rw [this, Change.WF.mem_reverse wd.1, wd.2]
      simp [hp]
    · rintro ⟨-, h⟩ i - hi
      have e1 : i < m.ch.length := by omega
      have e2 : m.ch.length / 2 + i < m.ch.length := by omega
      have := h i (by omega) _ _ (List.getElem?_eq_getElem e1) (List.getElem?_eq_getElem e2)
      rw [List.getD_eq_getElem?_getD, List.getD_eq_getElem?_getD, hlen, List.getElem?_eq_getElem e1,
        List.getElem?_eq_getElem e2]
      simp only [Option.getD_some]
      have wc := hm _ (List.getElem_mem e1)
      have wd := hm _ (List.getElem_mem e2)
      have wr := Change.WF.reverse wd.1
      rw [Change.WF.eq_iff wc.1 wr]
      have hsw : (m.ch[i]).swaps = (Change.reverse m.ch[m.ch.length / 2 + i]).swaps := by
        apply gap_ext wc.1.2.1 wr.2.1
        intro p
        rw [Change.WF.mem_reverse wd.1, wd.2]
        constructor
        · intro hp
          have := (wc.1.2.2 p hp); rw [wc.2] at this
          exact ⟨this, (h i (by omega) _ _ (List.getElem?_eq_getElem e1) (List.getElem?_eq_getElem e2) p this).1 hp⟩
        · rintro ⟨hp1, hp2⟩
          exact (h i (by omega) _ _ (List.getElem?_eq_getElem e1) (List.getElem?_eq_getElem e2) p hp1).2 hp2
      cases hA : m.ch[i]; cases hB : Change.reverse m.ch[m.ch.length / 2 + i]
      rw [hA] at hsw wc; rw [hB] at hsw
      have hn : (Change.reverse m.ch[m.ch.length / 2 + i]).n = m.b := wd.2
      rw [hB] at hn
      simp only at hsw hn wc
      rw [hsw, hn, wc.2]

/-- C21: `huntbells` counts the bells that the whole lead brings back to their places. -/
theorem C21_huntbells {m : Method} (hb : m.b ≤ 255) (hm : ∀ c ∈ m.ch, IsChange c.n c.swaps ∧ c.n = m.b) :
    Method.huntbellsC m =
      .ok ((List.range m.b).filter fun p => follow (m.ch.map Change.swaps) p = p).length := by
  have hw : m.WF := ⟨hb, hm⟩
  obtain ⟨r, h1, h2, h3, h4⟩ := C19_lead_head hb hm
  have hv := (isRow_iff_valid r).1 h2
  have fixed : ∀ p, p < m.b → (fn r p = p ↔ follow (m.ch.map Change.swaps) p = p) := by
    intro p hp
    have := h4 p
    rw [bellAt_eq_fn] at this
    constructor
    · intro h; exact hv.fn_inj (this.trans h.symm)
    · intro h; rw [h] at this; exact this
  unfold Method.huntbellsC
  rw [h1]
  simp only [Out.ok_bind]
  obtain ⟨s, e, hs⟩ := forUp_inv (lo := 0) (hi := m.b) (s := 0)
    (body := fun n i => do let x ← vget r i; pure (if x = i then n + 1 else n))
    (fun k s => s = ((List.range k).filter fun p => follow (m.ch.map Change.swaps) p = p).length)
    (by omega) (by simp) (by
      intro i s h5 h6 h7
      have hi : i < r.length := by omega
      refine ⟨_, by rw [vget_ok hi]; rfl, ?_⟩
      rw [List.range_succ, List.filter_append, List.length_append, ← h7]
      have hf := fixed i (by omega)
      have hg : r[i] = fn r i := by unfold fn; rw [List.getD_eq_getElem?_getD, List.getElem?_eq_getElem hi]; rfl
      rw [hg]
      by_cases hx : fn r i = i
      · rw [if_pos hx]; simp [hf.1 hx]
      · rw [if_neg hx]; rw [hf] at hx; simp [hx])
  rw [e, hs]

/-- C21: `hasplaces` holds exactly when at some change of the lead the bell stays in a place which is
neither the lead nor the back. -/
theorem C21_hasplaces {m : Method} (hb : m.b ≤ 255) (hm : ∀ c ∈ m.ch, IsChange c.n c.swaps ∧ c.n = m.b)
    (b : Nat) : Method.hasplaces m b = true ↔ ∃ k, k < m.ch.length ∧ ∃ p, 0 < p ∧ p + 1 < m.b ∧
      follow ((m.ch.map Change.swaps).take k) b = p ∧
      follow ((m.ch.map Change.swaps).take (k + 1)) b = p := by
  have hw : m.WF := ⟨hb, hm⟩
  unfold Method.hasplaces
  have key : ∀ (cs : List Change), (∀ c ∈ cs, c.WF) → ∀ b, (Method.placesLoop m.b cs b = true ↔
      ∃ k, k < cs.length ∧ ∃ p, 0 < p ∧ p + 1 < m.b ∧ follow ((cs.map Change.swaps).take k) b = p ∧
      follow ((cs.map Change.swaps).take (k + 1)) b = p) := by
    intro cs
    induction cs with
    | nil => intro _ b; simp [Method.placesLoop]
    | cons c cs ih =>
      intro hc b
      have h0 := hc c (by simp)
      rw [Method.placesLoop, h0.pos_eq]
      by_cases h : moveTo c.swaps b = b ∧ moveTo c.swaps b > 0 ∧ moveTo c.swaps b + 1 < m.b
      · rw [if_pos h]
        simp only [true_iff]
        exact ⟨0, by simp, b, by omega, by omega, rfl, h.1⟩
      · rw [if_neg h, ih (fun d hd => hc d (by simp [hd]))]
        constructor
        · rintro ⟨k, h1, p, h2, h3, h4, h5⟩
          exact ⟨k + 1, by simpa using h1, p, h2, h3, h4, h5⟩
        · rintro ⟨k, h1, p, h2, h3, h4, h5⟩
          cases k with
          | zero =>
            exfalso; apply h
            have e4 : b = p := h4
            have e5 : moveTo c.swaps b = p := h5
            omega
          | succ k => exact ⟨k, by simpa using h1, p, h2, h3, h4, h5⟩
  exact key m.ch hw.wf b

/-- C21: `isplain` recognises plain hunting. -/
theorem C21_isplain {m : Method} (hb : m.b ≤ 255) (hm : ∀ c ∈ m.ch, IsChange c.n c.swaps ∧ c.n = m.b)
    {b : Nat} (hb' : b < 256) :
    Method.isplain m b = true ↔ PlainHunts (m.ch.map Change.swaps) b := by
  have hw : m.WF := ⟨hb, hm⟩
  obtain ⟨h1, h2⟩ := Method.plainLoop_spec hw.wf hb' (decide (b % 2 = 1)) 0
  have h2 := h2 2 (by omega)
  have e : (if decide (b % 2 = 1) = true then (-1 : Int) else 1) = (if b % 2 = 0 then 1 else -1) := by
    by_cases h : b % 2 = 1
    · have : ¬ b % 2 = 0 := by omega
      simp [h]
    · have : b % 2 = 0 := by omega
      simp [this]
  have e' : -(if b % 2 = 0 then (1 : Int) else -1) = if b % 2 = 0 then -1 else 1 := by split_ifs <;> rfl
  rw [e] at h2
  unfold PlainHunts
  unfold Method.isplain
  have goal : (∃ i j, i < j ∧ j < (m.ch.map Change.swaps).length ∧
      follow (m.ch.map Change.swaps) b = b ∧ ∀ k, k < (m.ch.map Change.swaps).length →
      move (m.ch.map Change.swaps) b k =
      (if k = i ∨ k = j then 0 else if i < k ∧ k < j then (if b % 2 = 0 then -1 else 1)
        else (if b % 2 = 0 then 1 else -1))) ↔ follow (m.ch.map Change.swaps) b = b ∧
        Method.Hunts (m.ch.map Change.swaps) b (if b % 2 = 0 then 1 else -1) 2 := by
    simp only [Method.Hunts, e']
    constructor
    · rintro ⟨i, j, a1, a2, a3, a4⟩; exact ⟨a3, i, j, a1, a2, a4⟩
    · rintro ⟨a3, i, j, a1, a2, a4⟩; exact ⟨i, j, a1, a2, a3, a4⟩
  rw [goal, ← h2]
  cases hl : Method.plainLoop m.ch (b : Int) (decide (b % 2 = 1)) 0 with
  | none => simp
  | some x =>
    obtain ⟨x, y, z⟩ := x
    obtain ⟨rfl, -⟩ := h1 x y z hl
    simp only [Bool.and_eq_true, decide_eq_true_eq, Option.some.injEq, Prod.mk.injEq]
    constructor
    · rintro ⟨a1, a2⟩; exact ⟨by omega, _, _, rfl, rfl, by omega⟩
    · rintro ⟨a1, -, -, -, -, a2⟩; exact ⟨by omega, by omega⟩

/-- C21: `maxblows` is one more than the length of the longest run of changes, read round the circle,
at which a bell stays in one place (the run counting at most the whole lead); if no change makes a
place at all it is -1. -/
theorem C21_maxblows {m : Method} (hb : m.b ≤ 255) (hm : ∀ c ∈ m.ch, IsChange c.n c.swaps ∧ c.n = m.b) :
    (Method.maxblows m = -1 ∧ ∀ c ∈ m.ch, ∀ p, p < m.b → moveTo c.swaps p ≠ p) ∨
    (∃ i k p, i < m.ch.length ∧ p < m.b ∧ 0 < k ∧ k ≤ m.ch.length ∧
      PlaceRun (m.ch.map Change.swaps) i k p ∧ Method.maxblows m = (k : Int) + 1 ∧
      ∀ i' k' p', i' < m.ch.length → p' < m.b → k' ≤ m.ch.length →
        PlaceRun (m.ch.map Change.swaps) i' k' p' → k' ≤ k) := by
  have hw : m.WF := ⟨hb, hm⟩
  have conv : ∀ i k p, Method.Run m.ch i k p ↔ PlaceRun (m.ch.map Change.swaps) i k p := by
    intro i k p
    unfold Method.Run PlaceRun
    refine forall_congr' fun t => imp_congr_right fun _ => ?_
    rw [List.length_map, List.getElem?_map]
    cases hc : m.ch[(i + t) % m.ch.length]? with
    | none => simp
    | some c =>
      have hcw := hw.wf c (List.mem_of_getElem? hc)
      simp [hcw.findplace_eq]
  rcases Method.maxblows_spec m with ⟨h1, h2⟩ | ⟨i, k, p, h1, h2, h3, h4, h5, h6, h7⟩
  · left
    refine ⟨h1, fun c hc p hp he => ?_⟩
    obtain ⟨i, hi, rfl⟩ := List.getElem_of_mem hc
    refine h2 i 1 p hi hp (by omega) ((conv _ _ _).2 ?_)
    intro t ht
    have : t = 0 := by omega
    subst this
    refine ⟨(m.ch[i]).swaps, ?_, he⟩
    rw [List.length_map, Nat.add_zero, Nat.mod_eq_of_lt hi, List.getElem?_map, List.getElem?_eq_getElem hi]
    rfl
  · right
    exact ⟨i, k, p, h1, h2, h3, h4, (conv _ _ _).1 h5, h6, fun i' k' p' a b c d =>
      h7 i' k' p' a b c ((conv _ _ _).2 d)⟩

/-- Plain Bob Minimus. -/
def plainBob4 : Method := ⟨4, [⟨4, [0, 2]⟩, ⟨4, [1]⟩, ⟨4, [0, 2]⟩, ⟨4, [1]⟩, ⟨4, [0, 2]⟩, ⟨4, [1]⟩,
    ⟨4, [0, 2]⟩, ⟨4, [2]⟩]⟩

example : plainBob4.b ≤ 255 ∧ ∀ c ∈ plainBob4.ch, c.WF ∧ c.n = plainBob4.b := by decide
example : Method.isplain plainBob4 0 = true ∧ Method.isplain plainBob4 1 = false := by decide
example : Method.maxblows plainBob4 = 2 ∧ Method.huntbellsC plainBob4 = .ok 1 ∧
    Method.isdoubleC plainBob4 = .ok false ∧ Method.hasplaces plainBob4 2 = true ∧ Method.hasplaces plainBob4 1 = false := by decide +kernel
example : Method.isdoubleC ⟨4, [⟨4, [0]⟩, ⟨4, [2]⟩]⟩ = .ok true := by decide +kernel
example : Method.maxblows ⟨2, [⟨2, [0]⟩]⟩ = -1 := by decide +kernel

end Ringing
