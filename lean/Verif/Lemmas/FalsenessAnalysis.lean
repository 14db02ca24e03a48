import Verif.Model.FalsenessAnalysis
import Verif.Lemmas.Sign
import Verif.Lemmas.RowC
import Mathlib.Data.Finset.Card
import Mathlib.Data.List.Permutation
import Mathlib.Logic.Relation

/-! The search of apps/methsearch/falseness.cpp gives a colouring if there is one. -/
namespace Ringing
namespace FalsenessAnalysis
open Falseness Row

/-- Rows for which the search works. -/
structure World (V : Row → Prop) (t : List Row) (n : Nat) : Prop where
  valid : ∀ {r}, V r → Valid r ∧ r.length = n
  mul : ∀ {r f}, V r → f ∈ t → Row.mulC r f = .ok (Row.mul r f) ∧ V (Row.mul r f)

/-- A colouring in which neighbours have different colours. -/
structure Proper (V : Row → Prop) (t : List Row) (χ : Row → Int) : Prop where
  vals : ∀ r, χ r = 1 ∨ χ r = -1
  step : ∀ r, V r → ∀ f ∈ t, Row.isrounds f = false → χ (Row.mul r f) = -χ r

def Agrees (m : Signs) (χ : Row → Int) : Prop := ∀ q c, m q = some c → χ q = c
def Ext (m m' : Signs) : Prop := ∀ q c, m q = some c → m' q = some c
/-- What is new is closed. -/
def Closed (V : Row → Prop) (t : List Row) (m m' : Signs) : Prop :=
  ∀ q c, m q = none → m' q = some c → V q ∧ (c = 1 ∨ c = -1) ∧ ∀ f ∈ t, Row.isrounds f = false → m' (Row.mul q f) = some (-c)

/-- All rows on `n` bells. -/
def allRows (n : Nat) : Finset Row := (List.range n).permutations.toFinset

theorem mem_allRows {n : Nat} {r : Row} (h : Valid r ∧ r.length = n) : r ∈ allRows n := by
  unfold allRows
  rw [List.mem_toFinset, List.mem_permutations]
  have := h.1.1
  rwa [h.2] at this

/-- The number of rows without a sign. -/
def left (n : Nat) (m : Signs) : Nat := ((allRows n).filter fun r => m r = none).card

theorem left_mono {n : Nat} {m m' : Signs} (h : Ext m m') : left n m' ≤ left n m := by
  refine Finset.card_le_card ?_
  intro q hq
  rw [Finset.mem_filter] at hq ⊢
  refine ⟨hq.1, ?_⟩
  cases hm : m q with
  | none => rfl
  | some c => rw [h q c hm] at hq; exact absurd hq.2 (by simp)

theorem left_lt {n : Nat} {m : Signs} {r : Row} (hr : r ∈ allRows n) (hm : m r = none) (s : Int) :
    left n (fun q => if q = r then some s else m q) < left n m := by
  refine Finset.card_lt_card ⟨?_, ?_⟩
  · intro q hq
    rw [Finset.mem_filter] at hq ⊢
    refine ⟨hq.1, ?_⟩
    by_cases h : q = r
    · rw [h]; exact hm
    · simpa [h] using hq.2
  · intro h
    have := h (Finset.mem_filter.2 ⟨hr, hm⟩)
    rw [Finset.mem_filter] at this
    simp at this

theorem Ext.refl {m : Signs} : Ext m m := fun _ _ h => h
theorem Ext.trans {a b c : Signs} (h : Ext a b) (h' : Ext b c) : Ext a c := fun q x e => h' q x (h q x e)

theorem Closed.trans {V : Row → Prop} {t : List Row} {a b c : Signs} (h : Closed V t a b) (h' : Closed V t b c) (e : Ext b c) :
    Closed V t a c := by
  intro q x hq hx
  cases hb : b q with
  | none => exact h' q x hb hx
  | some y =>
    have := e q y hb
    rw [hx] at this
    cases this
    obtain ⟨h1, h2, h3⟩ := h q x hq hb
    exact ⟨h1, h2, fun f hf hr => e _ _ (h3 f hf hr)⟩

/-- What a call gives. -/
def CallOk (V : Row → Prop) (t : List Row) (r : Row) (s : Int) (m : Signs) (o : Out (Bool × Signs)) : Prop :=
  ∃ b m', o = .ok (b, m') ∧ Ext m m' ∧
    (b = true → m' r = some s ∧ Closed V t m m' ∧ ∀ χ, Proper V t χ → Agrees m χ → χ r = s → Agrees m' χ) ∧
    (b = false → ∀ χ, Proper V t χ → Agrees m χ → χ r ≠ s)

theorem loop_spec {V : Row → Prop} {t : List Row} {n : Nat} (W : World V t n) {rec : Row → Int → Signs → Out (Bool × Signs)} {k : Nat}
    (hrec : ∀ r s m, V r → (s = 1 ∨ s = -1) → left n m < k → CallOk V t r s m (rec r s m)) {r : Row} {s : Int} (hr : V r)
    (hs : s = 1 ∨ s = -1) : ∀ (fs : List Row), (∀ f ∈ fs, f ∈ t) → ∀ m, m r = some s → left n m < k →
    ∃ b m', loopC rec r s fs m = .ok (b, m') ∧ Ext m m' ∧
      (b = true → (∀ f ∈ fs, Row.isrounds f = false → m' (Row.mul r f) = some (-s)) ∧ Closed V t m m' ∧
        ∀ χ, Proper V t χ → Agrees m χ → Agrees m' χ) ∧
      (b = false → ∀ χ, Proper V t χ → ¬ Agrees m χ) := by
  intro fs
  induction fs with
  | nil =>
    intro _ m _ _
    exact ⟨true, m, rfl, Ext.refl, fun _ => ⟨by simp, (by intro q c h h'; rw [h] at h'; cases h'), fun _ _ h => h⟩, by simp⟩
  | cons f fs ih =>
    intro hmem m hm hk
    rw [loopC]
    by_cases hf : Row.isrounds f = false
    · rw [if_pos hf, (W.mul hr (hmem f (by simp))).1, Out.ok_bind]
      have hV := (W.mul hr (hmem f (by simp))).2
      obtain ⟨b, m1, e1, x1, t1, f1⟩ := hrec _ (-s) m hV (by omega) hk
      rw [e1, Out.ok_bind]
      cases b with
      | false =>
        refine ⟨false, m1, rfl, x1, by simp, fun _ χ hp ha => ?_⟩
        refine f1 rfl χ hp ha ?_
        rw [hp.step r hr f (hmem f (by simp)) hf, ha r s hm]
      | true =>
        obtain ⟨t2, t3, t4⟩ := t1 rfl
        obtain ⟨b, m2, e2, x2, u1, u2⟩ := ih (fun g hg => hmem g (by simp [hg])) m1 (x1 _ _ hm) (lt_of_le_of_lt (left_mono x1) hk)
        have hag : ∀ χ, Proper V t χ → Agrees m χ → Agrees m1 χ := fun χ hp ha =>
          t4 χ hp ha (by rw [hp.step r hr f (hmem f (by simp)) hf, ha r s hm])
        refine ⟨b, m2, by simpa using e2, x1.trans x2, fun hb => ?_, fun hb χ hp ha => u2 hb χ hp (hag χ hp ha)⟩
        obtain ⟨v1, v2, v3⟩ := u1 hb
        refine ⟨fun g hg hgr => ?_, t3.trans v2 x2, fun χ hp ha => v3 χ hp (hag χ hp ha)⟩
        rcases List.mem_cons.1 hg with rfl | hg
        · exact x2 _ _ t2
        · exact v1 g hg hgr
    · rw [if_neg hf]
      obtain ⟨b, m2, e2, x2, u1, u2⟩ := ih (fun g hg => hmem g (by simp [hg])) m hm hk
      refine ⟨b, m2, e2, x2, fun hb => ?_, u2⟩
      obtain ⟨v1, v2, v3⟩ := u1 hb
      refine ⟨fun g hg hgr => ?_, v2, v3⟩
      rcases List.mem_cons.1 hg with rfl | hg
      · exact absurd hgr hf
      · exact v1 g hg hgr

theorem recurse_spec {V : Row → Prop} {t : List Row} {n : Nat} (W : World V t n) : ∀ (fuel : Nat) (r : Row) (s : Int) (m : Signs), V r →
    (s = 1 ∨ s = -1) → left n m < fuel → CallOk V t r s m (recurseC t fuel r s m) := by
  intro fuel
  induction fuel with
  | zero => intro r s m _ _ h; omega
  | succ k ih =>
    intro r s m hr hs hk
    rw [recurseC]
    cases hm : m r with
    | some x =>
      refine ⟨decide (x = s), m, rfl, Ext.refl, fun hb => ?_, fun hb χ _ ha => ?_⟩
      · obtain rfl : x = s := by simpa using hb
        exact ⟨hm, (by intro q c h h'; rw [h] at h'; cases h'), fun _ _ h _ => h⟩
      · rw [ha r x hm]; simpa using hb
    | none =>
      dsimp only
      set m0 : Signs := fun q => if q = r then some s else m q with hm0
      have hx0 : Ext m m0 := by
        intro q c hq
        have : q ≠ r := by rintro rfl; rw [hm] at hq; cases hq
        simp [hm0, this, hq]
      have h0 : m0 r = some s := by simp [hm0]
      have hag : ∀ χ, Agrees m χ → χ r = s → Agrees m0 χ := by
        intro χ ha h q c hq
        by_cases hqr : q = r
        · subst hqr; rw [h0] at hq; cases hq; exact h
        · simp only [hm0, if_neg hqr] at hq; exact ha q c hq
      have hlt := left_lt (mem_allRows (W.valid hr)) hm s
      obtain ⟨b, m', e, x, u1, u2⟩ := loop_spec W (k := k) (fun r s m h1 h2 h3 => ih r s m h1 h2 h3) hr hs t (fun _ h => h) m0 h0 (by change left n m0 < _ at hlt; omega)
      refine ⟨b, m', e, hx0.trans x, fun hb => ?_, fun hb χ hp ha h => u2 hb χ hp (hag χ ha h)⟩
      obtain ⟨v1, v2, v3⟩ := u1 hb
      refine ⟨x _ _ h0, fun q c hq hc => ?_, fun χ hp ha h => v3 χ hp (hag χ ha h)⟩
      by_cases hqr : q = r
      · subst hqr
        rw [x _ _ h0] at hc
        cases hc
        exact ⟨hr, hs, v1⟩
      · exact v2 q c (by simp [hm0, hqr, hq]) hc

/-- The whole search, for a table whose steps can be undone. -/
theorem root_spec {V : Row → Prop} {t : List Row} {n : Nat} (W : World V t n) (h0 : V (rounds n))
    (hleft : ∀ {q r}, V q → V r → V (Row.mul (Row.inverse q) r))
    (hback : ∀ {q f}, V q → f ∈ t → ∃ g ∈ t, Row.mul (Row.mul q f) g = q) :
    ∃ N b, (∀ fuel, N ≤ fuel → ∃ m, recurseC t fuel (rounds n) 1 (fun _ => none) = .ok (b, m)) ∧ (b = true ↔ ∃ χ, Proper V t χ) := by
  have key : ∀ fuel, left n (fun _ => none) + 1 ≤ fuel → ∃ b m, recurseC t fuel (rounds n) 1 (fun _ => none) = .ok (b, m) ∧
      (b = true ↔ ∃ χ, Proper V t χ) := by
    intro fuel hf
    obtain ⟨b, m, e, -, h1, h2⟩ := recurse_spec W fuel (rounds n) 1 (fun _ => none) h0 (.inl rfl) (by omega)
    refine ⟨b, m, e, fun hb => ?_, fun ⟨χ, hp⟩ => ?_⟩
    · obtain ⟨hr, hc, -⟩ := h1 hb
      let Step : Row → Row → Prop := fun q r => V q ∧ ∃ f ∈ t, Row.isrounds f = false ∧ r = Row.mul q f
      have hsym : ∀ {q r}, Step q r → Step r q := by
        rintro q r ⟨hq, f, hf, hfr, rfl⟩
        obtain ⟨g, hg, e⟩ := hback hq hf
        refine ⟨(W.mul hq hf).2, g, hg, ?_, e.symm⟩
        by_contra hgr
        rw [Bool.not_eq_false, isrounds_iff_fn] at hgr
        have : Row.isrounds f = true := by
          rw [isrounds_iff_fn]
          intro i
          have h1 := congrArg (fun z => fn z i) e
          simp only [fn_mul, hgr] at h1
          exact (W.valid hq).1.fn_inj h1
        rw [this] at hfr; cases hfr
      have hVs : ∀ {q r}, Step q r → V q ∧ V r := by
        rintro q r ⟨hq, f, hf, -, rfl⟩; exact ⟨hq, (W.mul hq hf).2⟩
      have hrev : ∀ {q r}, Relation.ReflTransGen Step q r → Relation.ReflTransGen Step r q := by
        intro q r h
        induction h with
        | refl => exact .refl
        | tail _ h ih => exact .head (hsym h) ih
      have hVr : ∀ {q r}, Relation.ReflTransGen Step q r → V q → V r := by
        intro q r h hq
        induction h with
        | refl => exact hq
        | tail _ h _ => exact (hVs h).2
      let st : Setoid Row := ⟨Relation.ReflTransGen Step, fun _ => Relation.ReflTransGen.refl, fun h => hrev h, fun h h' => h.trans h'⟩
      let rep : Row → Row := fun r => (Quotient.mk st r).out
      have hrep : ∀ r, Relation.ReflTransGen Step (rep r) r := fun r => Quotient.mk_out (s := st) r
      have hrepV : ∀ r, V r → V (rep r) := fun r hr => hVr (hrev (hrep r)) hr
      have hD : ∀ {q}, Relation.ReflTransGen Step (rounds n) q → ∃ c, m q = some c := by
        intro q h
        induction h with
        | refl => exact ⟨1, hr⟩
        | tail _ h ih =>
          obtain ⟨c, hc'⟩ := ih
          obtain ⟨hq, f, hf, hfr, rfl⟩ := h
          exact ⟨-c, (hc _ c rfl hc').2.2 f hf hfr⟩
      have hmul : ∀ {p q r}, V p → Relation.ReflTransGen Step q r → V q →
          Relation.ReflTransGen Step (Row.mul (Row.inverse p) q) (Row.mul (Row.inverse p) r) := by
        intro p q r hp h hq
        induction h with
        | refl => exact .refl
        | tail h1 h ih =>
          refine ih.tail ?_
          obtain ⟨hq', f, hf, hfr, rfl⟩ := h
          exact ⟨hleft hp hq', f, hf, hfr, (mul_assoc' _ _ _).symm⟩
      refine ⟨fun r => (m (Row.mul (Row.inverse (rep r)) r)).getD 1, fun r => ?_, fun r hr f hf hfr => ?_⟩
      · cases hx : m (Row.mul (Row.inverse (rep r)) r) with
        | none => exact .inl rfl
        | some c => exact (hc _ c rfl hx).2.1
      · have hs : Step r (Row.mul r f) := ⟨hr, f, hf, hfr, rfl⟩
        have hre : rep (Row.mul r f) = rep r := by
          show (Quotient.mk st _).out = _
          rw [Quotient.sound (s := st) (show st (Row.mul r f) r from hrev (Relation.ReflTransGen.single hs))]
        have h1 := hmul (hrepV r hr) (hrep r) (hrepV r hr)
        have h2 : Row.mul (Row.inverse (rep r)) (rep r) = rounds n := by
          rw [inverse_mul (W.valid (hrepV r hr)).1, (W.valid (hrepV r hr)).2]
        rw [h2] at h1
        obtain ⟨c, hc'⟩ := hD h1
        rw [hre, ← mul_assoc', hc', (hc _ c rfl hc').2.2 f hf hfr]
        rfl
    · by_contra hb
      rw [Bool.not_eq_true] at hb
      rcases hp.vals (rounds n) with h | h
      · exact h2 hb χ hp (fun _ _ h => by cases h) h
      · refine h2 hb (fun r => -χ r) ⟨fun r => ?_, fun r hr f hf hfr => ?_⟩ (fun _ _ h => by cases h) (by rw [h]; rfl)
        · rcases hp.vals r with h | h <;> rw [h] <;> simp
        · rw [hp.step r hr f hf hfr]
  refine ⟨left n (fun _ => none) + 1, _, fun fuel hf => ?_, (key _ (le_refl _)).choose_spec.choose_spec.2⟩
  obtain ⟨b, m, e, hb⟩ := key fuel hf
  refine ⟨m, ?_⟩
  rw [e]
  have := (key _ (le_refl _)).choose_spec.choose_spec.2
  have hbb : b = (key _ (le_refl _)).choose := by
    rw [Bool.eq_iff_iff, hb, this]
  rw [hbb]

end FalsenessAnalysis
end Ringing
