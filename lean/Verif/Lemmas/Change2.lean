import Verif.Lemmas.Change
import Verif.Lemmas.Bell

namespace Ringing
open Spec
namespace Change

/-! ### swapsBetween -/

theorem mem_swapsBetween {fuel s te : Nat} (hf : te ≤ s + 2 * fuel) (x : Nat) :
    x ∈ swapsBetween fuel s te ↔ s ≤ x ∧ x + 1 < te ∧ (x - s) % 2 = 0 := by
  induction fuel generalizing s with
  | zero => simp [swapsBetween]; intros; omega
  | succ f ih =>
    unfold swapsBetween
    by_cases h : s + 1 < te
    · rw [if_pos h, List.mem_cons, ih (by omega)]; omega
    · rw [if_neg h]; simp; intros; omega

theorem gap_swapsBetween (fuel s te : Nat) :
    Gap (swapsBetween fuel s te) ∧ ∀ x ∈ swapsBetween fuel s te, s ≤ x ∧ x + 2 ≤ te := by
  induction fuel generalizing s with
  | zero => simp [swapsBetween, Gap]
  | succ f ih =>
    unfold swapsBetween
    by_cases h : s + 1 < te
    · rw [if_pos h]
      obtain ⟨h1, h2⟩ := ih (s + 2)
      refine ⟨List.pairwise_cons.2 ⟨fun x hx => (h2 x hx).1, h1⟩, ?_⟩
      intro x hx
      rcases List.mem_cons.1 hx with rfl | hx
      · omega
      · have := h2 x hx; omega
    · rw [if_neg h]; simp [Gap]

theorem gap_append {A B : List Nat} {m : Nat} (hA : Gap A) (hB : Gap B) (h1 : ∀ s ∈ A, s + 2 ≤ m)
    (h2 : ∀ s ∈ B, m ≤ s) : Gap (A ++ B) := by
  unfold Gap
  rw [List.pairwise_append]
  exact ⟨hA, hB, fun a ha b hb => by have := h1 a ha; have := h2 b hb; omega⟩

theorem moveTo_append_lt {A B : List Nat} {m : Nat} (h2 : ∀ s ∈ B, m ≤ s) {i : Nat} (hi : i < m) :
    moveTo (A ++ B) i = moveTo A i := by
  have e1 : i ∈ A ++ B ↔ i ∈ A := by
    simp only [List.mem_append, or_iff_left_iff_imp]; intro h; have := h2 i h; omega
  have e2 : i - 1 ∈ A ++ B ↔ i - 1 ∈ A := by
    simp only [List.mem_append, or_iff_left_iff_imp]; intro h; have := h2 _ h; omega
  simp only [moveTo, e1, e2]

theorem moveTo_append_ge {A B : List Nat} {m : Nat} (h1 : ∀ s ∈ A, s + 2 ≤ m) {i : Nat} (hi : m ≤ i) :
    moveTo (A ++ B) i = moveTo B i := by
  have e1 : i ∈ A ++ B ↔ i ∈ B := by
    simp only [List.mem_append, or_iff_right_iff_imp]; intro h; have := h1 i h; omega
  have e2 : i - 1 ∈ A ++ B ↔ i - 1 ∈ B := by
    simp only [List.mem_append, or_iff_right_iff_imp]; intro h; have := h1 _ h; omega
  simp only [moveTo, e1, e2]

theorem moveTo_swapsBetween {fuel s te i : Nat} (hf : te ≤ s + 2 * fuel) (h1 : s ≤ i) (h2 : i < te) :
    moveTo (swapsBetween fuel s te) i = i ↔ (te - s) % 2 = 1 ∧ i + 1 = te := by
  unfold moveTo
  by_cases e1 : i ∈ swapsBetween fuel s te
  · rw [if_pos e1]
    have := (mem_swapsBetween hf _).1 e1
    omega
  · rw [if_neg e1]
    have n1 := mt (mem_swapsBetween hf _).2 e1
    by_cases e2 : i ≠ 0 ∧ i - 1 ∈ swapsBetween fuel s te
    · rw [if_pos e2]
      have := (mem_swapsBetween hf _).1 e2.2
      omega
    · rw [if_neg e2]
      have n2 : ¬ (i ≠ 0 ∧ (s ≤ i - 1 ∧ i - 1 + 1 < te ∧ (i - 1 - s) % 2 = 0)) := by
        rintro ⟨a, b⟩; exact e2 ⟨a, (mem_swapsBetween hf _).2 b⟩
      omega

/-! ### Change from a list of places -/

/-- Consecutive places differ by an odd amount. -/
def Odds : Nat → List Nat → Prop
  | _, [] => True
  | l, p :: ps => l < p ∧ (p - l) % 2 = 1 ∧ Odds p ps

/-- The last place. -/
def lastOr : Nat → List Nat → Nat
  | l, [] => l
  | _, p :: ps => lastOr p ps

instance : (l : Nat) → (ps : List Nat) → Decidable (Odds l ps)
  | _, [] => isTrue trivial
  | _, p :: ps =>
    have := instDecidableOdds p ps
    inferInstanceAs (Decidable (_ ∧ _ ∧ _))

theorem ofPlacesLoop_pos {n : Nat} (hn : n ≤ 255) (ps : List Nat) : ∀ (l : Nat) (acc : List Nat),
    l < n →
    (Odds l ps ∧ (∀ p ∈ ps, p < n) → ∃ T, ofPlacesLoop n ps (l + 1) acc = .ok ⟨n, acc ++ T⟩ ∧ Gap T ∧
      (∀ s ∈ T, l + 1 ≤ s ∧ s + 2 ≤ n) ∧
      ∀ i, l < i → i < n → (moveTo T i = i ↔ i ∈ ps ∨ (i + 1 = n ∧ (n - 1 - lastOr l ps) % 2 = 1))) ∧
    (¬ (Odds l ps ∧ (∀ p ∈ ps, p < n)) → ofPlacesLoop n ps (l + 1) acc = .throw .changeInvalid) := by
  induction ps with
  | nil =>
    intro l acc hl
    refine ⟨fun _ => ⟨swapsBetween 256 (l + 1) n, ?_, (gap_swapsBetween _ _ _).1,
      fun s hs => (gap_swapsBetween _ _ _).2 s hs, ?_⟩, fun h => absurd ⟨trivial, by simp⟩ h⟩
    · simp only [ofPlacesLoop, toBell_of_lt (show n < 256 by omega)]
    · intro i h1 h2
      rw [moveTo_swapsBetween (by omega) (by omega) h2]
      simp only [List.not_mem_nil, lastOr, false_or]
      omega
  | cons p ps ih =>
    intro l acc hl
    unfold ofPlacesLoop
    by_cases hc : p ≥ n ∨ p < l + 1 ∨ (l + 1 ≠ 0 ∧ (p - (l + 1)) % 2 ≠ 0)
    · rw [if_pos hc]
      refine ⟨?_, fun _ => rfl⟩
      rintro ⟨⟨h1, h2, -⟩, h3⟩
      have := h3 p (by simp)
      omega
    · rw [if_neg hc]
      have hb : ¬ (l + 1 = 0 ∧ (p - (l + 1)) % 2 ≠ 0) := by omega
      simp only [hb, if_false]
      obtain ⟨ih1, ih2⟩ := ih p (acc ++ swapsBetween 256 (l + 1) p) (by omega)
      constructor
      · rintro ⟨⟨h1, h2, h3⟩, h4⟩
        obtain ⟨T, t1, t2, t3, t4⟩ := ih1 ⟨h3, fun q hq => h4 q (by simp [hq])⟩
        obtain ⟨g1, g2⟩ := gap_swapsBetween 256 (l + 1) p
        refine ⟨swapsBetween 256 (l + 1) p ++ T, ?_, gap_append (m := p) g1 t2 ?_ ?_, ?_, ?_⟩
        · rw [t1, List.append_assoc]
        · intro s hs; exact (g2 s hs).2
        · intro s hs; have := t3 s hs; omega
        · intro s hs
          rcases List.mem_append.1 hs with h | h
          · have := g2 s h; omega
          · have := t3 s h; omega
        · intro i i1 i2
          by_cases ip : i < p
          · rw [moveTo_append_lt (m := p) (fun s hs => by have := t3 s hs; omega) ip,
              moveTo_swapsBetween (by omega) (by omega) ip]
            have : i ∉ p :: ps := by
              intro hm
              have key : ∀ (ps : List Nat) (l : Nat), Odds l ps → ∀ q ∈ ps, l < q := by
                intro ps
                induction ps with
                | nil => simp
                | cons a as ih =>
                  intro l ho q hq
                  rcases List.mem_cons.1 hq with rfl | hq
                  · exact ho.1
                  · have := ih a ho.2.2 q hq; have := ho.1; omega
              rcases List.mem_cons.1 hm with h | h
              · omega
              · have := key ps p h3 i h; omega
            simp only [this, false_or]
            omega
          · rw [moveTo_append_ge (m := p) (fun s hs => (g2 s hs).2) (by omega)]
            by_cases ie : i = p
            · subst ie
              have : moveTo T i = i := moveTo_of_lt (fun t ht => by have := t3 t ht; omega)
              simp [this]
            · rw [t4 i (by omega) i2]
              simp [ie, lastOr]
      · intro hno
        apply ih2
        rintro ⟨h3, h4⟩
        apply hno
        refine ⟨⟨by omega, by omega, h3⟩, ?_⟩
        intro q hq
        rcases List.mem_cons.1 hq with rfl | hq
        · omega
        · exact h4 q hq

/-- The places accepted by the constructor. -/
def PlacesOK (n : Nat) (ps : List Nat) : Prop :=
  (∀ p ∈ ps, p < n) ∧ match ps with
    | [] => True
    | p :: ps => Odds p ps

theorem ofPlacesC_spec {n : Nat} (hn : n ≤ 255) (ps : List Nat) :
    (PlacesOK n ps → ∃ T, ofPlacesC n ps = .ok ⟨n, T⟩ ∧ IsChange n T ∧
      ∀ i, i < n → (moveTo T i = i ↔ i ∈ ps ∨ (i = 0 ∧ ps.headD 0 % 2 = 1) ∨
        (i + 1 = n ∧ (match ps with | [] => n % 2 = 1 | p :: ps => (n - 1 - lastOr p ps) % 2 = 1)))) ∧
    (¬ PlacesOK n ps → ofPlacesC n ps = .throw .changeInvalid) := by
  unfold ofPlacesC PlacesOK
  cases ps with
  | nil =>
    refine ⟨fun _ => ⟨swapsBetween 256 0 n, ?_, ⟨hn, (gap_swapsBetween _ _ _).1,
      fun s hs => ((gap_swapsBetween _ _ _).2 s hs).2⟩, ?_⟩, fun h => absurd ⟨by simp, trivial⟩ h⟩
    · simp only [ofPlacesLoop, toBell_of_lt (show n < 256 by omega), List.nil_append]
    · intro i hi
      rw [moveTo_swapsBetween (by omega) (by omega) hi]
      simp; omega
  | cons p ps =>
    unfold ofPlacesLoop
    by_cases hc : p ≥ n ∨ p < 0 ∨ ((0:Nat) ≠ 0 ∧ (p - 0) % 2 ≠ 0)
    · rw [if_pos hc]
      refine ⟨?_, fun _ => rfl⟩
      rintro ⟨h1, -⟩
      have := h1 p (by simp); omega
    · rw [if_neg hc]
      generalize hb : (if (0:Nat) = 0 ∧ (p - 0) % 2 ≠ 0 then 1 else 0) = b
      have hb' : b = p % 2 := by subst hb; split <;> omega
      simp only [List.nil_append]
      obtain ⟨ih1, ih2⟩ := ofPlacesLoop_pos hn ps p (swapsBetween 256 b p) (by omega)
      constructor
      · rintro ⟨h1, h2⟩
        obtain ⟨T, t1, t2, t3, t4⟩ := ih1 ⟨h2, fun q hq => h1 q (by simp [hq])⟩
        obtain ⟨g1, g2⟩ := gap_swapsBetween 256 b p
        refine ⟨_, t1, ⟨hn, gap_append (m := p) g1 t2 (fun s hs => (g2 s hs).2)
          (fun s hs => by have := t3 s hs; omega), ?_⟩, ?_⟩
        · intro s hs
          rcases List.mem_append.1 hs with h | h
          · have := g2 s h; omega
          · have := t3 s h; omega
        · intro i i2
          have hle : ∀ (ps : List Nat) (l : Nat), Odds l ps → ∀ q ∈ ps, l < q := by
            intro ps
            induction ps with
            | nil => simp
            | cons a as ih =>
              intro l ho q hq
              rcases List.mem_cons.1 hq with rfl | hq
              · exact ho.1
              · have := ih a ho.2.2 q hq; have := ho.1; omega
          by_cases ip : i < p
          · rw [moveTo_append_lt (m := p) (fun s hs => by have := t3 s hs; omega) ip]
            have hni : i ∉ p :: ps := by
              intro hm
              rcases List.mem_cons.1 hm with h | h
              · omega
              · have := hle ps p h2 i h; omega
            simp only [hni, false_or, List.headD_cons]
            by_cases hib : i < b
            · have : moveTo (swapsBetween 256 b p) i = i :=
                moveTo_of_lt (fun t ht => by have := g2 t ht; omega)
              simp only [this, true_iff]
              left; omega
            · rw [moveTo_swapsBetween (by omega) (by omega) ip]
              have hlast : ∀ (ps : List Nat) (l : Nat), Odds l ps → l ≤ lastOr l ps := by
                intro ps
                induction ps with
                | nil => intro l _; exact le_rfl
                | cons a as ih =>
                  intro l ho
                  have := ih a ho.2.2; have := ho.1; simp only [lastOr]; omega
              have := hlast ps p h2
              omega
          · rw [moveTo_append_ge (m := p) (fun s hs => (g2 s hs).2) (by omega)]
            by_cases ie : i = p
            · subst ie
              have : moveTo T i = i := moveTo_of_lt (fun t ht => by have := t3 t ht; omega)
              simp [this]
            · rw [t4 i (by omega) i2]
              have : i ≠ 0 := by omega
              simp [ie, this]
      · intro hno
        apply ih2
        rintro ⟨h3, h4⟩
        apply hno
        refine ⟨?_, h3⟩
        intro q hq
        rcases List.mem_cons.1 hq with rfl | hq
        · omega
        · exact h4 q hq

/-! ### print and parse -/

theorem swapsBetween_self (fuel b : Nat) : swapsBetween fuel b b = [] := by
  cases fuel with
  | zero => rfl
  | succ f => unfold swapsBetween; rw [if_neg (by omega)]

theorem swapsBetween_step {b s : Nat} (hs : b ≤ s) (he : (s - b) % 2 = 0) : ∀ {fuel : Nat},
    s + 1 ≤ b + 2 * fuel → swapsBetween fuel b (s + 2) = swapsBetween fuel b s ++ [s] := by
  have key : ∀ (k fuel b : Nat), s = b + 2 * k → s + 1 ≤ b + 2 * fuel →
      swapsBetween fuel b (s + 2) = swapsBetween fuel b s ++ [s] := by
    intro k
    induction k with
    | zero =>
      intro fuel b h1 h2
      obtain ⟨f, rfl⟩ : ∃ f, fuel = f + 1 := ⟨fuel - 1, by omega⟩
      have h1' : s = b := by omega
      rw [h1', swapsBetween_self]
      simp only [swapsBetween]
      rw [if_pos (by omega), swapsBetween_self]; rfl
    | succ k ih =>
      intro fuel b h1 h2
      obtain ⟨f, rfl⟩ : ∃ f, fuel = f + 1 := ⟨fuel - 1, by omega⟩
      have := ih f (b + 2) (by omega) (by omega)
      simp only [swapsBetween]
      rw [if_pos (by omega), if_pos (by omega), this]; rfl
  intro fuel h
  exact key ((s - b) / 2) fuel b (by omega) h

theorem ofPlacesLoop_places {n : Nat} (hn : n ≤ 255) : ∀ (k : Nat) (ss : List Nat) (b bl : Nat)
    (acc : List Nat), n - b ≤ k → bl ≤ b → b ≤ n → (b - bl) % 2 = 0 → Gap ss → (∀ s ∈ ss, s + 2 ≤ n) →
    (∀ s ∈ ss, b ≤ s) →
    ofPlacesLoop n (placesFrom n ss b) bl acc = .ok ⟨n, acc ++ swapsBetween 256 bl b ++ ss⟩ := by
  intro k
  induction k with
  | zero =>
    intro ss b bl acc hk h1 h2 h3 h4 h5 h6
    have : ss = [] := by
      rcases ss with _ | ⟨s, ss⟩
      · rfl
      · have := h5 s (by simp); have := h6 s (by simp); omega
    subst this
    have : b = n := by omega
    subst this
    simp [placesFrom, ofPlacesLoop, toBell_of_lt (show b < 256 by omega)]
  | succ k ih =>
    intro ss b bl acc hk h1 h2 h3 h4 h5 h6
    have step : b < n → (∀ s ∈ ss, b + 1 ≤ s) →
        placesFrom n ss b = b :: placesFrom n ss (b + 1) →
        ofPlacesLoop n (placesFrom n ss b) bl acc = .ok ⟨n, acc ++ swapsBetween 256 bl b ++ ss⟩ := by
      intro hlt hb he
      rw [he]
      unfold ofPlacesLoop
      rw [if_neg (by omega)]
      have : ¬ (bl = 0 ∧ (b - bl) % 2 ≠ 0) := by omega
      simp only [this, if_false]
      rw [ih ss (b + 1) (b + 1) _ (by omega) le_rfl (by omega) (by omega) h4 h5 hb, swapsBetween_self]
      simp
    rcases ss with _ | ⟨s, ss⟩
    · by_cases hb : b = n
      · subst hb
        simp [placesFrom, ofPlacesLoop, toBell_of_lt (show b < 256 by omega)]
      · refine step (by omega) (by simp) ?_
        simp only [placesFrom]
        rw [show n - b = (n - (b + 1)) + 1 by omega, List.range'_succ]
    · have hs5 := h5 s (by simp)
      have hs6 := h6 s (by simp)
      by_cases hb : b = s
      · subst hb
        simp only [placesFrom, Nat.sub_self, List.range'_zero, List.nil_append]
        rw [ih ss (b + 2) bl acc (by omega) (by omega) (by omega) (by omega) h4.tail
          (fun t ht => h5 t (by simp [ht])) h4.le, swapsBetween_step h1 h3 (by omega)]
        simp
      · refine step (by omega) ?_ ?_
        · intro t ht
          rcases List.mem_cons.1 ht with rfl | ht
          · omega
          · have := h4.le t ht; omega
        · simp only [placesFrom]
          rw [show s - b = (s - (b + 1)) + 1 by omega, List.range'_succ]; rfl

theorem WF.ofPlacesC_places {c : Change} (h : c.WF) : ofPlacesC c.n (places c) = .ok c := by
  unfold ofPlacesC places
  rw [ofPlacesLoop_places h.1 c.n c.swaps 0 0 [] (by omega) le_rfl (by omega) (by omega) h.gap h.2.2
    (by simp), swapsBetween_self]
  simp

/-- Reading a string bell by bell gives the same as reading the bells first. -/
theorem ofStringLoop_eq {n : Nat} : ∀ (fuel : Nat) (q : List Char) (ps : List Nat) (b : Nat)
    (acc : List Nat), Row.readBells fuel q = .ok ps →
    ofStringLoop n fuel q b acc = ofPlacesLoop n ps b acc := by
  intro fuel
  induction fuel with
  | zero =>
    intro q ps b acc h
    cases q with
    | nil => simp only [Row.readBells] at h; cases h; rfl
    | cons c cs => cases h
  | succ f ih =>
    intro q ps b acc h
    cases q with
    | nil => simp only [Row.readBells] at h; cases h; rfl
    | cons c cs =>
      simp only [Row.readBells] at h
      simp only [ofStringLoop]
      cases h1 : Bell.readExtended (c :: cs) with
      | ok x =>
        rcases x with ⟨p, rest⟩
        rw [h1] at h
        simp only [Out.ok_bind] at h
        cases h2 : Row.readBells f rest with
        | ok bs =>
          rw [h2] at h
          simp only [Out.ok_bind, Out.pure_eq] at h
          cases h
          simp only [Out.ok_bind, ofPlacesLoop]
          split
          · rfl
          · exact ih _ _ _ _ h2
        | throw e => rw [h2] at h; cases h
        | ub => rw [h2] at h; cases h
        | timeout => rw [h2] at h; cases h
      | throw e => rw [h1] at h; cases h
      | ub => rw [h1] at h; cases h
      | timeout => rw [h1] at h; cases h

theorem ofStringLoop_bad {n : Nat} : ∀ (fuel : Nat) (q : List Char) (b : Nat)
    (acc : List Nat), q.length ≤ fuel → Row.readBells fuel q = .throw .bellInvalid →
    ofStringLoop n fuel q b acc = .throw .bellInvalid ∨
    ofStringLoop n fuel q b acc = .throw .changeInvalid := by
  intro fuel
  induction fuel with
  | zero =>
    intro q b acc hl h
    cases q with
    | nil => cases h
    | cons c cs => simp at hl
  | succ f ih =>
    intro q b acc hl h
    cases q with
    | nil => simp only [Row.readBells] at h; cases h
    | cons c cs =>
      simp only [Row.readBells] at h
      simp only [ofStringLoop]
      rcases Bell.readExtended_cases c cs with ⟨p, rest, h1, h2, h3⟩ | h1
      · rw [h1] at h ⊢
        simp only [Out.ok_bind] at h ⊢
        have hl' : rest.length ≤ f := by simp only [List.length_cons] at hl h3; omega
        rcases Row.readBells_cases f rest hl' with ⟨d, e1, e2⟩ | e1
        · rw [e1] at h; cases h
        · split
          · exact Or.inr rfl
          · exact ih _ _ _ hl' e1
      · rw [h1]; exact Or.inl rfl

theorem write_head (b : Nat) : ∃ c cs, Bell.write b = c :: cs ∧ c ≠ 'X' ∧ c ≠ 'x' ∧ c ≠ '-' := by
  unfold Bell.write
  by_cases h : b < 33
  · rw [if_pos h]
    refine ⟨_, _, rfl, ?_⟩
    have key : ∀ b : Fin 33, Bell.toChar b.val ≠ 'X' ∧ Bell.toChar b.val ≠ 'x' ∧
      Bell.toChar b.val ≠ '-' := by decide
    exact key ⟨b, h⟩
  · rw [if_neg h]; exact ⟨_, _, rfl, by decide, by decide, by decide⟩

theorem WF.ofStringC_print {c : Change} (h : c.WF) (style : Cross) :
    ofStringC c.n (print c style) = .ok c := by
  have hp := h.ofPlacesC_places
  have hlt : ∀ p ∈ places c, p < 256 := by
    intro p hp
    have := (mem_placesFrom h.gap h.2.2 (by simp) p).1 hp
    have := h.1; omega
  unfold print
  simp only
  cases hpl : places c with
  | nil =>
    rw [hpl] at hp
    by_cases hn : c.n = 0
    · rw [if_neg (by simp [hn])]
      have := h.swaps_nil hn
      simp only [ofStringC, List.flatMap_nil, List.isEmpty_nil, if_true, hn]
      cases c; simp_all
    · rw [if_pos (by simp [hn])]
      have e : ∀ s, ofStringC c.n s = .ok ⟨c.n, swapsBetween 256 0 (toBell c.n)⟩ → ofStringC c.n s = .ok c := by
        intro s hs; rw [hs, ← hp]; simp [ofPlacesC, ofPlacesLoop]
      apply e
      cases style <;> simp [ofStringC]
  | cons p ps =>
    obtain ⟨ch, cs, w1, w2, w3, w4⟩ := write_head p
    have hw : (p :: ps).flatMap Bell.write = ch :: (cs ++ ps.flatMap Bell.write) := by
      rw [List.flatMap_cons, w1]; rfl
    rw [if_neg (by rw [hw]; simp)]
    unfold ofStringC
    rw [if_neg (by rw [hw]; simp), if_neg (by rw [hw]; simp [w2, w3, w4])]
    have hr : Row.readBells ((p :: ps).flatMap Bell.write).length ((p :: ps).flatMap Bell.write)
        = .ok (p :: ps) := by
      apply Row.readBells_write _ _ le_rfl
      rw [← hpl]; exact hlt
    rw [ofStringLoop_eq _ _ _ _ _ hr, ← hpl]
    exact hp

end Change
end Ringing
