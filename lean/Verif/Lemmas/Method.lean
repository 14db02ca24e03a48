import Verif.Model.Method
import Verif.Lemmas.PlaceNotation
import Verif.Props.Change

namespace Ringing
open Spec

/-! ### Loops -/

theorem allN_ok {f : Nat → Out Bool} {g : Nat → Bool} : ∀ {k lo : Nat},
    (∀ i, lo ≤ i → i < lo + k → f i = .ok (g i)) →
    ∃ b, allN f k lo = .ok b ∧ (b = true ↔ ∀ i, lo ≤ i → i < lo + k → g i = true) := by
  intro k
  induction k with
  | zero => intro lo _; exact ⟨true, rfl, by simp; omega⟩
  | succ k ih =>
    intro lo h
    rw [allN, h lo le_rfl (by omega)]
    simp only [Out.ok_bind]
    cases hg : g lo with
    | false =>
      refine ⟨false, by simp, ?_⟩
      simp only [Bool.false_eq_true, false_iff, not_forall]
      exact ⟨lo, le_rfl, by omega, by simp [hg]⟩
    | true =>
      obtain ⟨b, h1, h2⟩ := ih (lo := lo + 1) (fun i h1 h2 => h i (by omega) (by omega))
      refine ⟨b, by simp [h1], ?_⟩
      rw [h2]
      constructor
      · intro h3 i h4 h5
        by_cases h6 : i = lo
        · rw [h6, hg]
        · exact h3 i (by omega) (by omega)
      · intro h3 i h4 h5; exact h3 i (by omega) (by omega)

theorem allUp_ok {f : Nat → Out Bool} {g : Nat → Bool} {lo hi : Nat}
    (h : ∀ i, lo ≤ i → i < hi → f i = .ok (g i)) :
    ∃ b, allUp lo hi f = .ok b ∧ (b = true ↔ ∀ i, lo ≤ i → i < hi → g i = true) := by
  obtain ⟨b, h1, h2⟩ := allN_ok (f := f) (g := g) (k := hi - lo) (lo := lo)
    (fun i h1 h2 => h i h1 (by omega))
  refine ⟨b, h1, h2.trans ⟨fun h i h1 h2 => h i h1 (by omega), fun h i h1 h2 => h i h1 (by omega)⟩⟩

theorem findN_ok {f : Nat → Out Bool} {g : Nat → Bool} : ∀ {k lo : Nat},
    (∀ i, lo ≤ i → i < lo + k → f i = .ok (g i)) →
    (findN f k lo = .ok (-1) ∧ ∀ i, lo ≤ i → i < lo + k → g i = false) ∨
    ∃ i : Nat, findN f k lo = .ok (i : Int) ∧ lo ≤ i ∧ i < lo + k ∧ g i = true ∧
      ∀ j, lo ≤ j → j < i → g j = false := by
  intro k
  induction k with
  | zero => intro lo _; left; exact ⟨rfl, fun i h1 h2 => by omega⟩
  | succ k ih =>
    intro lo h
    rw [findN, h lo le_rfl (by omega)]
    simp only [Out.ok_bind]
    cases hg : g lo with
    | true => right; exact ⟨lo, by simp, le_rfl, by omega, hg, fun j h1 h2 => by omega⟩
    | false =>
      simp only [Bool.false_eq_true, if_false]
      rcases ih (lo := lo + 1) (fun i h1 h2 => h i (by omega) (by omega)) with ⟨h1, h2⟩ | ⟨i, h1, h2, h3, h4, h5⟩
      · left
        refine ⟨h1, fun i h3 h4 => ?_⟩
        by_cases h6 : i = lo
        · rw [h6, hg]
        · exact h2 i (by omega) (by omega)
      · right
        refine ⟨i, h1, by omega, by omega, h4, fun j h6 h7 => ?_⟩
        by_cases h8 : j = lo
        · rw [h8, hg]
        · exact h5 j (by omega) (by omega)

theorem mod_two {n x : Nat} (h : x < 2 * n) : x % n = if x < n then x else x - n := by
  split
  · exact Nat.mod_eq_of_lt ‹_›
  · rw [Nat.mod_eq_sub_mod (by omega), Nat.mod_eq_of_lt (by omega)]

namespace Change

theorem WF.eq_iff {a b : Change} (ha : a.WF) (hb : b.WF) : Change.eq a b = true ↔ a = b := by
  unfold Change.eq
  simp only [Bool.and_eq_true, Bool.or_eq_true, decide_eq_true_eq]
  constructor
  · rintro ⟨h1, h2 | h2⟩
    · have e1 := ha.swaps_nil h2
      have e2 := hb.swaps_nil (by omega)
      cases a; cases b; simp_all
    · cases a; cases b; simp_all
  · rintro rfl; simp

/-- The places of a well-formed change. -/
theorem WF.mem_places {c : Change} (h : c.WF) (i : Nat) :
    i ∈ places c ↔ i < c.n ∧ moveTo c.swaps i = i := by
  unfold places
  rw [mem_placesFrom h.2.1 h.2.2 (by simp)]; simp

theorem WF.sorted_places {c : Change} (h : c.WF) : (places c).Pairwise (· < ·) :=
  (sorted_placesFrom (n := c.n) (b := 0) h.2.1 (by simp)).1

theorem WF.placesOK {c : Change} (h : c.WF) : Spec.PlacesOK c.n (places c) := by
  by_contra hn
  have := (C11_places h.1 (places c)).2 hn
  rw [h.ofPlacesC_places] at this; cases this

/-- A change is made from any acceptable list of places that implies its places. -/
theorem WF.ofPlacesC_of_made {c : Change} (h : c.WF) {ps : List Nat} (hok : Spec.PlacesOK c.n ps)
    (hm : ∀ i, i < c.n → (PlaceMade c.n ps i ↔ PlaceMade c.n (places c) i)) :
    ofPlacesC c.n ps = .ok c := by
  obtain ⟨ss, h1, h2, h3⟩ := (C11_places h.1 ps).1 hok
  obtain ⟨tt, k1, k2, k3⟩ := (C11_places h.1 (places c)).1 h.placesOK
  rw [h.ofPlacesC_places] at k1
  have e : ss = tt := by
    refine C11_places_determine h2 k2 fun i => ?_
    rw [h3, k3]
    exact and_congr_right fun hi => hm i hi
  rw [h1, e, k1]

end Change

/-! ### Texts of changes -/

theorem placeText_append {a b : List Char} (ha : PlaceText a) (hb : PlaceText b) : PlaceText (a ++ b) := by
  induction ha with
  | nil => exact hb
  | sym h1 h2 h3 _ ih => exact .sym h1 h2 h3 ih
  | @brace c t h1 _ ih =>
    have : '{' :: (c ++ '}' :: t) ++ b = '{' :: (c ++ '}' :: (t ++ b)) := by simp
    rw [this]; exact .brace h1 ih

theorem symbols_facts : ∀ b < 33, PN.isAlnum (Bell.toChar b) = true ∧ Bell.toChar b ≠ 'X' ∧
    Bell.toChar b ≠ 'x' ∧ Bell.toChar b ≠ '{' ∧ Bell.toChar b ≠ '*' := by decide

theorem decimal_nobrace {n : Nat} (hn : n < 258) : ∀ x ∈ Bell.decimal n, x ≠ '{' ∧ x ≠ '}' ∧ x ≠ '*' := by
  intro x hx
  have := (Bell.decimal_spec n hn).1
  have h := List.all_eq_true.1 this x hx
  refine ⟨?_, ?_, ?_⟩ <;> rintro rfl <;> exact absurd h (by decide)

theorem placeText_write {b : Nat} (hb : b < 256) : PlaceText (Bell.write b) := by
  unfold Bell.write
  split
  · rename_i h
    have := symbols_facts b h
    exact .sym this.1 this.2.1 this.2.2.1 .nil
  · exact .brace (t := []) (fun x hx => ⟨(decimal_nobrace (by omega) x hx).1, (decimal_nobrace (by omega) x hx).2.1⟩) .nil

theorem placeText_places {ps : List Nat} (h : ∀ p ∈ ps, p < 256) : PlaceText (ps.flatMap Bell.write) := by
  induction ps with
  | nil => exact .nil
  | cons p ps ih =>
    rw [List.flatMap_cons]
    exact placeText_append (placeText_write (h p (by simp))) (ih fun q hq => h q (by simp [hq]))

theorem flatMap_write_nobrace {ps : List Nat} (h : ∀ p ∈ ps, p < 33) : '{' ∉ ps.flatMap Bell.write := by
  intro hm
  obtain ⟨p, hp, h1⟩ := List.mem_flatMap.1 hm
  unfold Bell.write at h1
  rw [if_pos (h p hp)] at h1
  simp at h1
  exact (symbols_facts p (h p hp)).2.2.2.1 h1.symm

/-- A string of bells spelling an acceptable list of places makes the change. -/
theorem ofStringC_of_places {n : Nat} {ps : List Nat} (hne : ps ≠ []) (hlt : ∀ p ∈ ps, p < 256) :
    Change.ofStringC n (ps.flatMap Bell.write) = Change.ofPlacesC n ps := by
  obtain ⟨p, qs, rfl⟩ := List.exists_cons_of_ne_nil hne
  have hne' : (p :: qs).flatMap Bell.write ≠ [] := by
    rw [List.flatMap_cons]; simp [Bell.write_ne_nil]
  obtain ⟨c, cs, hw, h1, h2, h3⟩ := Change.write_head p
  refine (C11_string n _).2.1 hne' ?_ ?_ ?_ _ ?_
  · rw [List.flatMap_cons, hw]; intro h; exact h1 (List.cons.inj h).1
  · rw [List.flatMap_cons, hw]; intro h; exact h2 (List.cons.inj h).1
  · rw [List.flatMap_cons, hw]; intro h; exact h3 (List.cons.inj h).1
  · exact Row.readBells_write hlt _ le_rfl

theorem write_head_one {p : Nat} (hp : p < 256) : (Bell.write p).head? = some (Bell.toChar 0) ↔ p = 0 := by
  unfold Bell.write
  split
  · rename_i h
    simp only [List.head?_cons, Option.some.injEq]
    have : ∀ b : Fin 33, Bell.toChar b.val = Bell.toChar 0 ↔ b.val = 0 := by decide
    exact this ⟨p, h⟩
  · simp only [List.head?_cons, Option.some.injEq]
    constructor
    · intro h; exact absurd h (by decide)
    · intro h; omega

theorem write_last {p n : Nat} (hp : p < n) (hn : n ≤ 255) :
    (Bell.write p).getLast? = some (Bell.toChar (n - 1)) ↔ p = n - 1 ∧ n ≤ 33 := by
  unfold Bell.write
  by_cases h33 : n ≤ 33
  · rw [if_pos (by omega)]
    simp only [List.getLast?_singleton, Option.some.injEq, h33, and_true]
    have : ∀ a b : Fin 33, Bell.toChar a.val = Bell.toChar b.val ↔ a.val = b.val := by decide
    exact this ⟨p, by omega⟩ ⟨n - 1, by omega⟩
  · have e : Bell.toChar (n - 1) = '*' := by unfold Bell.toChar; rw [if_neg (by omega)]
    rw [e]
    constructor
    · intro h
      exfalso
      split at h
      · rename_i h'
        simp at h; exact (symbols_facts p h').2.2.2.2 h
      · have : ('{' :: (Bell.decimal (p + 1) ++ ['}'])).getLast? = some '}' := by
          rw [← List.cons_append, List.getLast?_append]; rfl
        rw [this] at h; exact absurd h (by decide)
    · rintro ⟨-, h⟩; omega

theorem chain_tail {n p : Nat} {q : List Nat} (h : Spec.PlacesOK n (p :: q)) : Spec.PlacesOK n q :=
  ⟨fun x hx => h.1 x (by simp [hx]), h.2.tail⟩

theorem made_drop_first {n : Nat} {q : List Nat} (h : Spec.PlacesOK n (0 :: q)) (hq : q ≠ []) (i : Nat) :
    PlaceMade n q i ↔ PlaceMade n (0 :: q) i := by
  obtain ⟨p, q', rfl⟩ := List.exists_cons_of_ne_nil hq
  have hp : p % 2 = 1 := by
    have := (List.isChain_cons_cons.1 h.2).1.2; simpa using this
  unfold PlaceMade
  simp only [List.mem_cons, List.head?_cons, Option.some.injEq, List.getLast?_cons_cons]
  constructor
  · rintro (h | ⟨h, -⟩ | h)
    · left; right; exact h
    · left; left; exact h
    · right; right; simpa using h
  · rintro ((h | h) | ⟨-, x, h, h'⟩ | h)
    · right; left; exact ⟨h, p, rfl, hp⟩
    · left; exact h
    · subst h; omega
    · right; right; simpa using h

theorem made_drop_last {n : Nat} {q : List Nat} (h : Spec.PlacesOK n (q ++ [n - 1])) (hq : q ≠ [])
    (i : Nat) : PlaceMade n q i ↔ PlaceMade n (q ++ [n - 1]) i := by
  have hn : 0 < n := by have := h.1 (n - 1) (by simp); omega
  obtain ⟨q', l, rfl⟩ : ∃ q' l, q = q' ++ [l] := ⟨q.dropLast, q.getLast hq, (List.dropLast_append_getLast hq).symm⟩
  have hl : l < n - 1 ∧ (n - 1 - l) % 2 = 1 := by
    have h2 := h.2
    rw [List.append_assoc, List.isChain_append] at h2
    simpa using h2.2.1
  have hd : (q' ++ [l] ++ [n - 1]).head? = (q' ++ [l]).head? := by
    cases q' <;> simp
  unfold PlaceMade
  rw [hd]
  simp only [List.mem_append, List.mem_singleton, List.getLast?_append_of_ne_nil, List.getLast?_singleton,
    ne_eq, not_false_eq_true, List.cons_ne_nil, Option.some.injEq, List.append_eq_nil_iff, and_false,
    false_and, false_or]
  constructor
  · rintro (h | h | ⟨h, -⟩)
    · left; left; exact h
    · right; left; exact h
    · left; right; omega
  · rintro ((h | h) | h | ⟨h, x, hx, hx'⟩)
    · left; exact h
    · right; right; exact ⟨by omega, l, rfl, hl.2⟩
    · right; left; exact h
    · subst hx; omega

/-- Removing the external places from the text of a change does not change its meaning. -/
theorem stripExternal_spec {c : Change} (h : c.WF) (hp : Change.places c ≠ []) :
    ∃ ps, ps ≠ [] ∧ (∀ p ∈ ps, p < c.n) ∧
      Method.stripExternal c.n ((Change.places c).flatMap Bell.write) = ps.flatMap Bell.write ∧
      Change.ofPlacesC c.n ps = .ok c := by
  have hn := h.1
  have hok := h.placesOK
  generalize hps : Change.places c = ps at *
  have hlt : ∀ p ∈ ps, p < c.n := hok.1
  unfold Method.stripExternal
  by_cases hlen : (ps.flatMap Bell.write).length > 1
  swap
  · rw [if_neg hlen]
    exact ⟨ps, hp, hlt, rfl, by rw [← hps]; exact h.ofPlacesC_places⟩
  rw [if_pos hlen]
  simp only
  -- the text after removing the lead
  obtain ⟨q, hq1, hq2, hq3, hq4⟩ : ∃ q, (if (ps.flatMap Bell.write).head? = some (Bell.toChar 0) then
      (ps.flatMap Bell.write).tail else ps.flatMap Bell.write) = q.flatMap Bell.write ∧
      ((ps = 0 :: q) ∨ (q = ps ∧ ps.head? ≠ some 0)) ∧ (∀ p ∈ q, p < c.n) ∧ q ≠ [] := by
    obtain ⟨p, qs, rfl⟩ := List.exists_cons_of_ne_nil hp
    have hhd : ((p :: qs).flatMap Bell.write).head? = (Bell.write p).head? := by
      rw [List.flatMap_cons, List.head?_append_of_ne_nil _ (Bell.write_ne_nil p)]
    have := hlt p (by simp)
    rw [hhd]
    by_cases h0 : p = 0
    · subst h0
      rw [if_pos (by rfl)]
      refine ⟨qs, rfl, .inl rfl, fun x hx => hlt x (by simp [hx]), ?_⟩
      rintro rfl
      simp [Bell.write, Bell.toChar] at hlen
    · rw [if_neg (by rw [write_head_one (by omega)]; exact h0)]
      exact ⟨p :: qs, rfl, .inr ⟨rfl, by simpa using h0⟩, hlt, by simp⟩
  rw [hq1]
  have hqne : q.flatMap Bell.write ≠ [] := by
    obtain ⟨p, qs, rfl⟩ := List.exists_cons_of_ne_nil hq4
    rw [List.flatMap_cons]; simp [Bell.write_ne_nil]
  obtain ⟨q', l, rfl⟩ : ∃ q' l, q = q' ++ [l] :=
    ⟨q.dropLast, q.getLast hq4, (List.dropLast_append_getLast hq4).symm⟩
  have hl := hq3 l (by simp)
  have hlast : ((q' ++ [l]).flatMap Bell.write).getLast? = (Bell.write l).getLast? := by
    rw [List.flatMap_append]
    simp only [List.flatMap_cons, List.flatMap_nil, List.append_nil]
    rw [List.getLast?_append_of_ne_nil _ (Bell.write_ne_nil l)]
  -- meaning of the list without the lead
  have hokq : Spec.PlacesOK c.n (q' ++ [l]) := by
    rcases hq2 with e | ⟨e, -⟩
    · rw [e] at hok; exact chain_tail hok
    · rw [e]; exact hok
  have hmq : ∀ i, PlaceMade c.n (q' ++ [l]) i ↔ PlaceMade c.n ps i := by
    intro i
    rcases hq2 with e | ⟨e, -⟩
    · rw [e] at hok ⊢; exact made_drop_first hok hq4 i
    · rw [e]
  by_cases hc : l = c.n - 1 ∧ c.n ≤ 33
  · have hin : ((q' ++ [l]).flatMap Bell.write ≠ [] ∧
        ((q' ++ [l]).flatMap Bell.write).getLast? = some (Bell.toChar (c.n - 1))) :=
      ⟨hqne, by rw [hlast]; exact (write_last hl hn).2 hc⟩
    rw [if_pos (c := (q' ++ [l]).flatMap Bell.write ≠ [] ∧
        ((q' ++ [l]).flatMap Bell.write).getLast? = some (Bell.toChar (c.n - 1))) hin]
    obtain ⟨hc1, hc2⟩ := hc
    have hdl : ((q' ++ [l]).flatMap Bell.write).dropLast = q'.flatMap Bell.write := by
      rw [List.flatMap_append]
      have : [l].flatMap Bell.write = [Bell.toChar l] := by
        simp [Bell.write, show l < 33 by omega]
      rw [this]; simp
    rw [hdl]
    by_cases hq' : q' = []
    · subst hq'
      rw [if_pos (c := List.flatMap Bell.write [] = []) rfl]
      -- the places were lead and last
      rcases hq2 with e | ⟨e, -⟩
      · refine ⟨[0], by simp, by intro p hp; simp at hp; omega, rfl, ?_⟩
        have e' : ps = [0] ++ [c.n - 1] := by rw [e, hc1]; rfl
        refine h.ofPlacesC_of_made ⟨by intro p hp; simp at hp; omega, by simp⟩ fun i _ => ?_
        rw [hps, e']
        rw [e'] at hok
        exact made_drop_last hok (by simp) i
      · exfalso
        rw [← e] at hlen
        simp [Bell.write, show l < 33 by omega] at hlen
    · have hne : q'.flatMap Bell.write ≠ [] := by
        obtain ⟨p, qs, rfl⟩ := List.exists_cons_of_ne_nil hq'
        rw [List.flatMap_cons]; simp [Bell.write_ne_nil]
      rw [if_neg hne]
      refine ⟨q', hq', fun p hp => hq3 p (by simp [hp]), rfl, ?_⟩
      subst hc1
      refine h.ofPlacesC_of_made ⟨fun p hp => hq3 p (by simp [hp]), ?_⟩ fun i _ => ?_
      · have := hokq.2; rw [List.isChain_append] at this; exact this.1
      · rw [hps, ← hmq i]; exact made_drop_last hokq hq' i
  · have hin : ¬ ((q' ++ [l]).flatMap Bell.write ≠ [] ∧
        ((q' ++ [l]).flatMap Bell.write).getLast? = some (Bell.toChar (c.n - 1))) := by
      rw [hlast, write_last hl hn]; exact fun h => hc h.2
    rw [if_neg (c := (q' ++ [l]).flatMap Bell.write ≠ [] ∧
        ((q' ++ [l]).flatMap Bell.write).getLast? = some (Bell.toChar (c.n - 1))) hin, if_neg hqne]
    refine ⟨q' ++ [l], hq4, hq3, rfl, ?_⟩
    exact h.ofPlacesC_of_made hokq fun i _ => by rw [hps]; exact hmq i

theorem countPlaces_eq_zero {c : Change} : Change.countPlaces c = 0 ↔ Change.places c = [] := by
  unfold Change.countPlaces; exact List.length_eq_zero_iff

theorem print_of_places {c : Change} (hp : Change.places c ≠ []) (st : Change.Cross) :
    Change.print c st = (Change.places c).flatMap Bell.write := by
  unfold Change.print
  simp only
  rw [if_neg]
  rintro ⟨-, h⟩
  obtain ⟨p, qs, e⟩ := List.exists_cons_of_ne_nil hp
  rw [e, List.flatMap_cons] at h
  simp [Bell.write_ne_nil] at h

/-- The text of a change with places. -/
theorem changeText_spec (flags : Nat) {c : Change} (h : c.WF) (hp : Change.places c ≠ []) :
    Method.changeText flags c ≠ [] ∧ PlaceText (Method.changeText flags c) ∧
    Change.ofStringC c.n (Method.changeText flags c) = .ok c ∧
    (c.n ≤ 33 → '{' ∉ Method.changeText flags c) := by
  obtain ⟨ps, h1, h2, h3, h4⟩ : ∃ ps, ps ≠ [] ∧ (∀ p ∈ ps, p < c.n) ∧
      Method.changeText flags c = ps.flatMap Bell.write ∧ Change.ofPlacesC c.n ps = .ok c := by
    unfold Method.changeText
    simp only
    rw [print_of_places hp]
    split
    · exact ⟨_, hp, h.placesOK.1, rfl, h.ofPlacesC_places⟩
    · exact stripExternal_spec h hp
  have hn := h.1
  rw [h3]
  refine ⟨?_, placeText_places fun p hp => by have := h2 p hp; omega, ?_, ?_⟩
  · obtain ⟨p, qs, rfl⟩ := List.exists_cons_of_ne_nil h1
    rw [List.flatMap_cons]; simp [Bell.write_ne_nil]
  · rw [ofStringC_of_places h1 fun p hp => by have := h2 p hp; omega]; exact h4
  · intro h33; exact flatMap_write_nobrace fun p hp => by have := h2 p hp; omega

theorem crossChar_cross (flags : Nat) : IsCross (Method.crossChar flags) := by
  unfold Method.crossChar IsCross
  split
  · simp
  · split
    · simp
    · split <;> simp

theorem ofStringC_X {c : Change} (h : c.WF) (hp : Change.places c = []) :
    Change.ofStringC c.n ['X'] = .ok c := by
  by_cases hn : c.n = 0
  · have := h.swaps_nil hn
    cases c with
    | mk n ss => simp only at hn this; subst hn; subst this; decide
  · have := h.ofStringC_print .upper
    unfold Change.print at this
    simpa [hp, hn] using this

/-- The text of a section spells its changes. -/
theorem section_spec (flags : Nat) {b : Nat} : ∀ {cs : List Change}, (∀ c ∈ cs, c.WF ∧ c.n = b) →
    ∀ (dot first : Bool), ∃ w s, Method.section' flags cs dot first = w ++ s ∧ Sep '.' w ∧
      BlockText b s cs ∧ (first = true → w = []) ∧
      (dot = true → first = false → w = [] → s = [] ∨ ∃ x s', s = x :: s' ∧ IsCross x) ∧
      (b ≤ 33 → '{' ∉ w ++ s) := by
  intro cs
  have sepnil : Sep '.' [] := .inl (by simp [White])
  have sepdot : Sep '.' ['.'] := .inr ⟨[], [], by simp [White], by simp [White], rfl⟩
  induction cs with
  | nil => intro _ dot first; exact ⟨[], [], rfl, sepnil, .nil, by simp, by simp, by simp⟩
  | cons c cs ih =>
    intro hcs dot first
    obtain ⟨hc, hcb⟩ := hcs c (by simp)
    have hcs' : ∀ c ∈ cs, c.WF ∧ c.n = b := fun d hd => hcs d (by simp [hd])
    rw [Method.section']
    by_cases hp : Change.countPlaces c = 0
    · rw [if_pos hp]
      rw [countPlaces_eq_zero] at hp
      obtain ⟨w', s', e, h1, h2, h3, h4, h5⟩ := ih hcs' false false
      refine ⟨if Method.has flags Method.M_DOTS = true ∧ ¬first = true then ['.'] else [],
        Method.crossChar flags :: (w' ++ s'), by rw [e]; simp, ?_, ?_, ?_, ?_, ?_⟩
      · split
        · exact sepdot
        · exact sepnil
      · exact .cross (crossChar_cross flags) (by rw [← hcb]; exact ofStringC_X hc hp) h1 h2
      · intro hf; simp [hf]
      · intro _ _ _; right; exact ⟨_, _, rfl, crossChar_cross flags⟩
      · intro h33
        have := h5 h33
        have hx : '{' ≠ Method.crossChar flags := by
          intro e
          rcases crossChar_cross flags with h | h | h <;> rw [h] at e <;> exact absurd e (by decide)
        have hd : '{' ∉ (if Method.has flags Method.M_DOTS = true ∧ ¬first = true then ['.'] else []) := by
          split <;> simp
        simp only [List.mem_append, List.mem_cons, not_or] at this ⊢
        exact ⟨hd, hx, this⟩
    · rw [if_neg hp]
      rw [countPlaces_eq_zero] at hp
      obtain ⟨k1, k2, k3, k4⟩ := changeText_spec flags hc hp
      obtain ⟨w', s', e, h1, h2, h3, h4, h5⟩ := ih hcs' true false
      refine ⟨if (dot = true ∨ Method.has flags Method.M_DOTS = true) ∧ ¬first = true then ['.'] else [],
        Method.changeText flags c ++ (w' ++ s'), by rw [e]; simp, ?_, ?_, ?_, ?_, ?_⟩
      · split
        · exact sepdot
        · exact sepnil
      · exact .place k1 k2 (by rw [← hcb]; exact k3) h1 (h4 rfl rfl) h2
      · intro hf; simp [hf]
      · intro hd hf; simp [hd, hf]
      · intro h33
        have := h5 h33
        have hd : '{' ∉ (if (dot = true ∨ Method.has flags Method.M_DOTS = true) ∧ ¬first = true then ['.'] else []) := by
          split <;> simp
        simp only [List.mem_append, not_or] at this ⊢
        exact ⟨hd, k4 (by omega), this⟩

theorem section_text (flags : Nat) {b : Nat} {cs : List Change} (h : ∀ c ∈ cs, c.WF ∧ c.n = b) :
    BlockText b (Method.section' flags cs false true) cs ∧
    (b ≤ 33 → '{' ∉ Method.section' flags cs false true) := by
  obtain ⟨w, s, e, h1, h2, h3, h4, h5⟩ := section_spec flags h false true
  have := h3 rfl
  subst this
  rw [e]
  exact ⟨h2, h5⟩

end Ringing
