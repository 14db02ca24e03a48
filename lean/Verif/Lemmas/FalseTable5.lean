import Verif.Lemmas.FalseTable4
/-
The names of the groups.
-/
namespace Ringing
namespace Falseness
open Spec

set_option maxRecDepth 100000

theorem reps_heads : ∀ r ∈ reps, (r.2, r.1) ∈ heads := by decide +kernel
theorem heads_ne : ∀ h ∈ heads, h.1 ≠ 0 := by decide +kernel
theorem known8_ne : ∀ h ∈ known8, h.1 ≠ 0 := by decide +kernel
theorem standard_six : ∀ g ∈ standard, g.2.length = 6 := by decide +kernel
theorem reps8_groups : ∀ r ∈ reps8, ∃ g ∈ groups 8, courseHead 8 g.2 = decode 8 r.2 ∧ g.1 = [Char.ofNat r.1] := by
  decide +kernel
theorem groups8_known : ∀ g ∈ groups 8, ∃ k ∈ known8, courseHead 8 g.2 = decode 8 k.1 ∧ g.1 = [Char.ofNat k.2] := by
  decide +kernel
theorem pbs8_any : ∀ i, i < 8 → 1 ≤ i → ∃ c ∈ pbs8, dig c 7 = i := by decide +kernel

/-- The number of a name. -/
def codeOfName : List Char → Nat
  | [a] => a.toNat * 256
  | [a, c] => a.toNat * 256 + c.toNat
  | _ => 0

theorem code_name : ∀ h ∈ heads, codeOfName (nameOf h.2) = h.2 := by decide +kernel
theorem code_name10 : ∀ h ∈ heads, codeOfName (shortName 10 (nameOf h.2)) = if h.2 = 17457 then 16945 else h.2 := by
  decide +kernel
theorem letter_code : ∀ k ∈ known8, (Char.ofNat k.2).toNat = k.2 := by decide +kernel
theorem b1_d1 : ext 10 (lookB 17457 reps) = decode 10 654820196640 ∧
    ext 10 (lookB 16945 reps) = decode 10 654819271440 ∧ (654819271440, 16945) ∈ known10 ∧
    (654820196640, 16945) ∈ known10 ∧ 142864648080 ∈ pbs10 ∧ 78187493520 ∈ pbs10 := by decide +kernel
theorem perm_pbs8 : ∀ c ∈ pbs8, (decode 8 c).Perm (List.range 8) := by decide +kernel
theorem perm_pbs10 : ∀ c ∈ pbs10, (decode 10 c).Perm (List.range 10) := by decide +kernel
theorem perm_moves8 : ∀ w ∈ moves8, (decode 8 w.2.2.1).Perm (List.range 8) := by decide +kernel

theorem valid_pbs8 (c : Nat) (h : c ∈ pbs8) : Row.Valid (decode 8 c) :=
  ⟨by rw [length_decode]; exact perm_pbs8 c h, by rw [length_decode]; omega⟩

theorem valid_pbs10 (c : Nat) (h : c ∈ pbs10) : Row.Valid (decode 10 c) :=
  ⟨by rw [length_decode]; exact perm_pbs10 c h, by rw [length_decode]; omega⟩

/-- The representatives of the specification. -/
theorem standard_reps {g : String × List Nat} (hg : g ∈ standard) :
    ∃ r ∈ reps, (∀ b, 6 ≤ b → courseHead b g.2 = ext b r.2) ∧ g.1.toList = nameOf r.1 ∧ (r.2, r.1) ∈ heads := by
  have : (courseHead 6 g.2, g.1.toList) ∈ reps.map fun r => (decode 6 r.2, nameOf r.1) := by
    rw [← groups_ok]; exact List.mem_map_of_mem hg
  obtain ⟨r, hr, e⟩ := List.mem_map.1 this
  have e1 : decode 6 r.2 = courseHead 6 g.2 := congrArg (·.1) e
  have e2 : nameOf r.1 = g.1.toList := congrArg (·.2) e
  refine ⟨r, hr, fun b hb => ?_, e2.symm, reps_heads r hr⟩
  have l6 := standard_six g hg
  apply List.ext_getElem (by simp [courseHead, ext])
  intro i h1 h2
  simp only [courseHead, ext, List.getElem_map, List.getElem_range, l6]
  split
  · rename_i c
    have : (decode 6 r.2)[i]? = (courseHead 6 g.2)[i]? := by rw [e1]
    simp only [decode, courseHead, List.getElem?_map, List.getElem?_range c, Option.map_some, l6, if_pos c] at this
    exact (Option.some.inj this).symm
  · rfl

theorem reps_standard {r : Nat × Nat} (hr : r ∈ reps) :
    ∃ g ∈ standard, (∀ b, 6 ≤ b → courseHead b g.2 = ext b r.2) ∧ g.1.toList = nameOf r.1 := by
  have : (decode 6 r.2, nameOf r.1) ∈ standard.map (fun g => (courseHead 6 g.2, g.1.toList)) := by
    rw [groups_ok]; exact List.mem_map_of_mem hr
  obtain ⟨g, hg, e⟩ := List.mem_map.1 this
  have e1 : courseHead 6 g.2 = decode 6 r.2 := congrArg (·.1) e
  have e2 : g.1.toList = nameOf r.1 := congrArg (·.2) e
  refine ⟨g, hg, fun b hb => ?_, e2⟩
  have l6 := standard_six g hg
  apply List.ext_getElem (by simp [courseHead, ext])
  intro i h1 h2
  simp only [courseHead, ext, List.getElem_map, List.getElem_range, l6]
  split
  · rename_i c
    have : (decode 6 r.2)[i]? = (courseHead 6 g.2)[i]? := by rw [e1]
    simp only [decode, courseHead, List.getElem?_map, List.getElem?_range c, Option.map_some, l6, if_pos c] at this
    exact (Option.some.inj this).symm
  · rfl

theorem groups_big {b : Nat} (h8 : b ≠ 8) : groups b = standard.map fun g => (shortName b g.1.toList, g.2) := by
  unfold groups
  rw [if_neg h8]
  apply List.map_congr_left
  intro g _
  unfold shortName
  rw [if_neg h8]
  have : (b = 10 ∧ g.1 = "D1") ↔ (b = 10 ∧ g.1.toList = "D1".toList) :=
    and_congr_right fun _ => ⟨fun h => by rw [h], fun h => String.toList_inj.1 h⟩
  by_cases c : b = 10 ∧ g.1 = "D1"
  · rw [if_pos c, if_pos (this.1 c)]
  · rw [if_neg c, if_neg (fun h => c (this.2 h))]

/-- The representatives are named rows. -/
theorem groups_named {b : Nat} (hb : 8 ≤ b) {g : List Char × List Nat} (hg : g ∈ groups b) :
    Named b (courseHead b g.2) g.1 := by
  by_cases h8 : b = 8
  · subst h8
    obtain ⟨k, hk, e1, e2⟩ := groups8_known g hg
    exact named8.2 ⟨k, hk, e1, e2⟩
  · rw [groups_big h8] at hg
    obtain ⟨g, hg', rfl⟩ := List.mem_map.1 hg
    obtain ⟨r, -, h1, h2, h3⟩ := standard_reps hg'
    exact Or.inl ⟨_, h3, h1 b (by omega), by rw [h2]⟩

/-- A row whose digits are those of a moved row. -/
theorem moved_of_digits {b x t d e : Nat} (vt : Row.Valid (decode b t)) (vd : Row.Valid (decode b d))
    (ve : Row.Valid (decode b e)) (hx : ∀ m, m < b → dig x m = dig d (dig t (dig e m))) :
    permOf (decode b x) = permOf (decode b d) * permOf (decode b t) * permOf (decode b e) := by
  have e : decode b x = Row.mul (Row.mul (decode b d) (decode b t)) (decode b e) := by
    apply Row.ext_fn
    · simp [length_decode, Row.mul]
    · intro m hm
      rw [length_decode] at hm
      have l1 : Row.fn (decode b e) m < b := ve.fn_lt (by rw [length_decode]) hm
      have l2 : Row.fn (decode b t) (Row.fn (decode b e) m) < b := vt.fn_lt (by rw [length_decode]) l1
      rw [Row.fn_mul, Row.fn_mul, fn_decode l2, fn_decode l1, fn_decode hm, fn_decode hm, hx m hm]
  rw [e, permOf_mul (Row.valid_mul vd vt) ve, permOf_mul vd vt]

theorem encode_lt {f : Nat → Nat} {n : Nat} (h : ∀ i, i < n → f i < 16) : encode f n < 16 ^ n := by
  induction n with
  | zero => simp [encode]
  | succ n ih =>
    have e : encode f (n + 1) = encode f n + f n * 16 ^ n := rfl
    have h1 := ih fun i hi => h i (by omega)
    have h2 : f n * 16 ^ n ≤ 15 * 16 ^ n := Nat.mul_le_mul_right _ (by have := h n (by omega); omega)
    rw [e, pow_succ]
    omega

theorem dig_encode {f : Nat → Nat} {n : Nat} (h : ∀ i, i < n → f i < 16) {m : Nat} (hm : m < n) :
    dig (encode f n) m = f m := by
  induction n with
  | zero => omega
  | succ n ih =>
    have e : encode f (n + 1) = encode f n + f n * 16 ^ n := rfl
    have hl := encode_lt (f := f) (n := n) fun i hi => h i (by omega)
    unfold dig at ih ⊢
    rw [e]
    by_cases c : m = n
    · subst c
      rw [Nat.add_mul_div_right _ _ (by positivity), Nat.div_eq_of_lt hl, Nat.zero_add, Nat.mod_eq_of_lt (h m (by omega))]
    · rw [← ih (fun i hi => h i (by omega)) (by omega)]
      have e2 : f n * 16 ^ n = (f n * 16 ^ (n - m - 1) * 16) * 16 ^ m := by
        rw [mul_assoc, mul_assoc, ← pow_succ', ← pow_add]; congr 2; omega
      rw [e2, Nat.add_mul_div_right _ _ (by positivity), Nat.add_mul_mod_self_right]

theorem nthB_eq {l : List Nat} {i : Nat} (h : i < l.length) : nthB l i = Row.fn l i := by
  induction l generalizing i with
  | nil => simp at h
  | cons a l ih =>
    cases i with
    | zero => rfl
    | succ i =>
      have := ih (i := i) (by simpa using h)
      rw [Row.fn_of_lt h, List.getElem_cons_succ]
      rw [Row.fn_of_lt (by simpa using h)] at this
      exact this

theorem pbs8_zero : ∀ c ∈ pbs8, dig c 0 = 0 := by decide +kernel

theorem eight_spec {w : Nat × Nat × Nat × Nat × Nat} (hw : w ∈ moves8) :
    (w.2.1, lookB w.2.1 known8) ∈ known8 ∧ SameGroup 8 (decode 8 w.2.1) (decode 8 w.1) := by
  obtain ⟨x, r, t, i, j⟩ := w
  have ck := allB_iff.1 eight_ok _ hw
  simp only [Bool.and_eq_true, Bool.or_eq_true, beq_iff, Bool.not_eq_true', beq_false_iff, allN_iff] at ck
  obtain ⟨hrt, hr, hi, hj, hx⟩ := ck
  have mr := lookB_mem hr
  have li : i < pbs8.length := Nat.le_of_ble_eq_true hi
  have lj : j < pbs8.length := Nat.le_of_ble_eq_true hj
  refine ⟨mr, ?_⟩
  have vr : Row.Valid (decode 8 r) := small8.valid (List.mem_append_left _ mr)
  have hd := small8.group.2 ⟨_, nthB_mem li, (valid_pbs8 _ (nthB_mem li)), rfl⟩
  have he := small8.group.2 ⟨_, nthB_mem lj, (valid_pbs8 _ (nthB_mem lj)), rfl⟩
  have vd := valid_pbs8 _ (nthB_mem li)
  have ve := valid_pbs8 _ (nthB_mem lj)
  have vt : Row.Valid (decode 8 t) :=
    ⟨by rw [length_decode]; exact perm_moves8 _ hw, by rw [length_decode]; omega⟩
  have key := moved_of_digits vt vd ve hx
  refine ⟨_, hd, _, he, ?_⟩
  rcases hrt with rfl | hrt
  · exact Or.inl key
  · right
    have : permOf (decode 8 r) = (permOf (decode 8 t))⁻¹ := inverse_of_digits vt vr hrt
    rw [this, inv_inv]; exact key

/-- Every row on eight bells that fixes the treble is in the group of a named row. -/
theorem eight_named {r : Row} (hr : Row.Valid r) (hl : r.length = 8) (h0 : Row.fn r 0 = 0) :
    ∃ r' s, Named 8 r' s ∧ SameGroup 8 r' r := by
  have hi7 : ∃ i, i < 8 ∧ Row.fn r i = 7 := by
    have : 7 ∈ r := (hr.1.mem_iff).2 (by rw [hl]; decide)
    obtain ⟨i, hi, e⟩ := List.getElem_of_mem this
    exact ⟨i, by omega, by rw [Row.fn_of_lt hi, e]⟩
  obtain ⟨i, hi, hri⟩ := hi7
  have i1 : 1 ≤ i := by
    by_contra h
    rw [show i = 0 by omega, h0] at hri
    omega
  obtain ⟨c, hc, hc7⟩ := pbs8_any i hi i1
  have vc := valid_pbs8 c hc
  have hcm : permOf (decode 8 c) ∈ PlainBob 8 := small8.group.2 ⟨c, hc, vc, rfl⟩
  have vx := Row.valid_mul hr vc
  obtain ⟨x, hx⟩ : ∃ x, x = Row.mul r (decode 8 c) := ⟨_, rfl⟩
  rw [← hx] at vx
  have lx : x.length = 8 := by rw [hx]; simp [Row.mul, hl, length_decode]
  have x7 : Row.fn x 7 = 7 := by rw [hx, Row.fn_mul, fn_decode (by omega), hc7, hri]
  have x0 : Row.fn x 0 = 0 := by
    rw [hx, Row.fn_mul, fn_decode (by omega), pbs8_zero c hc, h0]
  obtain ⟨w, hw, hwx⟩ : ∃ w ∈ moves8, decode 8 w.1 = x := by
    have hperm : ∃ t ∈ [1, 2, 3, 4, 5, 6].permutations', x = 0 :: t ++ [7] := by
      rcases x with _ | ⟨a, l⟩
      · simp at lx
      have ha : a = 0 := x0
      subst ha
      have ln : l ≠ [] := by rintro rfl; simp at lx
      have hlast := List.dropLast_append_getLast ln
      have h7 : l.getLast ln = 7 := by
        have : Row.fn (0 :: l) 7 = l.getLast ln := by
          rw [Row.fn_of_lt (by simp at lx ⊢; omega), List.getLast_eq_getElem]
          simp only [List.length_cons] at lx
          have : l.length = 7 := by omega
          simp [this]
        rw [← this, x7]
      rw [h7] at hlast
      refine ⟨l.dropLast, ?_, by rw [List.cons_append, hlast]⟩
      rw [List.mem_permutations']
      have p := vx.1
      rw [lx, ← hlast] at p
      have q : (List.range 8).Perm (0 :: ([1, 2, 3, 4, 5, 6] ++ [7])) := by decide
      have p' := (p.trans q).cons_inv
      exact (List.perm_append_right_iff _).1 p'
    obtain ⟨t, ht, rfl⟩ := hperm
    have ck := allB_iff.1 eight_all t ht
    rw [Bool.not_eq_true', ← Bool.not_eq_true, allB_iff] at ck
    push Not at ck
    obtain ⟨w, hw, hb⟩ := ck
    simp only [ne_eq, Bool.not_eq_true', Bool.not_eq_false, beq_iff] at hb
    refine ⟨w, hw, ?_⟩
    rw [hb]
    apply Row.ext_fn
    · rw [length_decode, lx]
    · intro m hm
      rw [length_decode] at hm
      rw [fn_decode hm, dig_encode (fun i hi => ?_) hm, nthB_eq (by rw [lx]; exact hm)]
      rw [nthB_eq (by rw [lx]; exact hi)]
      have := vx.fn_lt_len (i := i) (by rw [lx]; exact hi)
      rw [lx] at this
      omega
  obtain ⟨hk, hs⟩ := eight_spec hw
  refine ⟨_, _, named8.2 ⟨_, hk, rfl, rfl⟩, ?_⟩
  rw [hwx] at hs
  obtain ⟨d, hd, e, he, h⟩ := hs
  rw [hx, permOf_mul hr vc] at h
  refine ⟨d, hd, e * (permOf (decode 8 c))⁻¹, Subgroup.mul_mem _ he (Subgroup.inv_mem _ hcm), h.imp (fun h => ?_) fun h => ?_⟩
  · rw [← mul_assoc, ← h]; group
  · rw [← mul_assoc, ← h]; group

/-- A named row on eight bells is in the group of the representative of its name. -/
theorem eight_rep {k : Nat × Nat} (hk : k ∈ known8) :
    (k.2, lookB k.2 reps8) ∈ reps8 ∧ SameGroup 8 (decode 8 (lookB k.2 reps8)) (decode 8 k.1) := by
  have ck := allB_iff.1 eight_reps k hk
  rw [Bool.not_eq_true', ← Bool.not_eq_true, allB_iff] at ck
  push Not at ck
  obtain ⟨w, hw, hb⟩ := ck
  simp only [ne_eq, Bool.not_eq_true', Bool.not_eq_false, Bool.and_eq_true, beq_iff] at hb
  obtain ⟨h1, h2⟩ := eight_spec hw
  rw [hb.1, hb.2] at h2
  rw [hb.2] at h1
  exact ⟨lookB_mem (known8_ne _ h1), h2⟩

theorem rep_ten : SameGroup 10 (ext 10 (lookB 16945 reps)) (ext 10 (lookB 17457 reps)) := by
  obtain ⟨h1, h2, h3, h4, h5, h6⟩ := b1_d1
  rw [h1, h2]
  have v := small10.valid h3
  have hd := small10.group.2 ⟨_, h5, valid_pbs10 _ h5, rfl⟩
  have he := small10.group.2 ⟨_, h6, valid_pbs10 _ h6, rfl⟩
  exact ⟨_, hd, _, he, Or.inl (moved_of_digits v (valid_pbs10 _ h5) (valid_pbs10 _ h6) fun m hm =>
    beq_iff.1 (allN_iff.1 ten_ok m hm))⟩

theorem rep_mem {b : Nat} (he : b % 2 = 0) (hb : 10 ≤ b) (hb' : b ≤ 256) {h : Nat × Nat} (hh : h ∈ heads) :
    (h.2, lookB h.2 reps) ∈ reps := by
  obtain ⟨h1, -⟩ := same_rep_big he hb hb' hh
  exact lookB_mem (heads_ne _ h1)

/-- A named row is in the group of its name. -/
theorem Named.hasSymbol {b : Nat} (he : b % 2 = 0) (hb : 8 ≤ b) (hb' : b ≤ 256) {r : Row} {s : List Char}
    (h : Named b r s) : HasSymbol b s r := by
  by_cases h8 : b = 8
  · subst h8
    obtain ⟨k, hk, rfl, rfl⟩ := named8.1 h
    obtain ⟨h1, h2⟩ := eight_rep hk
    obtain ⟨g, hg, e1, e2⟩ := reps8_groups _ h1
    exact ⟨g, hg, e2.symm, by rw [e1]; exact h2⟩
  · rcases h with ⟨h, hh, rfl, rfl⟩ | ⟨h, -⟩
    · obtain ⟨h1, h2⟩ := same_rep_big he (by omega) hb' hh
      obtain ⟨g, hg, e1, e2⟩ := reps_standard (rep_mem he (by omega) hb' hh)
      refine ⟨(shortName b g.1.toList, g.2), ?_, by rw [e2], ?_⟩
      · rw [groups_big h8]; exact List.mem_map_of_mem (f := fun g : String × List Nat => (shortName b g.1.toList, g.2)) hg
      · rw [e1 b (by omega)]; exact h2
    · exact absurd h h8

/-- Two rows of one name are in one group. -/
theorem Named.group {b : Nat} (he : b % 2 = 0) (hb : 8 ≤ b) (hb' : b ≤ 256) {r r' : Row} {s : List Char}
    (h : Named b r s) (h' : Named b r' s) : SameGroup b r r' := by
  by_cases h8 : b = 8
  · subst h8
    obtain ⟨k, hk, rfl, rfl⟩ := named8.1 h
    obtain ⟨k', hk', rfl, e⟩ := named8.1 h'
    have e2 : k.2 = k'.2 := by
      rw [← letter_code k hk, ← letter_code k' hk', List.cons.inj e |>.1]
    have a := (eight_rep hk).2
    have b := (eight_rep hk').2
    rw [← e2] at b
    exact a.symm.trans b
  · rcases h with ⟨h, hh, rfl, hs⟩ | ⟨h, -⟩
    · rcases h' with ⟨h', hh', rfl, hs'⟩ | ⟨h', -⟩
      · have a := (same_rep_big he (by omega) hb' hh).2
        have c := (same_rep_big he (by omega) hb' hh').2
        by_cases h10 : b = 10
        · subst h10
          have e := code_name10 h hh
          have e' := code_name10 h' hh'
          rw [← hs] at e
          rw [← hs', e] at e'
          have norm : ∀ h ∈ heads, SameGroup 10 (ext 10 (lookB (if h.2 = 17457 then 16945 else h.2) reps)) (ext 10 h.1) := by
            intro h hh
            have a := (same_rep_big he (by omega) hb' hh).2
            split
            · rename_i q; rw [q] at a; exact rep_ten.trans a
            · exact a
          have n1 := norm h hh
          have n2 := norm h' hh'
          rw [e'] at n1
          exact n1.symm.trans n2
        · rw [shortName_big h8 h10] at hs hs'
          have e2 : h.2 = h'.2 := by rw [← code_name h hh, ← code_name h' hh', ← hs, hs']
          rw [← e2] at c
          exact a.symm.trans c
      · exact absurd h' h8
    · exact absurd h h8

/-- A course head has one symbol at most. -/
theorem hasSymbol_unique {b : Nat} (he : b % 2 = 0) (hb : 8 ≤ b) (hb' : b ≤ 256) {r : Row} {s s' : List Char}
    (h : HasSymbol b s r) (h' : HasSymbol b s' r) : s = s' := by
  obtain ⟨g, hg, rfl, hs⟩ := h
  obtain ⟨g', hg', rfl, hs'⟩ := h'
  exact Named.same he hb hb' (groups_named hb hg) (groups_named hb hg') (hs.trans hs'.symm)

end Falseness
end Ringing
