import Verif.Lemmas.FalseTable3
/-
The named course heads on eight, ten and twelve bells, and on all even numbers of bells.
-/
namespace Ringing
namespace Falseness
open Spec

theorem mem_pbs {b : Nat} {pbs : List Nat} (he : b % 2 = 0) (hb : 4 ≤ b) (hb' : b ≤ 256)
    (hg : (Group.ofRowsC (firstLeadHead b) (seconds b) >>= fun g => .ok g.v) = .ok (pbs.map (decode b)))
    {p : Equiv.Perm Nat} : p ∈ PlainBob b ↔ ∃ c ∈ pbs, Row.Valid (decode b c) ∧ p = permOf (decode b c) := by
  obtain ⟨g, e1, e2, e3⟩ := Group.C31_two ((isRow_iff_valid _).2 (valid_firstLeadHead he hb hb'))
    ((isRow_iff_valid _).2 (valid_seconds he hb'))
  rw [e1, Out.ok_bind] at hg
  injection hg with hg
  have hgb : g.b = b := by rw [e2]; simp [firstLeadHead, seconds]
  constructor
  · intro h
    obtain ⟨r, hr, e⟩ := e3.all p h
    rw [hg, List.mem_map] at hr
    obtain ⟨c, hc, rfl⟩ := hr
    refine ⟨c, hc, ?_, e.symm⟩
    exact (isRow_iff_valid _).1 ((e3.mem _).1 (by rw [hg]; exact List.mem_map_of_mem hc)).1
  · rintro ⟨c, hc, -, rfl⟩
    exact ((e3.mem (decode b c)).1 (by rw [hg]; exact List.mem_map_of_mem hc)).2.2

/-- What is known of the named rows on a few bells. -/
structure Small (b : Nat) (pbs : List Nat) (kn src : List (Nat × Nat)) : Prop where
  even : b % 2 = 0
  ge : 4 ≤ b
  le : b ≤ 256
  group : ∀ {p : Equiv.Perm Nat}, p ∈ PlainBob b ↔ ∃ c ∈ pbs, Row.Valid (decode b c) ∧ p = permOf (decode b c)
  moves : ∃ t c, t = b - 1 ∧ c < b ∧ checkMoves b c pbs kn src = true ∧ checkKnown b t c kn src = true
  sub : ∀ x ∈ kn, x ∈ src
  perm : ∀ x ∈ src, (decode b x.1).Perm (List.range b)

theorem small8 : Small 8 pbs8 known8 (known8 ++ inverse8) :=
  ⟨rfl, by omega, by omega, mem_pbs rfl (by omega) (by omega) group8, ⟨7, 7, rfl, by omega, moves8_ok, known8_ok⟩,
    fun _ h => List.mem_append_left _ h, perm8⟩

theorem small10 : Small 10 pbs10 known10 known10 :=
  ⟨rfl, by omega, by omega, mem_pbs rfl (by omega) (by omega) group10, ⟨9, 8, rfl, by omega, moves10_ok, known10_ok⟩,
    fun _ h => h, perm10⟩

theorem small12 : Small 12 pbs12 known12 known12 :=
  ⟨rfl, by omega, by omega, mem_pbs rfl (by omega) (by omega) group12, ⟨11, 10, rfl, by omega, moves12_ok, known12_ok⟩,
    fun _ h => h, perm12⟩

variable {b : Nat} {pbs : List Nat} {kn src : List (Nat × Nat)}

theorem Small.valid (S : Small b pbs kn src) {x : Nat × Nat} (hx : x ∈ src) : Row.Valid (decode b x.1) :=
  ⟨by rw [length_decode]; exact S.perm x hx, by rw [length_decode]; exact S.le⟩

/-- The digits of a moved row. -/
theorem moved_digits {x y d e : Nat} (hx : Row.Valid (decode b x)) (hy : Row.Valid (decode b y))
    (hd : Row.Valid (decode b d)) (he : Row.Valid (decode b e))
    (h : permOf (decode b y) = permOf (decode b d) * permOf (decode b x) * permOf (decode b e)) {i : Nat} (hi : i < b) :
    dig d (dig x (dig e i)) = dig y i := by
  have := congrArg (fun p : Equiv.Perm Nat => p i) h
  simp only [Equiv.Perm.mul_apply, permOf_apply hx, permOf_apply hy, permOf_apply hd, permOf_apply he] at this
  have l1 : Row.fn (decode b e) i < b := he.fn_lt (by rw [length_decode]) hi
  have l2 : Row.fn (decode b x) (Row.fn (decode b e) i) < b := hx.fn_lt (by rw [length_decode]) l1
  rw [fn_decode l2, fn_decode l1, fn_decode hi, fn_decode hi] at this
  exact this.symm

theorem Small.moved (S : Small b pbs kn src) {x y : Nat × Nat} (hx : x ∈ src) (hy : y ∈ kn) {d e : Equiv.Perm Nat}
    (hd : d ∈ PlainBob b) (he : e ∈ PlainBob b) (h : permOf (decode b y.1) = d * permOf (decode b x.1) * e) :
    x.2 = y.2 := by
  obtain ⟨dc, hdc, vd, rfl⟩ := S.group.1 hd
  obtain ⟨ec, hec, ve, rfl⟩ := S.group.1 he
  obtain ⟨t, c, ht, hcb, hm, hk⟩ := S.moves
  have hdig : ∀ i, i < b → dig dc (dig x.1 (dig ec i)) = dig y.1 i := fun i hi =>
    moved_digits (S.valid hx) (S.valid (S.sub y hy)) vd ve h hi
  obtain ⟨-, kt, kc, ken, klk, knz, -⟩ := known_spec hk hy
  have ck := allB_iff.1 (allB_iff.1 (allB_iff.1 hm x hx) dc hdc) ec hec
  unfold checkMove at ck
  have en : encode (fun i => dig dc (dig x.1 (dig ec i))) b = y.1 := by
    rw [← ken]; exact encode_congr (g := dig y.1) fun i hi => hdig i hi
  rw [hdig (b - 1) (by have := S.ge; omega), hdig c hcb, ← ht, kt, kc, Nat.beq_refl, Nat.beq_refl, en, klk] at ck
  by_contra hne
  rw [show Nat.beq y.2 x.2 = false from beq_false_iff.2 (Ne.symm hne), show Nat.beq y.2 0 = false from beq_false_iff.2 knz] at ck
  exact absurd ck (by decide)

theorem inverse_of_digits {x y : Nat} (hx : Row.Valid (decode b x)) (hy : Row.Valid (decode b y))
    (h : ∀ i, i < b → dig y (dig x i) = i) : permOf (decode b y) = (permOf (decode b x))⁻¹ := by
  rw [eq_inv_iff_mul_eq_one]
  ext i
  rw [Equiv.Perm.mul_apply, permOf_apply hx, permOf_apply hy]
  by_cases c : i < b
  · have l1 : Row.fn (decode b x) i < b := hx.fn_lt (by rw [length_decode]) c
    rw [fn_decode l1, fn_decode c, h i c]; rfl
  · rw [Row.fn_of_ge (r := decode b x) (by rw [length_decode]; omega), Row.fn_of_ge (by rw [length_decode]; omega)]; rfl

theorem Small.same (S : Small b pbs kn src) {x y : Nat × Nat} (hx : x ∈ kn) (hy : y ∈ kn)
    (h : SameGroup b (decode b x.1) (decode b y.1)) : x.2 = y.2 := by
  obtain ⟨d, hd, e, he, h | h⟩ := h
  · exact S.moved (S.sub x hx) hy hd he h
  · obtain ⟨t, c, ht, hcb, hm, hk⟩ := S.moves
    obtain ⟨-, -, -, -, -, -, z, hz, hzn, hzi⟩ := known_spec hk hx
    rw [← inverse_of_digits (S.valid (S.sub x hx)) (S.valid hz) hzi] at h
    rw [← hzn]
    exact S.moved hz hy hd he h

/-! ### All numbers of bells -/

/-- The rows that the code gives a name. -/
def Named (b : Nat) (r : Row) (s : List Char) : Prop :=
  (∃ h ∈ heads, r = ext b h.1 ∧ s = shortName b (nameOf h.2)) ∨ b = 8 ∧ (r, s) ∈ xyz

theorem named8 {r : Row} {s : List Char} : Named 8 r s ↔ ∃ k ∈ known8, r = decode 8 k.1 ∧ s = [Char.ofNat k.2] := by
  have e : (r, s) ∈ known8.map (fun k => (decode 8 k.1, [Char.ofNat k.2])) ↔
      (r, s) ∈ heads.map (fun h => (ext 8 h.1, shortName 8 (nameOf h.2))) ++ xyz := by rw [known8_rows]
  rw [List.mem_append, List.mem_map, List.mem_map] at e
  constructor
  · intro h
    obtain ⟨k, hk, e'⟩ := e.2 (h.imp (fun ⟨h, hh, h1, h2⟩ => ⟨h, hh, by rw [h1, h2]⟩) (·.2))
    exact ⟨k, hk, (congrArg (·.1) e').symm, (congrArg (·.2) e').symm⟩
  · rintro ⟨k, hk, h1, h2⟩
    refine (e.1 ⟨k, hk, by rw [h1, h2]⟩).imp (fun ⟨h, hh, e'⟩ => ⟨h, hh, (congrArg (·.1) e').symm, (congrArg (·.2) e').symm⟩)
      fun h => ⟨rfl, h⟩

theorem named_small {b : Nat} (h8 : b ≠ 8) {kn : List (Nat × Nat)}
    (hk : kn.map (fun k => (decode b k.1, nameOf k.2)) = heads.map (fun h => (ext b h.1, shortName b (nameOf h.2))))
    {r : Row} {s : List Char} : Named b r s ↔ ∃ k ∈ kn, r = decode b k.1 ∧ s = nameOf k.2 := by
  have e : (r, s) ∈ kn.map (fun k => (decode b k.1, nameOf k.2)) ↔
      (r, s) ∈ heads.map (fun h => (ext b h.1, shortName b (nameOf h.2))) := by rw [hk]
  rw [List.mem_map, List.mem_map] at e
  constructor
  · rintro (⟨h, hh, h1, h2⟩ | ⟨h, -⟩)
    · obtain ⟨k, hk, e'⟩ := e.2 ⟨h, hh, by rw [h1, h2]⟩
      exact ⟨k, hk, (congrArg (·.1) e').symm, (congrArg (·.2) e').symm⟩
    · exact absurd h h8
  · rintro ⟨k, hk, h1, h2⟩
    obtain ⟨h, hh, e'⟩ := e.1 ⟨k, hk, by rw [h1, h2]⟩
    exact Or.inl ⟨h, hh, (congrArg (·.1) e').symm, (congrArg (·.2) e').symm⟩

theorem shortName_big {b : Nat} (h8 : b ≠ 8) (h10 : b ≠ 10) (s : List Char) : shortName b s = s := by
  unfold shortName
  rw [if_neg h8, if_neg (fun h => h10 h.1)]

theorem Named.valid {b : Nat} (hb : 8 ≤ b) (hb' : b ≤ 256) {r : Row} {s : List Char} (h : Named b r s) :
    Row.Valid r ∧ r.length = b := by
  rcases h with ⟨h, hh, rfl, -⟩ | ⟨h8, h⟩
  · exact ⟨valid_ext (by omega) hb' hh, length_ext _ _⟩
  · subst h8
    unfold xyz at h
    simp only [List.mem_cons, List.not_mem_nil, or_false, Prod.mk.injEq] at h
    rcases h with ⟨rfl, -⟩ | ⟨rfl, -⟩ | ⟨rfl, -⟩ <;> exact ⟨by decide, rfl⟩

/-- Two named rows in one group have the same name. -/
theorem Named.same {b : Nat} (he : b % 2 = 0) (hb : 8 ≤ b) (hb' : b ≤ 256) {r r' : Row} {s s' : List Char}
    (h : Named b r s) (h' : Named b r' s') (hs : SameGroup b r r') : s = s' := by
  by_cases h14 : 14 ≤ b
  · rcases h with ⟨h, hh, rfl, rfl⟩ | ⟨h, -⟩
    · rcases h' with ⟨h', hh', rfl, rfl⟩ | ⟨h', -⟩
      · rw [shortName_big (by omega) (by omega), shortName_big (by omega) (by omega)]
        obtain ⟨d, hd, e, hee, hs | hs⟩ := hs
        · rw [same_name_big he h14 hb' hh hh' hd hee hs]
        · obtain ⟨y, hy, hyn, hyi⟩ := head_inverse (b := b) (by omega) hb' hh
          rw [← hyi] at hs
          rw [← hyn, same_name_big he h14 hb' hy hh' hd hee hs]
      · omega
    · omega
  · have : b = 8 ∨ b = 10 ∨ b = 12 := by omega
    rcases this with rfl | rfl | rfl
    · obtain ⟨k, hk, rfl, rfl⟩ := named8.1 h
      obtain ⟨k', hk', rfl, rfl⟩ := named8.1 h'
      rw [small8.same hk hk' hs]
    · obtain ⟨k, hk, rfl, rfl⟩ := (named_small (by omega) known10_rows).1 h
      obtain ⟨k', hk', rfl, rfl⟩ := (named_small (by omega) known10_rows).1 h'
      rw [small10.same hk hk' hs]
    · obtain ⟨k, hk, rfl, rfl⟩ := (named_small (by omega) known12_rows).1 h
      obtain ⟨k', hk', rfl, rfl⟩ := (named_small (by omega) known12_rows).1 h'
      rw [small12.same hk hk' hs]

end Falseness
end Ringing
