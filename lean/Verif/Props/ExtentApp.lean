import Verif.Model.ExtentApp
import Verif.Props.Extent
/-! C95: the rows written by `extent`. -/
namespace Ringing
namespace ExtentApp
open Row Spec

/-- The row after `k` increments. -/
def rowAt (nw nh nt k : Nat) : Row := match ExtIter.incN nw nh k (ExtIter.start nt) with
  | .ok it => it.r
  | _ => []

/-- Whether a row is written. -/
def keep (ic : Bool) (r : Row) : Bool := !ic || decide (sign r > 0)

theorem sign_pos {r : Row} (hr : Valid r) : sign r > 0 ↔ signC r = .ok 1 := by
  rw [signC_eq hr, sign_eq hr]
  rcases Int.units_eq_one_or (Equiv.Perm.sign (permFin r hr r.length le_rfl)) with h | h <;> rw [h] <;> simp

theorem rowAt_spec {nw nh nt k : Nat} (h : nh + nw ≤ nt) (ht : nt ≤ 256) (hk : k < fact nw) :
    ExtIter.incN nw nh k (ExtIter.start nt) = .ok ⟨false, rowAt nw nh nt k⟩ ∧ InExtent nw nh nt (rowAt nw nh nt k) := by
  obtain ⟨r, h1, h2⟩ := C24_visits_extent h ht hk
  have : rowAt nw nh nt k = r := by unfold rowAt; rw [h1]
  rw [this]; exact ⟨h1, h2⟩

theorem loopC_eq {nw nh nt : Nat} (h : nh + nw ≤ nt) (ht : nt ≤ 256) (ic : Bool) : ∀ (d k : Nat), k + d = fact nw → ∀ fuel, d < fuel →
    ∀ it, ExtIter.incN nw nh k (ExtIter.start nt) = .ok it →
    loopC nw nh ic fuel it = .ok (((List.range' k d).map (rowAt nw nh nt)).filter (keep ic)) := by
  intro d
  induction d with
  | zero =>
    intro k hk fuel hf it hit
    obtain ⟨fuel, rfl⟩ : ∃ f, fuel = f + 1 := ⟨fuel - 1, by omega⟩
    obtain ⟨it', h1, h2, _⟩ := C24_end h ht
    rw [← hk, Nat.add_zero, hit] at h1
    injection h1 with h1
    subst h1
    rw [loopC, if_pos (by simp [ExtIter.eq, h2])]; rfl
  | succ d ih =>
    intro k hk fuel hf it hit
    obtain ⟨fuel, rfl⟩ : ∃ f, fuel = f + 1 := ⟨fuel - 1, by omega⟩
    obtain ⟨h1, h2⟩ := rowAt_spec h ht (show k < fact nw by omega)
    rw [hit] at h1
    injection h1 with h1
    subst h1
    have hv : Valid (rowAt nw nh nt k) := (isRow_iff_valid _).1 h2.1
    have hnext : ∃ it', ExtIter.incC nw nh ⟨false, rowAt nw nh nt k⟩ = .ok it' ∧ ExtIter.incN nw nh (k + 1) (ExtIter.start nt) = .ok it' := by
      have e := incN_succ (nw := nw) (nh := nh) k (ExtIter.start nt)
      rw [hit, Out.ok_bind] at e
      by_cases hd : d = 0
      · obtain ⟨it', g1, _, _⟩ := C24_end h ht
        rw [show k + 1 = fact nw by omega] at e ⊢
        exact ⟨it', by rw [← e, g1], g1⟩
      · obtain ⟨g1, _⟩ := rowAt_spec h ht (show k + 1 < fact nw by omega)
        exact ⟨_, by rw [← e, g1], g1⟩
    obtain ⟨it', g1, g2⟩ := hnext
    have hp : (if ic = true then signC (rowAt nw nh nt k) >>= fun s => .ok (decide (s > 0)) else .ok true : Out Bool)
        = .ok (keep ic (rowAt nw nh nt k)) := by
      cases ic
      · rfl
      · rw [if_pos rfl, signC_eq hv]; rfl
    rw [loopC, if_neg (by simp [ExtIter.eq])]
    dsimp only
    rw [hp, Out.ok_bind, g1, Out.ok_bind, ih (k + 1) (by omega) fuel (by omega) _ g2, Out.ok_bind, List.range'_succ, List.map_cons,
      List.filter_cons]

/-- C95: with sensible arguments for up to 256 bells the program ends and writes, in increasing order and so each once, the rows on
the number of bells with the hunts and tenors in their places; with `-i` those in course. -/
theorem C95_rows {bells hunts tenors : Nat} (h : hunts + tenors ≤ bells) (h256 : bells ≤ 256) (ic : Bool) :
    ∃ N outs, (∀ fuel, N ≤ fuel → mainC bells hunts tenors ic fuel = .ok (some outs)) ∧ outs.Pairwise LexLt ∧
      ∀ r, r ∈ outs ↔ InExtent (bells - tenors - hunts) hunts bells r ∧ (ic = true → signC r = .ok 1) := by
  have hh : hunts + (bells - tenors - hunts) ≤ bells := by omega
  generalize hnw : bells - tenors - hunts = nw at hh ⊢
  refine ⟨fact nw + 1, ((List.range' 0 (fact nw)).map (rowAt nw hunts bells)).filter (keep ic), ?_, ?_, ?_⟩
  · intro fuel hf
    rw [mainC, if_neg (by omega), if_neg (by omega), show ((bells : Int) - tenors - hunts).toNat = nw by omega]
    simp only [Int.toNat_natCast]
    rw [loopC_eq hh h256 ic (fact nw) 0 (by omega) fuel (by omega) _ rfl]; rfl
  · refine List.Pairwise.filter _ (List.pairwise_map.2 ?_)
    refine List.Pairwise.imp_of_mem ?_ (List.pairwise_lt_range' (s := 0) (n := fact nw))
    intro a b _ hb hab
    rw [List.mem_range'_1] at hb
    exact C24_increasing hh h256 (by omega) hab (rowAt_spec hh h256 (by omega)).1 (rowAt_spec hh h256 (by omega)).1
  · intro r
    have hk : ∀ r, InExtent nw hunts bells r → (keep ic r = true ↔ (ic = true → signC r = .ok 1)) := by
      intro r hr
      rw [← sign_pos ((isRow_iff_valid _).1 hr.1), keep]
      cases ic <;> simp
    rw [List.mem_filter, List.mem_map]
    constructor
    · rintro ⟨⟨k, hk', rfl⟩, hx⟩
      rw [List.mem_range'_1] at hk'
      have := (rowAt_spec hh h256 (show k < fact nw by omega)).2
      exact ⟨this, (hk _ this).1 hx⟩
    · rintro ⟨hr, hx⟩
      obtain ⟨k, h1, h2⟩ := C24_complete hh h256 hr
      refine ⟨⟨k, by rw [List.mem_range'_1]; omega, ?_⟩, (hk _ hr).2 hx⟩
      unfold rowAt; rw [h2]

/-- C95: any other numbers, up to 256 bells or not, are refused. -/
theorem C95_refused {bells hunts tenors : Int} (h : ¬ (0 ≤ hunts ∧ 0 ≤ tenors ∧ hunts + tenors ≤ bells)) (ic : Bool) (fuel : Nat) :
    mainC bells hunts tenors ic fuel = .ok none := by
  rw [mainC]
  by_cases h1 : bells < 0 ∨ hunts < 0 ∨ tenors < 0
  · rw [if_pos h1]
  · rw [if_neg h1, if_pos (by omega)]

/-- C95: more bells than there can be are not refused: for 257 what is written is no row, as a bell occurs twice. -/
theorem C95_too_many : ∃ r, (∀ fuel, 2 ≤ fuel → mainC 257 257 0 false fuel = .ok (some [r])) ∧ ¬ IsRow r := by
  refine ⟨roundsC 257, ?_, ?_⟩
  · intro fuel hf
    obtain ⟨fuel, rfl⟩ : ∃ f, fuel = f + 2 := ⟨fuel - 2, by omega⟩
    have hl : (roundsC 257).length = 257 := by simp [roundsC]
    rw [mainC, if_neg (by omega), if_neg (by omega)]
    show (loopC 0 257 false (fuel + 2) ⟨false, roundsC 257⟩ >>= fun rs => .ok (some rs)) = _
    have hi : ExtIter.incC 0 257 ⟨false, roundsC 257⟩ = .ok ⟨true, []⟩ := by
      simp [ExtIter.incC, hl, nextPerm, permStep]
    rw [loopC, if_neg (by simp [ExtIter.eq]), if_neg (by simp), Out.ok_bind, hi, Out.ok_bind, loopC, if_pos (by simp [ExtIter.eq]),
      Out.ok_bind]
    rfl
  · rw [isRow_iff_valid]; decide +kernel

example : mainC 4 1 0 true 100 = .ok (some [[0, 1, 2, 3], [0, 2, 3, 1], [0, 3, 1, 2]]) := by decide +kernel

end ExtentApp
end Ringing
