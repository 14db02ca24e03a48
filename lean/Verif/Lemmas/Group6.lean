import Verif.Lemmas.Group5
import Mathlib.Tactic.IntervalCases
/- Helper lemmas: the fast path of the coset label. -/
namespace Ringing
open Spec
namespace Group

theorem factorialC_big {n : Nat} (h : n ≤ 20) (hf : factorialC n < 109641728) : n ≤ 12 := by
  by_contra hc
  have h1 : 13 ≤ n := by omega
  interval_cases n <;> revert hf <;> decide +kernel

theorem factorialC_pos {n : Nat} (h : n ≤ 20) : 0 < factorialC n := by
  interval_cases n <;> decide +kernel

/-- The test for a direct product of symmetric groups is right for groups of reasonable size. -/
theorem productLoop_spec {gsize : Nat} (hg : gsize < 109641728) : ∀ (o : List (List Nat)) (sz : Nat), 0 < sz →
    productLoop gsize o sz = true → gsize = sz * (o.map fun x => x.length.factorial).prod := by
  intro o
  induction o with
  | nil => intro sz _ h; simp [productLoop] at h; simp [h]
  | cons x o ih =>
    intro sz hsz h
    unfold productLoop at h
    by_cases h1 : x.length > 20
    · rw [if_pos h1] at h; cases h
    · rw [if_neg h1] at h
      simp only at h
      by_cases h2 : factorialC x.length > (2 ^ 64 - 1) / sz
      · rw [if_pos h2] at h; cases h
      · rw [if_neg h2] at h
        by_cases h3 : sz * factorialC x.length > gsize
        · rw [if_pos h3] at h; cases h
        · rw [if_neg h3] at h
          have hp := factorialC_pos (n := x.length) (by omega)
          have hle : factorialC x.length ≤ sz * factorialC x.length := Nat.le_mul_of_pos_left _ hsz
          have h12 := factorialC_big (n := x.length) (by omega) (by omega)
          rw [ih _ (Nat.mul_pos hsz hp) h, factorialC_small h12, List.map_cons, List.prod_cons, Nat.mul_assoc]

theorem fiber_card {v : List Row} {b : Nat} (h : IsGrp v b) {j : Nat} (hj : j < b) :
    Fintype.card {a : Fin b // orb v a = orb v j} = (orb v j).length := by
  have hlt : ∀ x ∈ orb v j, x < b := by
    intro x hx
    obtain ⟨r, hr, rfl⟩ := mem_orb.1 hx
    have := h.rows r hr
    exact this.1.fn_lt (by omega) hj
  have hnd : (orb v j).Nodup := (orb_incr v j).nodup natSTO
  rw [Fintype.card_subtype]
  rw [← List.toFinset_card_of_nodup hnd]
  rw [← Finset.card_map ⟨Fin.val, Fin.val_injective⟩]
  congr 1
  ext x
  simp only [Finset.mem_map, Finset.mem_filter, Finset.mem_univ, true_and, Function.Embedding.coeFn_mk,
    List.mem_toFinset]
  constructor
  · rintro ⟨a, ha, rfl⟩
    rw [← ha]; exact mem_orb_self h _
  · intro hx
    exact ⟨⟨x, hlt x hx⟩, orb_eq h hx, rfl⟩

/-- If the number of elements is the product of the factorials of the sizes of the orbits then every
permutation that keeps each orbit belongs to the group. -/
theorem full_of_card {g : Group} (h : Good g)
    (hc : g.v.length = (g.o.map fun x => x.length.factorial).prod) {x : Row} (hx : Row.Valid x)
    (hl : x.length = g.b) (hk : ∀ j, j < g.b → Row.fn x j ∈ orb g.v j) : x ∈ g.v := by
  have hg := h.grp
  set f : Fin g.b → List Nat := fun a => orb g.v a with hf
  have hcard := DomMulAct.stabilizer_card' f
  have hospec := orbs_spec g.v g.b 0 [] (by simp)
  rw [← h.o] at hospec
  have himg : Finset.univ.image f = g.o.toFinset := by
    ext y
    simp only [Finset.mem_image, Finset.mem_univ, true_and, List.mem_toFinset, hospec.2 y]
    constructor
    · rintro ⟨a, rfl⟩; exact Or.inr ⟨a, by omega, by omega, rfl⟩
    · rintro (hn | ⟨i, -, hi, rfl⟩)
      · cases hn
      · exact ⟨⟨i, by omega⟩, rfl⟩
  have hprod : ∏ i ∈ Finset.univ.image f, (Fintype.card ({a // f a = i})).factorial = g.v.length := by
    rw [himg, List.prod_toFinset _ hospec.1, hc]
    congr 1
    apply List.map_congr_left
    intro y hy
    rcases (hospec.2 y).1 hy with hn | ⟨i, -, hi, rfl⟩
    · cases hn
    · rw [← fiber_card hg (j := i) (by omega)]
  rw [hprod] at hcard
  -- the rows of the group as permutations that keep the orbits
  let φ : Fin g.v.length → {p : Equiv.Perm (Fin g.b) // f ∘ p = f} := fun i =>
    ⟨Row.permFin g.v[i.1] (hg.rows _ (List.getElem_mem i.2)).1 g.b (by rw [(hg.rows _ (List.getElem_mem i.2)).2]), by
      funext a
      exact orb_eq hg (mem_orb.2 ⟨g.v[i.1], List.getElem_mem i.2, rfl⟩)⟩
  have hinj : Function.Injective φ := by
    intro i k e
    have e1 := congrArg Subtype.val e
    have e2 : g.v[i.1] = g.v[k.1] := by
      apply Row.ext_fn
      · rw [(hg.rows _ (List.getElem_mem i.2)).2, (hg.rows _ (List.getElem_mem k.2)).2]
      · intro a ha
        rw [(hg.rows _ (List.getElem_mem i.2)).2] at ha
        have := congrArg (fun p : Equiv.Perm (Fin g.b) => (p ⟨a, ha⟩ : Nat)) e1
        exact this
    exact Fin.ext (((hg.incr.nodup rowSTO).getElem_inj_iff).1 e2)
  have hsurj : Function.Surjective φ := by
    have := (Fintype.bijective_iff_injective_and_card φ).2 ⟨hinj, by rw [hcard, Fintype.card_fin]⟩
    exact this.2
  obtain ⟨i, hi⟩ := hsurj ⟨Row.permFin x hx g.b (by omega), by
    funext a
    exact orb_eq hg (hk a a.2)⟩
  have : x = g.v[i.1] := by
    apply Row.ext_fn
    · rw [hl, (hg.rows _ (List.getElem_mem i.2)).2]
    · intro a ha
      have := congrArg (fun p => ((Subtype.val p : Equiv.Perm (Fin g.b)) ⟨a, by omega⟩ : Nat)) hi
      exact this.symm
  rw [this]; exact List.getElem_mem i.2

theorem valid_of_inj {l : List Nat} (hb : l.length ≤ 256) (hn : l.Nodup) (h : ∀ x ∈ l, x < l.length) :
    Row.Valid l := by
  refine ⟨?_, hb⟩
  apply List.Subperm.perm_of_length_le
  · exact List.subperm_of_subset hn (fun x hx => List.mem_range.2 (h x hx))
  · simp

theorem fn_some {l : List Nat} {p x : Nat} (h : l[p]? = some x) : Row.fn l p = x := by
  unfold Row.fn; rw [List.getD_eq_getElem?_getD, h]; rfl

/-- The label made by the fast path is the least element of the coset. -/
theorem fast_label {g : Group} (h : Good g)
    (hc : g.v.length = (g.o.map fun x => x.length.factorial).prod) {r : Row} (hr : Row.Valid r)
    (hl : r.length = g.b) :
    ∃ l, (labelOrbitsC r g.o (List.replicate r.length 0) >>= Row.ofVectorC) = .ok l ∧
      l ∈ g.v.map (fun x => Row.mul x r) ∧ ∀ y ∈ g.v.map (fun x => Row.mul x r), Row.lt y l = false := by
  have hg := h.grp
  have hospec := orbs_spec g.v g.b 0 [] (by simp)
  rw [← h.o] at hospec
  have hoi : ∀ y, y ∈ g.o ↔ ∃ i, i < g.b ∧ y = orb g.v i := by
    intro y; rw [hospec.2]
    constructor
    · rintro (hn | ⟨i, -, hi, e⟩)
      · cases hn
      · exact ⟨i, by omega, e⟩
    · rintro ⟨i, hi, e⟩; exact Or.inr ⟨i, by omega, by omega, e⟩
  have hnd : ∀ i, (orb g.v i).Nodup := fun i => (orb_incr g.v i).nodup natSTO
  have hlt : ∀ i, i < g.b → ∀ y ∈ orb g.v i, y < g.b := by
    intro i hi y hy
    obtain ⟨s, hs, rfl⟩ := mem_orb.1 hy
    exact (hg.rows s hs).1.fn_lt (by rw [(hg.rows s hs).2]) hi
  obtain ⟨l, e1, e2, e3, -⟩ := labelOrbitsC_spec hr g.o (List.replicate r.length 0)
    (by intro y hy; obtain ⟨i, -, rfl⟩ := (hoi y).1 hy; exact hnd i)
    (by intro y hy z hz; obtain ⟨i, hi, rfl⟩ := (hoi y).1 hy; rw [hl]; exact hlt i hi z hz)
    (by
      apply List.Pairwise.imp_of_mem _ hospec.1
      intro y z hy hz hne w hw hw'
      obtain ⟨i, -, rfl⟩ := (hoi y).1 hy
      obtain ⟨k, -, rfl⟩ := (hoi z).1 hz
      exact hne ((orb_eq hg hw).symm.trans (orb_eq hg hw')))
    (by simp)
  -- at each position
  have hat : ∀ p, p < g.b → ∃ j, ∃ (hj : j < (orb g.v (Row.fn r p)).length),
      (places r (orb g.v (Row.fn r p)))[j]'(by rw [places_length]; exact hj) = p ∧
      l[p]? = some (orb g.v (Row.fn r p))[j] := by
    intro p hp
    have hm : p ∈ places r (orb g.v (Row.fn r p)) := (mem_places hr).2 (mem_orb_self hg _)
    obtain ⟨j, hj, ej⟩ := List.getElem_of_mem hm
    rw [places_length] at hj
    refine ⟨j, hj, ej, ?_⟩
    have := e3 _ ((hoi _).2 ⟨Row.fn r p, hr.fn_lt (by omega) hp, rfl⟩) j hj
    rwa [ej] at this
  have hfnl : ∀ p, p < g.b → ∃ j, ∃ (hj : j < (orb g.v (Row.fn r p)).length),
      (places r (orb g.v (Row.fn r p)))[j]'(by rw [places_length]; exact hj) = p ∧
      Row.fn l p = (orb g.v (Row.fn r p))[j] := by
    intro p hp
    obtain ⟨j, hj, h1, h2⟩ := hat p hp
    exact ⟨j, hj, h1, fn_some h2⟩
  have hmem : ∀ p, p < g.b → Row.fn l p ∈ orb g.v (Row.fn r p) := by
    intro p hp
    obtain ⟨j, hj, -, h2⟩ := hfnl p hp
    rw [h2]; exact List.getElem_mem hj
  have hsame : ∀ p q, p < g.b → q < g.b → Row.fn l p = Row.fn l q → p = q := by
    intro p q hp hq e
    have ho : orb g.v (Row.fn r p) = orb g.v (Row.fn r q) := by
      rw [← orb_eq hg (hmem p hp), ← orb_eq hg (hmem q hq), e]
    obtain ⟨j, hj, h1, h2⟩ := hfnl p hp
    obtain ⟨k, hk, h3, h4⟩ := hfnl q hq
    rw [h2, h4] at e
    simp only [← ho] at h3 e hk
    have : j = k := ((hnd _).getElem_inj_iff).1 e
    subst this
    rw [← h1, ← h3]
  have hval : Row.Valid l := by
    apply valid_of_inj (by rw [e2]; exact hr.2)
    · rw [List.nodup_iff_injective_getElem]
      intro p q e
      apply Fin.ext
      apply hsame _ _ (by have := p.2; omega) (by have := q.2; omega)
      rw [fn_some (List.getElem?_eq_getElem p.2), fn_some (List.getElem?_eq_getElem q.2)]
      exact e
    · intro x hx
      obtain ⟨p, hp, rfl⟩ := List.getElem_of_mem hx
      have h1 := hmem p (by omega)
      have h2 : Row.fn l p = l[p] := fn_some (List.getElem?_eq_getElem hp)
      rw [h2] at h1
      have := hlt _ (hr.fn_lt (m := g.b) (by omega) (show p < g.b by omega)) _ h1
      omega
  refine ⟨l, by rw [e1, Out.ok_bind, ofVectorC_valid hval], ?_, ?_⟩
  · -- a coset member
    have hx : Row.mul l (Row.inverse r) ∈ g.v := by
      apply full_of_card h hc (Row.valid_mul hval (Row.valid_inverse hr))
      · rw [Row.length_mul, Row.length_inverse]; omega
      · intro j hj
        rw [Row.fn_mul]
        have hp : Row.fn (Row.inverse r) j < g.b := by
          rw [Row.fn_inverse hr]; exact hr.find_lt (by omega) hj
        have := hmem _ hp
        rwa [Row.fn_fn_inverse hr] at this
    refine List.mem_map.2 ⟨_, hx, ?_⟩
    apply Row.ext_fn
    · simp only [Row.length_mul, Row.length_inverse]; omega
    · intro i _
      rw [Row.fn_mul, Row.fn_mul, Row.fn_inverse hr, hr.find_fn]
  · intro y hy
    obtain ⟨x, hx, rfl⟩ := List.mem_map.1 hy
    by_contra hcon
    have hxv := hg.rows x hx
    have hlen : (Row.mul x r).length = l.length := by rw [Row.length_mul, e2]; omega
    have hlex := (lexLt_iff hlen).2 (by simpa using hcon)
    obtain ⟨p, hp1, hp2⟩ := hlex
    have hmv : Row.Valid (Row.mul x r) := Row.valid_mul hxv.1 hr
    have hpb : p < g.b := by
      by_contra hge
      have h1 := Row.fn_of_ge (r := Row.mul x r) (i := p) (by omega)
      have h2 := Row.fn_of_ge (r := l) (i := p) (by omega)
      rw [bellAt_eq_fn, bellAt_eq_fn, h1, h2] at hp2
      omega
    simp only [bellAt_eq_fn] at hp1 hp2
    obtain ⟨j, hj, h1, h2⟩ := hfnl p hpb
    have hcm : Row.fn (Row.mul x r) p ∈ orb g.v (Row.fn r p) := by
      rw [Row.fn_mul]; exact mem_orb.2 ⟨x, hx, rfl⟩
    obtain ⟨i, hi, ei⟩ := List.getElem_of_mem hcm
    have hij : i < j := by
      by_contra hge
      have hinc := orb_incr g.v (Row.fn r p)
      by_cases e : i = j
      · subst e; omega
      · have := List.pairwise_iff_getElem.1 hinc j i hj hi (by omega)
        simp only [decide_eq_true_eq] at this
        omega
    have hq : (places r (orb g.v (Row.fn r p)))[i]'(by rw [places_length]; exact hi) < p := by
      have := List.pairwise_iff_getElem.1 (places_lt hr (hnd (Row.fn r p))) i j
        (by rw [places_length]; exact hi) (by rw [places_length]; exact hj) hij
      omega
    have hlq := e3 _ ((hoi _).2 ⟨Row.fn r p, hr.fn_lt (by omega) hpb, rfl⟩) i hi
    have hfq : Row.fn l ((places r (orb g.v (Row.fn r p)))[i]'(by rw [places_length]; exact hi)) =
        (orb g.v (Row.fn r p))[i] := fn_some hlq
    have := hp1 _ hq
    rw [hfq, ei] at this
    have := hmv.fn_inj this
    omega

/-- The label of a right coset, for groups of reasonable size and rows on the group's number of bells. -/
theorem rcoset_spec {g : Group} (h : Good g) (hs : g.v.length < 109641728) {r : Row} (hr : Row.Valid r)
    (hl : r.length = g.b) :
    ∃ l, rcosetLabelC g r = .ok l ∧
      l ∈ g.v.map (fun x => Row.mul x r) ∧ ∀ y ∈ g.v.map (fun x => Row.mul x r), Row.lt y l = false := by
  have hg := h.grp
  unfold rcosetLabelC
  by_cases h1 : g.v.length = 1
  · rw [if_pos h1]
    obtain ⟨w, hw⟩ := List.length_eq_one_iff.1 h1
    have h2 := hg.one
    rw [hw] at h2 ⊢
    have : w = Row.rounds g.b := (List.mem_singleton.1 h2).symm
    subst this
    have e : Row.mul (Row.rounds g.b) r = r := by
      apply Row.ext_fn
      · simp; omega
      · intro i _; simp [Row.fn_mul]
    refine ⟨r, rfl, by simp [e], ?_⟩
    intro y hy
    simp [e] at hy
    subst hy; exact lt_irrefl' _
  · rw [if_neg h1]
    by_cases h2 : g.v.length ≥ 6 ∧ isProduct g.o g.v.length = true
    · rw [if_pos h2]
      have := productLoop_spec hs g.o 1 (by omega) h2.2
      rw [Nat.one_mul] at this
      exact fast_label h this hr hl
    · rw [if_neg h2]
      refine ⟨_, rfl, leastLoop_least (n := g.b) ?_ ?_⟩
      · intro x hx
        obtain ⟨y, hy, rfl⟩ := List.mem_map.1 hx
        rw [Row.length_mul, (hg.rows y hy).2]; omega
      · exact List.ne_nil_of_mem (List.mem_map.2 ⟨_, hg.one, rfl⟩)

theorem lcoset_spec {g : Group} (h : Good g) {r : Row} :
    lcosetLabel g r ∈ g.v.map (fun x => Row.mul r x) ∧
      ∀ y ∈ g.v.map (fun x => Row.mul r x), Row.lt y (lcosetLabel g r) = false := by
  have hg := h.grp
  unfold lcosetLabel
  refine leastLoop_least (n := max r.length g.b) ?_ ?_
  · intro x hx
    obtain ⟨y, hy, rfl⟩ := List.mem_map.1 hx
    rw [Row.length_mul, (hg.rows y hy).2]
  · exact List.ne_nil_of_mem (List.mem_map.2 ⟨_, hg.one, rfl⟩)

end Group
end Ringing
