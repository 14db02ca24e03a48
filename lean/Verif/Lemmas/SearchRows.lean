import Verif.Spec.Touch
import Verif.Lemmas.Explore
import Verif.Props.Falseness
import Mathlib.Data.List.Permutation
/-! The rows of touches made of leads of a method. -/
namespace Ringing
namespace Search
open Spec Row

/-- The changes that may end a lead. -/
def ends (m : Method) (calls : List Change) : List Change := m.ch.getLast?.toList ++ calls

/-- A method and calls one can search with. -/
structure Given (m : Method) (calls : List Change) : Prop where
  wf : m.WF
  pos : 0 < m.b
  ne : m.ch ≠ []
  cwf : ∀ c ∈ calls, c.WF ∧ c.n = m.b

section
variable {m : Method} {calls : List Change} (G : Given m calls)

/-- The changes of the touch with the given calls. -/
def tch (m : Method) (calls : List Change) (c : List Nat) : List Change := touchChanges m.ch (ends m calls) c

/-- The lead head it leads to. -/
def hd (m : Method) (calls : List Change) (c : List Nat) : Row := applyAll (rounds m.b) (tch m calls c)

/-- Row `i` of a lead from rounds. -/
def lrow (m : Method) (i : Nat) : Row := applyAll (rounds m.b) (m.ch.take i)

/-- Two leads have a row in common. -/
def Coin (m : Method) (r s : Row) : Prop :=
  ∃ i, i < m.ch.length ∧ ∃ j, j < m.ch.length ∧ mul r (lrow m i) = mul s (lrow m j)

theorem tch_append (c d : List Nat) : tch m calls (c ++ d) = tch m calls c ++ tch m calls d := by
  unfold tch touchChanges; rw [List.flatMap_append]

theorem length_ends (hne : m.ch ≠ []) : (ends m calls).length = calls.length + 1 := by
  unfold ends; rw [List.getLast?_eq_some_getLast hne]; simp

include G in
theorem ends_wf : ∀ c ∈ ends m calls, c.WF ∧ c.n = m.b := by
  intro c hc
  unfold ends at hc
  rw [List.getLast?_eq_some_getLast G.ne] at hc
  simp only [Option.toList_some, List.singleton_append, List.mem_cons] at hc
  rcases hc with rfl | hc
  · exact G.wf.2 _ (List.getLast_mem G.ne)
  · exact G.cwf c hc

include G in
theorem tch_wf (c : List Nat) : ∀ x ∈ tch m calls c, x.WF ∧ x.n = m.b := by
  intro x hx
  unfold tch touchChanges at hx
  obtain ⟨k, -, hx⟩ := List.mem_flatMap.1 hx
  rcases List.mem_append.1 hx with h | h
  · exact G.wf.2 x (List.dropLast_subset _ h)
  · cases he : (ends m calls)[k]? with
    | none => rw [he] at h; cases h
    | some e =>
      rw [he] at h
      simp at h
      subst h
      exact ends_wf G x (List.mem_of_getElem? he)

theorem nle (h : m.WF) : m.b ≤ 256 := by have := h.1; omega

include G in
theorem valid_all {cs : List Change} (h : ∀ x ∈ cs, x.WF ∧ x.n = m.b) :
    Valid (applyAll (rounds m.b) cs) ∧ (applyAll (rounds m.b) cs).length = m.b := by
  refine ⟨valid_applyAll (fun x hx => (h x hx).1) (valid_rounds (nle G.wf)), ?_⟩
  rw [length_applyAll (b := m.b) (fun x hx => (h x hx).2.le) (by simp)]; simp

include G in
theorem valid_hd (c : List Nat) : Valid (hd m calls c) ∧ (hd m calls c).length = m.b := valid_all G (tch_wf G c)

include G in
theorem valid_lrow (i : Nat) : Valid (lrow m i) ∧ (lrow m i).length = m.b :=
  valid_all G (fun x hx => G.wf.2 x (List.mem_of_mem_take hx))

theorem applyAll_from {cs : List Change} (h : ∀ x ∈ cs, x.WF ∧ x.n = m.b) {r : Row} (hr : r.length = m.b) :
    applyAll r cs = mul r (applyAll (rounds m.b) cs) := by
  rw [mul_applyAll (fun x hx => (h x hx).1), mul_rounds (by omega)]

include G in
theorem hd_append (c d : List Nat) : hd m calls (c ++ d) = mul (hd m calls c) (hd m calls d) := by
  unfold hd
  rw [tch_append, applyAll_append, applyAll_from (tch_wf G d) (valid_all G (tch_wf G c)).2]

theorem hd_nil : hd m calls [] = rounds m.b := rfl

include G in
theorem length_tch {c : List Nat} (hc : Dom (ends m calls).length c) :
    (tch m calls c).length = c.length * m.ch.length := by
  have hpos : 0 < m.ch.length := List.length_pos_of_ne_nil G.ne
  induction c with
  | nil => simp [tch, touchChanges]
  | cons k c ih =>
    have e : tch m calls (k :: c) = tch m calls [k] ++ tch m calls c := tch_append [k] c
    rw [e, List.length_append, ih (fun x hx => hc x (by simp [hx]))]
    have hk := hc k (by simp)
    unfold tch touchChanges
    simp [List.getElem?_eq_getElem hk]
    rw [Nat.succ_mul]; omega

include G in
/-- Row number `a * len + b` of a touch. -/
theorem row_at {c : List Nat} (hc : Dom (ends m calls).length c) {a b : Nat} (ha : a < c.length)
    (hb : b < m.ch.length) :
    applyAll (rounds m.b) ((tch m calls c).take (a * m.ch.length + b)) = mul (hd m calls (c.take a)) (lrow m b) := by
  have hk := hc c[a] (List.getElem_mem ha)
  have hsplit : c = c.take a ++ ([c[a]] ++ c.drop (a + 1)) := by
    rw [List.singleton_append, ← List.drop_eq_getElem_cons ha, List.take_append_drop]
  have hlen : (tch m calls (c.take a)).length = a * m.ch.length := by
    rw [length_tch G (fun x hx => hc x (List.mem_of_mem_take hx)), List.length_take, Nat.min_eq_left (by omega)]
  have e1 : (tch m calls c).take (a * m.ch.length + b) = tch m calls (c.take a) ++ m.ch.take b := by
    conv_lhs => rw [hsplit, tch_append, tch_append]
    rw [← hlen, List.take_length_add_append]
    congr 1
    have : tch m calls [c[a]] = m.ch.dropLast ++ [(ends m calls)[c[a]]] := by
      unfold tch touchChanges; simp [List.getElem?_eq_getElem hk]
    rw [this, List.append_assoc, List.take_append_of_le_length (by simp; omega), List.dropLast_eq_take, List.take_take,
      Nat.min_eq_left (by omega)]
  have e2 := applyAll_from (m := m) (cs := m.ch.take b) (fun x hx => G.wf.2 x (List.mem_of_mem_take hx))
    (valid_hd G (calls := calls) (c.take a)).2
  rw [e1, applyAll_append]
  exact e2

theorem mul_left_cancel {a x y : Row} {n : Nat} (ha : Valid a) (hal : a.length = n) (hxl : x.length = n)
    (hyl : y.length = n) (e : mul a x = mul a y) : x = y := by
  refine ext_fn (by omega) ?_
  intro i _
  have := congrArg (fun r => fn r i) e
  simp only [fn_mul] at this
  exact ha.fn_inj this

/-! ### Rows and the positions of bells -/

theorem rows_eq_iff {n : Nat} (hn : n ≤ 256) {cs ds : List Change} (hc : ∀ x ∈ cs, x.WF ∧ x.n = n)
    (hd : ∀ x ∈ ds, x.WF ∧ x.n = n) :
    applyAll (rounds n) cs = applyAll (rounds n) ds ↔
      ∀ p, p < n → follow (cs.map Change.swaps) p = follow (ds.map Change.swaps) p := by
  have vc : Valid (applyAll (rounds n) cs) := valid_applyAll (fun x hx => (hc x hx).1) (valid_rounds hn)
  have lc : (applyAll (rounds n) cs).length = n := by
    rw [length_applyAll (b := n) (fun x hx => (hc x hx).2.le) (by simp)]; simp
  have ld : (applyAll (rounds n) ds).length = n := by
    rw [length_applyAll (b := n) (fun x hx => (hd x hx).2.le) (by simp)]; simp
  have fc := fn_applyAll_follow (fun x hx => (hc x hx).1) (rounds n)
  have fd := fn_applyAll_follow (fun x hx => (hd x hx).1) (rounds n)
  constructor
  · intro e p _
    apply vc.fn_inj
    rw [fc p, e, fd p]
  · intro h
    have hlt : ∀ p, p < n → follow (ds.map Change.swaps) p < n := by
      intro p hp
      by_contra hge
      have := fd p
      rw [fn_of_ge (by omega), fn_rounds] at this
      omega
    refine ext_fn (by omega) ?_
    intro i hi
    -- every position is where some bell is
    have vd : Valid (applyAll (rounds n) ds) := valid_applyAll (fun x hx => (hd x hx).1) (valid_rounds hn)
    set p := fn (applyAll (rounds n) ds) i with hp
    have hpn : p < n := by
      by_contra hge
      have h1 := vd.fn_lt (i := i) (m := n) (by omega) (by omega)
      omega
    have e1 : follow (ds.map Change.swaps) p = i := by
      apply vd.fn_inj
      rw [fd p, fn_rounds]
    have := fc p
    rw [h p hpn, e1, fn_rounds] at this
    exact this

include G in
theorem take_wf {c : List Nat} (k : Nat) : ∀ x ∈ (tch m calls c).take k, x.WF ∧ x.n = m.b :=
  fun x hx => tch_wf G c x (List.mem_of_mem_take hx)

/-- The heads of a touch and the rows of a lead give all rows; different ones. -/
def Distinct (m : Method) (calls : List Change) (c : List Nat) : Prop :=
  ∀ a b i j, a < c.length → b < c.length → i < m.ch.length → j < m.ch.length →
    mul (hd m calls (c.take a)) (lrow m i) = mul (hd m calls (c.take b)) (lrow m j) → a = b ∧ i = j

include G in
theorem trueRound_iff {c : List Nat} (hc : Dom (ends m calls).length c) :
    TrueRound m.b ((tch m calls c).map Change.swaps) ↔ hd m calls c = rounds m.b ∧ Distinct m calls c := by
  have hn := nle G.wf
  have hpos : 0 < m.ch.length := List.length_pos_of_ne_nil G.ne
  have hlen := length_tch G hc
  have hround : (∀ p, p < m.b → follow ((tch m calls c).map Change.swaps) p = p) ↔ hd m calls c = rounds m.b := by
    have := rows_eq_iff hn (tch_wf G c) (ds := []) (by simp)
    exact this.symm
  have hdist : (∀ i j, i < j → j < ((tch m calls c).map Change.swaps).length → ∃ p, p < m.b ∧
      follow (((tch m calls c).map Change.swaps).take i) p ≠ follow (((tch m calls c).map Change.swaps).take j) p) ↔
      ∀ i j, i < j → j < c.length * m.ch.length → applyAll (rounds m.b) ((tch m calls c).take i) ≠
        applyAll (rounds m.b) ((tch m calls c).take j) := by
    rw [List.length_map, hlen]
    refine forall_congr' fun i => forall_congr' fun j => forall_congr' fun _ => forall_congr' fun _ => ?_
    rw [Ne, rows_eq_iff hn (take_wf G i) (take_wf G j), ← List.map_take, ← List.map_take]
    push Not
    rfl
  unfold TrueRound
  rw [hround, hdist]
  refine and_congr_right fun _ => ?_
  constructor
  · intro h a b i j ha hb hi hj e
    rw [← row_at G hc ha hi, ← row_at G hc hb hj] at e
    have hbnd : ∀ {a i}, a < c.length → i < m.ch.length → a * m.ch.length + i < c.length * m.ch.length := by
      intro a i ha hi
      calc a * m.ch.length + i < (a + 1) * m.ch.length := by rw [Nat.succ_mul]; omega
        _ ≤ c.length * m.ch.length := Nat.mul_le_mul_right _ ha
    have heq : a * m.ch.length + i = b * m.ch.length + j := by
      rcases Nat.lt_trichotomy (a * m.ch.length + i) (b * m.ch.length + j) with g | g | g
      · exact absurd e (h _ _ g (hbnd hb hj))
      · exact g
      · exact absurd e.symm (h _ _ g (hbnd ha hi))
    have e1 : (a * m.ch.length + i) / m.ch.length = a := by
      rw [Nat.add_comm, Nat.add_mul_div_right _ _ hpos, Nat.div_eq_of_lt hi]; omega
    have e2 : (b * m.ch.length + j) / m.ch.length = b := by
      rw [Nat.add_comm, Nat.add_mul_div_right _ _ hpos, Nat.div_eq_of_lt hj]; omega
    have hab : a = b := by rw [← e1, heq, e2]
    subst hab
    exact ⟨rfl, by omega⟩
  · intro h i j hij hj e
    have hdi := Nat.div_add_mod i m.ch.length
    have hdj := Nat.div_add_mod j m.ch.length
    have hi' := Nat.mod_lt i hpos
    have hj' := Nat.mod_lt j hpos
    have hja : j / m.ch.length < c.length := Nat.div_lt_of_lt_mul (by rw [Nat.mul_comm]; exact hj)
    have hia : i / m.ch.length < c.length := Nat.div_lt_of_lt_mul (by rw [Nat.mul_comm]; omega)
    rw [← hdi, ← hdj, Nat.mul_comm _ (i / _), Nat.mul_comm _ (j / _), row_at G hc hia hi', row_at G hc hja hj'] at e
    obtain ⟨h1, h2⟩ := h _ _ _ _ hia hja hi' hj' e
    rw [h1, h2] at hdi
    omega

include G in
/-- Rotating a true round touch. -/
theorem distinct_rotate {c : List Nat} (hr : hd m calls c = rounds m.b) (h : Distinct m calls c) {k : Nat}
    (hk : k ≤ c.length) : hd m calls (c.rotate k) = rounds m.b ∧ Distinct m calls (c.rotate k) := by
  rw [List.rotate_eq_drop_append_take hk]
  set x := c.take k with hx
  set y := c.drop k with hy
  have hc : c = x ++ y := by rw [hx, hy, List.take_append_drop]
  have hxl : x.length = k := by rw [hx, List.length_take]; omega
  have vx := valid_hd G (calls := calls) x
  have vy := valid_hd G (calls := calls) y
  have exy : mul (hd m calls x) (hd m calls y) = rounds m.b := by rw [← hd_append G, ← hc, hr]
  -- y is the inverse of x
  have eyx : mul (hd m calls y) (hd m calls x) = rounds m.b := by
    apply mul_left_cancel vx.1 vx.2 (by simp [vx.2, vy.2]) (by simp)
    rw [← mul_assoc', exy, rounds_mul (by omega), mul_rounds (by omega)]
  refine ⟨by rw [hd_append G, eyx], ?_⟩
  -- heads
  have hh : ∀ t, t < (y ++ x).length → ∃ s, s < c.length ∧ hd m calls ((y ++ x).take t) = mul (hd m calls y) (hd m calls (c.take s)) ∧
      t = (if k + t < c.length then s - k else s + (c.length - k)) ∧ s = (if k + t < c.length then k + t else k + t - c.length) := by
    intro t ht
    have hyl : y.length = c.length - k := by rw [hy, List.length_drop]
    rw [List.length_append] at ht
    by_cases hlt : k + t < c.length
    · refine ⟨k + t, hlt, ?_, by rw [if_pos hlt]; omega, by rw [if_pos hlt]⟩
      rw [List.take_append_of_le_length (by omega)]
      have : c.take (k + t) = x ++ y.take t := by
        conv_lhs => rw [hc, ← hxl, List.take_length_add_append]
      rw [this, hd_append G, ← mul_assoc', eyx, rounds_mul (by rw [(valid_hd G _).2])]
    · refine ⟨k + t - c.length, by omega, ?_, by rw [if_neg hlt]; omega, by rw [if_neg hlt]⟩
      have : (y ++ x).take t = y ++ x.take (k + t - c.length) := by
        rw [List.take_append, List.take_of_length_le (by omega)]
        congr 2; omega
      rw [this, hd_append G, hx, List.take_take, Nat.min_eq_left (by omega)]
  intro a b i j ha hb hi hj e
  obtain ⟨s, s1, s2, s3, s4⟩ := hh a ha
  obtain ⟨u, u1, u2, u3, u4⟩ := hh b hb
  rw [s2, u2, mul_assoc', mul_assoc'] at e
  have := mul_left_cancel vy.1 vy.2 (by simp [(valid_hd G _).2, (valid_lrow G _).2])
    (by simp [(valid_hd G _).2, (valid_lrow G _).2]) e
  obtain ⟨q1, q2⟩ := h s u i j s1 u1 hi hj this
  refine ⟨?_, q2⟩
  rw [List.length_append] at ha hb
  have hyl : y.length = c.length - k := by rw [hy, List.length_drop]
  split_ifs at s3 s4 u3 u4 <;> omega

/-! ### Falseness -/

/-- `fs` is the falseness table of the method with the given flags. -/
def IsTable (m : Method) (flags : Nat) (fs : List Row) : Prop :=
  ∀ f, f ∈ fs ↔ Falseness.Keep flags f ∧ ∃ i, i < m.ch.length ∧ ∃ j, j < m.ch.length ∧ f = Row.div (lrow m i) (lrow m j)

theorem table_spec (G : Given m calls) {flags : Nat} (h : flags.testBit 2 = false) :
    ∃ fs, Falseness.ofMethodC m flags = .ok fs ∧ IsTable m flags fs ∧ Group.Incr Row.lt fs := by
  rw [C34_method]
  obtain ⟨t, t1, t2, t3⟩ := methods_spec (flags := flags) G.pos G.wf G.wf rfl rfl (by simp [h])
  refine ⟨t, t1, ?_, t2⟩
  intro f
  rw [t3]
  simp only [Falseness.used, h, Bool.false_eq_true, if_false]
  rfl

include G in
theorem table_valid {flags : Nat} {fs : List Row} (h : IsTable m flags fs) : ∀ f ∈ fs, Valid f ∧ f.length = m.b := by
  intro f hf
  obtain ⟨-, i, -, j, -, rfl⟩ := (h f).1 hf
  exact ⟨valid_div (valid_lrow G i).1 (valid_lrow G j).1, by simp [Row.div, (valid_lrow G _).2]⟩

include G in
theorem rounds_mem {flags : Nat} {fs : List Row} (h : IsTable m flags fs) (h3 : flags.testBit 3 = false) :
    rounds m.b ∈ fs := by
  have hpos : 0 < m.ch.length := List.length_pos_of_ne_nil G.ne
  refine (h _).2 ⟨⟨Or.inr (by simp), fun _ => sign_rounds (nle G.wf), by simp [h3]⟩, 0, hpos, 0, hpos, ?_⟩
  rw [Falseness.eq_div_iff (valid_lrow G _).1 rfl]
  exact ⟨by simp [(valid_lrow G _).2], fun i => by simp⟩

include G in
theorem coin_of_false {flags : Nat} {fs : List Row} (h : IsTable m flags fs) {r s f : Row} (hr : r.length = m.b)
    (hs : s.length = m.b) (hf : f ∈ fs) (e : mul r f = s) : Coin m r s := by
  obtain ⟨-, i, hi, j, hj, hfe⟩ := (h f).1 hf
  refine ⟨i, hi, j, hj, ?_⟩
  have hd := (Falseness.eq_div_iff (valid_lrow G j).1 (by rw [(valid_lrow G _).2, (valid_lrow G _).2])).1 hfe
  refine ext_fn (by simp [(valid_lrow G _).2, hr, hs]) ?_
  intro k _
  rw [fn_mul, fn_mul, ← e, fn_mul, hd.2]

include G in
theorem false_of_coin {flags : Nat} {fs : List Row} (h : IsTable m flags fs) (h3 : flags.testBit 3 = false) {r s : Row}
    (vr : Valid r) (hr : r.length = m.b) (vs : Valid s) (hs : s.length = m.b)
    (h1 : flags.testBit 1 = true ∨ fn r 0 = fn s 0)
    (h0 : flags.testBit 0 = true → sign r = sign s) (hc : Coin m r s) : ∃ f ∈ fs, mul r f = s := by
  obtain ⟨i, hi, j, hj, e⟩ := hc
  have vi := valid_lrow G i
  have vj := valid_lrow G j
  have hvd : Valid (Row.div (lrow m i) (lrow m j)) := valid_div vi.1 vj.1
  have hmul : Row.mul r (Row.div (lrow m i) (lrow m j)) = s := by
    refine ext_fn (by simp [Row.div, vi.2, vj.2, hr, hs]) ?_
    intro k _
    obtain ⟨p, rfl⟩ : ∃ p, k = fn (lrow m j) p := ⟨find (lrow m j) k, (vj.1.fn_find k).symm⟩
    have hd := ((Falseness.eq_div_iff vj.1 (by rw [vi.2, vj.2])).1 (rfl : Row.div (lrow m i) (lrow m j) = _)).2
    rw [fn_mul, hd, ← fn_mul, e, fn_mul]
  refine ⟨_, (h _).2 ⟨⟨?_, ?_, by simp [h3]⟩, i, hi, j, hj, rfl⟩, hmul⟩
  · rcases h1 with h1 | h1
    · exact Or.inl h1
    · right
      rw [← hmul, fn_mul] at h1
      exact (vr.fn_inj h1).symm
  · intro hf
    have hsg : sign r * sign (Row.div (lrow m i) (lrow m j)) = sign s := by rw [← sign_mul vr hvd, hmul]
    have h' := h0 hf
    rcases sign_sq vr with q | q <;> rw [← h', q] at hsg <;> omega

/-! ### There are finitely many rows -/

include G in
theorem heads_bound {c : List Nat} (h : ∀ a b, a < b → b < c.length → hd m calls (c.take a) ≠ hd m calls (c.take b)) :
    c.length ≤ m.b.factorial := by
  have hnd : ((List.range c.length).map fun i => hd m calls (c.take i)).Nodup := by
    rw [List.nodup_map_iff_inj_on List.nodup_range]
    intro a ha b hb e
    rw [List.mem_range] at ha hb
    rcases Nat.lt_trichotomy a b with g | g | g
    · exact absurd e (h a b g hb)
    · exact g
    · exact absurd e.symm (h b a g ha)
  have hsub : ((List.range c.length).map fun i => hd m calls (c.take i)) ⊆ (List.range m.b).permutations := by
    intro x hx
    obtain ⟨i, -, rfl⟩ := List.mem_map.1 hx
    rw [List.mem_permutations]
    have := (valid_hd G (calls := calls) (c.take i)).1.1
    rwa [(valid_hd G _).2] at this
  have := (hnd.subperm hsub).length_le
  simpa [List.length_permutations] using this

end
end Search
end Ringing
