import Verif.Lemmas.BasicSearch
/-! What `basic_search` outputs, as call sequences. -/
namespace Ringing
namespace Search
open Spec Row

section
variable {m : Method} {calls : List Change} (G : Given m calls)

theorem touchOf_collect (h2 : 2 ≤ m.ch.length) {c : List Nat} (hd : Dom (ends m calls).length c) :
    ∀ fuel, (tch m calls c).length + 1 ≤ fuel → (touchOf m calls c).collectC fuel = .ok (tch m calls c) := by
  have hfl : ∀ c : List Nat, Dom (ends m calls).length c →
      TouchNode.flattenList (kids m (ends m calls) c) = tch m calls c ∧
      TouchNode.ProperList (kids m (ends m calls) c) := by
    intro c
    induction c with
    | nil => intro _; exact ⟨by simp [kids, TouchNode.flattenList, tch, touchChanges], by simp [kids, TouchNode.ProperList]⟩
    | cons k c ih =>
      intro hd
      have hk := hd k (by simp)
      obtain ⟨i1, i2⟩ := ih (fun x hx => hd x (by simp [hx]))
      have e : (leadNode m ((ends m calls).getD k ⟨0, []⟩)).flatten = m.ch.dropLast ++ [(ends m calls)[k]] := by
        rw [List.getD_eq_getElem _ _ hk]
        simp [leadNode, TouchNode.flatten, TouchNode.flattenList]
      have hne : m.ch.dropLast ≠ [] := by
        intro h0
        have := congrArg List.length h0
        simp at this; omega
      constructor
      · unfold kids at i1 ⊢
        rw [List.map_cons, TouchNode.flattenList, i1, e]
        unfold tch touchChanges
        simp [List.getElem?_eq_getElem hk]
      · unfold kids at i2 ⊢
        rw [List.map_cons, TouchNode.ProperList]
        refine ⟨by decide, by decide, by rw [e]; simp, ?_, i2⟩
        rw [List.getD_eq_getElem _ _ hk]
        unfold leadNode
        simp only [TouchNode.Proper, TouchNode.ProperList, TouchNode.flatten]
        refine ⟨by decide, by decide, hne, trivial, by decide, by decide, by simp, trivial, trivial⟩
  obtain ⟨f1, f2⟩ := hfl c hd
  have hp : (TouchNode.children (kids m (ends m calls) c)).Proper := by rw [TouchNode.Proper]; exact f2
  intro fuel hf
  have := TouchNode.At.collect hp _ _ (TouchNode.At.begin _ hp) fuel (by rw [TouchNode.flatten, f1]; omega)
  rw [TouchNode.flatten, f1] at this
  exact this

theorem Plays_touchOf (h2 : 2 ≤ m.ch.length) {c : List Nat} (hd : Dom (ends m calls).length c) :
    ∃ N, ∀ fuel, N ≤ fuel → (touchOf m calls c).collectC fuel = .ok (tch m calls c) :=
  ⟨_, touchOf_collect h2 hd⟩

/-- The call sequences output by a search that is never halted. -/
def outCalls (T : Tree) (B : Nat) (ign : Bool) : List (List Nat) :=
  (T.visit (B + 1) [] 0).flatMap fun x => emitCalls ign x.1 x.2

include G in
theorem tree_node_bound {flags : Nat} {fs : List Row} (ht : IsTable m flags fs) (h3 : flags.testBit 3 = false)
    {lo hi : Nat} : ∀ c p, (tree m calls fs lo hi).Node c p → c.length ≤ m.b.factorial := by
  intro c p h
  refine tree_bound G ht h3 fun i hi => ?_
  have := h.facts.2.1 i hi
  simpa [tree] using this

theorem flags_bits (m : Method) (calls : List Change) :
    (flagsOf m calls).testBit 1 = false ∧ (flagsOf m calls).testBit 2 = false ∧ (flagsOf m calls).testBit 3 = false := by
  unfold flagsOf; split <;> exact ⟨rfl, rfl, rfl⟩

include G in
/-- The outputs do not depend on the fuel. -/
theorem runC_calls (lo hi : Nat) (ign : Bool) :
    ∃ fs, IsTable m (flagsOf m calls) fs ∧ ∀ halt fuel, m.b.factorial < fuel →
      BasicSearch.runC m calls lo hi ign halt fuel =
        .ok (feed halt [] ((outCalls (tree m calls fs lo hi) m.b.factorial ign).map (touchOf m calls))).1 := by
  obtain ⟨fs0, h0, -⟩ := runC_eq G lo hi ign (fun _ => false)
  refine ⟨fs0, h0, fun halt fuel hf => ?_⟩
  obtain ⟨fs1, h1, r1⟩ := runC_eq G lo hi ign halt
  have hT : tree m calls fs1 lo hi = tree m calls fs0 lo hi := by
    have hF : ∀ c, FalseAt m calls fs1 c ↔ FalseAt m calls fs0 c := by
      intro c
      unfold FalseAt
      exact exists_congr fun f => and_congr (by rw [h1 f, h0 f]) Iff.rfl
    unfold tree
    congr 1
    funext c
    rw [decide_eq_decide]; exact hF c
  rw [r1 fuel hf, hT, Tree.visit_const (tree_node_bound G h0 (flags_bits m calls).2.2) hf]
  unfold outCalls
  rw [List.map_flatMap]

include G in
theorem mem_outCalls {flags : Nat} {fs : List Row} (ht : IsTable m flags fs) (h3 : flags.testBit 3 = false) {lo hi : Nat} {ign : Bool} {d : List Nat} :
    d ∈ outCalls (tree m calls fs lo hi) m.b.factorial ign ↔
      ∃ c p, (tree m calls fs lo hi).Emit c p ∧ d ∈ emitCalls ign c p := by
  unfold outCalls
  rw [List.mem_flatMap]
  constructor
  · rintro ⟨⟨c, p⟩, h1, h2⟩
    exact ⟨c, p, (Tree.visit_iff (tree_node_bound G ht h3) (Nat.lt_succ_self _) c p).1 h1, h2⟩
  · rintro ⟨c, p, h1, h2⟩
    exact ⟨(c, p), (Tree.visit_iff (tree_node_bound G ht h3) (Nat.lt_succ_self _) c p).2 h1, h2⟩

/-! ### Soundness -/

include G in
theorem hd_treble (htr : ∀ k, k ≤ calls.length → follow ((tch m calls [k]).map Change.swaps) 0 = 0) :
    ∀ {c : List Nat}, Dom (ends m calls).length c → fn (hd m calls c) 0 = 0 := by
  intro c
  induction c using List.reverseRecOn with
  | nil => intro _; rw [hd_nil, fn_rounds]
  | append_singleton c k ih =>
    intro hd'
    have hk : k < (ends m calls).length := hd' k (by simp)
    rw [length_ends G.ne] at hk
    have e := fn_applyAll_follow (fun x hx => (tch_wf G [k] x hx).1) (rounds m.b) 0
    rw [htr k (by omega), fn_rounds] at e
    rw [hd_append G, fn_mul]
    rw [show fn (hd m calls [k]) 0 = 0 from e]
    exact ih (fun x hx => hd' x (by simp [hx]))

include G in
theorem hd_sign (h : (flagsOf m calls).testBit 0 = true) :
    ∀ {c : List Nat}, Dom (ends m calls).length c → sign (hd m calls c) = 1 := by
  have h1 : ∀ k, k < (ends m calls).length → sign (hd m calls [k]) ≠ -1 := by
    intro k hk e
    unfold flagsOf at h
    rw [if_pos] at h
    · simp at h
    · rw [List.any_eq_true]
      exact ⟨hd m calls [k], List.mem_map.2 ⟨k, List.mem_range.2 hk, rfl⟩, by simpa using e⟩
  intro c
  induction c using List.reverseRecOn with
  | nil => intro _; rw [hd_nil, sign_rounds (nle G.wf)]
  | append_singleton c k ih =>
    intro hd'
    rw [hd_append G, sign_mul (valid_hd G _).1 (valid_hd G _).1,
      ih (fun x hx => hd' x (by simp [hx])), one_mul]
    have hs := sign_sq (valid_hd G (calls := calls) [k]).1
    have := h1 k (hd' k (by simp))
    rcases hs with g | g
    · exact g
    · exact absurd g this

include G in
theorem lrow_inj (ht : TrueLead m.b (m.ch.map Change.swaps)) {i j : Nat} (hi : i < m.ch.length) (hj : j < m.ch.length)
    (e : lrow m i = lrow m j) : i = j := by
  have key : ∀ i j, i < j → j < m.ch.length → lrow m i ≠ lrow m j := by
    intro i j hij hj e
    obtain ⟨p, hp, hne⟩ := ht i j hij (by simpa using hj)
    have := (rows_eq_iff (nle G.wf) (fun x hx => G.wf.2 x (List.mem_of_mem_take hx))
      (fun x hx => G.wf.2 x (List.mem_of_mem_take hx))).1 e p hp
    rw [List.map_take, List.map_take] at this
    exact hne this
  rcases Nat.lt_trichotomy i j with h | h | h
  · exact absurd e (key i j h hj)
  · exact h
  · exact absurd e.symm (key j i h hi)

include G in
theorem emit_good {flags : Nat} {fs : List Row} (hT : IsTable m flags fs) (h3 : flags.testBit 3 = false) {lo hi : Nat}
    (ht : TrueLead m.b (m.ch.map Change.swaps))
    (h1 : flags.testBit 1 = true ∨ ∀ c, Dom (ends m calls).length c → fn (hd m calls c) 0 = 0)
    (h0 : flags.testBit 0 = true → ∀ c, Dom (ends m calls).length c → sign (hd m calls c) = 1) {c : List Nat} {p : Nat}
    (h : (tree m calls fs lo hi).Emit c p) : hd m calls c = rounds m.b ∧ Distinct m calls c := by
  obtain ⟨e1, -, -, h4, -⟩ := h
  obtain ⟨f1, f2, f3, f4⟩ := e1.facts
  have f1 : Dom (ends m calls).length c := f1
  have htake : ∀ i, Dom (ends m calls).length (c.take i) := fun i x hx => f1 x (List.mem_of_mem_take hx)
  refine ⟨by simpa [tree] using h4, ?_⟩
  have hno : ∀ a b i j, a < b → b < c.length → i < m.ch.length → j < m.ch.length →
      mul (hd m calls (c.take b)) (lrow m i) ≠ mul (hd m calls (c.take a)) (lrow m j) := by
    intro a b i j hab hb hi hj e
    have hF := f2 b hb
    have hF : ¬ FalseAt m calls fs (c.take b) := by simpa [tree] using hF
    have : ∃ f ∈ fs, mul (hd m calls (c.take b)) f = hd m calls (c.take a) := by
      refine false_of_coin G hT h3 (valid_hd G _).1 (valid_hd G _).2 (valid_hd G _).1
        (valid_hd G _).2 (h1.imp id fun h => ?_) ?_ ⟨i, hi, j, hj, e⟩
      · rw [h _ (htake b), h _ (htake a)]
      · intro h; rw [h0 h _ (htake b), h0 h _ (htake a)]
    obtain ⟨f, hf, e⟩ := this
    refine hF ⟨f, hf, a, by simp; omega, ?_⟩
    rw [List.take_take, Nat.min_eq_left (by omega), e]
  intro a b i j ha hb hi hj e
  rcases Nat.lt_trichotomy a b with h | h | h
  · exact absurd e.symm (hno a b j i h hb hj hi)
  · subst h
    refine ⟨rfl, lrow_inj G ht hi hj ?_⟩
    exact mul_left_cancel (valid_hd G _).1 (valid_hd G _).2 (valid_lrow G _).2 (valid_lrow G _).2 e
  · exact absurd e (hno b a i j h ha hi hj)

theorem rots_le (len p : Nat) : rots len p ≤ len := Nat.div_le_self _ _

theorem mem_emitCalls {ign : Bool} {c d : List Nat} {p : Nat} (h : d ∈ emitCalls ign c p) :
    ∃ k, k ≤ c.length ∧ d = c.rotate k := by
  unfold emitCalls at h
  cases ign with
  | true => exact ⟨0, by omega, by simpa using h⟩
  | false =>
    simp only [Bool.false_eq_true, if_false, List.mem_map, List.mem_range] at h
    obtain ⟨i, hi, rfl⟩ := h
    exact ⟨i, by have := rots_le c.length p; omega, rfl⟩

theorem dom_rotate {K k : Nat} {c : List Nat} (h : Dom K c) : Dom K (c.rotate k) := fun x hx => h x (List.mem_rotate.1 hx)

theorem emit_ne {fs : List Row} {lo hi : Nat} {c : List Nat} {p : Nat} (h : (tree m calls fs lo hi).Emit c p) : c ≠ [] := by
  rintro rfl
  have := h.2.1
  simp [tree, FalseAt] at this

/-! ### Completeness -/

include G in
theorem emit_of {flags : Nat} {fs : List Row} (hT : IsTable m flags fs) (h3 : flags.testBit 3 = false) {lo hi : Nat} {c : List Nat} (hne : c ≠ [])
    (hdm : Dom (ends m calls).length c) (hlo : lo ≤ c.length) (hhi : c.length ≤ hi) (hr : hd m calls c = rounds m.b)
    (hD : Distinct m calls c) {p : Nat} (hp : Cn c p) (hre : really false c = true) :
    (tree m calls fs lo hi).Emit c p := by
  have hpos : 0 < c.length := List.length_pos_of_ne_nil hne
  refine ⟨Tree.node_of rfl hp hdm ?_ hhi, ?_, hlo, by simpa [tree] using hr, hre⟩
  · intro i hi
    have : ¬ FalseAt m calls fs (c.take i) := by
      rintro ⟨f, hf, j, hj, e⟩
      have hj : j < i := by simpa using (lt_of_lt_of_le hj (List.length_take_le _ _))
      rw [List.take_take, Nat.min_eq_left (by omega)] at e
      obtain ⟨a, ha, b, hb, e⟩ := coin_of_false G hT (valid_hd G _).2 (valid_hd G _).2 hf e
      have := (hD i j a b hi (by omega) ha hb e).1
      omega
    simpa [tree] using this
  · have : FalseAt m calls fs c :=
      ⟨_, rounds_mem G hT h3, 0, hpos, by rw [mul_rounds (by rw [(valid_hd G _).2]), List.take_zero, hd_nil, hr]⟩
    simpa [tree] using this

/-- The words the two tests let through. -/
def Acc (c : List Nat) : Prop := Pren c ∧ really false c = true

theorem Least.acc {c : List Nat} (h : Least c) : Acc c := ⟨h.pren, h.really⟩

include G in
/-- For true round touches: output nodes are the accepted words. -/
theorem emit_iff {flags : Nat} {fs : List Row} (hT : IsTable m flags fs) (h3 : flags.testBit 3 = false) {lo hi : Nat} {c : List Nat} (hne : c ≠ [])
    (hdm : Dom (ends m calls).length c) (hlo : lo ≤ c.length) (hhi : c.length ≤ hi) (hr : hd m calls c = rounds m.b)
    (hD : Distinct m calls c) : (∃ p, (tree m calls fs lo hi).Emit c p) ↔ Acc c := by
  constructor
  · rintro ⟨p, h⟩
    exact ⟨((h.1.facts.2.2.2 rfl).pre).pren, h.2.2.2.2⟩
  · rintro ⟨h1, h2⟩
    obtain ⟨p, hp⟩ := h1.cn'
    exact ⟨p, emit_of G hT h3 hne hdm hlo hhi hr hD hp h2⟩

include G in
theorem complete {flags : Nat} {fs : List Row} (hT : IsTable m flags fs) (h3 : flags.testBit 3 = false) {lo hi : Nat} {c : List Nat} (hne : c ≠ [])
    (hdm : Dom (ends m calls).length c) (hlo : lo ≤ c.length) (hhi : c.length ≤ hi) (hr : hd m calls c = rounds m.b)
    (hD : Distinct m calls c) : ∃ k, k < c.length ∧ ∃ p, (tree m calls fs lo hi).Emit (c.rotate k) p ∧
      ∀ i, c.rotate i ∈ emitCalls false (c.rotate k) p := by
  obtain ⟨k, hk, hL⟩ := exists_least c hne
  have hne' : c.rotate k ≠ [] := by simpa using hne
  have hd' := distinct_rotate G hr hD (le_of_lt hk)
  obtain ⟨p, hp⟩ := hL.pren.cn'
  refine ⟨k, hk, p, ?_, fun i => ?_⟩
  · exact emit_of G hT h3 hne' (dom_rotate hdm) (by simpa using hlo) (by simpa using hhi) hd'.1 hd'.2 hp hL.really
  · have hdv := hL.dvd hp.pre hne'
    have hpp := hp.pre.pos hne'
    unfold emitCalls
    simp only [Bool.false_eq_true, if_false, List.mem_map, List.mem_range]
    rw [rots_dvd hpp hp.pre.le hdv]
    refine ⟨(i + (c.length - k)) % p, Nat.mod_lt _ hpp, ?_⟩
    rw [← rotate_mod_period hp.pre hdv hne', List.rotate_rotate]
    rw [show k + (i + (c.length - k)) = i + c.length by omega, ← List.rotate_rotate]
    conv_rhs => rw [← List.rotate_mod]
    rw [← List.rotate_mod _ c.length, List.length_rotate, Nat.mod_self, List.rotate_zero, List.rotate_mod]

/-! ### How often -/

theorem sum_one {α β : Type} [DecidableEq α] [DecidableEq β] {l : List (α × β)} (hn : (l.map Prod.fst).Nodup)
    {x : α × β} (hx : x ∈ l) (g : α × β → Nat) (h : ∀ y ∈ l, g y ≠ 0 → y.1 = x.1) : (l.map g).sum = g x := by
  have hl : l.Nodup := List.Nodup.of_map _ hn
  rw [((List.perm_cons_erase hx).map g).sum_eq, List.map_cons, List.sum_cons]
  have : ((l.erase x).map g).sum = 0 := by
    rw [List.sum_eq_zero_iff]
    intro z hz
    obtain ⟨y, hy, rfl⟩ := List.mem_map.1 hz
    obtain ⟨h1, h2⟩ := (List.Nodup.mem_erase_iff hl).1 hy
    by_contra hne
    exact h1 (List.inj_on_of_nodup_map hn h2 hx (h y h2 hne))
  omega

theorem sum_two {α : Type} [DecidableEq α] {l : List α} {x y : α} (hx : x ∈ l) (hy : y ∈ l) (hne : x ≠ y) (g : α → Nat) :
    g x + g y ≤ (l.map g).sum := by
  rw [((List.perm_cons_erase hx).map g).sum_eq, List.map_cons, List.sum_cons]
  have hy' : y ∈ l.erase x := (List.mem_erase_of_ne (Ne.symm hne)).2 hy
  rw [((List.perm_cons_erase hy').map g).sum_eq, List.map_cons, List.sum_cons]
  omega

theorem least_unique {c d : List Nat} (hc : Least c) (hd : Least d) {i : Nat} (h : d = c.rotate i) : c = d := by
  by_cases h0 : c = []
  · subst h0; simpa using h.symm
  have hpos := List.length_pos_of_ne_nil h0
  have hlen : d.length = c.length := by rw [h]; simp
  rcases Less.total (c := c) (d := d) hlen.symm with g | g | g
  · exfalso
    obtain ⟨j, hj⟩ := (List.IsRotated.symm ⟨i, h.symm⟩ : d.IsRotated c)
    refine hd (j % d.length) (Nat.mod_lt _ (by omega)) ?_
    rw [List.rotate_mod, hj]; exact g
  · exact g
  · exfalso
    rw [← List.rotate_mod] at h
    refine hc (i % c.length) (Nat.mod_lt _ hpos) ?_
    rw [← h]; exact g

theorem rotate_back {c d : List Nat} {i k : Nat} (h : d.rotate k = c.rotate i) : ∃ j, d = c.rotate j := by
  have h1 : d.IsRotated (d.rotate k) := ⟨k, rfl⟩
  have h2 : c.IsRotated (d.rotate k) := ⟨i, h.symm⟩
  obtain ⟨j, hj⟩ := h2.trans h1.symm
  exact ⟨j, hj.symm⟩

include G in
theorem count_iff {flags : Nat} {fs : List Row} (hT : IsTable m flags fs) (h3 : flags.testBit 3 = false) {lo hi : Nat} {c : List Nat} (hne : c ≠ [])
    (hdm : Dom (ends m calls).length c) (hlo : lo ≤ c.length) (hhi : c.length ≤ hi) (hr : hd m calls c = rounds m.b)
    (hD : Distinct m calls c) :
    ((∀ i, (outCalls (tree m calls fs lo hi) m.b.factorial false).count (c.rotate i) = 1) ↔
      ∀ i, Acc (c.rotate i) → Least (c.rotate i)) := by
  have hpos := List.length_pos_of_ne_nil hne
  have hvis : ∀ d p, (d, p) ∈ (tree m calls fs lo hi).visit (m.b.factorial + 1) [] 0 ↔ (tree m calls fs lo hi).Emit d p :=
    fun d p => Tree.visit_iff (tree_node_bound G hT h3) (Nat.lt_succ_self _) d p
  have hrot : ∀ i, ∃ j, j ≤ c.length ∧ c.rotate i = c.rotate j := fun i =>
    ⟨i % c.length, le_of_lt (Nat.mod_lt _ hpos), (List.rotate_mod _ _).symm⟩
  have hacc : ∀ i, (∃ p, (tree m calls fs lo hi).Emit (c.rotate i) p) ↔ Acc (c.rotate i) := by
    intro i
    obtain ⟨j, hj, e⟩ := hrot i
    have := distinct_rotate G hr hD hj
    rw [e]
    exact emit_iff G hT h3 (by simpa using hne) (dom_rotate hdm) (by simpa using hlo) (by simpa using hhi) this.1 this.2
  obtain ⟨k, hk, p, hE, hall⟩ := complete G hT h3 hne hdm hlo hhi hr hD
  have hne' : c.rotate k ≠ [] := by simpa using hne
  obtain ⟨k0, hk0, hL0⟩ := exists_least c hne
  unfold outCalls
  have hcount : ∀ a, List.count a (((tree m calls fs lo hi).visit (m.b.factorial + 1) [] 0).flatMap fun x =>
      emitCalls false x.1 x.2) = (((tree m calls fs lo hi).visit (m.b.factorial + 1) [] 0).map
        fun x => (emitCalls false x.1 x.2).count a).sum := by
    intro a; rw [List.count_flatMap]; rfl
  constructor
  · intro h1 i hi
    by_contra hnl
    obtain ⟨q, hq⟩ := (hacc i).2 hi
    -- the least rotation outputs it too
    obtain ⟨p0, hp0⟩ := (hacc k0).2 hL0.acc
    have hpre : Pre (c.rotate k0) p0 := (hp0.1.facts.2.2.2 rfl).pre
    have hm0 : c.rotate i ∈ emitCalls false (c.rotate k0) p0 := by
      have hne0 : c.rotate k0 ≠ [] := by simpa using hne
      have hdv := hL0.dvd hpre hne0
      have hpp := hpre.pos hne0
      unfold emitCalls
      simp only [Bool.false_eq_true, if_false, List.mem_map, List.mem_range]
      rw [rots_dvd hpp hpre.le hdv]
      refine ⟨(i + (c.length - k0)) % p0, Nat.mod_lt _ hpp, ?_⟩
      rw [← rotate_mod_period hpre hdv hne0, List.rotate_rotate]
      rw [show k0 + (i + (c.length - k0)) = i + c.length by omega, ← List.rotate_rotate]
      rw [← List.rotate_mod _ c.length, List.length_rotate, Nat.mod_self, List.rotate_zero]
    have hmi : c.rotate i ∈ emitCalls false (c.rotate i) q := by
      have hpre : Pre (c.rotate i) q := (hq.1.facts.2.2.2 rfl).pre
      have hnei : c.rotate i ≠ [] := by simpa using hne
      unfold emitCalls
      simp only [Bool.false_eq_true, if_false, List.mem_map, List.mem_range]
      exact ⟨0, rots_pos (hpre.pos hnei) hpre.le, by simp⟩
    have h2 := sum_two ((hvis _ _).2 hq) ((hvis _ _).2 hp0) (by
      intro e
      injection e with e _
      exact hnl (e ▸ hL0)) fun x => (emitCalls false x.1 x.2).count (c.rotate i)
    rw [← hcount, h1 i] at h2
    have a1 := List.count_pos_iff.2 hm0
    have a2 := List.count_pos_iff.2 hmi
    simp only at h2
    omega
  · intro hl i
    have hLk : Least (c.rotate k) := hl k ((hacc k).1 ⟨p, hE⟩)
    have hpre : Pre (c.rotate k) p := (hE.1.facts.2.2.2 rfl).pre
    have hdv := hLk.dvd hpre hne'
    rw [hcount, sum_one (Tree.visit_nodup _ _ _) ((hvis _ _).2 hE)]
    · refine List.count_eq_one_of_mem ?_ (hall i)
      unfold emitCalls
      simp only [Bool.false_eq_true, if_false]
      rw [rots_dvd (hpre.pos hne') hpre.le hdv]
      refine List.Nodup.map_on ?_ List.nodup_range
      intro a ha b hb e
      rw [List.mem_range] at ha hb
      rcases Nat.lt_trichotomy a b with h | h | h
      · exact absurd e (rotate_inj hpre hdv h hb)
      · exact h
      · exact absurd e.symm (rotate_inj hpre hdv h ha)
    · rintro ⟨d, q⟩ hdq hc
      have hmem : c.rotate i ∈ emitCalls false d q := by
        rw [← List.count_pos_iff]; simp only at hc; omega
      obtain ⟨j, hj, e⟩ := mem_emitCalls hmem
      obtain ⟨j', rfl⟩ := rotate_back e.symm
      have hLj := hl j' ((hacc j').1 ⟨q, (hvis _ _).1 hdq⟩)
      have h1 : c.IsRotated (c.rotate k) := ⟨k, rfl⟩
      have h2 : c.IsRotated (c.rotate j') := ⟨j', rfl⟩
      obtain ⟨j'', e''⟩ := h1.symm.trans h2
      exact (least_unique hLk hLj e''.symm).symm

end
end Search
end Ringing
