import Verif.Lemmas.SearchRows
import Verif.Props.Touch
/-! `basic_search`: the program follows the search tree. -/
namespace Ringing
namespace Search
open Spec Row

section
variable {m : Method} {calls : List Change} (G : Given m calls)

/-- The node of a lead ended by the change `e`. -/
def leadNode (m : Method) (e : Change) : TouchNode := .children [(1, .changes m.ch.dropLast), (1, .changes [e])]

/-- The nodes made for the calls. -/
def nodesOf (m : Method) (es : List Change) : List TouchNode :=
  .changes m.ch.dropLast :: es.flatMap fun e => [.changes [e], leadNode m e]

theorem initCallsC_eq (m : Method) : ∀ (es fs : List Change),
    initCallsC es (nodesOf m fs) = .ok (nodesOf m (fs ++ es))
  | [], fs => by simp [initCallsC]
  | e :: es, fs => by
    have e1 : initCallC (nodesOf m fs) e = .ok (nodesOf m (fs ++ [e])) := by
      simp [initCallC, nodesOf, vget, leadNode]
    rw [initCallsC, e1, Out.ok_bind, initCallsC_eq m es]
    simp

theorem applyAll_nil_eq {n : Nat} : ∀ {cs : List Change}, cs ≠ [] →
    (∀ x ∈ cs, x.WF ∧ x.n = n) → applyAll [] cs = applyAll (rounds n) cs := by
  intro cs hne h
  cases cs with
  | nil => exact absurd rfl hne
  | cons c cs =>
    have hc := h c (by simp)
    have : apply [] c = apply (rounds n) c := by
      refine ext_fn (by simp [length_apply, hc.2]) ?_
      intro i _
      rw [fn_apply hc.1, fn_apply hc.1, fn_rounds]; simp [fn]
    rw [applyAll_cons, applyAll_cons, this]

theorem callLhsC_eq {le : Row} : ∀ {es : List Change}, (∀ x ∈ es, x.WF) → callLhsC le es = .ok (es.map (apply le))
  | [], _ => rfl
  | e :: es, h => by
    rw [callLhsC, applyC_eq (h e (by simp)), Out.ok_bind, callLhsC_eq (fun x hx => h x (by simp [hx]))]; rfl

/-- The lead heads. -/
def lhsOf (m : Method) (calls : List Change) : List Row :=
  (List.range (ends m calls).length).map fun k => hd m calls [k]

include G in
theorem setupC_eq : setupC m calls = .ok (nodesOf m (ends m calls), lhsOf m calls) := by
  have hl := List.getLast?_eq_some_getLast G.ne
  unfold setupC
  rw [hl]
  simp only
  have hwd : ∀ x ∈ m.ch.dropLast, x.WF ∧ x.n = m.b := fun x hx => G.wf.2 x (List.dropLast_subset _ hx)
  rw [applyAllC_eq (fun x hx => (hwd x hx).1), Out.ok_bind]
  have hends : ends m calls = m.ch.getLast G.ne :: calls := by unfold ends; rw [hl]; rfl
  have he := ends_wf G
  rw [← hends]
  have hi := initCallsC_eq m (ends m calls) []
  rw [show nodesOf m [] = [.changes m.ch.dropLast] from rfl, List.nil_append] at hi
  rw [hi, Out.ok_bind, callLhsC_eq (fun x hx => (he x hx).1), Out.ok_bind]
  congr 2
  unfold lhsOf
  apply List.ext_getElem (by simp)
  intro k h1 h2
  simp only [List.length_map] at h1
  simp only [List.getElem_map, List.getElem_range]
  have e1 : tch m calls [k] = m.ch.dropLast ++ [(ends m calls)[k]] := by
    unfold tch touchChanges; simp [List.getElem?_eq_getElem h1]
  unfold hd
  rw [← applyAll_nil_eq (cs := tch m calls [k]) (by rw [e1]; simp) (tch_wf G [k]), e1, applyAll_append]; rfl

theorem nodes_get {es : List Change} {k : Nat} (hk : k < es.length) :
    vget (nodesOf m es) (2 * (1 + k)) = .ok (leadNode m es[k]) := by
  unfold nodesOf vget
  rw [show 2 * (1 + k) = (2 * k + 1) + 1 by omega, List.getElem?_cons_succ]
  have : ∀ (es : List Change) (k : Nat) (hk : k < es.length),
      (es.flatMap fun e => [TouchNode.changes [e], leadNode m e])[2 * k + 1]? = some (leadNode m es[k]) := by
    intro es
    induction es with
    | nil => intro k hk; simp at hk
    | cons e es ih =>
      intro k hk
      rw [List.flatMap_cons]
      cases k with
      | zero => rfl
      | succ k =>
        simp only [List.length_cons] at hk
        rw [show 2 * (k + 1) + 1 = (2 * k + 1) + 2 by ring, List.getElem?_append_right (by simp)]
        simpa using ih k (by omega)
  rw [this es k hk]

/-- The children of the head. -/
def kids (m : Method) (es : List Change) (c : List Nat) : List (Int × TouchNode) :=
  c.map fun k => (1, leadNode m (es.getD k ⟨0, []⟩))

theorem childrenC_eq {es : List Change} : ∀ {c : List Nat}, Dom es.length c →
    childrenC (nodesOf m es) c = .ok (kids m es c)
  | [], _ => rfl
  | k :: c, h => by
    have hk := h k (by simp)
    rw [childrenC, nodes_get hk, Out.ok_bind, childrenC_eq (fun x hx => h x (by simp [hx]))]
    simp only [Out.ok_bind, kids, List.map_cons]
    rw [List.getD_eq_getElem _ _ hk]

/-- The touch output for given calls. -/
def touchOf (m : Method) (calls : List Change) (c : List Nat) : Touch :=
  mkTouch (nodesOf m (ends m calls)) (kids m (ends m calls) c)

theorem rotLoopC_eq {halt : Outputer} {nodes : List TouchNode} {α : Type} (g : α → Int × TouchNode) :
    ∀ (k : Nat) (c : List α) (o : List Touch × Bool), c ≠ [] →
    rotLoopC halt nodes k (c.map g) o = .ok (if o.2 then o else feed halt o.1
      ((List.range k).map fun i => mkTouch nodes ((c.rotate (i + 1)).map g)))
  | 0, c, o, _ => by
    rw [rotLoopC]
    cases h : o.2
    · simp [feed, ← h]
    · rfl
  | k + 1, c, o, hc => by
    rw [rotLoopC.eq_def]
    simp only
    cases h : o.2 with
    | true => simp
    | false =>
      cases c with
      | nil => exact absurd rfl hc
      | cons e c =>
        simp only [List.map_cons, Bool.false_eq_true, if_false]
        have e1 : c.map g ++ [g e] = (c ++ [e]).map g := by simp
        rw [e1, rotLoopC_eq g k (c ++ [e]) _ (by simp), List.range_succ_eq_map, List.map_cons, List.map_map]
        have e2 : ∀ i, (c ++ [e]).rotate (i + 1) = (e :: c).rotate (i + 1 + 1) := by
          intro i; rw [List.rotate_cons_succ]
        have e3 : (c ++ [e]) = (e :: c).rotate (0 + 1) := by simp
        rw [feed, ← e3]
        unfold give
        by_cases hh : halt (o.1 ++ [mkTouch nodes ((c ++ [e]).map g)])
        · simp only [hh, if_true]
        · simp only [hh, Bool.false_eq_true, if_false]
          congr 3
          funext i
          simp only [Function.comp, e2]

/-- How many touches are output for a node. -/
def rots (len p : Nat) : Nat := len / (if len % p ≠ 0 then p else len / p)

theorem rots_pos {len p : Nat} (hp : 0 < p) (hle : p ≤ len) : 0 < rots len p := by
  unfold rots
  split
  · exact Nat.div_pos hle hp
  · have : len / p ≤ len := Nat.div_le_self _ _
    exact Nat.div_pos this (Nat.div_pos hle hp)

theorem rots_dvd {len p : Nat} (hp : 0 < p) (hle : p ≤ len) (hd : len % p = 0) : rots len p = p := by
  unfold rots
  rw [if_neg (by simpa using hd)]
  obtain ⟨q, rfl⟩ := Nat.dvd_of_mod_eq_zero hd
  have hq : 0 < q := by
    rcases Nat.eq_zero_or_pos q with h | h
    · subst h; simp at hle; omega
    · exact h
  rw [Nat.mul_div_cancel_left _ hp, Nat.mul_div_cancel _ hq]

/-- The call sequences output for a node. -/
def emitCalls (ign : Bool) (c : List Nat) (p : Nat) : List (List Nat) :=
  if ign then [c] else (List.range (rots c.length p)).map fun i => c.rotate i

theorem kids_rotate {es : List Change} (c : List Nat) (k : Nat) : (kids m es (c.rotate k)) =
    (c.rotate k).map fun k => ((1 : Int), leadNode m (es.getD k ⟨0, []⟩)) := rfl

theorem rotationsC_eq {halt : Outputer} {c : List Nat} {p : Nat} (o : List Touch) (hc : c ≠ []) (hp : 0 < p)
    (hle : p ≤ c.length) :
    rotationsC halt (nodesOf m (ends m calls)) c.length p (kids m (ends m calls) c)
      (give halt (touchOf m calls c) o) = .ok (feed halt o ((emitCalls false c p).map (touchOf m calls))) := by
  have hr := rots_pos hp hle
  unfold rotationsC
  rw [if_neg (by omega)]
  simp only
  rw [if_neg (by
    split
    · omega
    · have := Nat.div_pos hle hp; omega)]
  rw [show c.length / (if c.length % p ≠ 0 then p else c.length / p) = rots c.length p from rfl]
  unfold kids
  rw [rotLoopC_eq _ _ _ _ hc]
  congr 1
  unfold emitCalls
  simp only [Bool.false_eq_true, if_false]
  obtain ⟨r, hrr⟩ : ∃ r, rots c.length p = r + 1 := ⟨rots c.length p - 1, by omega⟩
  rw [hrr, Nat.add_sub_cancel, List.range_succ_eq_map, List.map_cons, List.map_cons, List.rotate_zero, feed]
  unfold give
  by_cases hh : halt (o ++ [touchOf m calls c])
  · simp [hh]
  · simp only [hh, Bool.false_eq_true, if_false, List.map_map]
    congr 2

theorem outputC_eq {halt : Outputer} {ign : Bool} {c : List Nat} {p : Nat} (o : List Touch)
    (hd : Dom (ends m calls).length c) (hc : c ≠ []) (h : Pre c p) :
    BasicSearch.outputC halt (nodesOf m (ends m calls)) ign c p o =
      .ok (feed halt o ((emitCalls ign c p).map (touchOf m calls))) := by
  have hp := h.pos hc
  unfold BasicSearch.outputC
  rw [if_neg (by omega), childrenC_eq hd, Out.ok_bind]
  simp only
  cases ign with
  | true =>
    simp only [if_true, emitCalls, List.map_cons, List.map_nil]
    rw [feed_one]; rfl
  | false =>
    rw [if_neg (by simp)]
    exact rotationsC_eq o hc hp h.le

/-! ### The set of leads -/

/-- The lead of `c` is false against an earlier one. -/
def FalseAt (m : Method) (calls : List Change) (fs : List Row) (c : List Nat) : Prop :=
  ∃ f ∈ fs, ∃ i, i < c.length ∧ mul (hd m calls c) f = hd m calls (c.take i)

instance (fs : List Row) (c : List Nat) : Decidable (FalseAt m calls fs c) := by
  unfold FalseAt; infer_instance

/-- The tree searched. -/
def tree (m : Method) (calls : List Change) (fs : List Row) (lo hi : Nat) : Tree :=
  ⟨(ends m calls).length, lo, hi, false, fun c => decide (FalseAt m calls fs c), fun c => decide (hd m calls c = rounds m.b)⟩

theorem equiv_iff (x y : Row) : (!Row.lt x y && !Row.lt y x) = decide (x = y) := by
  by_cases h : x = y
  · subst h; simp [lt_irrefl']
  · rw [decide_eq_false h]
    rcases lt_total' x y with g | g | g
    · simp [g]
    · exact absurd g h
    · simp [g]

theorem isRowFalseC_eq {leads : List Row} {r : Row} (hr : Valid r) : ∀ {fs : List Row}, (∀ f ∈ fs, Valid f) →
    BasicSearch.isRowFalseC leads r fs = .ok (decide (∃ f ∈ fs, mul r f ∈ leads))
  | [], _ => by simp [BasicSearch.isRowFalseC]
  | f :: fs, h => by
    rw [BasicSearch.isRowFalseC, mulC_eq hr (h f (by simp)), Out.ok_bind, isRowFalseC_eq hr (fun x hx => h x (by simp [hx]))]
    have : (leads.any fun y => !Row.lt (mul r f) y && !Row.lt y (mul r f)) = decide (mul r f ∈ leads) := by
      simp only [equiv_iff]
      by_cases hm : mul r f ∈ leads
      · rw [decide_eq_true hm, List.any_eq_true]; exact ⟨_, hm, by simp⟩
      · rw [decide_eq_false hm, List.any_eq_false]
        intro x hx
        simp only [decide_eq_true_eq]
        intro e; exact hm (e ▸ hx)
    rw [this]
    by_cases hm : mul r f ∈ leads <;> simp [hm]

theorem mem_erase (leads : List Row) (r x : Row) : x ∈ BasicSearch.erase leads r ↔ x ∈ leads ∧ x ≠ r := by
  unfold BasicSearch.erase
  rw [List.mem_filter]
  refine and_congr_right fun _ => ?_
  have := equiv_iff r x
  rw [Bool.or_eq_true]
  constructor
  · rintro (h | h) e <;> subst e <;> simp [lt_irrefl'] at h
  · intro hne
    rcases lt_total' r x with g | g | g
    · exact Or.inl g
    · exact absurd g.symm hne
    · exact Or.inr g

include G in
theorem basic_sim {flags : Nat} {fs : List Row} (ht : IsTable m flags fs) (h3 : flags.testBit 3 = false)
    (halt : Outputer) (lo hi : Nat) (ign : Bool) :
    Sim (BasicSearch.ops halt (nodesOf m (ends m calls)) (lhsOf m calls) fs lo hi ign) halt (hd m calls)
      (tree m calls fs lo hi) (fun c p => (emitCalls ign c p).map (touchOf m calls))
      (fun l c => Group.Incr Row.lt l ∧ ∀ x, x ∈ l ↔ ∃ i, i < c.length ∧ x = hd m calls (c.take i))
      (fun l c => Group.Incr Row.lt l ∧ ∀ x, x ∈ l ↔ ∃ i, i ≤ c.length ∧ x = hd m calls (c.take i)) := by
  have hK : (lhsOf m calls).length = (ends m calls).length := by simp [lhsOf]
  have hfv : ∀ f ∈ fs, Valid f := fun f hf => (table_valid G ht f hf).1
  refine ⟨⟨hK.symm, rfl, rfl, rfl⟩, ?_, ?_, ?_, ?_, ?_, ?_, ?_, ?_⟩
  · intro c _
    show Row.isrounds (hd m calls c) = decide _
    have hl := (valid_hd G (calls := calls) c).2
    by_cases h : hd m calls c = rounds m.b
    · rw [decide_eq_true h, h]
      unfold Row.isrounds
      rw [List.all_eq_true]
      intro i hi
      simp [rounds] at hi ⊢
      simp [hi]
    · rw [decide_eq_false h]
      by_contra hc
      apply h
      have hc : Row.isrounds (hd m calls c) = true := by simpa using hc
      unfold Row.isrounds at hc
      rw [List.all_eq_true] at hc
      refine ext_fn (by simp [hl]) ?_
      intro i hi
      have := hc i (List.mem_range.2 hi)
      rw [fn_rounds]
      unfold fn
      rw [List.getD_eq_getElem _ _ hi]
      rw [List.getD_eq_getElem _ _ hi] at this
      simpa using this
  · intro l c _ hI
    show BasicSearch.isRowFalseC l (hd m calls c) fs = .ok (decide (FalseAt m calls fs c))
    rw [isRowFalseC_eq (valid_hd G c).1 hfv]
    congr 1
    rw [decide_eq_decide]
    unfold FalseAt
    exact exists_congr fun f => and_congr_right fun _ => hI.2 _
  · show decide (FalseAt m calls fs []) = false
    rw [decide_eq_false_iff_not]
    rintro ⟨f, -, i, hi, -⟩
    simp at hi
  · intro l c _ hI _
    refine ⟨_, rfl, Group.setInsert_incr Group.rowSTO _ hI.1, fun x => ?_⟩
    rw [Group.mem_setInsert Group.rowSTO, hI.2]
    constructor
    · rintro (rfl | ⟨i, hi, rfl⟩)
      · exact ⟨c.length, le_rfl, by rw [List.take_length]⟩
      · exact ⟨i, by omega, rfl⟩
    · rintro ⟨i, hi, rfl⟩
      by_cases h : i = c.length
      · left; rw [h, List.take_length]
      · exact Or.inr ⟨i, by omega, rfl⟩
  · intro l c k
    refine and_congr_right fun _ => forall_congr' fun x => iff_congr Iff.rfl ?_
    rw [List.length_append, List.length_singleton]
    constructor
    · rintro ⟨i, hi, rfl⟩
      exact ⟨i, by omega, by rw [List.take_append_of_le_length hi]⟩
    · rintro ⟨i, hi, rfl⟩
      exact ⟨i, by omega, by rw [List.take_append_of_le_length (by omega)]⟩
  · intro l c _ hJ hF
    refine ⟨_, rfl, ?_, fun x => ?_⟩
    · exact List.Pairwise.sublist List.filter_sublist hJ.1
    rw [mem_erase, hJ.2]
    have hF' : ¬ FalseAt m calls fs c := by
      have : decide (FalseAt m calls fs c) = false := hF
      simpa using this
    have hnot : ∀ i, i < c.length → hd m calls (c.take i) ≠ hd m calls c := by
      intro i hi e
      exact hF' ⟨_, rounds_mem G ht h3, i, hi, by rw [mul_rounds (by rw [(valid_hd G _).2]), e]⟩
    constructor
    · rintro ⟨⟨i, hi, rfl⟩, hne⟩
      by_cases h : i = c.length
      · rw [h, List.take_length] at hne; exact absurd rfl hne
      · exact ⟨i, by omega, rfl⟩
    · rintro ⟨i, hi, rfl⟩
      exact ⟨⟨i, by omega, rfl⟩, hnot i hi⟩
  · intro c k hc hk
    have hk' : k < (ends m calls).length := by rw [← hK]; exact hk
    show (vget (lhsOf m calls) k >>= fun x => Row.mulC (hd m calls c) x) = _
    have : vget (lhsOf m calls) k = .ok (hd m calls [k]) := by
      simp [vget, lhsOf, List.getElem?_map, List.getElem?_range hk']
    rw [this, Out.ok_bind, mulC_eq (valid_hd G c).1 (valid_hd G [k]).1, hd_append G]
  · intro c p o hc hne hp
    exact outputC_eq o (fun x hx => by rw [← hK]; exact hc x hx) hne (hp rfl)

include G in
/-- Nodes that are not false have different lead heads, so there are finitely many. -/
theorem tree_bound {flags : Nat} {fs : List Row} (ht : IsTable m flags fs) (h3 : flags.testBit 3 = false)
    {c : List Nat} (hF : ∀ i, i < c.length → ¬ FalseAt m calls fs (c.take i)) : c.length ≤ m.b.factorial := by
  apply heads_bound G
  intro a b hab hb e
  refine hF b hb ⟨_, rounds_mem G ht h3, a, by simp; omega, ?_⟩
  rw [mul_rounds (by rw [(valid_hd G _).2]), List.take_take, Nat.min_eq_left (by omega), e]

/-- The flags used for the falseness table. -/
def flagsOf (m : Method) (calls : List Change) : Nat := if (lhsOf m calls).any (fun r => decide (sign r = -1)) then 0 else 1

theorem anyOddC_eq : ∀ {l : List Row}, (∀ r ∈ l, Valid r) → BasicSearch.anyOddC l = .ok (l.any fun r => decide (sign r = -1))
  | [], _ => rfl
  | r :: l, h => by
    rw [BasicSearch.anyOddC, signC_eq (h r (by simp)), Out.ok_bind, anyOddC_eq (fun x hx => h x (by simp [hx]))]
    by_cases hs : sign r = -1 <;> simp [hs]

include G in
/-- What the search outputs, in terms of the tree. -/
theorem runC_eq (lo hi : Nat) (ign : Bool) (halt : Outputer) :
    ∃ fs, IsTable m (flagsOf m calls) fs ∧ ∀ fuel, m.b.factorial < fuel →
      BasicSearch.runC m calls lo hi ign halt fuel =
        .ok (feed halt [] (((tree m calls fs lo hi).visit fuel [] 0).flatMap fun x =>
          (emitCalls ign x.1 x.2).map (touchOf m calls))).1 := by
  have hf2 : (flagsOf m calls).testBit 2 = false := by unfold flagsOf; split <;> rfl
  have hf3 : (flagsOf m calls).testBit 3 = false := by unfold flagsOf; split <;> rfl
  obtain ⟨fs, e1, e2, -⟩ := table_spec G hf2
  refine ⟨fs, e2, fun fuel hfuel => ?_⟩
  have hodd : BasicSearch.falsenessC m (lhsOf m calls) = .ok fs := by
    unfold BasicSearch.falsenessC
    rw [anyOddC_eq (by
      intro r hr
      obtain ⟨k, -, rfl⟩ := List.mem_map.1 hr
      exact (valid_hd G _).1), Out.ok_bind, ← e1]
    rfl
  unfold BasicSearch.runC
  rw [setupC_eq G, Out.ok_bind]
  simp only
  rw [hodd, Out.ok_bind]
  have hlen := length_ends (calls := calls) G.ne
  have h0 : vget (lhsOf m calls) 0 = .ok (hd m calls [0]) := by
    simp [vget, lhsOf, List.getElem?_map, List.getElem?_range (show 0 < (ends m calls).length by omega)]
  rw [h0, Out.ok_bind, (valid_hd G [0]).2, roundsC_eq (nle G.wf)]
  have hbound : ∀ c, Dom (lhsOf m calls).length c →
      (∀ i, i < c.length → (tree m calls fs lo hi).F (c.take i) = false) → c.length ≤ m.b.factorial := by
    intro c _ hF
    refine tree_bound G e2 hf3 fun i hi => ?_
    have := hF i hi
    simpa [tree] using this
  obtain ⟨l', r1, -⟩ := run_sim (basic_sim G e2 hf3 halt lo hi ign) hbound fuel [] 0 ⟨[], [], false, []⟩
    (by simpa using hfuel) (by intro x hx; cases hx) (by simp) rfl rfl ⟨by simp [Group.Incr], by simp⟩ (Or.inl ⟨rfl, rfl⟩)
  rw [hd_nil] at r1
  rw [show ([] : List Nat).length = 0 from rfl] at r1
  rw [r1, Out.ok_bind]
  rfl

end
end Search
end Ringing
