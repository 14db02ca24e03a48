import Verif.Model.RowCycles
import Verif.Lemmas.Spec
import Mathlib.Data.List.Chain
import Mathlib.Data.List.TakeDrop

/-! The cycle-finding loops of `row`. -/
namespace Ringing
namespace Row

/-- A list of bells is a cycle of `f`: each bell is sent to the next one, the last to the first. -/
def IsCycle (f : Nat → Nat) (c : List Nat) : Prop :=
  c ≠ [] ∧ ∀ (j : Nat) (h : j < c.length),
    f c[j] = c[(j + 1) % c.length]'(Nat.mod_lt _ (by omega))

theorem cycle_of_chain {f : Nat → Nat} (hf : ∀ i j, f i = f j → i = j) {l : List Nat} {i : Nat}
    (hch : (l ++ [i]).IsChain (fun x y => f x = y)) (hnd : (l ++ [i]).Nodup)
    (hm : f i ∈ l ++ [i]) : IsCycle f (l ++ [i]) := by
  rw [List.isChain_iff_getElem] at hch
  obtain ⟨s, hs, hs'⟩ := List.mem_iff_getElem.1 hm
  have hlast : (l ++ [i])[l.length]'(by simp) = i := by simp
  have hs0 : s = 0 := by
    rcases s with _ | s
    · rfl
    · exfalso
      have h1 := hch s hs
      rw [hs'] at h1
      have h2 := hf _ _ h1
      have h3 := (hnd.getElem_inj_iff).1 (h2.trans hlast.symm)
      simp at hs; omega
  subst hs0
  refine ⟨by simp, fun j hj => ?_⟩
  by_cases hjl : j + 1 < (l ++ [i]).length
  · rw [hch j hjl]; congr 1; rw [Nat.mod_eq_of_lt hjl]
  · have hjl' : j = l.length := by simp at hj hjl; omega
    subst hjl'
    rw [hlast, ← hs']
    congr 1
    simp

theorem cycleLoop_spec {r : Row} (hr : Valid r) (S : Nat → Prop)
    (hS : ∀ j, S (fn r j) ↔ S j) :
    ∀ (fuel : Nat) (done : List Bool) (i : Nat) (acc : List Nat),
      done.length = r.length → i < r.length → r.length < fuel + acc.length →
      (∀ j, done[j]? = some true ↔ (S j ∧ j < r.length) ∨ j ∈ acc) → ¬ S i →
      (acc ++ [i]).Nodup → (∀ j ∈ acc, j < r.length) →
      (acc ++ [i]).IsChain (fun x y => fn r x = y) →
      ∃ done' c, cycleLoop r fuel done i acc = .ok (done', c.headD 0, c) ∧
        IsCycle (fn r) c ∧ acc ++ [i] <+: c ∧ c.Nodup ∧ (∀ j ∈ c, j < r.length) ∧
        (∀ j ∈ c, j ∈ acc ∨ ¬ S j) ∧
        done'.length = r.length ∧
        (∀ j, done'[j]? = some true ↔ (S j ∧ j < r.length) ∨ j ∈ c) := by
  intro fuel
  induction fuel with
  | zero =>
    intro done i acc _ _ hfuel _ _ hnd hacc _
    exfalso
    have hnd' : acc.Nodup := (List.sublist_append_left acc [i]).nodup hnd
    have hsub : acc ⊆ List.range r.length := fun x hx => List.mem_range.2 (hacc x hx)
    have := (List.subperm_of_subset hnd' hsub).length_le
    simp at this; omega
  | succ fuel ih =>
    intro done i acc hdl hi hfuel hd hSi hnd hacc hch
    unfold cycleLoop
    have hi' : i < done.length := by omega
    have hri : r[i] < r.length := hr.getElem_lt hi
    have hfi : fn r i = r[i] := fn_of_lt hi
    simp only [vset_ok true hi', Out.ok_bind, vget_ok hi]
    have hl1 : (done.set i true).length = r.length := by simpa using hdl
    rw [vget_ok (show r[i] < (done.set i true).length by omega), Out.ok_bind]
    have hd1 : ∀ j, (done.set i true)[j]? = some true ↔ (S j ∧ j < r.length) ∨ j ∈ acc ++ [i] := by
      intro j
      rw [List.getElem?_set, List.mem_append, List.mem_singleton]
      by_cases e : i = j
      · subst e; simp [hi']
      · rw [if_neg e, hd]
        constructor
        · rintro (h | h)
          · exact Or.inl h
          · exact Or.inr (Or.inl h)
        · rintro (h | h | h)
          · exact Or.inl h
          · exact Or.inr h
          · exact absurd h.symm e
    have hacc1 : ∀ j ∈ acc ++ [i], j < r.length := by
      intro j hj
      rcases List.mem_append.1 hj with h | h
      · exact hacc j h
      · simp at h; omega
    have hval := hd1 r[i]
    rw [List.getElem?_eq_getElem (show r[i] < (done.set i true).length by omega)] at hval
    by_cases hdone : (done.set i true)[r[i]]'(by omega) = true
    · rw [if_pos hdone]
      have hmem : r[i] ∈ acc ++ [i] := by
        rcases hval.1 (by rw [hdone]) with h | h
        · exfalso; rw [← hfi] at h; exact hSi ((hS i).1 h.1)
        · exact h
      have hcyc := cycle_of_chain (f := fn r) (fun _ _ => hr.fn_inj) hch hnd (by rw [hfi]; exact hmem)
      refine ⟨_, acc ++ [i], ?_, hcyc, List.prefix_refl _, hnd, hacc1, ?_, hl1, hd1⟩
      · have : (acc ++ [i]).headD 0 = r[i] := by
          have h1 := hcyc.2 acc.length (by simp)
          have h2 : (acc ++ [i])[acc.length]'(by simp) = i := by simp
          rw [h2, hfi] at h1
          rw [h1]
          have : ∀ (l : List Nat) (h : 0 < l.length), l.headD 0 = l[0] := by
            intro l h; cases l <;> simp at h ⊢
          rw [this _ (by simp)]
          congr 1; simp
        rw [this]; rfl
      · intro j hj
        rcases List.mem_append.1 hj with h | h
        · exact Or.inl h
        · simp at h; subst h; exact Or.inr hSi
    · rw [if_neg hdone]
      have hnm : r[i] ∉ acc ++ [i] := by
        intro h
        have := hval.2 (Or.inr h)
        exact hdone (Option.some.inj this)
      have hnS : ¬ S r[i] := by rw [← hfi, hS]; exact hSi
      obtain ⟨done', c, h1, h2, h3, h4, h5, h6, h7, h8⟩ := ih (done.set i true) r[i] (acc ++ [i]) hl1 hri
        (by simp; omega) hd1 hnS
        (List.nodup_append.2 ⟨hnd, by simp, fun x hx y hy e => by
          simp at hy; subst hy; exact hnm (e ▸ hx)⟩)
        hacc1
        (by
          rw [List.isChain_append]
          refine ⟨hch, by simp, ?_⟩
          intro x hx y hy
          simp at hx hy
          subst hx; subst hy; exact hfi)
      refine ⟨done', c, h1, h2, (List.prefix_append _ _).trans h3, h4, h5, ?_, h7, h8⟩
      intro j hj
      rcases h6 j hj with h | h
      · rcases List.mem_append.1 h with h | h
        · exact Or.inl h
        · simp at h; subst h; exact Or.inr hSi
      · exact Or.inr h

theorem skipDone_spec : ∀ (fuel : Nat) (done : List Bool) (i : Nat), i ≤ done.length →
    done.length ≤ fuel + i →
    (∀ j, j < i → done[j]? = some true) →
    skipDone fuel done i ≤ done.length ∧ i ≤ skipDone fuel done i ∧
      (∀ j, j < skipDone fuel done i → done[j]? = some true) ∧
      done[skipDone fuel done i]? ≠ some true := by
  intro fuel
  induction fuel with
  | zero =>
    intro done i hi hf h
    have : i = done.length := by omega
    subst this
    simp [skipDone]
    intro j hj; simpa [hj] using h j hj
  | succ fuel ih =>
    intro done i hi hf h
    unfold skipDone
    by_cases hd : done.getD i false = true
    · rw [if_pos hd]
      have hd' : done[i]? = some true := by
        rw [List.getD_eq_getElem?_getD] at hd
        cases h' : done[i]? with
        | none => simp [h'] at hd
        | some b => simp [h'] at hd; simp [hd]
      have hlt : i < done.length := by
        by_contra hc
        rw [List.getElem?_eq_none (by omega)] at hd'; cases hd'
      obtain ⟨h1, h2, h3, h4⟩ := ih done (i + 1) hlt (by omega) (fun j hj => by
        by_cases e : j = i
        · subst e; exact hd'
        · exact h j (by omega))
      exact ⟨h1, by omega, h3, h4⟩
    · rw [if_neg hd]
      refine ⟨hi, le_rfl, h, ?_⟩
      intro hc
      rw [List.getD_eq_getElem?_getD, hc] at hd
      simp at hd

/-- A decomposition of a row into disjoint cycles covering all the bells. -/
structure CycleDecomp (r : Row) (cs : List (List Nat)) : Prop where
  cyc : ∀ c ∈ cs, IsCycle (fn r) c
  perm : cs.flatten.Perm (List.range r.length)

theorem cyclesLoop_spec {r : Row} (hr : Valid r) :
    ∀ (fuel : Nat) (done : List Bool) (i : Nat) (acc : List (List Nat)),
      done.length = r.length → i ≤ r.length →
      r.length < fuel + acc.flatten.length →
      (∀ c ∈ acc, IsCycle (fn r) c) → acc.flatten.Nodup →
      (∀ j, done[j]? = some true ↔ j ∈ acc.flatten) →
      (∀ j ∈ acc.flatten, j < r.length) → (∀ j, j < i → done[j]? = some true) →
      ∃ cs, cyclesLoop r fuel done i acc = .ok (acc ++ cs) ∧ CycleDecomp r (acc ++ cs) ∧
        (∀ c ∈ cs, i ≤ c.headD 0 ∧ ∀ x ∈ c, c.headD 0 ≤ x) ∧
        (cs.map (fun c => c.headD 0)).Pairwise (· < ·) := by
  intro fuel
  induction fuel with
  | zero =>
    intro done i acc _ _ hfuel _ hnd _ hlt
    exfalso
    have := (List.subperm_of_subset hnd (fun x hx => List.mem_range.2 (hlt x hx))).length_le
    simp only [List.length_range] at this; omega
  | succ fuel ih =>
    intro done i acc hdl hi hfuel hcyc hnd hd hlt hbefore
    unfold cyclesLoop
    obtain ⟨h1, h2, h3, h4⟩ := skipDone_spec r.length done i (by omega) (by omega) hbefore
    obtain ⟨i', hi'⟩ : ∃ i', i' = skipDone r.length done i := ⟨_, rfl⟩
    simp only [← hi'] at h1 h2 h3 h4 ⊢
    by_cases he : i' = r.length
    · rw [if_pos he]
      refine ⟨[], by simp, ⟨by simpa using hcyc, ?_⟩, by simp, by simp⟩
      rw [List.append_nil]
      have hsub : List.range r.length ⊆ acc.flatten := by
        intro j hj
        rw [← hd]; exact h3 j (by rw [he]; exact List.mem_range.1 hj)
      exact ((List.subperm_of_subset hnd (fun x hx => List.mem_range.2 (hlt x hx))).antisymm
        (List.subperm_of_subset List.nodup_range hsub))
    · rw [if_neg he]
      have hi'lt : i' < r.length := by omega
      have hmem_cycle : ∀ c, IsCycle (fn r) c → ∀ j, fn r j ∈ c ↔ j ∈ c := by
        intro c hc j
        constructor
        · intro h
          obtain ⟨t, ht, e⟩ := List.mem_iff_getElem.1 h
          obtain ⟨s, hs, hst⟩ : ∃ s, s < c.length ∧ (s + 1) % c.length = t := by
            rcases t with _ | t
            · exact ⟨c.length - 1, by omega, by rw [Nat.sub_add_cancel (by omega), Nat.mod_self]⟩
            · exact ⟨t, by omega, Nat.mod_eq_of_lt ht⟩
          have h5 := hc.2 s hs
          have h6 : fn r c[s] = fn r j := by rw [h5, ← e]; congr 1
          rw [← hr.fn_inj h6]; exact List.getElem_mem _
        · intro h
          obtain ⟨t, ht, e⟩ := List.mem_iff_getElem.1 h
          rw [← e, hc.2 t ht]; exact List.getElem_mem _
      obtain ⟨done', c, e1, e2, e3, e4, e5, e6, e7, e8⟩ := cycleLoop_spec hr (fun j => j ∈ acc.flatten)
        (by
          intro j
          simp only [List.mem_flatten]
          constructor
          · rintro ⟨c, hc, h⟩; exact ⟨c, hc, (hmem_cycle c (hcyc c hc) j).1 h⟩
          · rintro ⟨c, hc, h⟩; exact ⟨c, hc, (hmem_cycle c (hcyc c hc) j).2 h⟩)
        (r.length + 1) done i' [] hdl hi'lt (by simp)
        (by
          intro j; rw [hd]
          constructor
          · intro h; exact Or.inl ⟨h, hlt j h⟩
          · rintro (h | h)
            · exact h.1
            · simp at h)
        (by rw [← hd]; exact h4) (by simp) (by simp) (by simp)
      have hhead : c.headD 0 = i' := by
        obtain ⟨t, ht⟩ := e3; rw [← ht]; simp
      rw [e1, Out.ok_bind]
      simp only [hhead]
      have hdisj : ∀ j ∈ c, j ∉ acc.flatten := by
        intro j hj; rcases e6 j hj with h | h
        · simp at h
        · exact h
      have hfl : (acc ++ [c]).flatten = acc.flatten ++ c := by simp
      have hcpos : 0 < c.length := List.length_pos_iff.2 e2.1
      obtain ⟨cs, g1, g2, g3, g4⟩ := ih done' i' (acc ++ [c]) e7 (by omega)
        (by rw [hfl, List.length_append]; omega)
        (by intro c' hc'; rcases List.mem_append.1 hc' with h | h
            · exact hcyc c' h
            · simp at h; subst h; exact e2)
        (by rw [hfl]; exact List.nodup_append.2 ⟨hnd, e4, fun x hx y hy e => hdisj y hy (e ▸ hx)⟩)
        (by
          intro j; rw [e8, hfl, List.mem_append]
          constructor
          · rintro (h | h)
            · exact Or.inl h.1
            · exact Or.inr h
          · rintro (h | h)
            · exact Or.inl ⟨h, hlt j h⟩
            · exact Or.inr h)
        (by intro j hj; rw [hfl] at hj; rcases List.mem_append.1 hj with h | h
            · exact hlt j h
            · exact e5 j h)
        (by intro j hj; rw [e8]; exact Or.inl ⟨(hd j).1 (h3 j hj), by omega⟩)
      have hnotc : ∀ c' ∈ cs, c'.headD 0 ≠ i' := by
        intro c' hc' e
        have hperm := g2.perm.nodup_iff.2 List.nodup_range
        rw [List.flatten_append, List.nodup_append] at hperm
        refine hperm.2.2 i' ?_ i' ?_ rfl
        · rw [hfl, List.mem_append]; right
          obtain ⟨t, ht⟩ := e3; rw [← ht]; simp
        · rw [List.mem_flatten]
          refine ⟨c', hc', ?_⟩
          have hne := (g2.cyc c' (List.mem_append_right _ hc')).1
          cases c' with
          | nil => exact absurd rfl hne
          | cons x xs => simp at e; simp [e]
      refine ⟨c :: cs, ?_, ?_, ?_, ?_⟩
      · rw [g1]; simp
      · have : acc ++ c :: cs = acc ++ [c] ++ cs := by simp
        rw [this]; exact g2
      · intro c' hc'
        rcases List.mem_cons.1 hc' with h | h
        · subst h
          rw [hhead]
          refine ⟨h2, fun x hx => ?_⟩
          by_contra hc
          exact hdisj x hx ((hd x).1 (h3 x (by omega)))
        · obtain ⟨k1, k2⟩ := g3 c' h; exact ⟨by omega, k2⟩
      · rw [List.map_cons, List.pairwise_cons]
        refine ⟨?_, g4⟩
        intro x hx
        obtain ⟨c', hc', rfl⟩ := List.mem_map.1 hx
        have := (g3 c' hc').1
        have := hnotc c' hc'
        omega

theorem cyclesListC_spec {r : Row} (hr : Valid r) :
    ∃ cs, cyclesListC r = .ok cs ∧ CycleDecomp r cs ∧
      (∀ c ∈ cs, ∀ x ∈ c, c.headD 0 ≤ x) ∧ (cs.map (fun c => c.headD 0)).Pairwise (· < ·) := by
  unfold cyclesListC
  split
  · rename_i h
    simp at h; subst h
    exact ⟨[], rfl, ⟨by simp, by simp⟩, by simp, by simp⟩
  · obtain ⟨cs, h1, h2, h3, h4⟩ := cyclesLoop_spec hr (r.length + 1) (List.replicate r.length false) 0 []
      (by simp) (by omega) (by simp) (by simp) (by simp)
      (by intro j; simp [List.getElem?_replicate]) (by simp) (by simp)
    rw [List.nil_append] at h1 h2
    exact ⟨cs, h1, h2, fun c hc => (h3 c hc).2, h4⟩

end Row
end Ringing
