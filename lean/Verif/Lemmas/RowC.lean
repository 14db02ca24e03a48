import Verif.Lemmas.Row

/-! The checked versions of the row operations agree with the pure ones. -/
namespace Ringing
namespace Row

theorem fn_set {l : Row} {i x : Nat} (h : i < l.length) (j : Nat) :
    fn (l.set i x) j = if j = i then x else fn l j := by
  unfold fn
  rw [List.getD_eq_getElem?_getD, List.getD_eq_getElem?_getD, List.getElem?_set]
  by_cases e : i = j
  · subst e; simp [h]
  · simp [e, Ne.symm (Ne.intro e)]

theorem mulC_eq {a r : Row} (ha : Valid a) (hr : Valid r) : mulC a r = .ok (mul a r) := by
  have hla := ha.2
  have hlr := hr.2
  unfold mulC
  obtain ⟨m, hm⟩ : ∃ m, m = if a.length < r.length then r.length else a.length := ⟨_, rfl⟩
  have hm' : m = max a.length r.length := by rw [hm]; split <;> omega
  simp only [← hm]
  rw [roundsC_eq (by omega)]
  obtain ⟨p1, h1, hp1l, hp1⟩ := forUp_inv (lo := 0) (hi := r.length) (s := rounds m)
    (body := fun product i => do
      let ri ← vget r i
      if ri < a.length then do
        let x ← vget a ri
        vset product i x
      else
        vset product i ri)
    (fun i p => p.length = m ∧ ∀ j, fn p j = if j < i then fn a (fn r j) else j)
    (by omega) (by simp) (by
      intro i s _ hi ⟨hl, hs⟩
      simp only [vget_ok hi, Out.ok_bind]
      have hset : ∀ x, x = fn a (fn r i) → ∃ s', vset s i x = Out.ok s' ∧
          s'.length = m ∧ ∀ j, fn s' j = if j < i + 1 then fn a (fn r j) else j := by
        intro x hx
        refine ⟨_, vset_ok x (by omega), by simpa using hl, fun j => ?_⟩
        rw [fn_set (by omega), hs]
        by_cases hj : j = i
        · simp [hj, hx]
        · by_cases hj' : j < i
          · simp [hj, hj', show j < i + 1 by omega]
          · simp [hj, hj', show ¬ j < i + 1 by omega]
      split
      · rename_i hlt
        simp only [vget_ok hlt, Out.ok_bind]
        apply hset
        rw [fn_of_lt hi, fn_of_lt hlt]
      · rename_i hge
        apply hset
        rw [fn_of_lt hi, fn_of_ge (by omega)])
  rw [h1, Out.ok_bind]
  obtain ⟨p2, h2, hp2l, hp2⟩ := forUp_inv (lo := r.length) (hi := m) (s := p1)
    (body := fun product i => do
      let x ← vget a i
      vset product i x)
    (fun i p => p.length = m ∧ ∀ j, fn p j = if j < i then fn a (fn r j) else j)
    (by omega) ⟨hp1l, hp1⟩ (by
      intro i s hi0 hi ⟨hl, hs⟩
      simp only [vget_ok (show i < a.length by omega), Out.ok_bind]
      refine ⟨_, vset_ok _ (by omega), by simpa using hl, fun j => ?_⟩
      rw [fn_set (by omega), hs]
      by_cases hj : j = i
      · subst hj
        rw [if_pos rfl, if_pos (by omega), fn_of_ge (r := r) hi0, fn_of_lt]
      · by_cases hj' : j < i
        · simp [hj, hj', show j < i + 1 by omega]
        · simp [hj, hj', show ¬ j < i + 1 by omega])
  rw [h2]
  congr 1
  apply ext_fn (by simpa [hm'] using hp2l)
  intro i hi
  rw [hp2, fn_mul, if_pos (by omega)]

theorem divC_eq {a r : Row} (ha : Valid a) (hr : Valid r) : divC a r = .ok (div a r) := by
  have hla := ha.2
  have hlr := hr.2
  unfold divC
  obtain ⟨m, hm⟩ : ∃ m, m = if a.length < r.length then r.length else a.length := ⟨_, rfl⟩
  have hm' : m = max a.length r.length := by rw [hm]; split <;> omega
  simp only [← hm]
  rw [roundsC_eq (by omega)]
  -- the invariant: positions r[j] for j < i are filled with a[j]
  have step : ∀ (i : Nat) (s : Row) (k x : Nat), i < m → s.length = m → k = fn r i → x = fn a i →
      (∀ j, j < i → fn s (fn r j) = fn a j) → 
      ∃ s', vset s k x = Out.ok s' ∧ s'.length = m ∧ ∀ j, j < i + 1 → fn s' (fn r j) = fn a j := by
    intro i s k x hi hl hk hx hs
    have hk' : k < m := hk ▸ hr.fn_lt (by omega) hi
    refine ⟨_, vset_ok x (by omega), by simpa using hl, fun j hj => ?_⟩
    rw [fn_set (by omega), hk]
    by_cases hji : j = i
    · subst hji; simp [hx]
    · rw [if_neg (fun e => hji (hr.fn_inj e))]; exact hs j (by omega)
  obtain ⟨p1, h1, hp1l, hp1⟩ := forUp_inv (lo := 0) (hi := min a.length r.length) (s := rounds m)
    (body := fun q i => do
      let ri ← vget r i
      let x ← vget a i
      vset q ri x)
    (fun i p => p.length = m ∧ ∀ j, j < i → fn p (fn r j) = fn a j)
    (by omega) ⟨by simp, by omega⟩ (by
      intro i s _ hi ⟨hl, hs⟩
      simp only [vget_ok (show i < r.length by omega), vget_ok (show i < a.length by omega), Out.ok_bind]
      exact step i s _ _ (by omega) hl (fn_of_lt _).symm (fn_of_lt _).symm hs)
  rw [h1, Out.ok_bind]
  obtain ⟨p2, h2, hp2l, hp2⟩ := forUp_inv (lo := min a.length r.length) (hi := a.length) (s := p1)
    (body := fun q i => do
      let x ← vget a i
      vset q i x)
    (fun i p => p.length = m ∧ ∀ j, j < i → fn p (fn r j) = fn a j)
    (by omega) ⟨hp1l, hp1⟩ (by
      intro i s hi0 hi ⟨hl, hs⟩
      simp only [vget_ok (show i < a.length by omega), Out.ok_bind]
      exact step i s _ _ (by omega) hl (fn_of_ge (by omega)).symm (fn_of_lt _).symm hs)
  rw [h2, Out.ok_bind]
  obtain ⟨p3, h3, hp3l, hp3⟩ := forUp_inv (lo := max (min a.length r.length) a.length)
    (hi := max a.length r.length) (s := p2)
    (body := fun q i => do
      let ri ← vget r i
      vset q ri (toBell i))
    (fun i p => p.length = m ∧ ∀ j, j < i → fn p (fn r j) = fn a j)
    (by omega) ⟨hp2l, fun j hj => hp2 j (by omega)⟩ (by
      intro i s hi0 hi ⟨hl, hs⟩
      simp only [vget_ok (show i < r.length by omega), Out.ok_bind]
      exact step i s _ _ (by omega) hl (fn_of_lt _).symm
        (by rw [toBell_of_lt (by omega), fn_of_ge (by omega)]) hs)
  have e : ∀ (f : Row → Nat → Out Row), forUp (max (min a.length r.length) a.length) r.length p2 f
      = forUp (max (min a.length r.length) a.length) (max a.length r.length) p2 f := by
    intro f
    unfold forUp
    congr 1
    omega
  rw [e, h3]
  congr 1
  apply ext_fn (by simpa [hm'] using hp3l)
  intro i hi
  rw [fn_div hr, ← hp3 (find r i) (hr.find_lt (by omega) (by omega)), hr.fn_find]

theorem inverseC_eq {a : Row} (ha : Valid a) : inverseC a = .ok (inverse a) := by
  have hla := ha.2
  unfold inverseC
  split
  · rename_i h; simp at h; subst h; rfl
  · rw [roundsC_eq hla]
    obtain ⟨p, h, hpl, hp⟩ := forUp_inv (lo := 0) (hi := a.length) (s := rounds a.length)
      (body := fun res i => do
        let x ← vget a i
        vset res x (toBell i))
      (fun i p => p.length = a.length ∧ ∀ j, j < i → fn p (fn a j) = j)
      (by omega) ⟨by simp, by omega⟩ (by
        intro i s _ hi ⟨hl, hs⟩
        simp only [vget_ok hi, Out.ok_bind]
        have hk : a[i] < s.length := hl ▸ ha.getElem_lt hi
        refine ⟨_, vset_ok _ hk, by simpa using hl, fun j hj => ?_⟩
        rw [fn_set hk, ← fn_of_lt hi, toBell_of_lt (by omega)]
        by_cases hji : j = i
        · simp [hji]
        · rw [if_neg (fun e => hji (ha.fn_inj e))]; exact hs j (by omega))
    rw [h]
    congr 1
    apply ext_fn (by simpa using hpl)
    intro i hi
    rw [fn_inverse ha, ← hp (find a i) (ha.find_lt le_rfl (by omega)), ha.fn_find]

/-- The loop of `validate` accepts exactly the permutations. -/
theorem validateC_spec (d : Row) :
    validateC d = if d.Perm (List.range d.length) then .ok () else .throw .rowInvalid := by
  -- run the loop from position i, with `found` marking the bells before i
  have key : ∀ (k i : Nat) (found : List Bool), i + k = d.length → found.length = d.length →
      (∀ b, found[b]? = some true ↔ b ∈ d.take i) → (d.take i).Nodup → (∀ b ∈ d.take i, b < d.length) →
      (forN (fun found i => do
        let b ← vget d i
        if b ≥ d.length then .throw .rowInvalid else do
          let f ← vget found b
          if f then .throw .rowInvalid else vset found b true) k i found >>= fun _ => pure ()) =
        if d.Perm (List.range d.length) then Out.ok () else Out.throw .rowInvalid := by
    intro k
    induction k with
    | zero =>
      intro i found hi _ _ hnd hlt
      have : d.take i = d := List.take_of_length_le (by omega)
      rw [this] at hnd hlt
      rw [if_pos ((List.subperm_of_subset hnd (fun x hx => List.mem_range.2 (hlt x hx))).perm_of_length_le
        (by simp))]
      rfl
    | succ k ih =>
      intro i found hi hfl hf hnd hlt
      have hid : i < d.length := by omega
      have htake : d.take (i + 1) = d.take i ++ [d[i]] := (List.take_append_getElem hid).symm
      have hmem : d[i] ∈ d := List.getElem_mem _
      simp only [forN, vget_ok hid, Out.ok_bind]
      by_cases hb : d[i] ≥ d.length
      · rw [if_pos hb, if_neg]
        · rfl
        · intro hp
          have := List.mem_range.1 (hp.mem_iff.1 hmem); omega
      · rw [if_neg hb]
        have hbf : d[i] < found.length := by omega
        rw [vget_ok hbf, Out.ok_bind]
        by_cases hfi : found[d[i]] = true
        · rw [if_pos hfi, if_neg]
          · rfl
          · intro hp
            have hdn : d.Nodup := hp.nodup_iff.2 List.nodup_range
            have h1 : d[i] ∈ d.take i := (hf _).1 (by rw [List.getElem?_eq_getElem hbf, hfi])
            have h2 : (d.take (i+1)).Nodup := (List.take_sublist _ _).nodup hdn
            rw [htake, List.nodup_append] at h2
            exact h2.2.2 _ h1 _ (List.mem_singleton_self _) rfl
        · rw [if_neg hfi, vset_ok _ hbf, Out.ok_bind]
          have hnm : d[i] ∉ d.take i := by
            intro hm
            have := (hf _).2 hm
            rw [List.getElem?_eq_getElem hbf] at this
            exact hfi (Option.some.inj this)
          apply ih (i + 1) _ (by omega) (by simpa using hfl)
          · intro b
            rw [List.getElem?_set, htake, List.mem_append, List.mem_singleton]
            by_cases e : d[i] = b
            · subst e; simp [hbf]
            · rw [if_neg e, hf]
              constructor
              · exact Or.inl
              · rintro (h | h)
                · exact h
                · exact absurd h.symm e
          · rw [htake]
            exact List.nodup_append.2 ⟨hnd, by simp, by
              intro x hx y hy e; simp at hy; subst hy; exact hnm (e ▸ hx)⟩
          · intro b hb'
            rw [htake, List.mem_append, List.mem_singleton] at hb'
            rcases hb' with h | h
            · exact hlt b h
            · omega
  have := key d.length 0 (List.replicate d.length false) (by omega) (by simp)
    (by intro b; simp [List.getElem?_replicate]) (by simp) (by simp)
  exact this

end Row
end Ringing
