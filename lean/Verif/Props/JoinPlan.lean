import Verif.Lemmas.JoinPlan
/-! C93: the search for touches by a plan. -/
namespace Ringing
namespace JoinPlan

/-- C93: with lead ends and calls of rows on the number of bells the search ends, however large its bounds; it gives
no touch twice, and it gives the sequences of nodes of the touches by the plan and nothing else. -/
theorem C93_touches (S : Search) (bells : Nat) (hl : ∀ r ∈ S.les, r.length = bells) (hc : ∀ r ∈ S.calls, r.length = bells) :
    ∃ outs, (∀ fuel, S.plan.length < fuel → searchC S fuel bells = .ok outs) ∧ outs.Nodup ∧
      ∀ x, x ∈ outs ↔ ∃ cs, Touch S bells cs ∧ x = nodes S (Row.rounds bells) cs := by
  have hcnt : cnt S [] = S.plan.length := by simp [cnt]
  have key : ∀ f, S.plan.length < f → ∀ x, x ∈ runP S f (Row.rounds bells) 0 [] [] ↔
      ∃ cs, Touch S bells cs ∧ x = nodes S (Row.rounds bells) cs := by
    intro f hf x
    rw [mem_runP]
    constructor
    · rintro ⟨cs, _, h, hx⟩
      exact ⟨cs, (Ext_touch S bells hl hc cs).1 h, by simpa using hx⟩
    · rintro ⟨cs, h, hx⟩
      have h := (Ext_touch S bells hl hc cs).2 h
      have := Ext_length S _ _ _ _ h
      exact ⟨cs, by omega, h, by simpa using hx⟩
  have same : ∀ (f g h : Nat) (lh : Row) (d : Nat) (leads : List Row) (comp : List Nat), cnt S leads < h → h ≤ f → h ≤ g →
      runP S f lh d leads comp = runP S g lh d leads comp := by
    intro f
    induction f with
    | zero => intro g h; intros; omega
    | succ f ih =>
      intro g h lh d leads comp h1 h2 h3
      obtain ⟨g, rfl⟩ : ∃ g', g = g' + 1 := ⟨g - 1, by omega⟩
      rw [runP, runP]
      cases e : S.plan.lookup lh with
      | none => rfl
      | some m =>
        dsimp only
        split
        · rfl
        · rename_i hs
          have := cnt_lt e (fun h => hs (Or.inl h)) (Row.mul lh (S.les.getD m []))
          split
          · congr 1
            funext i
            exact ih g (h - 1) _ _ _ _ (by omega) (by omega) (by omega)
          · rfl
  refine ⟨runP S (S.plan.length + 1) (Row.rounds bells) 0 [] [], ?_, nodup_runP _ _ _ _ _ _, key _ (by omega)⟩
  intro f hf
  rw [searchC, runC_eq _ _ _ _ _ _ (by omega)]
  rw [same f (S.plan.length + 1) (S.plan.length + 1) _ _ _ _ (by omega) (by omega) (le_refl _)]

/-- C93: different calls make different nodes: each of the touches is given for its calls just once. -/
theorem C93_distinct (S : Search) (h : Row) (cs cs' : List Nat) (e : nodes S h cs = nodes S h cs') : cs = cs' :=
  nodes_inj S cs cs' h e

/-- C93: the length of each touch given is at least the least asked for, and less than the greatest and the length
of its last lead together. -/
theorem C93_length (S : Search) (bells : Nat) (cs : List Nat) (t : Touch S bells cs) :
    S.lo ≤ length S (heads S (Row.rounds bells) cs) ∧
      ∃ h ∈ heads S (Row.rounds bells) cs, length S (heads S (Row.rounds bells) cs) < S.hi + S.lens.getD (methodAt S h) 0 := by
  refine ⟨t.long, ?_⟩
  have hne : heads S (Row.rounds bells) cs ≠ [] := by
    obtain ⟨b, bs, e⟩ := List.exists_cons_of_ne_nil t.ne
    rw [e]; simp [heads]
  refine ⟨_, List.getLast_mem hne, ?_⟩
  have := t.short
  have e : length S (heads S (Row.rounds bells) cs) = length S (heads S (Row.rounds bells) cs).dropLast
      + S.lens.getD (methodAt S ((heads S (Row.rounds bells) cs).getLast hne)) 0 := by
    conv => lhs; rw [← List.dropLast_append_getLast hne]
    simp [length]
  omega

theorem flatMap_get {α β : Type} (k : Nat) (g : α → List β) (hg : ∀ a, (g a).length = k) (j : Nat) (hj : j < k) :
    ∀ (l : List α) (i : Nat) (hi : i < l.length), (l.flatMap g)[i * k + j]? = (g l[i])[j]? := by
  intro l
  induction l with
  | nil => intro i hi; simp at hi
  | cons a l ih =>
    intro i hi
    rw [List.flatMap_cons]
    cases i with
    | zero => rw [List.getElem?_append_left (by rw [hg]; omega)]; simp
    | succ i =>
      rw [List.getElem?_append_right (by rw [hg, Nat.succ_mul]; omega), hg]
      have : (i + 1) * k + j - k = i * k + j := by rw [Nat.succ_mul]; omega
      rw [this, ih i (by simpa using hi)]; simp

/-- C93: the node given for a method and a call is that of the lead of this method with this call. -/
theorem C93_nodes (S : Search) (m i : Nat) (hm : m < S.les.length) (hi : i < S.calls.length) :
    (items S)[node S m i]? = some (.lead m i) := by
  rw [items, List.getElem?_append_right (by simp [node]; omega)]
  have : node S m i - ((List.range S.les.length).map Item.changes).length = i * (S.les.length + 1) + (m + 1) := by
    simp [node]; omega
  rw [this, flatMap_get (S.les.length + 1) _ (by simp) (m + 1) (by omega) _ i (by simpa using hi)]
  simp [hm]

/-- Four bells with the treble first: all lead heads have the method with lead end 1324 and length 8; the calls
exchange the last two bells, or the middle two. -/
def exS (hi : Nat) : Search where
  plan := [([0,1,2,3], 0), ([0,1,3,2], 0), ([0,2,1,3], 0), ([0,2,3,1], 0), ([0,3,1,2], 0), ([0,3,2,1], 0)]
  les := [[0,2,1,3]]
  lens := [8]
  calls := [[0,1,3,2], [0,2,1,3]]
  lo := 1
  hi := hi

/-- Three leads with the first of the calls are a touch, so the claims are not empty. -/
theorem exS_touch : Touch (exS 20) 4 [0, 0, 0] := by
  refine ⟨by simp, by decide +kernel, by decide +kernel, ?_, by decide +kernel, by decide +kernel, by decide +kernel⟩
  unfold Apart
  decide +kernel

/-- C93: the search may give a touch longer than the greatest length asked for: with the greatest 20, one of 24. -/
theorem C93_too_long : ∃ (S : Search) (cs : List Nat), Touch S 4 cs ∧ S.hi < length S (heads S (Row.rounds 4) cs) ∧
    ∃ outs, searchC S 7 4 = .ok outs ∧ nodes S (Row.rounds 4) cs ∈ outs :=
  ⟨exS 20, [0, 0, 0], exS_touch, by decide +kernel, [[2, 2, 2], [4]], by rfl, by decide +kernel⟩

end JoinPlan
end Ringing
