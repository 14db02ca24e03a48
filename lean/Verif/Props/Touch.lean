import Verif.Model.Touch
import Mathlib.Tactic.Ring
/-! C37: iterating over a touch. -/
namespace Ringing

mutual
/-- The changes of a node: those of a leaf in order; those of each child, repeated as often as it
says. -/
def TouchNode.flatten : TouchNode → List Change
  | .changes c => c
  | .children ch => TouchNode.flattenList ch
/-- The changes of a list of children. -/
def TouchNode.flattenList : List (Int × TouchNode) → List Change
  | [] => []
  | (k, n) :: ch => (List.replicate k.toNat n.flatten).flatten ++ TouchNode.flattenList ch
end

mutual
/-- Every child anywhere is repeated at least once (as often as an `int` can say) and has at least one
change. -/
def TouchNode.Proper : TouchNode → Prop
  | .changes _ => True
  | .children ch => TouchNode.ProperList ch
/-- The same for a list of children. -/
def TouchNode.ProperList : List (Int × TouchNode) → Prop
  | [] => True
  | (k, n) :: ch => 1 ≤ k ∧ k ≤ 2147483647 ∧ n.flatten ≠ [] ∧ n.Proper ∧ TouchNode.ProperList ch
end

namespace TouchNode

theorem ProperList.get {k : Int} {n : TouchNode} : ∀ {ch : List (Int × TouchNode)} {i : Nat}, ProperList ch →
    ch[i]? = some (k, n) → 1 ≤ k ∧ k ≤ 2147483647 ∧ n.flatten ≠ [] ∧ n.Proper
  | [], _, _, h => by simp at h
  | (k', n') :: ch, 0, hp, h => by
    simp only [List.getElem?_cons_zero, Option.some.injEq, Prod.mk.injEq] at h
    obtain ⟨rfl, rfl⟩ := h
    unfold ProperList at hp
    exact ⟨hp.1, hp.2.1, hp.2.2.1, hp.2.2.2.1⟩
  | (k', n') :: ch, i + 1, hp, h => by
    unfold ProperList at hp
    rw [List.getElem?_cons_succ] at h
    exact ProperList.get hp.2.2.2.2 h

/-- The changes still to come, of an iterator over a node. -/
inductive At : TouchNode → TouchIter → List Change → Prop
  | leaf {c : List Change} {i : Nat} : i ≤ c.length → At (.changes c) (.leaf i) (c.drop i)
  | empty : At (.children []) .empty []
  | fin {ch : List (Int × TouchNode)} {ci : TouchIter} {count : Int} : At (.children ch) (.list ch.length ci count) []
  | list {ch : List (Int × TouchNode)} {i : Nat} {ci : TouchIter} {count k : Int} {n : TouchNode} {l : List Change} :
      ch[i]? = some (k, n) → At n ci l → l ≠ [] → 0 ≤ count → count < k →
      At (.children ch) (.list i ci count)
        (l ++ ((List.replicate (k - count - 1).toNat n.flatten).flatten ++ flattenList (ch.drop (i + 1))))

theorem At.atEnd {n : TouchNode} {it : TouchIter} {l : List Change} (h : At n it l) :
    TouchNode.atEnd n it = true ↔ l = [] := by
  cases h with
  | leaf h => simp [TouchNode.atEnd]; omega
  | empty => simp [TouchNode.atEnd]
  | fin => simp [TouchNode.atEnd]
  | @list ch i ci count k n l h1 h2 h3 h4 h5 =>
    have : i < ch.length := by
      by_contra hc
      rw [List.getElem?_eq_none (by omega)] at h1; cases h1
    simp [TouchNode.atEnd, h3]; omega

theorem At.begin_list {ch : List (Int × TouchNode)} {i : Nat} {k : Int} {n : TouchNode} (hi : ch[i]? = some (k, n))
    (h1 : 1 ≤ k) (h2 : n.flatten ≠ []) (h : At n n.begin n.flatten) :
    At (.children ch) (.list i n.begin 0) (flattenList (ch.drop i)) := by
  have hlt : i < ch.length := by
    by_contra hc
    rw [List.getElem?_eq_none (by omega)] at hi; cases hi
  have e : ch.drop i = (k, n) :: ch.drop (i + 1) := by
    rw [List.getElem?_eq_getElem hlt] at hi
    injection hi with hi
    rw [← hi, ← List.drop_eq_getElem_cons hlt]
  have := At.list (count := 0) hi h h2 le_rfl (by omega)
  rw [e, flattenList]
  have hk : k.toNat = (k - 0 - 1).toNat + 1 := by omega
  rw [hk, List.replicate_succ, List.flatten_cons, List.append_assoc]
  exact this

theorem At.begin : ∀ (n : TouchNode), n.Proper → At n n.begin n.flatten
  | .changes c, _ => by
    have := At.leaf (c := c) (i := 0) (by omega)
    simpa [TouchNode.begin, flatten] using this
  | .children [], _ => by simpa [TouchNode.begin, flatten, flattenList] using At.empty
  | .children ((k, n) :: ch), h => by
    unfold Proper ProperList at h
    have ih := At.begin n h.2.2.2.1
    have := At.begin_list (ch := (k, n) :: ch) (i := 0) rfl h.1 h.2.2.1 ih
    simpa [TouchNode.begin, flatten] using this

/-- One step. -/
theorem At.step {n : TouchNode} {it : TouchIter} {l : List Change} (h : At n it l) (hp : n.Proper) :
    ∀ {x : Change} {xs : List Change}, l = x :: xs →
    derefC it n = .ok x ∧ ∃ it', incC it n = .ok it' ∧ At n it' xs := by
  induction h with
  | @leaf c i h =>
    intro x xs e
    have hlt : i < c.length := by
      by_contra hc
      rw [List.drop_eq_nil_of_le (by omega)] at e; cases e
    rw [List.drop_eq_getElem_cons hlt] at e
    injection e with e1 e2
    refine ⟨?_, .leaf (i + 1), ?_, ?_⟩
    · simp [derefC, vget, List.getElem?_eq_getElem hlt, e1]
    · simp [incC, hlt]
    · rw [← e2]; exact At.leaf (by omega)
  | empty => intro x xs e; cases e
  | fin => intro x xs e; cases e
  | @list ch i ci count k n l h1 h2 h3 h4 h5 ih =>
    intro x xs e
    have hpl : ProperList ch := by simpa [Proper] using hp
    obtain ⟨p1, p2, p3, p4⟩ := hpl.get h1
    obtain ⟨y, ys, rfl⟩ : ∃ y ys, l = y :: ys := by
      cases l with
      | nil => exact absurd rfl h3
      | cons y ys => exact ⟨y, ys, rfl⟩
    obtain ⟨d1, ci', d2, d3⟩ := ih p4 rfl
    rw [List.cons_append] at e
    injection e with e1 e2
    have hv : vget ch i = .ok (k, n) := by simp [vget, h1]
    refine ⟨by rw [derefC, hv, Out.ok_bind, d1, e1], ?_⟩
    rw [incC, hv, Out.ok_bind, d2, Out.ok_bind]
    by_cases hys : ys = []
    · rw [if_pos (d3.atEnd.2 hys), if_neg (by omega)]
      subst hys
      rw [List.nil_append] at e2
      by_cases hk : count + 1 = k
      · rw [if_neg (by simpa using hk)]
        have hz : (k - count - 1).toNat = 0 := by omega
        rw [hz, List.replicate_zero, List.flatten_nil, List.nil_append] at e2
        cases hn : ch[i + 1]? with
        | none =>
          have hlen : i + 1 = ch.length := by
            have : i < ch.length := by
              by_contra hc
              rw [List.getElem?_eq_none (by omega)] at h1; cases h1
            rw [List.getElem?_eq_none_iff] at hn
            omega
          refine ⟨_, rfl, ?_⟩
          rw [← e2, hlen, List.drop_length, flattenList]
          exact At.fin
        | some e' =>
          obtain ⟨k', n'⟩ := e'
          obtain ⟨q1, q2, q3, q4⟩ := hpl.get hn
          refine ⟨_, rfl, ?_⟩
          rw [← e2]
          exact At.begin_list hn q1 q3 (At.begin n' q4)
      · rw [if_pos (by simpa using hk)]
        refine ⟨_, rfl, ?_⟩
        have := At.list (count := count + 1) h1 (At.begin n p4) p3 (by omega) (by omega)
        rw [← e2]
        have hz : (k - count - 1).toNat = (k - (count + 1) - 1).toNat + 1 := by omega
        rw [hz, List.replicate_succ, List.flatten_cons, List.append_assoc]
        exact this
    · rw [if_neg (by rw [d3.atEnd]; exact hys)]
      refine ⟨_, rfl, ?_⟩
      rw [← e2]
      exact At.list h1 d3 hys h4 h5

theorem At.collect {n : TouchNode} (hp : n.Proper) : ∀ (l : List Change) (it : TouchIter), At n it l →
    ∀ fuel, l.length < fuel → collectC n fuel it = .ok l
  | [], it, h, fuel, hf => by
    obtain ⟨f, rfl⟩ : ∃ f, fuel = f + 1 := ⟨fuel - 1, by simp at hf; omega⟩
    rw [collectC, if_pos (h.atEnd.2 rfl)]
  | x :: l, it, h, fuel, hf => by
    obtain ⟨f, rfl⟩ : ∃ f, fuel = f + 1 := ⟨fuel - 1, by simp at hf; omega⟩
    obtain ⟨d1, it', d2, d3⟩ := h.step hp rfl
    rw [collectC, if_neg (by rw [h.atEnd]; simp), d1, Out.ok_bind, d2, Out.ok_bind,
      At.collect hp l it' d3 f (by simp at hf; omega)]
    rfl

/-- C37: iterating over a touch gives the changes of its tree, each child repeated as often as it says,
and ends. -/
theorem C37_flatten {n : TouchNode} (hp : n.Proper) : ∃ N, ∀ fuel, N ≤ fuel →
    collectC n fuel n.begin = .ok n.flatten :=
  ⟨n.flatten.length + 1, fun fuel hf => At.collect hp _ _ (At.begin n hp) fuel (by omega)⟩

/-- C37: the same through `touch`; a touch without a head is empty, and the nodes it owns do not
matter. -/
theorem C37_touch (nodes : List TouchNode) {n : TouchNode} (hp : n.Proper) :
    (∃ N, ∀ fuel, N ≤ fuel → Touch.collectC ⟨some n, nodes⟩ fuel = .ok n.flatten) ∧
    ∀ fuel, Touch.collectC ⟨none, nodes⟩ fuel = .ok [] :=
  ⟨C37_flatten hp, fun _ => rfl⟩

/-! ### Touches that do not iterate -/

theorem flattenList_append : ∀ (a b : List (Int × TouchNode)), flattenList (a ++ b) = flattenList a ++ flattenList b
  | [], b => by simp [flattenList]
  | (k, n) :: a, b => by
    rw [List.cons_append, flattenList, flattenList, flattenList_append a b, List.append_assoc]

theorem ProperList.append : ∀ {a : List (Int × TouchNode)} {b}, ProperList (a ++ b) ↔ ProperList a ∧ ProperList b
  | [], b => by simp [ProperList]
  | (k, n) :: a, b => by
    rw [List.cons_append, ProperList, ProperList, ProperList.append (a := a)]; tauto

/-- The iterator stands at the beginning of entry `i`, or, if `ch` is empty, nowhere. -/
theorem bad_start {ch : List (Int × TouchNode)} {k : Int} {n : TouchNode} (h : ch[0]? = some (k, n)) :
    (TouchNode.children ch).begin = .list 0 n.begin 0 := by
  cases ch with
  | nil => simp at h
  | cons e ch =>
    obtain ⟨k', n'⟩ := e
    simp at h
    obtain ⟨rfl, rfl⟩ := h
    simp [TouchNode.begin]

/-- Inside the proper entries before position `j`, the iterator advances to entry `j`. -/
inductive Before (ch : List (Int × TouchNode)) (j : Nat) : TouchIter → List Change → Prop
  | here {k : Int} {n : TouchNode} : ch[j]? = some (k, n) → Before ch j (.list j n.begin 0) []
  | list {i : Nat} {ci : TouchIter} {count k : Int} {n : TouchNode} {l : List Change} : i < j →
      ch[i]? = some (k, n) → At n ci l → l ≠ [] → 0 ≤ count → count < k →
      Before ch j (.list i ci count)
        (l ++ ((List.replicate (k - count - 1).toNat n.flatten).flatten ++ flattenList ((ch.take j).drop (i + 1))))

theorem Before.begin_list {ch : List (Int × TouchNode)} {i j : Nat} (hj : j < ch.length) (hij : i ≤ j)
    (hp : ProperList (ch.take j)) {k : Int} {n : TouchNode} (hi : ch[i]? = some (k, n)) :
    Before ch j (.list i n.begin 0) (flattenList ((ch.take j).drop i)) := by
  by_cases h : i = j
  · subst h
    rw [List.drop_eq_nil_of_le (by simp), flattenList]
    exact Before.here hi
  · have hij' : i < j := by omega
    have hti : (ch.take j)[i]? = some (k, n) := by rw [List.getElem?_take, if_pos hij', hi]
    obtain ⟨p1, p2, p3, p4⟩ := hp.get hti
    have hlt : i < (ch.take j).length := by simp; omega
    have e : (ch.take j).drop i = (k, n) :: (ch.take j).drop (i + 1) := by
      rw [List.getElem?_eq_getElem hlt] at hti
      injection hti with hti
      rw [← hti, ← List.drop_eq_getElem_cons hlt]
    have := Before.list (ch := ch) (count := 0) hij' hi (At.begin n p4) p3 le_rfl (by omega)
    rw [e, flattenList]
    have hk : k.toNat = (k - 0 - 1).toNat + 1 := by omega
    rw [hk, List.replicate_succ, List.flatten_cons, List.append_assoc]
    exact this

theorem Before.step {ch : List (Int × TouchNode)} {j : Nat} (hj : j < ch.length) (hp : ProperList (ch.take j))
    {it : TouchIter} {x : Change} {l xs : List Change} (h : Before ch j it l) (e : l = x :: xs) :
    atEnd (.children ch) it = false ∧ derefC it (.children ch) = .ok x ∧
      ∃ it', incC it (.children ch) = .ok it' ∧ Before ch j it' xs := by
  cases h with
  | here _ => cases e
  | @list i ci count k n l hij h1 h2 h3 h4 h5 =>
    have hti : (ch.take j)[i]? = some (k, n) := by rw [List.getElem?_take, if_pos hij, h1]
    obtain ⟨p1, p2, p3, p4⟩ := hp.get hti
    obtain ⟨y, ys, rfl⟩ : ∃ y ys, l = y :: ys := by
      cases l with
      | nil => exact absurd rfl h3
      | cons y ys => exact ⟨y, ys, rfl⟩
    obtain ⟨d1, ci', d2, d3⟩ := h2.step p4 rfl
    rw [List.cons_append] at e
    injection e with e1 e2
    have hv : vget ch i = .ok (k, n) := by simp [vget, h1]
    refine ⟨by simp [TouchNode.atEnd]; omega, by rw [derefC, hv, Out.ok_bind, d1, e1], ?_⟩
    rw [incC, hv, Out.ok_bind, d2, Out.ok_bind]
    by_cases hys : ys = []
    · rw [if_pos (d3.atEnd.2 hys), if_neg (by omega)]
      subst hys
      rw [List.nil_append] at e2
      by_cases hk : count + 1 = k
      · rw [if_neg (by simpa using hk)]
        have hz : (k - count - 1).toNat = 0 := by omega
        rw [hz, List.replicate_zero, List.flatten_nil, List.nil_append] at e2
        have hlt : i + 1 < ch.length := by omega
        have hg : ch[i + 1]? = some (ch[i + 1].1, ch[i + 1].2) := by rw [List.getElem?_eq_getElem hlt]
        rw [hg]
        refine ⟨_, rfl, ?_⟩
        rw [← e2]
        exact Before.begin_list hj (by omega) hp hg
      · rw [if_pos (by simpa using hk)]
        refine ⟨_, rfl, ?_⟩
        have := Before.list (count := count + 1) hij h1 (At.begin n p4) p3 (by omega) (by omega)
        rw [← e2]
        have hz : (k - count - 1).toNat = (k - (count + 1) - 1).toNat + 1 := by omega
        rw [hz, List.replicate_succ, List.flatten_cons, List.append_assoc]
        exact this
    · rw [if_neg (by rw [d3.atEnd]; exact hys)]
      refine ⟨_, rfl, ?_⟩
      rw [← e2]
      exact Before.list hij h1 d3 hys h4 h5

/-- Iteration reaches the beginning of entry `j`. -/
theorem Before.reach {ch : List (Int × TouchNode)} {j : Nat} (hj : j < ch.length) (hp : ProperList (ch.take j)) :
    ∀ (l : List Change) {it : TouchIter}, Before ch j it l → ∀ fuel,
    collectC (.children ch) (fuel + l.length) it = (collectC (.children ch) fuel (.list j (ch[j].2).begin 0) >>= fun l' =>
      .ok (l ++ l'))
  | [], it, h, fuel => by
    have hit : it = .list j (ch[j].2).begin 0 := by
      generalize hl : ([] : List Change) = l at h
      cases h with
      | here h =>
        rw [List.getElem?_eq_getElem hj] at h
        injection h with h
        rw [h]
      | list _ _ _ h3 _ _ =>
        have := congrArg List.length hl
        simp only [List.length_nil, List.length_append] at this
        exact absurd (List.length_eq_zero_iff.1 (by omega)) h3
    rw [hit]
    simp only [List.length_nil, Nat.add_zero, List.nil_append]
    cases collectC (.children ch) fuel (.list j (ch[j].2).begin 0) <;> rfl
  | x :: xs, it, h, fuel => by
    obtain ⟨d0, d1, it', d2, d3⟩ := h.step hj hp rfl
    rw [List.length_cons, ← Nat.add_assoc, collectC, d0, if_neg (by simp), d1, Out.ok_bind, d2, Out.ok_bind,
      Before.reach hj hp xs d3 fuel]
    cases collectC (.children ch) fuel (.list j (ch[j].2).begin 0) <;> rfl

theorem Before.start {ch : List (Int × TouchNode)} {j : Nat} (hj : j < ch.length) (hp : ProperList (ch.take j)) :
    Before ch j (TouchNode.children ch).begin (flattenList (ch.take j)) := by
  have h0 : ch[0]? = some (ch[0].1, ch[0].2) := by rw [List.getElem?_eq_getElem (by omega)]
  rw [bad_start h0]
  have := Before.begin_list (i := 0) hj (by omega) hp h0
  simpa using this

theorem collect_mono {n : TouchNode} : ∀ (f : Nat) (it : TouchIter) (l : List Change), collectC n f it = .ok l →
    collectC n (f + 1) it = .ok l
  | 0, _, _, h => by cases h
  | f + 1, it, l, h => by
    rw [collectC] at h ⊢
    split at h
    · rename_i hc; rw [if_pos hc]; exact h
    · rename_i hc
      rw [if_neg hc]
      cases h1 : derefC it n with
      | ok c =>
        rw [h1, Out.ok_bind] at h
        rw [Out.ok_bind]
        cases h2 : incC it n with
        | ok it' =>
          rw [h2, Out.ok_bind] at h
          rw [Out.ok_bind]
          cases h3 : collectC n f it' with
          | ok l' => rw [h3] at h; rw [collect_mono f it' l' h3]; exact h
          | throw e => rw [h3] at h; cases h
          | ub => rw [h3] at h; cases h
          | timeout => rw [h3] at h; cases h
        | throw e => rw [h2] at h; cases h
        | ub => rw [h2] at h; cases h
        | timeout => rw [h2] at h; cases h
      | throw e => rw [h1] at h; cases h
      | ub => rw [h1] at h; cases h
      | timeout => rw [h1] at h; cases h

theorem collect_mono' {n : TouchNode} {f g : Nat} {it : TouchIter} {l : List Change} (h : collectC n f it = .ok l)
    (hg : f ≤ g) : collectC n g it = .ok l := by
  induction hg with
  | refl => exact h
  | step _ ih => exact collect_mono _ _ _ ih

/-- C37: a child without changes after proper children: iterating is undefined behaviour. -/
theorem C37_empty_child {ch : List (Int × TouchNode)} {j : Nat} (hj : j < ch.length) (hp : ProperList (ch.take j))
    (he : ch[j].2 = .changes [] ∨ ch[j].2 = .children []) :
    ∃ N, ∀ fuel, N ≤ fuel → collectC (.children ch) fuel (TouchNode.children ch).begin = .ub := by
  refine ⟨(flattenList (ch.take j)).length + 1, fun fuel hf => ?_⟩
  obtain ⟨f, rfl⟩ : ∃ f, fuel = (f + 1) + (flattenList (ch.take j)).length :=
    ⟨fuel - 1 - (flattenList (ch.take j)).length, by omega⟩
  rw [Before.reach hj hp _ (Before.start hj hp), collectC]
  have hne : TouchNode.atEnd (.children ch) (.list j (ch[j].2).begin 0) = false := by
    simp [TouchNode.atEnd]; omega
  have hv : vget ch j = .ok ch[j] := by simp [vget, List.getElem?_eq_getElem hj]
  rw [hne, if_neg (by simp), derefC, hv, Out.ok_bind]
  rcases he with he | he <;> rw [he] <;> rfl

/-- Within a child repeated zero or a negative number of times. -/
theorem stuck {ch : List (Int × TouchNode)} {j : Nat} {k : Int} {n : TouchNode} (hj : ch[j]? = some (k, n)) (hk : k ≤ 0)
    (hp : n.Proper) (hne : n.flatten ≠ []) : ∀ (fuel : Nat) (ci : TouchIter) (l : List Change) (count : Int), At n ci l →
    l ≠ [] → 0 ≤ count → ∀ r, collectC (.children ch) fuel (.list j ci count) ≠ .ok r
  | 0, _, _, _, _, _, _, r => by simp [collectC]
  | fuel + 1, ci, l, count, h, hl, hc, r => by
    have hlt : j < ch.length := by
      by_contra hc
      rw [List.getElem?_eq_none (by omega)] at hj; cases hj
    obtain ⟨x, xs, rfl⟩ : ∃ y ys, l = y :: ys := by
      cases l with
      | nil => exact absurd rfl hl
      | cons y ys => exact ⟨y, ys, rfl⟩
    obtain ⟨d1, ci', d2, d3⟩ := h.step hp rfl
    have hv : vget ch j = .ok (k, n) := by simp [vget, hj]
    have hend : TouchNode.atEnd (.children ch) (.list j ci count) = false := by simp [TouchNode.atEnd]; omega
    rw [collectC, hend, if_neg (by simp), derefC, hv, Out.ok_bind, d1, Out.ok_bind, incC, hv, Out.ok_bind, d2, Out.ok_bind]
    have fin : ∀ it', (∀ r, collectC (.children ch) fuel it' ≠ .ok r) →
        ((Out.ok it' : Out TouchIter) >>= fun it => collectC (.children ch) fuel it >>= fun l => .ok (x :: l)) ≠ .ok r := by
      intro it' hn
      rw [Out.ok_bind]
      cases hcl : collectC (.children ch) fuel it' with
      | ok l => exact absurd hcl (hn l)
      | _ => simp
    by_cases hys : xs = []
    · rw [if_pos (d3.atEnd.2 hys)]
      by_cases hm : count = 2147483647
      · rw [if_pos hm]; simp
      · rw [if_neg hm, if_pos (by omega)]
        exact fin _ (stuck hj hk hp hne fuel _ _ _ (At.begin n hp) hne (by omega))
    · rw [if_neg (by rw [d3.atEnd]; exact hys)]
      exact fin _ (stuck hj hk hp hne fuel _ _ _ d3 hys hc)

/-- C37: a child repeated zero or a negative number of times, after proper children: it is repeated
until the count overflows, and the iteration never ends normally. -/
theorem C37_no_repeats {ch : List (Int × TouchNode)} {j : Nat} (hj : j < ch.length) (hp : ProperList (ch.take j))
    (hk : ch[j].1 ≤ 0) (hn : (ch[j].2).Proper) (hne : (ch[j].2).flatten ≠ []) (fuel : Nat) (l : List Change) :
    collectC (.children ch) fuel (TouchNode.children ch).begin ≠ .ok l := by
  intro hc
  have h2 := collect_mono' hc (Nat.le_add_right fuel (flattenList (ch.take j)).length)
  rw [Before.reach hj hp _ (Before.start hj hp)] at h2
  have hg : ch[j]? = some (ch[j].1, ch[j].2) := by rw [List.getElem?_eq_getElem hj]
  have hs := stuck hg hk hn hne fuel _ _ 0 (At.begin _ hn) hne le_rfl
  cases h3 : collectC (.children ch) fuel (.list j (ch[j].2).begin 0) with
  | ok l' => exact hs _ h3
  | throw e => rw [h3] at h2; cases h2
  | ub => rw [h3] at h2; cases h2
  | timeout => rw [h3] at h2; cases h2

/-! ### Concrete cases -/

/-- Two leads, three times, and a last change. -/
def sample : TouchNode :=
  .children [(3, .children [(2, .changes [⟨4, [0, 2]⟩, ⟨4, [1]⟩]), (1, .changes [⟨4, [2]⟩])]), (1, .changes [⟨4, [0]⟩])]

example : sample.Proper := by
  simp [sample, Proper, ProperList, TouchNode.flatten, TouchNode.flattenList]
example : sample.flatten.length = 16 := by
  simp [sample, TouchNode.flatten, TouchNode.flattenList]
example : collectC sample 17 sample.begin = .ok ((List.replicate 3 [⟨4, [0, 2]⟩, ⟨4, [1]⟩, ⟨4, [0, 2]⟩, ⟨4, [1]⟩, ⟨4, [2]⟩]).flatten ++
    [⟨4, [0]⟩]) := by rfl

end TouchNode
end Ringing
