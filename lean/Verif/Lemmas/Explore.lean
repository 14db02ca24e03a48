import Verif.Lemmas.Necklace
/-! The search tree: the recursion of `basic_search` and `table_search` visits exactly the nodes of a tree
described without state. -/
namespace Ringing
namespace Search

/-- The touches are given to the outputer one after the other until it halts. -/
def feed (halt : Outputer) : (out : List Touch) → List Touch → List Touch × Bool
  | out, [] => (out, false)
  | out, t :: ts => if halt (out ++ [t]) then (out ++ [t], true) else feed halt (out ++ [t]) ts

theorem feed_append (halt : Outputer) : ∀ (a out b : List Touch),
    feed halt out (a ++ b) = if (feed halt out a).2 then feed halt out a else feed halt (feed halt out a).1 b
  | [], out, b => by simp [feed]
  | t :: a, out, b => by
    rw [List.cons_append, feed, feed]
    by_cases h : halt (out ++ [t])
    · simp [h]
    · rw [if_neg h, if_neg h, feed_append halt a]

theorem feed_one (halt : Outputer) (out : List Touch) (t : Touch) : feed halt out [t] = give halt t out := by
  unfold feed give
  by_cases h : halt (out ++ [t]) <;> simp [h, feed]

/-- What is given is a prefix. -/
theorem feed_prefix (halt : Outputer) : ∀ (ts out : List Touch), ∃ k, (feed halt out ts).1 = out ++ ts.take k ∧
    ((feed halt out ts).2 = false → ts.take k = ts)
  | [], out => ⟨0, by simp [feed], fun _ => rfl⟩
  | t :: ts, out => by
    by_cases h : halt (out ++ [t])
    · exact ⟨1, by simp [feed, h], by simp [feed, h]⟩
    · obtain ⟨k, h1, h2⟩ := feed_prefix halt ts (out ++ [t])
      exact ⟨k + 1, by rw [feed, if_neg h, h1]; simp, by rw [feed, if_neg h]; intro e; simp [h2 e]⟩

/-- Where the outputer halts. -/
theorem feed_halt (halt : Outputer) : ∀ (ts out : List Touch), ∃ k, k ≤ ts.length ∧
    (feed halt out ts).1 = out ++ ts.take k ∧ (∀ j, 0 < j → j < k → halt (out ++ ts.take j) = false) ∧
    (k < ts.length → 0 < k ∧ halt (out ++ ts.take k) = true)
  | [], out => ⟨0, by simp, by simp [feed], by omega, by simp⟩
  | t :: ts, out => by
    by_cases h : halt (out ++ [t])
    · exact ⟨1, by simp, by simp [feed, h], by omega, fun _ => ⟨by omega, by simpa using h⟩⟩
    · obtain ⟨k, h1, h2, h3, h4⟩ := feed_halt halt ts (out ++ [t])
      refine ⟨k + 1, by simpa using h1, by rw [feed, if_neg h, h2]; simp, ?_, ?_⟩
      · intro j hj hjk
        obtain ⟨j, rfl⟩ : ∃ i, j = i + 1 := ⟨j - 1, by omega⟩
        rcases Nat.eq_zero_or_pos j with g | g
        · subst g; simpa using h
        · simpa using h3 j g (by omega)
      · intro hk
        exact ⟨by omega, by simpa using (h4 (by simpa using hk)).2⟩

theorem feed_never (ts out : List Touch) : feed (fun _ => false) out ts = (out ++ ts, false) := by
  induction ts generalizing out with
  | nil => simp [feed]
  | cons t ts ih => rw [feed, if_neg (by simp), ih]; simp

/-- `is_possibly_canonical`. -/
def possM (multi : Bool) (c : List Nat) (p : Nat) : Option Nat := if multi then some p else poss c p

theorem possiblyC_eq {multi : Bool} {c : List Nat} {p : Nat} (h : multi = false → c = [] ∨ p + 1 ≤ c.length) :
    possiblyC multi c p = .ok (possM multi c p) := by
  unfold possiblyC possM poss
  by_cases hc : c = []
  · subst hc; simp
  have hpos : 0 < c.length := List.length_pos_of_ne_nil hc
  cases multi with
  | true => simp
  | false =>
    have hp : p + 1 ≤ c.length := (h rfl).resolve_left hc
    simp only [List.isEmpty_iff, hc, if_false, Bool.false_eq_true]
    by_cases h0 : p = 0
    · simp [h0]
    · rw [if_neg h0, if_neg h0, if_neg (by omega)]
      have e1 : vget c (c.length - 1) = .ok (lt c (c.length - 1)) := by
        unfold vget lt; rw [List.getD_eq_getElem _ _ (by omega), List.getElem?_eq_getElem (by omega)]
      have e2 : vget c (c.length - 1 - p) = .ok (lt c (c.length - 1 - p)) := by
        unfold vget lt; rw [List.getD_eq_getElem _ _ (by omega), List.getElem?_eq_getElem (by omega)]
      rw [e1, e2]
      simp only [Out.ok_bind, gt_iff_lt]
      split_ifs <;> rfl

/-- All calls are numbers of lead heads. -/
def Dom (K : Nat) (c : List Nat) : Prop := ∀ x ∈ c, x < K

theorem Dom.snoc {K k : Nat} {c : List Nat} (h : Dom K c) (hk : k < K) : Dom K (c ++ [k]) := by
  intro x hx
  rcases List.mem_append.1 hx with h' | h'
  · exact h x h'
  · simp at h'; omega

/-- The parameters of the tree: the number of lead heads, the range, whether there is more than one part,
which nodes repeat, which have come round. -/
structure Tree where
  K : Nat
  lo : Nat
  hi : Nat
  multi : Bool
  F : List Nat → Bool
  rd : List Nat → Bool

/-- The nodes at which touches are output, with the period found, below the node `c`. -/
def Tree.visit (T : Tree) : (f : Nat) → (c : List Nat) → (p : Nat) → List (List Nat × Nat)
  | 0, _, _ => []
  | f + 1, c, p =>
    if T.F c then (if T.lo ≤ c.length ∧ T.rd c ∧ really T.multi c then [(c, p)] else [])
    else if c.length < T.hi then
      (List.range T.K).flatMap fun k =>
        match possM T.multi (c ++ [k]) p with
        | none => []
        | some q => T.visit f (c ++ [k]) q
    else []

/-- ... before the test for possible canonical form. -/
def Tree.enter (T : Tree) (f : Nat) (c : List Nat) (p : Nat) : List (List Nat × Nat) :=
  match possM T.multi c p with
  | none => []
  | some q => T.visit f c q

/-- The nodes of the tree. -/
inductive Tree.Node (T : Tree) : List Nat → Nat → Prop
  | nil : T.Node [] 0
  | snoc {c p k q} : T.Node c p → T.F c = false → c.length < T.hi → k < T.K →
      possM T.multi (c ++ [k]) p = some q → T.Node (c ++ [k]) q

/-- The nodes at which touches are output. -/
def Tree.Emit (T : Tree) (c : List Nat) (p : Nat) : Prop :=
  T.Node c p ∧ T.F c = true ∧ T.lo ≤ c.length ∧ T.rd c = true ∧ really T.multi c = true

theorem Tree.visit_sound {T : Tree} : ∀ (f : Nat) {c : List Nat} {p : Nat}, T.Node c p → ∀ x ∈ T.visit f c p,
    T.Emit x.1 x.2
  | 0, _, _, _, x, hx => by simp [visit] at hx
  | f + 1, c, p, h, x, hx => by
    rw [visit] at hx
    split at hx
    · rename_i hF
      split at hx
      · rename_i hc
        simp only [List.mem_singleton] at hx
        subst hx
        exact ⟨h, hF, hc.1, hc.2.1, hc.2.2⟩
      · cases hx
    · rename_i hF
      split at hx
      · rename_i hlt
        obtain ⟨k, hk, hx⟩ := List.mem_flatMap.1 hx
        split at hx
        · cases hx
        · rename_i q e
          exact visit_sound f (Node.snoc h (by simpa using hF) hlt (List.mem_range.1 hk) e) x hx
      · cases hx

theorem Tree.visit_up {T : Tree} {c : List Nat} {p : Nat} (h : T.Node c p) : ∀ (f : Nat), ∀ x ∈ T.visit f c p,
    x ∈ T.visit (f + c.length) [] 0 := by
  induction h with
  | nil => intro f x hx; simpa using hx
  | @snoc c p k q h hF hlt hk e ih =>
    intro f x hx
    have : x ∈ T.visit (f + 1) c p := by
      rw [visit, if_neg (by simp [hF]), if_pos hlt, List.mem_flatMap]
      exact ⟨k, List.mem_range.2 hk, by rw [e]; exact hx⟩
    have := ih (f + 1) x this
    rwa [List.length_append, List.length_singleton, show f + (c.length + 1) = f + 1 + c.length by omega]

/-- More fuel makes no difference. -/
theorem Tree.visit_stable {T : Tree} {B : Nat} (hB : ∀ c p, T.Node c p → c.length ≤ B) : ∀ (f : Nat) {c : List Nat} {p : Nat},
    T.Node c p → B < f + c.length → T.visit (f + 1) c p = T.visit f c p
  | 0, c, p, h, hf => by have := hB c p h; omega
  | f + 1, c, p, h, hf => by
    rw [visit, visit]
    by_cases hF : T.F c = true
    · rw [if_pos hF, if_pos hF]
    rw [if_neg hF, if_neg hF]
    by_cases hlt : c.length < T.hi
    · rw [if_pos hlt, if_pos hlt]
      apply List.flatMap_congr
      intro k hk
      cases e : possM T.multi (c ++ [k]) p with
      | none => rfl
      | some q =>
        exact visit_stable hB f (Node.snoc h (by simpa using hF) hlt (List.mem_range.1 hk) e) (by simp; omega)
    · rw [if_neg hlt, if_neg hlt]

theorem Tree.visit_const {T : Tree} {B : Nat} (hB : ∀ c p, T.Node c p → c.length ≤ B) {f : Nat} (hf : B < f) :
    T.visit f [] 0 = T.visit (B + 1) [] 0 := by
  induction f, hf using Nat.le_induction with
  | base => rfl
  | succ f hf ih => rw [visit_stable hB f Node.nil (by simp; omega), ih]

/-- Exactly the nodes that satisfy the tests are output. -/
theorem Tree.visit_iff {T : Tree} {B : Nat} (hB : ∀ c p, T.Node c p → c.length ≤ B) {f : Nat} (hf : B < f)
    (c : List Nat) (p : Nat) : (c, p) ∈ T.visit f [] 0 ↔ T.Emit c p := by
  constructor
  · intro h; exact visit_sound f Node.nil _ h
  · intro h
    have hle := hB c p h.1
    have : (c, p) ∈ T.visit (f - c.length) c p := by
      obtain ⟨g, hg⟩ : ∃ g, f - c.length = g + 1 := ⟨f - c.length - 1, by omega⟩
      rw [hg, visit, if_pos h.2.1, if_pos ⟨h.2.2.1, h.2.2.2.1, h.2.2.2.2⟩]; simp
    have := visit_up h.1 _ _ this
    rwa [Nat.sub_add_cancel (by omega)] at this

theorem Tree.visit_prefix {T : Tree} : ∀ (f : Nat) (c : List Nat) (p : Nat), ∀ x ∈ T.visit f c p, c <+: x.1
  | 0, _, _, x, hx => by simp [visit] at hx
  | f + 1, c, p, x, hx => by
    rw [visit] at hx
    split at hx
    · split at hx
      · simp only [List.mem_singleton] at hx
        subst hx; exact List.prefix_rfl
      · cases hx
    · split at hx
      · obtain ⟨k, hk, hx⟩ := List.mem_flatMap.1 hx
        split at hx
        · cases hx
        · exact (List.prefix_append c [k]).trans (visit_prefix f _ _ x hx)
      · cases hx

/-- No node is output twice. -/
theorem Tree.visit_nodup {T : Tree} : ∀ (f : Nat) (c : List Nat) (p : Nat), ((T.visit f c p).map Prod.fst).Nodup
  | 0, _, _ => by simp [visit]
  | f + 1, c, p => by
    rw [visit]
    split
    · split <;> simp
    · split
      · rw [List.map_flatMap, List.nodup_flatMap]
        refine ⟨fun k _ => ?_, ?_⟩
        · split
          · simp
          · exact visit_nodup f _ _
        · have : (List.range T.K).Nodup := List.nodup_range
          refine List.Pairwise.imp_of_mem (fun {a b} _ _ hne => ?_) this
          intro x hx hx'
          have key : ∀ k, x ∈ (match possM T.multi (c ++ [k]) p with
              | none => []
              | some q => T.visit f (c ++ [k]) q).map Prod.fst → c ++ [k] <+: x := by
            intro k hk
            split at hk
            · cases hk
            · obtain ⟨y, hy, rfl⟩ := List.mem_map.1 hk
              exact visit_prefix f _ _ y hy
          have h1 := key a hx
          have h2 := key b hx'
          have := (List.prefix_of_prefix_length_le h1 h2 (by simp)).eq_of_length (by simp)
          simp at this
          exact hne this
      · simp

/-! ### The recursion -/

/-- How the state of the program stands for a node: `I l c` says that `l` is the set of leads before the
node `c`, `J l c` the set with the lead of `c` added. -/
structure Sim {R L : Type} (P : Ops R L) (halt : Outputer) (N : List Nat → R) (T : Tree)
    (emit : List Nat → Nat → List Touch) (I J : L → List Nat → Prop) : Prop where
  params : T.K = P.K ∧ T.lo = P.lo ∧ T.hi = P.hi ∧ T.multi = P.multi
  round : ∀ c, Dom P.K c → P.round (N c) = T.rd c
  isFalse : ∀ {l c}, Dom P.K c → I l c → P.isFalseC l (N c) = .ok (T.F c)
  first : T.F [] = false
  ins : ∀ {l c}, Dom P.K c → I l c → T.F c = false → ∃ l', P.insC l (N c) = .ok l' ∧ J l' c
  next : ∀ {l c} (k : Nat), J l c ↔ I l (c ++ [k])
  del : ∀ {l c}, Dom P.K c → J l c → T.F c = false → ∃ l', P.delC l (N c) = .ok l' ∧ I l' c
  mul : ∀ {c k}, Dom P.K c → k < P.K → P.mulC (N c) k = .ok (N (c ++ [k]))
  out : ∀ {c p} (o : List Touch), Dom P.K c → c ≠ [] → (P.multi = false → Pre c p) →
    P.outC c p o = .ok (feed halt o (emit c p))

section
variable {R L : Type} {P : Ops R L} {halt : Outputer} {N : List Nat → R} {T : Tree}
  {emit : List Nat → Nat → List Touch} {I J : L → List Nat → Prop}

/-- The touches output below a node. -/
def outs (emit : List Nat → Nat → List Touch) (l : List (List Nat × Nat)) : List Touch :=
  l.flatMap fun x => emit x.1 x.2

theorem outs_append (a b : List (List Nat × Nat)) : outs emit (a ++ b) = outs emit a ++ outs emit b := by
  unfold outs; rw [List.flatMap_append]

theorem loop_sim (S : Sim P halt N T emit I J) {c : List Nat} {r : R} (hc : Dom P.K c) (hr : r = N c)
    (body : R → St L → Out (St L)) (ts : Nat → List Touch)
    (hbody : ∀ k st, k < P.K → st.halt = false → st.calls = c ++ [k] → I st.leads (c ++ [k]) →
      ∃ l', body (N (c ++ [k])) st = .ok ⟨l', c ++ [k], (feed halt st.out (ts k)).2, (feed halt st.out (ts k)).1⟩ ∧
        I l' (c ++ [k])) :
    ∀ (n k : Nat) (st : St L), n + k = P.K → st.calls = c ++ [k] → J st.leads c →
    ∀ ts0 : List Touch, ∀ out0 : List Touch, feed halt out0 ts0 = (st.out, st.halt) →
    ∃ l' k', loopC P.K P.mulC body r (n + 1) st = .ok ⟨l', c ++ [k'],
        (feed halt out0 (ts0 ++ (List.range' k n).flatMap ts)).2,
        (feed halt out0 (ts0 ++ (List.range' k n).flatMap ts)).1⟩ ∧ J l' c
  | n, k, st, hn, hcalls, hJ, ts0, out0, hfeed => by
    rw [loopC]
    obtain ⟨leads, calls, hlt, out⟩ := st
    simp only at hcalls hJ hfeed ⊢
    subst hcalls
    cases hlt with
    | true =>
      refine ⟨leads, k, ?_, hJ⟩
      rw [feed_append, hfeed]; rfl
    | false =>
      have hv : ∀ (x : Nat), vget (c ++ [x]) ((c ++ [x]).length - 1) = .ok x := by intro x; simp [vget]
      rw [if_neg (by simp), hv, Out.ok_bind]
      by_cases hk : k < P.K
      · obtain ⟨n', rfl⟩ : ∃ n', n = n' + 1 := ⟨n - 1, by omega⟩
        obtain ⟨l', e1, e2⟩ := hbody k ⟨leads, c ++ [k], false, out⟩ hk rfl rfl ((S.next k).1 hJ)
        rw [if_pos hk, hr, S.mul hc hk, Out.ok_bind, e1, Out.ok_bind]
        simp only
        rw [hv, Out.ok_bind, ← hr]
        obtain ⟨l2, k2, f1, f2⟩ := loop_sim S hc hr body ts hbody n' (k + 1)
          ⟨l', (c ++ [k]).dropLast ++ [k + 1], (feed halt out (ts k)).2, (feed halt out (ts k)).1⟩ (by omega) (by simp)
          ((S.next k).2 e2) (ts0 ++ ts k) out0 (by
            rw [feed_append, hfeed]; simp)
        refine ⟨l2, k2, ?_, f2⟩
        rw [f1, List.range'_succ, List.flatMap_cons, ← List.append_assoc]
      · have hn0 : n = 0 := by omega
        subst hn0
        rw [if_neg hk]
        refine ⟨leads, k, ?_, hJ⟩
        simp [hfeed]

theorem run_sim (S : Sim P halt N T emit I J) {B : Nat} (hB : ∀ c, Dom P.K c →
      (∀ i, i < c.length → T.F (c.take i) = false) → c.length ≤ B) :
    ∀ (f : Nat) (c : List Nat) (p : Nat) (st : St L), B < f + c.length → Dom P.K c →
    (∀ i, i < c.length → T.F (c.take i) = false) → st.calls = c → st.halt = false → I st.leads c →
    ((c = [] ∧ p = 0) ∨ ∃ d k, c = d ++ [k] ∧ (P.multi = false → Pre d p)) →
    ∃ l', runRecC P f (N c) c.length p st = .ok ⟨l', c, (feed halt st.out (outs emit (T.enter f c p))).2,
      (feed halt st.out (outs emit (T.enter f c p))).1⟩ ∧ I l' c
  | 0, c, p, st, hf, hc, hF, _, _, _, _ => by
    have := hB c hc hF; omega
  | f + 1, c, p, st, hf, hc, hF, hcalls, hhalt, hI, hp => by
    obtain ⟨leads, calls, hlt, out⟩ := st
    simp only at hcalls hhalt hI ⊢
    subst hcalls hhalt
    obtain ⟨pK, plo, phi, pm⟩ := S.params
    rw [runRecC, possiblyC_eq (by
      intro hm
      rcases hp with hp | ⟨d, k, hd, hd'⟩
      · exact Or.inl hp.1
      · right; rw [hd]; have := (hd' hm).le; simp; omega), Out.ok_bind]
    rw [Tree.enter, pm]
    cases hq : possM P.multi calls p with
    | none => exact ⟨leads, by simp [outs, feed], hI⟩
    | some q =>
      simp only
      have hpre : P.multi = false → Pre calls q := by
        intro hm
        rw [possM, hm] at hq
        rcases hp with ⟨rfl, rfl⟩ | ⟨d, k, rfl, hd'⟩
        · simp [poss] at hq; subst hq; exact Pre.nil
        · exact (hd' hm).snoc (by simpa using hq)
      rw [S.isFalse hc hI, Out.ok_bind, Tree.visit, S.round _ hc]
      cases hFc : T.F calls with
      | true =>
        have hne : calls ≠ [] := by intro e; rw [e, S.first] at hFc; cases hFc
        simp only [if_true]
        by_cases hcond : T.lo ≤ calls.length ∧ T.rd calls = true ∧ really T.multi calls = true
        · rw [if_pos hcond, if_pos (by rw [← plo, ← pm]; exact hcond), S.out out hc hne hpre]
          exact ⟨leads, by simp [outs], hI⟩
        · rw [if_neg hcond, if_neg (by rw [← plo, ← pm]; exact hcond)]
          exact ⟨leads, by simp [outs, feed], hI⟩
      | false =>
        simp only [Bool.false_eq_true, if_false]
        by_cases hlt : calls.length < T.hi
        · rw [if_pos hlt, if_pos (by rw [← phi]; exact hlt)]
          obtain ⟨l1, e1, e2⟩ := S.ins hc hI hFc
          rw [e1, Out.ok_bind]
          obtain ⟨l2, k2, e3, e4⟩ := loop_sim S (r := N calls) hc rfl
            (fun r' st => runRecC P f r' (calls.length + 1) q st) (fun k => outs emit (T.enter f (calls ++ [k]) q))
            (by
              intro k st hk hh hcl hI'
              have := run_sim S hB f (calls ++ [k]) q st (by simp; omega) (hc.snoc hk) (by
                intro i hi
                rw [List.length_append, List.length_singleton] at hi
                by_cases h : i < calls.length
                · rw [List.take_append_of_le_length (by omega)]; exact hF i h
                · rw [show i = calls.length by omega, List.take_left]; exact hFc) hcl hh hI'
                (Or.inr ⟨calls, k, rfl, hpre⟩)
              rw [List.length_append, List.length_singleton] at this
              exact this) P.K 0 ⟨l1, calls ++ [0], false, out⟩ rfl rfl e2 [] out rfl
          rw [e3, Out.ok_bind]
          obtain ⟨l3, e5, e6⟩ := S.del hc e4 hFc
          simp only
          rw [e5, Out.ok_bind]
          refine ⟨l3, ?_, e6⟩
          have hts : (List.range' 0 P.K).flatMap (fun k => outs emit (T.enter f (calls ++ [k]) q)) =
              outs emit ((List.range T.K).flatMap fun k => match possM T.multi (calls ++ [k]) q with
                | none => []
                | some q => T.visit f (calls ++ [k]) q) := by
            unfold outs
            rw [List.flatMap_assoc, pK, List.range_eq_range']
            rfl
          rw [List.nil_append, hts]
          simp
        · rw [if_neg hlt, if_neg (by rw [← phi]; exact hlt)]
          exact ⟨leads, by simp [outs, feed], hI⟩

/-- The nodes of the tree have the properties the simulation needs. -/
theorem Tree.Node.facts {T : Tree} {c : List Nat} {p : Nat} (h : T.Node c p) : Dom T.K c ∧
    (∀ i, i < c.length → T.F (c.take i) = false) ∧ c.length ≤ T.hi ∧ (T.multi = false → Cn c p) := by
  induction h with
  | nil => exact ⟨by simp [Dom], by simp, by simp, fun _ => Cn.nil⟩
  | @snoc c p k q h hF hlt hk e ih =>
    obtain ⟨i1, i2, i3, i4⟩ := ih
    refine ⟨i1.snoc hk, ?_, by simp; omega, ?_⟩
    · intro i hi
      rw [List.length_append, List.length_singleton] at hi
      by_cases hc : i < c.length
      · rw [List.take_append_of_le_length (by omega)]; exact i2 i hc
      · rw [show i = c.length by omega, List.take_left]; exact hF
    · intro hm
      rw [possM, hm] at e
      exact Cn.snoc (i4 hm) (by simpa using e)

theorem Tree.node_of {T : Tree} (hm : T.multi = false) {c : List Nat} {p : Nat} (h : Cn c p) : Dom T.K c →
    (∀ i, i < c.length → T.F (c.take i) = false) → c.length ≤ T.hi → T.Node c p := by
  induction h with
  | nil => intros; exact Node.nil
  | @snoc c p k q h e ih =>
    intro hd hF hl
    rw [List.length_append, List.length_singleton] at hl hF
    refine Node.snoc (ih (fun x hx => hd x (by simp [hx])) ?_ (by omega)) ?_ (by omega) (hd k (by simp))
      (by rw [possM, hm]; exact e)
    · intro i hi
      have := hF i (by omega)
      rwa [List.take_append_of_le_length (by omega)] at this
    · have := hF c.length (by omega)
      rwa [List.take_left] at this

theorem Tree.node_multi {T : Tree} (hm : T.multi = true) (c : List Nat) : Dom T.K c →
    (∀ i, i < c.length → T.F (c.take i) = false) → c.length ≤ T.hi → T.Node c 0 := by
  induction c using List.reverseRecOn with
  | nil => intros; exact Node.nil
  | append_singleton c k ih =>
    intro hd hF hl
    rw [List.length_append, List.length_singleton] at hl hF
    refine Node.snoc (ih (fun x hx => hd x (by simp [hx])) ?_ (by omega)) ?_ (by omega) (hd k (by simp))
      (by rw [possM, hm]; rfl)
    · intro i hi
      have := hF i (by omega)
      rwa [List.take_append_of_le_length (by omega)] at this
    · have := hF c.length (by omega)
      rwa [List.take_left] at this

end
end Search
end Ringing
