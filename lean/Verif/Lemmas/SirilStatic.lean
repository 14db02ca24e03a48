import Verif.Lemmas.SirilInv
import Verif.Lemmas.Change3
import Verif.Spec.SirilTouch
/-
Executing touches without conditions.
-/
namespace Ringing.Siril
open Prover Spec Spec.Siril

theorem applyC_rung {c : Change} (hc : IsChange c.n c.swaps) {r : Row} (hl : c.n ≤ r.length) :
    Row.applyC r c = .ok (rungRow c.swaps r) := by
  have hw : c.WF := hc
  rw [Row.applyC_eq hw]
  congr 1
  unfold Row.apply rungRow
  rw [Nat.max_eq_left hl]
  apply List.map_congr_left
  intro i _
  rw [bellAt_eq_fn, hw.pos_eq]

/-! ## Calls with enough budget -/

/-- With enough budget `f` ends in this way. -/
def Runs {α : Type} (f : Nat → M α) (s : St) (res : Res α) : Prop := ∃ N, ∀ n, N ≤ n → f n s = res

section
variable {α β : Type}

theorem runs_of {f : Nat → M α} {s : St} {res : Res α} (h : ∀ n, f n s = res) : Runs f s res := ⟨0, fun n _ => h n⟩

theorem runs_bind {f : Nat → M α} {g : Nat → α → M β} {s s1 : St} {a : α} {res : Res β}
    (h1 : Runs f s (.ok a s1)) (h2 : Runs (fun n => g n a) s1 res) : Runs (fun n => f n >>= g n) s res := by
  obtain ⟨N1, h1⟩ := h1
  obtain ⟨N2, h2⟩ := h2
  refine ⟨max N1 N2, fun n hn => ?_⟩
  show M.bind (f n) (g n) s = res
  unfold M.bind
  rw [h1 n (by omega)]
  exact h2 n (by omega)

theorem runs_bind_abort {f : Nat → M α} {g : Nat → α → M β} {s s1 : St}
    (h1 : Runs f s (.abort s1)) : Runs (fun n => f n >>= g n) s (.abort s1) := by
  obtain ⟨N1, h1⟩ := h1
  refine ⟨N1, fun n hn => ?_⟩
  show M.bind (f n) (g n) s = _
  unfold M.bind
  rw [h1 n hn]

theorem runs_congr {f g : Nat → M α} {s s' : St} {res : Res α} (h : ∀ n, f n s = g n s') (hg : Runs g s' res) :
    Runs f s res := by
  obtain ⟨N, hg⟩ := hg
  exact ⟨N, fun n hn => (h n).trans (hg n hn)⟩

/-- From a budget to the next. -/
theorem runs_succ {f g : Nat → M α} {s s' : St} {res : Res α} (h : ∀ n, f (n + 1) s = g n s') (hg : Runs g s' res) :
    Runs f s res := by
  obtain ⟨N, hg⟩ := hg
  refine ⟨N + 1, fun n hn => ?_⟩
  obtain ⟨m, rfl⟩ : ∃ m, n = m + 1 := ⟨n - 1, by omega⟩
  rw [h]; exact hg m (by omega)

end

/-- The state with one more node counted. -/
def St.ticked (s : St) : St := { s with e := { s.e with nodes := s.e.nodes + 1 + 1 } }

theorem tick_ok {v : Env} (h : v.nodeLimit = 0) (s : St) : tick v s = .ok () s.ticked := by
  unfold tick
  simp only
  rw [if_neg (by omega)]
  rfl

theorem exec_succ {v : Env} (h : v.nodeLimit = 0) (n : Nat) (e : Expr) (d : Int) (s : St) :
    (calls v (n + 1)).exec e d s = execN v (calls v n) n e d s.ticked := by
  show M.bind (tick v) (fun _ => execN v (calls v n) n e d) s = _
  unfold M.bind
  rw [tick_ok h]

theorem runs_exec {v : Env} (h : v.nodeLimit = 0) {e : Expr} {d : Int} {s : St} {res : Res Unit}
    (hr : Runs (fun n => execN v (calls v n) n e d) s.ticked res) : Runs (fun n => (calls v n).exec e d) s res :=
  runs_succ (fun n => exec_succ h n e d s) hr

theorem runs_pn {v : Env} (h : v.nodeLimit = 0) {e : Expr} {s : St} {res : Res (List Change)}
    (hr : Runs (fun n => pnN (calls v n) e) s.ticked res) : Runs (fun n => (calls v n).pn e) s res := by
  refine runs_succ (fun n => ?_) hr
  show M.bind (tick v) (fun _ => pnN (calls v n) e) s = _
  unfold M.bind
  rw [tick_ok h]

theorem runs_int {v : Env} (h : v.nodeLimit = 0) {e : Expr} {s : St} {res : Res Int}
    (hr : Runs (fun n => intN v (calls v n) e) s.ticked res) : Runs (fun n => (calls v n).int e) s res := by
  refine runs_succ (fun n => ?_) hr
  show M.bind (tick v) (fun _ => intN v (calls v n) e) s = _
  unfold M.bind
  rw [tick_ok h]

/-! ## States -/

/-- `s'` is `s` but for the count of nodes and, unless `q`, the output. -/
def Same (q : Prop) (s s' : St) : Prop := ∃ k o, (q → o = s.e.out) ∧ s' = { s with e := { s.e with nodes := k, out := o } }

theorem Same.refl (q : Prop) (s : St) : Same q s s := ⟨s.e.nodes, s.e.out, fun _ => rfl, rfl⟩
theorem Same.trans {q : Prop} {a b c : St} (h1 : Same q a b) (h2 : Same q b c) : Same q a c := by
  obtain ⟨k, o, ho, rfl⟩ := h1
  obtain ⟨k', o', ho', rfl⟩ := h2
  exact ⟨k', o', fun h => (ho' h).trans (ho h), rfl⟩
theorem same_ticked (q : Prop) (s : St) : Same q s s.ticked := ⟨_, s.e.out, fun _ => rfl, rfl⟩

/-- A state in the middle of a touch: the symbols are those of `t`, there is no music and no maximal length, and
the proof goes on. -/
structure Ready (v : Env) (t : Table) (r0 : Row) (s : St) : Prop where
  syms : s.e.syms = t
  dyn : ∀ n, n ≠ "loop_counter".toList → s.dsyms n = none
  mus : s.mus = Music.new s.mus.b
  max : s.maxLength = 0
  proving : s.proving = true
  inv : Inv v r0 s

variable {v : Env} {t : Table} {r0 : Row} {q : Prop}

theorem Ready.same {s s' : St} (h : Ready v t r0 s) (hs : Same q s s') : Ready v t r0 s' := by
  obtain ⟨k, o, -, rfl⟩ := hs
  exact ⟨h.syms, h.dyn, h.mus, h.max, h.proving, ⟨h.inv.rep, h.inv.cur, h.inv.on, h.inv.off, h.inv.linked⟩⟩

theorem Ready.counter {s : St} (h : Ready v t r0 s) {d : Table} (hd : ∀ n, n ≠ "loop_counter".toList → d n = s.dsyms n) :
    Ready v t r0 { s with dsyms := d } :=
  ⟨h.syms, fun n hn => (hd n hn).trans (h.dyn n hn), h.mus, h.max, h.proving,
    ⟨h.inv.rep, h.inv.cur, h.inv.on, h.inv.off, h.inv.linked⟩⟩

theorem Ready.lookup {s : St} (h : Ready v t r0 s) {n : Str} {x : Expr} (hn : n ≠ "loop_counter".toList)
    (hx : t n = some x) : lookup n s = .ok x s := by
  unfold Siril.lookup
  rw [h.dyn n hn, h.syms, hx]

theorem Ready.ended {s : St} (h : Ready v t r0 s) : s.ended = none := h.inv.on h.proving
theorem Ready.proved {s : St} (h : Ready v t r0 s) : s.proved = s.rung := by simp only [St.proved, h.ended]

/-- Executing the expression in the middle of a touch only prints or, if `q`, does nothing. -/
def Harmless (v : Env) (t : Table) (q : Prop) (x : Expr) : Prop := ∀ r0 s, Ready v t r0 s →
  ∃ s', Runs (fun n => (calls v n).exec x 1) s (.ok () s') ∧ Same q s s'

/-- Executing the expression in the middle of a touch prints and aborts the proof. -/
def Stops (v : Env) (t : Table) (x : Expr) : Prop := ∀ r0 s, Ready v t r0 s →
  ∃ s', Runs (fun n => (calls v n).exec x 1) s (.abort s') ∧ Same False s s'

/-- A symbol with a harmless definition. -/
def HarmlessSym (v : Env) (t : Table) (q : Prop) (n : Str) : Prop := ∃ x, t n = some x ∧ Harmless v t q x
def StopsSym (v : Env) (t : Table) (n : Str) : Prop := ∃ x, t n = some x ∧ Stops v t x

theorem harmless_nop (hl : v.nodeLimit = 0) : Harmless v t q .nop := fun _ s _ =>
  ⟨s.ticked, runs_exec hl (runs_of fun _ => rfl), same_ticked q s⟩

theorem stops_abort (hl : v.nodeLimit = 0) : Stops v t (.exc .abort) := fun _ s _ =>
  ⟨s.ticked, runs_exec hl (runs_of fun _ => rfl), same_ticked _ s⟩

theorem runs_symbol {n : Str} {x : Expr} {s : St} {d : Int} {res : Res Unit} (h : Ready v t r0 s)
    (hn : n ≠ "loop_counter".toList) (hx : t n = some x) (hr : Runs (fun n => (calls v n).exec x d) s res) :
    Runs (fun k => execSymbol (calls v k) n d) s res :=
  runs_bind (f := fun _ => Siril.lookup n) (runs_of fun _ => h.lookup hn hx) hr

/-- The event symbols: `everyrow` and `rounds` only print or, if `q`, do nothing, and so does `conflict` unless, if
`stop`, it aborts. -/
structure Events (v : Env) (t : Table) (stop q : Prop) : Prop where
  limit : v.nodeLimit = 0
  everyrow : HarmlessSym v t q "everyrow".toList
  rounds : HarmlessSym v t q "rounds".toList
  conflict : ¬ stop → HarmlessSym v t q "conflict".toList
  abort : stop → StopsSym v t "conflict".toList

theorem process_none (m : Music) (hm : m = Music.new m.b) (rd : Nat → Out Nat) (hrd : ∀ i, ∃ x, rd i = .ok x) (r : Row)
    (back : Bool) : ∃ m' b, m.processC rd r back = .ok (m', b) ∧ m' = Music.new m'.b := by
  rw [hm]
  obtain ⟨x, hx⟩ := hrd 0
  refine ⟨Music.new m.b, false, ?_, rfl⟩
  simp [Music.processC, Music.new, MNode.new, MNode.matchC, MNode.dmLoop, MNode.hasKey, hx, MNode.matchSub, Out.ok_bind]

theorem ne_counter {n : Str} (h : n.head? ≠ some 'l') : n ≠ "loop_counter".toList := by
  rintro rfl; exact h rfl

theorem Ready.silent {s : St} (h : Ready v t r0 s) (b : Bool) : Ready v t r0 { s with silent := b } :=
  ⟨h.syms, h.dyn, h.mus, h.max, h.proving, ⟨h.inv.rep, h.inv.cur, h.inv.on, h.inv.off, h.inv.linked⟩⟩

theorem runs_harmless {n : Str} (hh : HarmlessSym v t q n) (hn : n ≠ "loop_counter".toList) {s : St} (h : Ready v t r0 s) :
    ∃ s', Runs (fun k => execSymbol (calls v k) n) s (.ok () s') ∧ Same q s s' := by
  obtain ⟨x, hx, hh⟩ := hh
  obtain ⟨s', hr, hs⟩ := hh r0 s h
  exact ⟨s', runs_symbol h hn hx hr, hs⟩

theorem runs_everyrow {stop : Prop} (ev : Events v t stop q) {s : St} (h : Ready v t r0 s) :
    ∃ s', Runs (fun k => execEveryrow v (calls v k)) s (.ok () s') ∧ Same q s s' := by
  have h1 : Ready v t r0 (if v.everyrowOnly && !v.filter then { s with silent := false } else s) := by
    split
    · exact h.silent _
    · exact h
  obtain ⟨s2, hr, k, o, ho, e2⟩ := runs_harmless ev.everyrow (ne_counter (by decide)) h1
  refine ⟨{ s2 with silent := s.silent }, ?_, ?_⟩
  · refine runs_bind (f := fun _ => M.get) (s1 := s) (a := s) (runs_of fun _ => rfl) ?_
    refine runs_bind (f := fun _ => (fun s => .ok () (if v.everyrowOnly && !v.filter then { s with silent := false } else s) : M Unit))
      (a := ()) (runs_of fun _ => rfl) ?_
    exact runs_bind hr (runs_of fun _ => rfl)
  · subst e2
    refine ⟨k, o, fun hq => ?_, ?_⟩
    · rw [ho hq]; split <;> rfl
    · split <;> rfl

/-- What ringing some changes does to the state. -/
structure After (v : Env) (t : Table) (r0 : Row) (q : Prop) (cs : List Change) (s s' : St) : Prop where
  ready : Ready v t r0 s'
  rung : s'.rung = s.rung ++ rowsFrom s.r (cs.map (·.swaps))
  out : q → s'.e.out = s.e.out
  prints : s'.silent = s.silent ∧ s'.live = s.live

theorem After.row {cs : List Change} {s s' : St} (h : After v t r0 q cs s s') (hs : Ready v t r0 s) :
    s'.r = lastOf s.r (rowsFrom s.r (cs.map (·.swaps))) := by
  have h1 := hs.inv.cur
  rw [h.ready.inv.cur, h.rung]
  unfold lastOf at h1 ⊢
  rw [List.getLast?_append]
  cases (rowsFrom s.r (cs.map (·.swaps))).getLast? with
  | none => exact h1.symm
  | some x => rfl

/-- The proof was stopped while these changes were rung, by `conflict` at the first row that occurs too often. -/
structure Stopped (v : Env) (t : Table) (r0 : Row) (q : Prop) (cs : List Change) (s s' : St) : Prop where
  ready : Ready v t r0 s'
  first : ∃ k s1 sx, k < (rowsFrom s.r (cs.map (·.swaps))).length ∧
    NoRowTooOften v.extents (s.rung ++ (rowsFrom s.r (cs.map (·.swaps))).take k) ∧
    ¬ NoRowTooOften v.extents (s.rung ++ (rowsFrom s.r (cs.map (·.swaps))).take (k + 1)) ∧
    Ready v t r0 s1 ∧ s1.rung = s.rung ++ (rowsFrom s.r (cs.map (·.swaps))).take (k + 1) ∧ (q → s1.e.out = s.e.out) ∧
    s1.silent = s.silent ∧ s1.live = s.live ∧ Runs (fun n => execSymbol (calls v n) "conflict".toList) s1 (.abort sx) ∧
    s'.e = sx.e

/-- How ringing some changes ends. -/
def Outcome (v : Env) (t : Table) (r0 : Row) (stop q : Prop) (cs : List Change) (s : St) (res : Res Unit) : Prop :=
  (∃ s', res = .ok () s' ∧ After v t r0 q cs s s' ∧
    (stop → NoRowTooOften v.extents (s.rung ++ rowsFrom s.r (cs.map (·.swaps))))) ∨
  (stop ∧ ∃ s', res = .abort s' ∧ Stopped v t r0 q cs s s')

/-- One row. -/
theorem runs_one {stop : Prop} (ev : Events v t stop q) {s : St} (h : Ready v t r0 s) {c : Change}
    (hc : IsChange c.n c.swaps) (hl : c.n ≤ s.r.length) (back : Bool)
    (hno : stop → NoRowTooOften v.extents s.rung) :
    (∃ s' b, Runs (fun k => do permute (fun r => r.applyC c); prove v (calls v k) back) s (.ok b s') ∧
      After v t r0 q [c] s s' ∧ (stop → NoRowTooOften v.extents s'.rung)) ∨
    (stop ∧ ∃ s', Runs (fun k => do permute (fun r => r.applyC c); prove v (calls v k) back) s (.abort s') ∧
      Stopped v t r0 q [c] s s') := by
  classical
  set r' := rungRow c.swaps s.r with hr'
  have hperm : permute (fun r => r.applyC c) s = .ok () { s with r := r', rung := s.rung ++ [r'] } := by
    unfold permute
    simp only [applyC_rung hc hl, hr']
  have hrep := h.inv.rep
  rw [h.proved] at hrep
  obtain ⟨b, p', ha, hrep', hb⟩ := Proof.rep_addRow hrep r' (v.place s.p r')
  -- the state after the row is added
  set s1 : St := { s with r := r', rung := s.rung ++ [r'], p := p' } with hs1
  have hinv1 : Inv v r0 s1 := inv_reach (Reach.prove s r' _ b p' h.proving (Or.inl ⟨c, applyC_rung hc hl⟩) ha) h.inv
  have h1 : Ready v t r0 s1 := ⟨h.syms, h.dyn, h.mus, h.max, h.proving, hinv1⟩
  have hadd : addRow v { s with r := r', rung := s.rung ++ [r'] } = .ok b s1 := by
    unfold addRow
    simp only [ha, hs1]
  -- music
  obtain ⟨m', hit, hm1, hm2⟩ := process_none s1.mus h1.mus (readBell v s1.r) (fun i => ⟨_, rfl⟩) s1.r back
  set s2 : St := { s1 with mus := m' } with hs2
  have h2 : Ready v t r0 s2 := ⟨h1.syms, h1.dyn, hm2, h1.max, h1.proving,
    ⟨h1.inv.rep, h1.inv.cur, h1.inv.on, h1.inv.off, h1.inv.linked⟩⟩
  have hmus : processMusic v back s1 = .ok () s2 := by
    unfold processMusic
    simp only [hm1, hs2]
  obtain ⟨s3, hr3, same3⟩ := runs_everyrow ev h2
  have h3 := h2.same same3
  -- rounds
  obtain ⟨s4, hr4, same4⟩ : ∃ s4, Runs (fun k => M.cond (s3.isrounds v) (execSymbol (calls v k) "rounds".toList)) s3
      (.ok () s4) ∧ Same q s3 s4 := by
    cases s3.isrounds v with
    | false => exact ⟨s3, runs_of fun _ => rfl, Same.refl _ _⟩
    | true => exact runs_harmless ev.rounds (ne_counter (by decide)) h3
  have h4 := h3.same same4
  have hrest : ∀ {res : Res Unit} {res' : Res Bool}, Runs (fun k => M.cond (!b) (execSymbol (calls v k) "conflict".toList)) s4 res →
      (∀ s', res = .ok () s' → res' = .ok (!back) s') → (∀ s', res = .abort s' → res' = .abort s') →
      (∃ s', res = .ok () s' ∨ res = .abort s') →
      Runs (fun k => do permute (fun r => r.applyC c); prove v (calls v k) back) s res' := by
    intro res res' hr e1 e2 ex
    refine runs_bind (f := fun _ => permute (fun r => r.applyC c)) (runs_of fun _ => hperm) ?_
    refine runs_congr (g := fun k => proveRest v (calls v k) b back) (s' := s1) (fun k => ?_) ?_
    · rw [prove_on (show ({ s with r := r', rung := s.rung ++ [r'] } : St).proving = true from h.proving)]
      unfold M.bind
      rw [hadd]
    · refine runs_bind (f := fun _ => processMusic v back) (runs_of fun _ => hmus) ?_
      refine runs_bind hr3 ?_
      refine runs_bind (f := fun _ => M.get) (s1 := s3) (a := s3) (runs_of fun _ => rfl) ?_
      refine runs_bind (f := fun k => M.cond (decide (s3.maxLength ≠ 0 ∧ s3.p.size > s3.maxLength))
        (execSymbol (calls v k) "toolong".toList)) (s1 := s3) (a := ()) (runs_of fun _ => ?_) ?_
      · rw [h3.max]; rfl
      refine runs_bind (f := fun _ => M.get) (s1 := s3) (a := s3) (runs_of fun _ => rfl) ?_
      refine runs_bind hr4 ?_
      obtain ⟨s', rfl | rfl⟩ := ex
      · rw [e1 s' rfl]
        exact runs_bind hr (runs_of fun _ => rfl)
      · rw [e2 s' rfl]
        exact runs_bind_abort hr
  have hrung : ∀ {q' : Prop} {s'}, Same q' s4 s' → s'.rung = s.rung ++ [r'] ∧ Ready v t r0 s' ∧
      (q ∧ q' → s'.e.out = s.e.out) ∧ s'.silent = s.silent ∧ s'.live = s.live := by
    intro q' s' hs'
    refine ⟨?_, h4.same hs', ?_⟩
    · obtain ⟨k1, o1, _, rfl⟩ := same3
      obtain ⟨k2, o2, _, rfl⟩ := same4
      obtain ⟨k3, o3, _, rfl⟩ := hs'
      rfl
    · obtain ⟨k1, o1, a1, rfl⟩ := same3
      obtain ⟨k2, o2, a2, rfl⟩ := same4
      obtain ⟨k3, o3, a3, rfl⟩ := hs'
      exact ⟨fun hq => ((a3 hq.2).trans (a2 hq.1)).trans (a1 hq.1), rfl, rfl⟩
  by_cases hbt : b = true
  · left
    obtain ⟨e1, e2, e3, e4⟩ := hrung (Same.refl q s4)
    refine ⟨s4, !back, hrest (res := .ok () s4) (by rw [hbt]; exact runs_of fun _ => rfl)
      (fun s' e => by cases e; rfl) (fun s' e => by cases e) ⟨s4, Or.inl rfl⟩, ⟨e2, ?_, fun hq => e3 ⟨hq, hq⟩, e4⟩, fun _ => ?_⟩
    · rw [e1]; rfl
    · rw [e1]; exact hb.1 hbt
  · have hbf : b = false := by simpa using hbt
    by_cases hst : stop
    · right
      obtain ⟨x, hx, hstop⟩ := ev.abort hst
      obtain ⟨s5, hr5, same5⟩ := hstop r0 s4 h4
      obtain ⟨e1, e2, e3, e4⟩ := hrung (Same.refl q s4)
      refine ⟨hst, s5, hrest (res := .abort s5) ?_ (fun s' e => by cases e) (fun s' e => by cases e; rfl) ⟨s5, Or.inr rfl⟩,
        (hrung same5).2.1, 0, s4, s5, by simp [rowsFrom], ?_, ?_, h4, ?_, fun hq => e3 ⟨hq, hq⟩, e4.1, e4.2,
        runs_symbol h4 (ne_counter (by decide)) hx hr5, rfl⟩
      · rw [hbf]; exact runs_symbol h4 (ne_counter (by decide)) hx hr5
      · simpa using hno hst
      · intro hh; exact hbt (hb.2 hh)
      · rw [e1]; rfl
    · left
      obtain ⟨s5, hr5, same5⟩ := runs_harmless (ev.conflict hst) (ne_counter (by decide)) h4
      obtain ⟨e1, e2, e3, e4⟩ := hrung same5
      refine ⟨s5, !back, hrest (res := .ok () s5) (by rw [hbf]; exact hr5)
        (fun s' e => by cases e; rfl) (fun s' e => by cases e) ⟨s5, Or.inl rfl⟩, ⟨e2, ?_, fun hq => e3 ⟨hq, hq⟩, e4⟩, fun h => absurd h hst⟩
      rw [e1]; rfl

theorem rowsFrom_append (a b : List (List Nat)) (r : List Nat) :
    rowsFrom r (a ++ b) = rowsFrom r a ++ rowsFrom (lastOf r (rowsFrom r a)) b := by
  induction a generalizing r with
  | nil => rfl
  | cons ss a ih =>
    show _ :: rowsFrom _ (a ++ b) = _ :: (_ ++ _)
    rw [ih]
    congr 2
    unfold lastOf
    show rowsFrom ((rowsFrom (rungRow ss r) a).getLast?.getD (rungRow ss r)) b =
      rowsFrom ((rungRow ss r :: rowsFrom (rungRow ss r) a).getLast?.getD r) b
    rw [List.getLast?_cons]
    cases (rowsFrom (rungRow ss r) a).getLast? <;> rfl

theorem noRow_append {mx : Int} {a b : List Row} (h : NoRowTooOften mx (a ++ b)) : NoRowTooOften mx a := by
  have := Proof.noRow_take h a.length
  simpa using this

theorem After.trans {cs ds : List Change} {a b c : St} (ha : Ready v t r0 a) (h1 : After v t r0 q cs a b)
    (h2 : After v t r0 q ds b c) : After v t r0 q (cs ++ ds) a c := by
  refine ⟨h2.ready, ?_, fun hq => (h2.out hq).trans (h1.out hq), h2.prints.1.trans h1.prints.1, h2.prints.2.trans h1.prints.2⟩
  rw [h2.rung, h1.row ha, h1.rung, List.map_append, rowsFrom_append, List.append_assoc]

theorem rungRow_length (ss : List Nat) (r : List Nat) : (rungRow ss r).length = r.length := by simp [rungRow]

theorem rowsFrom_length (css : List (List Nat)) (r x : List Nat) (h : x ∈ rowsFrom r css) : x.length = r.length := by
  induction css generalizing r with
  | nil => cases h
  | cons ss css ih =>
    rcases List.mem_cons.1 h with rfl | h
    · exact rungRow_length _ _
    · rw [ih _ h, rungRow_length]

theorem After.length {cs : List Change} {s s' : St} (h : After v t r0 q cs s s') (hs : Ready v t r0 s) :
    s'.r.length = s.r.length := by
  rw [h.row hs]
  unfold lastOf
  cases hl : (rowsFrom s.r (cs.map (·.swaps))).getLast? with
  | none => rfl
  | some x => exact rowsFrom_length _ _ _ (List.mem_of_getLast? hl)

theorem Stopped.no {cs : List Change} {s s' : St} (h : Stopped v t r0 q cs s s') :
    ¬ NoRowTooOften v.extents (s.rung ++ rowsFrom s.r (cs.map (·.swaps))) := by
  obtain ⟨k, _, _, _, _, h3, _⟩ := h.first
  intro hh
  apply h3
  conv at hh => rw [← List.take_append_drop (k + 1) (rowsFrom s.r (cs.map (·.swaps))), ← List.append_assoc]
  exact noRow_append hh

theorem Stopped.extend {cs : List Change} (ds : List Change) {s s' : St} (h : Stopped v t r0 q cs s s') :
    Stopped v t r0 q (cs ++ ds) s s' := by
  obtain ⟨hr, k, s1, sx, h1, h2, h3, h4, h5, h6⟩ := h
  refine ⟨hr, k, s1, sx, ?_⟩
  rw [List.map_append, rowsFrom_append, List.take_append_of_le_length (by omega), List.take_append_of_le_length (by omega),
    List.length_append]
  exact ⟨by omega, h2, h3, h4, h5, h6⟩

theorem Stopped.shift {cs ds : List Change} {a b c : St} (ha : Ready v t r0 a) (h1 : After v t r0 q cs a b)
    (h2 : Stopped v t r0 q ds b c) : Stopped v t r0 q (cs ++ ds) a c := by
  obtain ⟨hr, k, s1, sx, g1, g2, g3, g4, g5, g6, g7, g8, g9⟩ := h2
  rw [h1.row ha] at g1 g2 g3 g5
  refine ⟨hr, (rowsFrom a.r (cs.map (·.swaps))).length + k, s1, sx, ?_⟩
  rw [List.map_append, rowsFrom_append, Nat.add_assoc, List.take_length_add_append, List.take_length_add_append, List.length_append,
    ← List.append_assoc, ← List.append_assoc, ← h1.rung]
  exact ⟨by omega, g2, g3, g4, g5, fun hq => (g6 hq).trans (h1.out hq), g7.trans h1.prints.1, g8.trans h1.prints.2, g9⟩

/-- A sequence of outcomes. -/
theorem Outcome.bind {stop : Prop} {cs ds : List Change} {s : St} (hs : Ready v t r0 s)
    {f : Nat → M Unit} {g : Nat → M Unit} {res : Res Unit} (hf : Runs f s res) (ho : Outcome v t r0 stop q cs s res)
    (hg : ∀ s', Ready v t r0 s' → s'.r.length = s.r.length → (stop → NoRowTooOften v.extents s'.rung) →
      ∃ res', Runs g s' res' ∧ Outcome v t r0 stop q ds s' res') :
    ∃ res', Runs (fun n => f n >>= fun _ => g n) s res' ∧ Outcome v t r0 stop q (cs ++ ds) s res' := by
  rcases ho with ⟨s', rfl, ha, hno⟩ | ⟨hst, s', rfl, hi⟩
  · obtain ⟨res', hr, ho'⟩ := hg s' ha.ready (ha.length hs) (fun h => by rw [ha.rung]; exact hno h)
    refine ⟨res', runs_bind (g := fun n _ => g n) hf hr, ?_⟩
    have e : s.rung ++ rowsFrom s.r ((cs ++ ds).map (·.swaps)) = s'.rung ++ rowsFrom s'.r (ds.map (·.swaps)) := by
      rw [ha.rung, ha.row hs, List.map_append, rowsFrom_append, List.append_assoc]
    rcases ho' with ⟨s2, rfl, ha2, hno2⟩ | ⟨hst, s2, rfl, hi2⟩
    · exact Or.inl ⟨s2, rfl, ha.trans hs ha2, fun h => by rw [e]; exact hno2 h⟩
    · exact Or.inr ⟨hst, s2, rfl, Stopped.shift hs ha hi2⟩
  · exact ⟨.abort s', runs_bind_abort hf, Or.inr ⟨hst, s', rfl, hi.extend ds⟩⟩

/-- The block of a place notation. -/
theorem runs_ringAll {stop : Prop} (ev : Events v t stop q) {b : Nat} : ∀ (cs : List Change),
    (∀ c ∈ cs, IsChange c.n c.swaps ∧ c.n ≤ b) → ∀ (back : Bool) (s : St), Ready v t r0 s → b ≤ s.r.length →
    (stop → NoRowTooOften v.extents s.rung) →
    ∃ res, Runs (fun n => ringAll v (calls v n) cs back) s res ∧ Outcome v t r0 stop q cs s res := by
  intro cs
  induction cs with
  | nil =>
    intro _ back s hs _ hno
    refine ⟨.ok () s, runs_of fun _ => rfl, Or.inl ⟨s, rfl, ⟨hs, by simp [rowsFrom], fun _ => rfl, rfl, rfl⟩, ?_⟩⟩
    simpa [rowsFrom] using hno
  | cons c cs ih =>
    intro hcs back s hs hb hno
    have e : ∀ n, ringAll v (calls v n) (c :: cs) back =
        ((do permute (fun r => r.applyC c); prove v (calls v n) back) >>= fun b => ringAll v (calls v n) cs b) := by
      intro n
      funext s
      show M.bind _ _ s = M.bind (M.bind _ _) _ s
      unfold M.bind
      cases permute (fun r => r.applyC c) s <;> rfl
    obtain ⟨hc, hn⟩ := hcs c (by simp)
    rcases runs_one ev hs hc (le_trans hn hb) back hno with ⟨s1, bk, hr, ha, hno1⟩ | ⟨hst, s1, hr, hi⟩
    · obtain ⟨res, hr2, ho⟩ := ih (fun x hx => hcs x (by simp [hx])) bk s1 ha.ready
        (by rw [ha.length hs]; exact hb) hno1
      refine ⟨res, ?_, ?_⟩
      · refine runs_congr (fun n => by rw [e n]) (runs_bind (g := fun n b => ringAll v (calls v n) cs b) hr hr2)
      · have er : s.rung ++ rowsFrom s.r ((c :: cs).map (·.swaps)) = s1.rung ++ rowsFrom s1.r (cs.map (·.swaps)) := by
          rw [ha.rung, ha.row hs]
          show s.rung ++ rowsFrom s.r ([c.swaps] ++ cs.map (·.swaps)) = _
          rw [rowsFrom_append, List.append_assoc]; rfl
        rcases ho with ⟨s2, rfl, ha2, hno2⟩ | ⟨hst, s2, rfl, hi2⟩
        · exact Or.inl ⟨s2, rfl, ha.trans hs ha2, fun h => by rw [er]; exact hno2 h⟩
        · exact Or.inr ⟨hst, s2, rfl, Stopped.shift hs ha hi2⟩
    · exact ⟨.abort s1, runs_congr (fun n => by rw [e n]) (runs_bind_abort hr), Or.inr ⟨hst, s1, rfl, hi.extend cs⟩⟩

/-- The loop of a repetition. -/
theorem runs_repLoop {stop : Prop} {b : Nat} {f : Nat → M Unit} {cs : List Change}
    (hf : ∀ s, Ready v t r0 s → b ≤ s.r.length → (stop → NoRowTooOften v.extents s.rung) →
      ∃ res, Runs f s res ∧ Outcome v t r0 stop q cs s res) : ∀ (k : Nat) (i : Int) (s : St), Ready v t r0 s → b ≤ s.r.length →
    (stop → NoRowTooOften v.extents s.rung) →
    ∃ res, Runs (fun n => repLoop (f n) k i) s res ∧ Outcome v t r0 stop q (List.replicate k cs).flatten s res := by
  intro k
  induction k with
  | zero =>
    intro i s hs _ hno
    refine ⟨.ok () s, runs_of fun _ => rfl, Or.inl ⟨s, rfl, ⟨hs, by simp [rowsFrom], fun _ => rfl, rfl, rfl⟩, ?_⟩⟩
    simpa [rowsFrom] using hno
  | succ k ih =>
    intro i s hs hb hno
    set s1 : St := { s with dsyms := s.dsyms.define "loop_counter".toList (.int i) } with hs1
    have h1 : Ready v t r0 s1 := hs.counter fun n hn => by simp only [Table.define]; rw [if_neg hn]
    obtain ⟨res, hr, ho⟩ := hf s1 h1 hb hno
    obtain ⟨res', hr', ho'⟩ := Outcome.bind h1 hr ho (g := fun n => repLoop (f n) k (i + 1))
      (fun s' hs' hl hno' => ih (i + 1) s' hs' (by rw [hl]; exact hb) hno')
    refine ⟨res', ?_, ?_⟩
    · exact runs_bind (f := fun _ => defineDyn "loop_counter".toList (.int i)) (runs_of fun _ => rfl) hr'
    · rw [List.replicate_succ, List.flatten_cons]
      rcases ho' with ⟨s2, rfl, ha2, hno2⟩ | ⟨hst, s2, rfl, hi2⟩
      · exact Or.inl ⟨s2, rfl, ⟨ha2.ready, ha2.rung, ha2.out, ha2.prints⟩, hno2⟩
      · exact Or.inr ⟨hst, s2, rfl, hi2.ready, hi2.first⟩

/-- The scope of the loop counter. -/
theorem runs_withCounter {stop : Prop} {f : Nat → M Unit} {cs : List Change} {s : St} {res : Res Unit}
    (hf : Runs f s res) (ho : Outcome v t r0 stop q cs s res) :
    ∃ res', Runs (fun n => withCounter (f n)) s res' ∧ Outcome v t r0 stop q cs s res' := by
  have key : ∀ d : Table → Table, (∀ a n, n ≠ "loop_counter".toList → d a n = a n) →
      ∃ res', Runs (fun n => M.finally' (f n) (fun s => { s with dsyms := d s.dsyms })) s res' ∧ Outcome v t r0 stop q cs s res' := by
    intro d hd
    obtain ⟨N, hf⟩ := hf
    rcases ho with ⟨s2, rfl, ha2, hno2⟩ | ⟨hst, s2, rfl, hi2⟩
    · refine ⟨.ok () { s2 with dsyms := d s2.dsyms }, ⟨N, fun n hn => ?_⟩, Or.inl ⟨_, rfl, ⟨ha2.ready.counter (hd _), ha2.rung, ha2.out, ha2.prints⟩, hno2⟩⟩
      show M.finally' (f n) _ s = _
      unfold M.finally'; rw [hf n hn]
    · refine ⟨.abort { s2 with dsyms := d s2.dsyms }, ⟨N, fun n hn => ?_⟩, Or.inr ⟨hst, _, rfl, hi2.ready.counter (hd _), hi2.first⟩⟩
      show M.finally' (f n) _ s = _
      unfold M.finally'; rw [hf n hn]
  by_cases hd : isDefined s "loop_counter".toList = true
  · have hlk : ∃ old, lookup "loop_counter".toList s = .ok old s := by
      unfold lookup
      unfold isDefined at hd
      cases h1 : s.dsyms "loop_counter".toList with
      | some x => exact ⟨x, rfl⟩
      | none =>
        cases h2 : s.e.syms "loop_counter".toList with
        | some x => exact ⟨x, rfl⟩
        | none => rw [h1, h2] at hd; simp at hd
    obtain ⟨old, hlk⟩ := hlk
    obtain ⟨res', hr, ho'⟩ := key (fun a => a.define "loop_counter".toList old)
      (fun a n hn => by simp only [Table.define]; rw [if_neg hn])
    refine ⟨res', runs_congr (fun n => ?_) hr, ho'⟩
    unfold withCounter
    simp only
    rw [if_pos hd, hlk]
  · obtain ⟨res', hr, ho'⟩ := key (fun a => a.undefine "loop_counter".toList)
      (fun a n hn => by simp only [Table.undefine]; rw [if_neg hn])
    refine ⟨res', runs_congr (fun n => ?_) hr, ho'⟩
    unfold withCounter
    simp only
    rw [if_neg hd]

theorem Outcome.catchBreak {stop : Prop} {f : Nat → M Unit} {cs : List Change} {s : St} {res : Res Unit}
    (hf : Runs f s res) (ho : Outcome v t r0 stop q cs s res) : Runs (fun n => M.catchBreak (f n)) s res := by
  obtain ⟨N, hf⟩ := hf
  refine ⟨N, fun n hn => ?_⟩
  show M.catchBreak (f n) s = _
  unfold M.catchBreak
  rw [hf n hn]
  rcases ho with ⟨s2, rfl, _⟩ | ⟨_, s2, rfl, _⟩ <;> rfl

/-- The state before counts as the state after counting a node. -/
theorem Outcome.ticked {stop : Prop} {cs : List Change} {s : St} {res : Res Unit}
    (ho : Outcome v t r0 stop q cs s.ticked res) : Outcome v t r0 stop q cs s res := by
  rcases ho with ⟨s2, rfl, ha2, hno2⟩ | ⟨hst, s2, rfl, hi2⟩
  · exact Or.inl ⟨s2, rfl, ⟨ha2.ready, ha2.rung, ha2.out, ha2.prints⟩, hno2⟩
  · exact Or.inr ⟨hst, s2, rfl, hi2.ready, hi2.first⟩

/-- The changes in the direction `d`. -/
def dirs (d : Int) (cs : List Change) : List Change := if d > 0 then cs else cs.reverse

theorem dirs_flatten (d : Int) (k : Nat) (cs : List Change) :
    dirs d (List.replicate k cs).flatten = (List.replicate k (dirs d cs)).flatten := by
  unfold dirs
  split
  · rfl
  · rw [List.reverse_flatten]; simp

/-- The type of an expression that stands for changes. -/
theorem runs_type {b : Nat} {star : Prop} {x : Expr} {cs : List Change} (hx : Expands b t star x cs) {s : St} (hs : Ready v t r0 s) :
    Runs (fun n => (calls v n).type x) s (.ok .none s) := by
  induction hx with
  | nop _ => exact runs_succ (g := fun _ => pure .none) (fun n => rfl) (runs_of fun _ => rfl)
  | pn cs nm _ => exact runs_succ (g := fun _ => pure .none) (fun n => rfl) (runs_of fun _ => rfl)
  | list _ _ _ ih => exact runs_succ (fun n => rfl) ih
  | rep k _ ih => exact runs_succ (g := fun _ => pure .none) (fun n => rfl) (runs_of fun _ => rfl)
  | rev _ ih => exact runs_succ (g := fun _ => pure .none) (fun n => rfl) (runs_of fun _ => rfl)
  | sym n hn hx _ ih =>
    refine runs_succ (g := fun k => Siril.lookup n >>= fun x => (calls v k).type x) (fun n => rfl) ?_
    exact runs_bind (f := fun _ => Siril.lookup n) (runs_of fun _ => hs.lookup hn hx) ih
  | @times k x xs _ _ _ ih =>
    refine runs_succ (g := fun n => (calls v n).type (.int k) >>= fun ta => if ta = .integer then do
      let tb ← (calls v n).type x
      pure (if tb = .integer then .integer else .none)
      else pure .none) (fun n => rfl) ?_
    refine runs_bind (a := .integer) (s1 := s) (runs_succ (g := fun _ => pure .integer) (fun n => rfl) (runs_of fun _ => rfl)) ?_
    simp only [if_true]
    exact runs_bind ih (runs_of fun _ => rfl)

/-- **Executing an expression that stands for some changes rings them.** -/
theorem runs_expands {stop star : Prop} (ev : Events v t stop q) {b : Nat} {x : Expr} {cs : List Change} (hx : Expands b t star x cs) :
    ∀ (d : Int), d = 1 ∨ d = -1 → ∀ (s : St), Ready v t r0 s → b ≤ s.r.length → (stop → NoRowTooOften v.extents s.rung) →
    ∃ res, Runs (fun n => (calls v n).exec x d) s res ∧ Outcome v t r0 stop q (dirs d cs) s res := by
  induction hx with
  | nop _ =>
    intro d _ s hs _ hno
    refine ⟨.ok () s.ticked, runs_exec ev.limit (runs_of fun _ => rfl), Or.inl ⟨_, rfl, ⟨hs.same (same_ticked q s), ?_, fun _ => rfl, rfl, rfl⟩, ?_⟩⟩
    · simp [dirs, rowsFrom, St.ticked]
    · simpa [dirs, rowsFrom] using hno
  | pn cs nm hcs =>
    intro d _ s hs hb hno
    obtain ⟨res, hr, ho⟩ := runs_ringAll (r0 := r0) ev (dirs d cs) (b := b)
      (fun c hc => hcs c (by unfold dirs at hc; split at hc <;> simpa using hc)) false s.ticked (hs.same (same_ticked q s)) hb hno
    exact ⟨res, runs_exec ev.limit hr, ho.ticked⟩
  | @list x y xs ys _ _ ih1 ih2 =>
    intro d hd s hs hb hno
    have hs1 := hs.same (same_ticked q s)
    rcases hd with rfl | rfl
    · obtain ⟨res1, hr1, ho1⟩ := ih1 1 (Or.inl rfl) s.ticked hs1 hb hno
      obtain ⟨res, hr, ho⟩ := Outcome.bind hs1 hr1 ho1 (ds := dirs 1 ys) (g := fun n => (calls v n).exec y 1)
        (fun s' hs' hl hno' => ih2 1 (Or.inl rfl) s' hs' (by rw [hl]; exact hb) hno')
      refine ⟨res, runs_exec ev.limit ?_, ?_⟩
      · refine runs_congr (fun n => ?_) hr
        show M.bind (M.cond (decide ((1 : Int) > 0)) _) _ _ = M.bind _ _ _
        unfold M.bind M.cond
        simp only [show decide ((1 : Int) > 0) = true from rfl, if_true, show decide ((1 : Int) ≤ 0) = false from rfl]
        cases (calls v n).exec x 1 s.ticked with
        | ok a s' =>
          show M.bind ((calls v n).exec y 1) _ s' = (calls v n).exec y 1 s'
          unfold M.bind
          cases (calls v n).exec y 1 s' with
          | ok u s'' => cases u; rfl
          | _ => rfl
        | _ => rfl
      · exact ho.ticked
    · obtain ⟨res1, hr1, ho1⟩ := ih2 (-1) (Or.inr rfl) s.ticked hs1 hb hno
      obtain ⟨res, hr, ho⟩ := Outcome.bind hs1 hr1 ho1 (ds := dirs (-1) xs) (g := fun n => (calls v n).exec x (-1))
        (fun s' hs' hl hno' => ih1 (-1) (Or.inr rfl) s' hs' (by rw [hl]; exact hb) hno')
      refine ⟨res, runs_exec ev.limit ?_, ?_⟩
      · refine runs_congr (fun n => ?_) hr
        rfl
      · have : dirs (-1) (xs ++ ys) = dirs (-1) ys ++ dirs (-1) xs := by simp [dirs]
        rw [this]; exact ho.ticked
  | @rep k x xs _ ih =>
    intro d hd s hs hb hno
    have hs1 := hs.same (same_ticked q s)
    obtain ⟨res1, hr1, ho1⟩ := runs_repLoop (r0 := r0) (b := b) (stop := stop) (fun s' h1 h2 h3 => ih d hd s' h1 h2 h3) k 1
      s.ticked hs1 hb hno
    obtain ⟨res, hr, ho⟩ := runs_withCounter (Outcome.catchBreak hr1 ho1) ho1
    refine ⟨res, runs_exec ev.limit (runs_congr (fun n => ?_) hr), ?_⟩
    · show execRep (calls v n) n k x d s.ticked = _
      unfold execRep
      rw [if_neg (by omega)]
      rfl
    · rw [dirs_flatten]; exact ho.ticked
  | @times k x xs _ hk hx ih =>
    intro d hd s hs hb hno
    have hs1 := hs.same (same_ticked q s)
    -- the state when the repetition is executed
    set s2 := s.ticked.ticked with hs2
    have hs2r : Ready v t r0 s2 := hs1.same (same_ticked q _)
    have hs3r : Ready v t r0 s2.ticked := hs2r.same (same_ticked q _)
    obtain ⟨res1, hr1, ho1⟩ := runs_repLoop (r0 := r0) (b := b) (stop := stop) (fun s' h1 h2 h3 => ih d hd s' h1 h2 h3) k 1
      s2.ticked hs3r hb hno
    obtain ⟨res, hr, ho⟩ := runs_withCounter (Outcome.catchBreak hr1 ho1) ho1
    refine ⟨res, runs_exec ev.limit ?_, ?_⟩
    · have hty := runs_type (r0 := r0) hx hs1
      have hti : Runs (fun n => (calls v n).type (.int k)) s.ticked (.ok .integer s.ticked) :=
        runs_succ (g := fun _ => pure .integer) (fun n => rfl) (runs_of fun _ => rfl)
      have hboth : Runs (fun n => bothInt (calls v n) (.int k) x) s.ticked (.ok false s.ticked) := by
        refine runs_bind hti ?_
        simp only [if_true]
        exact runs_bind hty (runs_of fun _ => rfl)
      refine runs_bind hboth ?_
      simp only [Bool.false_eq_true, if_false]
      refine runs_bind hti ?_
      simp only [if_true]
      refine runs_bind (s1 := s2) (a := (k : Int)) (runs_int ev.limit (runs_of fun _ => rfl)) ?_
      refine runs_exec ev.limit (runs_congr (fun n => ?_) hr)
      show execRep (calls v n) n (i32 k) x d s2.ticked = _
      rw [show i32 (k : Int) = k by unfold i32; rw [Int.emod_eq_of_lt (by omega) (by omega)]; omega]
      unfold execRep
      rw [if_neg (by omega)]
      rfl
    · rw [dirs_flatten]; exact ho.ticked.ticked.ticked
  | @rev x xs _ ih =>
    intro d hd s hs hb hno
    obtain ⟨res, hr, ho⟩ := ih (-d) (by rcases hd with rfl | rfl <;> simp) s.ticked (hs.same (same_ticked q s)) hb hno
    refine ⟨res, runs_exec ev.limit hr, ?_⟩
    have : dirs d xs.reverse = dirs (-d) xs := by rcases hd with rfl | rfl <;> simp [dirs]
    rw [this]; exact ho.ticked
  | @sym n x xs hn hx _ ih =>
    intro d hd s hs hb hno
    have hs1 := hs.same (same_ticked q s)
    obtain ⟨res, hr, ho⟩ := ih d hd s.ticked hs1 hb hno
    exact ⟨res, runs_exec ev.limit (runs_symbol hs1 hn hx hr), ho.ticked⟩

/-- **Evaluating an expression that stands for some changes gives them.** -/
theorem runs_pn_expands {b : Nat} {x : Expr} {cs : List Change} (hl : v.nodeLimit = 0) (hx : Expands b t False x cs) :
    ∀ (s : St), Ready v t r0 s →
    ∃ s', Runs (fun n => (calls v n).pn x) s (.ok cs s') ∧ Ready v t r0 s' ∧ s'.rung = s.rung := by
  induction hx with
  | nop h => exact h.elim
  | pn cs nm _ => exact fun s hs => ⟨s.ticked, runs_pn hl (runs_of fun _ => rfl), hs.same (same_ticked True s), rfl⟩
  | times _ h => exact h.elim
  | list _ _ ih1 ih2 =>
    intro s hs
    obtain ⟨s1, h1, r1, e1⟩ := ih1 s.ticked (hs.same (same_ticked True s))
    obtain ⟨s2, h2, r2, e2⟩ := ih2 s1 r1
    exact ⟨s2, runs_pn hl (runs_bind h1 (runs_bind h2 (runs_of fun _ => rfl))), r2, e2.trans e1⟩
  | rev _ ih =>
    intro s hs
    obtain ⟨s1, h1, r1, e1⟩ := ih s.ticked (hs.same (same_ticked True s))
    exact ⟨s1, runs_pn hl (runs_bind h1 (runs_of fun _ => rfl)), r1, e1⟩
  | sym n hn hx _ ih =>
    intro s hs
    have hs1 := hs.same (same_ticked True s)
    obtain ⟨s1, h1, r1, e1⟩ := ih s.ticked hs1
    exact ⟨s1, runs_pn hl (runs_bind (f := fun _ => Siril.lookup n) (runs_of fun _ => hs1.lookup hn hx) h1), r1, e1⟩
  | @rep k x xs _ ih =>
    intro s hs
    have hs1 := hs.same (same_ticked True s)
    have loop : ∀ (k : Nat) (i : Int) (acc : List Change) (s : St), Ready v t r0 s →
        ∃ s', Runs (fun n => repPn ((calls v n).pn x) k i acc) s (.ok (acc ++ (List.replicate k xs).flatten) s') ∧
          Ready v t r0 s' ∧ s'.rung = s.rung := by
      intro k
      induction k with
      | zero => exact fun i acc s hs => ⟨s, runs_of fun _ => by simp; rfl, hs, rfl⟩
      | succ k ihk =>
        intro i acc s hs
        have h1 : Ready v t r0 { s with dsyms := s.dsyms.define "loop_counter".toList (.int i) } :=
          hs.counter fun n hn => by simp only [Table.define]; rw [if_neg hn]
        obtain ⟨s2, ⟨N2, h2⟩, r2, e2⟩ := ih _ h1
        obtain ⟨s3, ⟨N3, h3⟩, r3, e3⟩ := ihk (i + 1) (acc ++ xs) s2 r2
        refine ⟨s3, ⟨max N2 N3, fun n hn => ?_⟩, r3, e3.trans e2⟩
        show repPn ((calls v n).pn x) (k + 1) i acc s = _
        unfold repPn
        have hb : M.bind (defineDyn "loop_counter".toList (.int i)) (fun _ => (calls v n).pn x) s = .ok xs s2 := h2 n (by omega)
        rw [hb]
        simp only
        have h3' : repPn ((calls v n).pn x) k (i + 1) (acc ++ xs) s2 = _ := h3 n (by omega)
        rw [h3', List.replicate_succ, List.flatten_cons, List.append_assoc]
    obtain ⟨s2, ⟨N, h2⟩, r2, e2⟩ := loop k 1 [] s.ticked hs1
    have key : ∀ d : Table → Table, (∀ a n, n ≠ "loop_counter".toList → d a n = a n) →
        ∃ s', Runs (fun n => M.finally' (repPn ((calls v n).pn x) k 1 []) (fun s => { s with dsyms := d s.dsyms })) s.ticked
          (.ok (List.replicate k xs).flatten s') ∧ Ready v t r0 s' ∧ s'.rung = s.rung := by
      intro d hd
      refine ⟨{ s2 with dsyms := d s2.dsyms }, ⟨N, fun n hn => ?_⟩, r2.counter (hd _), e2⟩
      show M.finally' _ _ _ = _
      have h2' : repPn ((calls v n).pn x) k 1 [] s.ticked = _ := h2 n hn
      unfold M.finally'; rw [h2']; rfl
    by_cases hd : isDefined s.ticked "loop_counter".toList = true
    · have hlk : ∃ old, lookup "loop_counter".toList s.ticked = .ok old s.ticked := by
        unfold lookup
        unfold isDefined at hd
        cases h1 : s.ticked.dsyms "loop_counter".toList with
        | some x => exact ⟨x, rfl⟩
        | none =>
          cases h2 : s.ticked.e.syms "loop_counter".toList with
          | some x => exact ⟨x, rfl⟩
          | none => rw [h1, h2] at hd; simp at hd
      obtain ⟨old, hlk⟩ := hlk
      obtain ⟨s', hr, ho'⟩ := key (fun a => a.define "loop_counter".toList old)
        (fun a n hn => by simp only [Table.define]; rw [if_neg hn])
      refine ⟨s', runs_pn hl (runs_congr (fun n => ?_) hr), ho'⟩
      show (if (k : Int) = -1 then M.err else withCounter (repPn ((calls v n).pn x) k 1 [])) s.ticked = _
      rw [if_neg (by omega)]
      unfold withCounter
      simp only
      rw [if_pos hd, hlk]
    · obtain ⟨s', hr, ho'⟩ := key (fun a => a.undefine "loop_counter".toList)
        (fun a n hn => by simp only [Table.undefine]; rw [if_neg hn])
      refine ⟨s', runs_pn hl (runs_congr (fun n => ?_) hr), ho'⟩
      show (if (k : Int) = -1 then M.err else withCounter (repPn ((calls v n).pn x) k 1 [])) s.ticked = _
      rw [if_neg (by omega)]
      unfold withCounter
      simp only
      rw [if_neg hd]

end Ringing.Siril
