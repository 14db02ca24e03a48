import Verif.Model.Siril
import Verif.Lemmas.Prover2
/-
What the gsiril interpreter can do to its state: every call is a sequence of the elementary steps below.
-/
namespace Ringing.Siril
open Prover

/-- The elementary steps, closed under sequences.  In a row step `r'` comes from the current row by a change or a
transposition; the row is given to the prover exactly if the proof has not ended. -/
inductive Reach (v : Env) : St → St → Prop
  | refl (s : St) : Reach v s s
  | trans {a b c : St} : Reach v a b → Reach v b c → Reach v a c
  | tick (s : St) : Reach v s { s with e := { s.e with nodes := s.e.nodes + 1 + 1 } }
  | out (s : St) (t : Str) : (s.silent = false ∧ s.live = true ∨ s.parent = some true) →
      Reach v s { s with e := { s.e with out := s.e.out ++ t } }
  | dsyms (s : St) (d : Table) : Reach v s { s with dsyms := d }
  | syms (s : St) (t : Table) : s.parent = none → Reach v s { s with e := { s.e with syms := t } }
  | silent (s : St) (b : Bool) : Reach v s { s with silent := b }
  | mus (s : St) (m : Music) : Reach v s { s with mus := m }
  | endproof (s : St) : Reach v s
      { s with lastRow := if s.proving then s.r else s.lastRow, proving := false,
               ended := if s.ended.isNone then some s.rung.length else s.ended }
  | ring (s : St) (r' : Row) : s.proving = false →
      ((∃ ch, s.r.applyC ch = .ok r') ∨ ∃ t, s.r.mulC t = .ok r') →
      Reach v s { s with r := r', rung := s.rung ++ [r'] }
  | prove (s : St) (r' : Row) (k : Nat) (b : Bool) (p' : Prover) : s.proving = true →
      ((∃ ch, s.r.applyC ch = .ok r') ∨ ∃ t, s.r.mulC t = .ok r') → s.p.addRowC k r' = .ok (b, p') →
      Reach v s { s with r := r', rung := s.rung ++ [r'], p := p' }
  | clone (s s2 : St) : Reach v s.clone s2 → Reach v s { s with e := s2.e }

/-- The state after a call that ended with a value or a script exception is reached by steps. -/
def Good (v : Env) {α : Type} (m : M α) : Prop := ∀ s,
  match m s with
  | .ok _ s' => Reach v s s'
  | .brk s' => Reach v s s'
  | .abort s' => Reach v s s'
  | _ => True

section
variable {v : Env} {α β : Type}

theorem good_pure (a : α) : Good v (Pure.pure a : M α) := fun s => Reach.refl s
theorem good_mpure (a : α) : Good v (M.pure a : M α) := fun s => Reach.refl s
theorem good_err : Good v (M.err : M α) := fun _ => trivial
theorem good_ub : Good v (M.ub : M α) := fun _ => trivial
theorem good_fuel : Good v (M.fuel : M α) := fun _ => trivial
theorem good_exc (t : Exc) : Good v (M.exc t : M α) := by
  intro s; cases t <;> exact Reach.refl s
theorem good_get : Good v M.get := fun s => Reach.refl s

theorem good_mbind {m : M α} {f : α → M β} (h : Good v m) (hf : ∀ a, Good v (f a)) : Good v (M.bind m f) := by
  intro s
  have h1 := h s
  unfold M.bind
  cases hm : m s with
  | ok a s' =>
    rw [hm] at h1
    have h2 := hf a s'
    simp only at h1 h2 ⊢
    cases hf' : f a s' with
    | ok b s'' => rw [hf'] at h2; exact h1.trans h2
    | brk s'' => rw [hf'] at h2; exact h1.trans h2
    | abort s'' => rw [hf'] at h2; exact h1.trans h2
    | err _ => trivial
    | ub => trivial
    | fuel => trivial
  | brk s' => rw [hm] at h1; exact h1
  | abort s' => rw [hm] at h1; exact h1
  | err _ => trivial
  | ub => trivial
  | fuel => trivial

theorem good_bind {m : M α} {f : α → M β} (h : Good v m) (hf : ∀ a, Good v (f a)) : Good v (m >>= f) :=
  good_mbind h hf

theorem good_lift (x : Out α) : Good v (M.lift x) := by
  cases x <;> first | exact good_mpure _ | exact good_err | exact good_ub | exact good_fuel

theorem good_ll (x : Int) : Good v (ll x) := by
  unfold ll; split
  · exact good_mpure _
  · exact good_ub

theorem good_ite {p : Prop} [Decidable p] {a b : M α} (ha : Good v a) (hb : Good v b) : Good v (if p then a else b) := by
  split <;> assumption

theorem good_upd {f : St → St} (h : ∀ s, Reach v s (f s)) : Good v (fun s => .ok () (f s) : M Unit) := fun s => h s

theorem good_catchBreak {m : M Unit} (h : Good v m) : Good v (M.catchBreak m) := by
  intro s
  have := h s
  unfold M.catchBreak
  cases hm : m s <;> rw [hm] at this <;> first | exact this | trivial

theorem good_catchAll {a : α} {m : M α} (h : Good v m) : Good v (M.catchAll a m) := by
  intro s
  have := h s
  unfold M.catchAll
  cases hm : m s <;> rw [hm] at this <;> first | exact this | trivial

theorem good_finally {m : M α} {d : St → St} (h : Good v m) (hd : ∀ s, Reach v s (d s)) : Good v (M.finally' m d) := by
  intro s
  have := h s
  unfold M.finally'
  cases hm : m s <;> rw [hm] at this <;> first | exact Reach.trans this (hd _) | trivial

theorem good_inClone {m : M α} (h : Good v m) : Good v (inClone m) := by
  intro s
  have := h s.clone
  unfold inClone
  cases hm : m s.clone <;> rw [hm] at this <;> first | exact Reach.clone _ _ this | trivial

theorem good_tick : Good v (tick v) := by
  intro s
  unfold tick
  simp only
  by_cases h : s.e.nodes + 1 + 1 = v.nodeLimit
  · rw [if_pos h]; trivial
  · rw [if_neg h]; exact Reach.tick s

theorem good_output (t : Str) (b : Bool) : Good v (output t b) := by
  intro s
  unfold output
  simp only
  cases hq : (if b = true then s.parent else none) with
  | some q =>
    cases b with
    | false => simp at hq
    | true =>
      simp only [if_true] at hq
      cases q with
      | true => exact Reach.out s t (Or.inr hq)
      | false => exact Reach.refl s
  | none =>
    by_cases h : (!s.silent && s.live) = true
    · simp only [h, if_true]
      exact Reach.out s t (Or.inl (by simpa using h))
    · simp only [h]
      exact Reach.refl s

theorem good_defineDyn (n : Str) (x : Expr) : Good v (defineDyn n x) := fun s => Reach.dsyms s _

theorem good_lookup (n : Str) : Good v (lookup n) := by
  intro s
  unfold lookup
  cases s.dsyms n with
  | some x => exact Reach.refl s
  | none =>
    cases s.e.syms n with
    | some x => exact Reach.refl s
    | none => trivial

theorem good_save (n : Str) : Good v (saveSymbol n) := by
  intro s
  unfold saveSymbol
  by_cases h : s.parent.isSome = true
  · rw [if_pos h]; exact Reach.refl s
  · have hp : s.parent = none := by simpa using h
    rw [if_neg h]
    unfold M.bind
    unfold lookup
    cases s.dsyms n with
    | some x => exact Reach.syms s _ hp
    | none =>
      cases s.e.syms n with
      | some x => exact Reach.syms s _ hp
      | none => trivial

theorem good_disable : Good v disableProving := fun s => Reach.endproof s

theorem good_counter {m : M α} (h : Good v m) : Good v (withCounter m) := by
  intro s
  unfold withCounter
  simp only
  by_cases hd : isDefined s "loop_counter".toList = true
  · rw [if_pos hd]
    unfold lookup
    cases s.dsyms "loop_counter".toList with
    | some x => exact good_finally h (fun s => Reach.dsyms s _) s
    | none =>
      cases s.e.syms "loop_counter".toList with
      | some x => exact good_finally h (fun s => Reach.dsyms s _) s
      | none => trivial
  · rw [if_neg hd]
    exact good_finally h (fun s => Reach.dsyms s _) s

end

/-- All calls are good. -/
structure GoodCalls (v : Env) (c : Calls) : Prop where
  exec : ∀ e d, Good v (c.exec e d)
  eval : ∀ e, Good v (c.eval e)
  bool : ∀ e, Good v (c.bool e)
  int : ∀ e, Good v (c.int e)
  str : ∀ e, Good v (c.str e)
  strNl : ∀ e, Good v (c.strNl e)
  pn : ∀ e, Good v (c.pn e)
  mus : ∀ e, Good v (c.mus e)
  arr : ∀ e, Good v (c.arr e)
  call : ∀ e a, Good v (c.call e a)
  repl : ∀ e m, Good v (c.repl e m)
  type : ∀ e, Good v (c.type e)
  name : ∀ e, Good v (c.name e)

section
variable {v : Env} {c : Calls} (hc : GoodCalls v c)
include hc

theorem good_execSymbol (n : Str) (d : Int) : Good v (execSymbol c n d) :=
  good_bind (good_lookup n) fun x => hc.exec x d

theorem good_everyrow : Good v (execEveryrow v c) := by
  unfold execEveryrow
  refine good_bind good_get fun s0 => good_bind ?_ fun _ => good_bind (good_execSymbol hc _ _) fun _ => ?_
  · apply good_upd
    intro s
    split
    · exact Reach.silent s _
    · exact Reach.refl s
  · exact good_upd fun s => Reach.silent s _

theorem good_music (b : Bool) : Good v (processMusic v b) := by
  intro s
  unfold processMusic
  cases s.mus.processC (readBell v s.r) s.r b with
  | ok x => exact Reach.mus s _
  | _ => trivial

omit hc in
theorem good_cond {b : Bool} {m : M Unit} (h : Good v m) : Good v (M.cond b m) := by
  cases b
  · exact good_pure _
  · exact h

theorem good_proveRest (rv back : Bool) : Good v (proveRest v c rv back) :=
  good_bind (good_music hc _) fun _ => good_bind (good_everyrow hc) fun _ => good_bind good_get fun _ =>
  good_bind (good_cond (good_execSymbol hc _ _)) fun _ => good_bind good_get fun _ =>
  good_bind (good_cond (good_execSymbol hc _ _)) fun _ => good_bind (good_cond (good_execSymbol hc _ _)) fun _ =>
  good_pure _

omit hc in
theorem prove_off {back : Bool} {s : St} (h : s.proving = false) : prove v c back s = .ok back s := by
  show (if !s.proving then (pure back : M Bool) else _) s = _
  rw [if_pos (by simp [h])]; rfl

omit hc in
theorem prove_on {back : Bool} {s : St} (h : s.proving = true) :
    prove v c back s = M.bind (addRow v) (fun rv => proveRest v c rv back) s := by
  show (if !s.proving then (pure back : M Bool) else _) s = _
  rw [if_neg (by simp [h])]; rfl

/-- A change or a transposition and its proof. -/
theorem good_ringOne {f : Row → Out Row} (hf : (∃ ch, f = fun r => r.applyC ch) ∨ ∃ t, f = fun r => r.mulC t)
    (back : Bool) : Good v (M.bind (permute f) fun _ => prove v c back : M Bool) := by
  intro s
  unfold M.bind permute
  cases hr : f s.r with
  | throw _ => trivial
  | ub => trivial
  | timeout => trivial
  | ok r' =>
    have hstep : (∃ ch, s.r.applyC ch = .ok r') ∨ ∃ t, s.r.mulC t = .ok r' := by
      rcases hf with ⟨ch, rfl⟩ | ⟨t, rfl⟩
      · exact Or.inl ⟨ch, hr⟩
      · exact Or.inr ⟨t, hr⟩
    simp only
    rcases Bool.eq_false_or_eq_true s.proving with hp | hp
    swap
    · rw [prove_off (show ({ s with r := r', rung := s.rung ++ [r'] } : St).proving = false from hp)]
      exact Reach.ring s r' hp hstep
    · rw [prove_on (show ({ s with r := r', rung := s.rung ++ [r'] } : St).proving = true from hp)]
      unfold M.bind addRow
      simp only
      cases ha : s.p.addRowC (v.place s.p r') r' with
      | throw _ => trivial
      | ub => trivial
      | timeout => trivial
      | ok x =>
        obtain ⟨b, p'⟩ := x
        have h0 : Reach v s { s with r := r', rung := s.rung ++ [r'], p := p' } :=
          Reach.prove s r' _ b p' hp hstep ha
        have h2 := good_proveRest hc b back { s with r := r', rung := s.rung ++ [r'], p := p' }
        simp only
        cases hm : proveRest v c b back { s with r := r', rung := s.rung ++ [r'], p := p' } with
        | ok _ s'' => rw [hm] at h2; exact h0.trans h2
        | brk s'' => rw [hm] at h2; exact h0.trans h2
        | abort s'' => rw [hm] at h2; exact h0.trans h2
        | err _ => trivial
        | ub => trivial
        | fuel => trivial

theorem good_ringAll : ∀ (cs : List Change) (back : Bool), Good v (ringAll v c cs back) := by
  intro cs
  induction cs with
  | nil => intro back; exact good_pure _
  | cons ch cs ih =>
    intro back
    have e : ringAll v c (ch :: cs) back =
        (M.bind (permute fun r => r.applyC ch) (fun _ => prove v c back) >>= fun b => ringAll v c cs b) := by
      funext s
      show M.bind _ _ s = M.bind (M.bind _ _) _ s
      unfold M.bind
      cases permute (fun r => r.applyC ch) s <;> rfl
    rw [e]
    exact good_bind (good_ringOne hc (Or.inl ⟨ch, rfl⟩) back) fun b => ih b

theorem good_subst : ∀ (t : Str) (k : Nat) (a : Subst), Good v (subst v c t k a) := by
  intro t
  induction t with
  | nil => intro k a; cases k <;> exact good_pure _
  | cons ch cs ih =>
    intro k a
    cases k with
    | succ k => exact ih k a
    | zero =>
      unfold subst
      split
      · refine good_bind good_get fun s => good_bind (good_lift _) fun x => ?_
        split
        split
        · split
          · exact good_ub
          · exact ih _ _
        · exact good_pure _
      · split
        · split
          · split
            · exact good_bind (good_lookup _) fun x => good_bind (good_inClone (hc.str x)) fun t => ih _ _
            · exact good_err
          · split
            · exact ih _ _
            · exact good_bind good_get fun s => ih _ _
        · split
          · exact good_bind good_get fun s => ih _ _
          · split
            · split
              · exact good_pure _
              · exact ih _ _
            · exact ih _ _

omit hc in
theorem good_repLoop {body : M Unit} (h : Good v body) : ∀ (k : Nat) (i : Int), Good v (repLoop body k i) := by
  intro k
  induction k with
  | zero => intro i; exact good_pure _
  | succ k ih => intro i; exact good_bind (good_defineDyn _ _) fun _ => good_bind h fun _ => ih _

omit hc in
theorem good_repForever {body : M Unit} (h : Good v body) : ∀ (k : Nat) (i : Int), Good v (repForever body k i) := by
  intro k
  induction k with
  | zero => intro i; exact good_fuel
  | succ k ih => intro i; exact good_bind (good_defineDyn _ _) fun _ => good_bind h fun _ => ih _

omit hc in
theorem good_repPn {body : M (List Change)} (h : Good v body) : ∀ (k : Nat) (i : Int) (acc : List Change),
    Good v (repPn body k i acc) := by
  intro k
  induction k with
  | zero => intro i acc; exact good_pure _
  | succ k ih =>
    intro i acc s
    have h1 := good_mbind (good_defineDyn (v := v) "loop_counter".toList (.int i)) (fun _ => h) s
    unfold repPn
    cases hm : M.bind (defineDyn "loop_counter".toList (.int i)) (fun _ => body) s with
    | ok a s' =>
      rw [hm] at h1
      have h2 := ih (i + 1) (acc ++ a) s'
      simp only at h1 ⊢
      cases hm2 : repPn body k (i + 1) (acc ++ a) s' <;> rw [hm2] at h2 <;> first | exact h1.trans h2 | trivial
    | brk s' => rw [hm] at h1; exact h1
    | abort s' => rw [hm] at h1; exact h1
    | err _ => trivial
    | ub => trivial
    | fuel => trivial

theorem good_load (n : Str) : Good v (loadMethod v c n) := by
  unfold loadMethod
  refine good_bind good_get fun s => good_bind ?_ fun sufs => ?_
  · split
    · exact good_bind (good_lookup _) fun x => good_bind (hc.str x) fun t => good_pure _
    · exact good_pure _
  · split
    · exact good_pure _
    · exact good_err

theorem good_foldPn : ∀ (l : List Expr) (acc : List Change),
    Good v (l.foldlM (fun acc x => do let y ← c.pn x; pure (acc ++ y)) acc : M (List Change)) := by
  intro l
  induction l with
  | nil => intro acc; exact good_pure _
  | cons x l ih =>
    intro acc
    rw [List.foldlM_cons]
    exact good_bind (good_bind (hc.pn x) fun y => good_pure _) fun a => ih a

/-- Goals made of the constructs of the model. -/
macro "good" : tactic => `(tactic| repeat' (first
  | with_reducible (first
    | assumption | refine good_bind ?_ fun _ => ?_ | apply good_cond | apply good_pure | apply good_err | apply good_ub
    | apply good_fuel | apply good_get
    | apply good_ll | apply good_lift | apply good_lookup | apply good_inClone | apply good_defineDyn | apply good_exc
    | apply good_output | apply good_disable | apply good_save
    | apply GoodCalls.exec ‹_› | apply GoodCalls.eval ‹_› | apply GoodCalls.bool ‹_› | apply GoodCalls.int ‹_›
    | apply GoodCalls.str ‹_› | apply GoodCalls.strNl ‹_› | apply GoodCalls.pn ‹_› | apply GoodCalls.mus ‹_›
    | apply GoodCalls.arr ‹_› | apply GoodCalls.call ‹_› | apply GoodCalls.repl ‹_› | apply GoodCalls.type ‹_›
    | apply GoodCalls.name ‹_›)
  | split | dsimp only))

theorem good_fnCall (f : Fn) (args : List Expr) : Good v (fnCall v c f args) := by
  unfold fnCall
  have h1 := good_foldPn hc
  have h2 := good_load hc
  split <;> good
  all_goals first | exact h2 _ | exact h1 (_ :: _) _ | skip

theorem good_matches (m : Music) : Good v (matchesRow v m) := by
  unfold matchesRow; good

theorem good_typeN (e : Expr) : Good v (typeN c e) := by
  unfold typeN; split <;> good

theorem good_nameN (e : Expr) : Good v (nameN c e) := by
  unfold nameN; split <;> good

theorem good_bothInt (a b : Expr) : Good v (bothInt c a b) := by
  unfold bothInt; good

theorem good_evalCall (n : Str) (args : List Expr) : Good v (evalCall c n args) := by
  unfold evalCall; good

theorem good_intN (e : Expr) : Good v (intN v c e) := by
  have h1 := good_bothInt hc
  have h2 := good_evalCall hc
  unfold intN; split <;> good
  all_goals first | exact h1 _ _ | exact h2 _ _

theorem good_evalStr (t : Str) (f : SFlags) : Good v (evalStr v c t f) := by
  have h1 := good_subst hc
  unfold evalStr; good
  all_goals exact h1 _ _ _

theorem good_strN (e : Expr) : Good v (strN v c e) := by
  have h1 := good_bothInt hc
  have h2 := good_evalCall hc
  have h3 := good_intN hc
  have h4 := good_evalStr hc
  unfold strN; split <;> good
  all_goals first | exact h1 _ _ | exact h2 _ _ | exact h3 _ | exact h4 _ _

theorem good_strNlN (e : Expr) : Good v (strNlN v c e) := by
  have h3 := good_strN hc
  have h4 := good_evalStr hc
  unfold strNlN; split <;> good
  all_goals first | exact h3 _ | exact h4 _ _

theorem good_boolN (e : Expr) : Good v (boolN v c e) := by
  have h1 := good_matches hc
  have h2 := good_evalCall hc
  unfold boolN; split <;> good
  all_goals first | exact h1 _ | exact h2 _ _

omit hc in
theorem good_doRepl (mask : List Change) (off : Int) (b : Bool) (m : List Change) :
    Good v (doReplacement mask off b m) := by
  unfold doReplacement; good

theorem good_replN (e : Expr) (m : List Change) : Good v (replN c e m) := by
  have h1 := @good_doRepl v
  unfold replN; split <;> good
  all_goals exact h1 _ _ _ _

theorem good_pnN (e : Expr) : Good v (pnN c e) := by
  have h1 := good_evalCall hc
  unfold pnN; split <;> good
  all_goals first | exact h1 _ _ | exact good_counter (good_repPn (hc.pn _) _ _ _)

theorem good_musN (e : Expr) : Good v (musN c e) := by
  have h1 := good_evalCall hc
  unfold musN; split <;> good
  all_goals exact h1 _ _

theorem good_arrN (e : Expr) : Good v (arrN c e) := by
  have h1 := good_evalCall hc
  unfold arrN; split <;> good
  all_goals exact h1 _ _

theorem good_callN (e : Expr) (args : List Expr) : Good v (callN v c e args) := by
  unfold callN; split
  · exact good_fnCall hc _ _
  · exact good_err

theorem good_condition (e : Expr) : Good v (condition c e) := good_inClone (good_catchAll (hc.bool e))

theorem good_evalN (e : Expr) : Good v (evalN v c e) := by
  have h1 := good_bothInt hc
  have h2 := good_evalCall hc
  have h3 := good_intN hc
  have h4 := good_evalStr hc
  have h5 := good_boolN hc
  have h6 := good_strN hc
  have h7 := good_pnN hc
  have h8 := good_condition hc
  unfold evalN; split <;> good
  all_goals first | exact h1 _ _ | exact h2 _ _ | exact h3 _ | exact h4 _ _ | exact h5 _ | exact h6 _ | exact h7 _ | exact h8 _

theorem good_execRep (n : Nat) (count : Int) (e : Expr) (d : Int) : Good v (execRep c n count e d) := by
  apply good_counter
  apply good_catchBreak
  split
  · exact good_repForever (hc.exec e d) _ _
  · exact good_repLoop (hc.exec e d) _ _

theorem good_transp (t : Row) : Good v (do
    permute (fun r => r.mulC t)
    let _ ← prove v c false : M Unit) := by
  have e : (do
      permute (fun r => r.mulC t)
      let _ ← prove v c false : M Unit) =
      (M.bind (permute fun r => r.mulC t) (fun _ => prove v c false) >>= fun _ => pure ()) := by
    funext s
    show M.bind _ _ s = M.bind (M.bind _ _) _ s
    unfold M.bind
    cases permute (fun r => r.mulC t) s <;> rfl
  rw [e]
  exact good_bind (good_ringOne hc (Or.inr ⟨t, rfl⟩) false) fun b => good_pure _

theorem good_execN (n : Nat) (e : Expr) (d : Int) : Good v (execN v c n e d) := by
  have h1 := good_bothInt hc
  have h2 := good_evalCall hc
  have h3 := good_intN hc
  have h4 := good_evalStr hc
  have h5 := good_boolN hc
  have h6 := good_strN hc
  have h7 := good_pnN hc
  have h8 := good_condition hc
  have h9 := good_ringAll hc
  have h10 := good_execRep hc
  have h11 := good_execSymbol hc
  have h12 := good_transp hc
  cases e <;> simp only [execN]
  case transp t => exact h12 t
  all_goals good
  all_goals first | exact h1 _ _ | exact h2 _ _ | exact h3 _ | exact h4 _ _ | exact h5 _ | exact h6 _ | exact h7 _ | exact h8 _ | exact h9 _ _ | exact h10 _ _ _ _ | exact h11 _ _

theorem good_step (n : Nat) : GoodCalls v (step v c n) where
  exec e d := good_bind good_tick fun _ => good_execN hc n e d
  eval e := good_bind good_tick fun _ => good_evalN hc e
  bool e := good_bind good_tick fun _ => good_boolN hc e
  int e := good_bind good_tick fun _ => good_intN hc e
  str e := good_bind good_tick fun _ => good_strN hc e
  strNl e := good_bind good_tick fun _ => good_strNlN hc e
  pn e := good_bind good_tick fun _ => good_pnN hc e
  mus e := good_bind good_tick fun _ => good_musN hc e
  arr e := good_bind good_tick fun _ => good_arrN hc e
  call e a := good_bind good_tick fun _ => good_callN hc e a
  repl e m := good_bind good_tick fun _ => good_replN hc e m
  type e := good_typeN hc e
  name e := good_nameN hc e

end

theorem good_calls (v : Env) : ∀ n, GoodCalls v (calls v n)
  | 0 => ⟨fun _ _ => good_fuel, fun _ => good_fuel, fun _ => good_fuel, fun _ => good_fuel, fun _ => good_fuel,
      fun _ => good_fuel, fun _ => good_fuel, fun _ => good_fuel, fun _ => good_fuel, fun _ _ => good_fuel,
      fun _ _ => good_fuel, fun _ => good_fuel, fun _ => good_fuel⟩
  | n + 1 => good_step (good_calls v n) n

end Ringing.Siril
