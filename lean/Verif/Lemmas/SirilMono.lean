import Verif.Lemmas.Siril
/-
The budget does not matter: a call of the interpreter that ends within its budget ends in the same way with a larger one.
-/
namespace Ringing.Siril

/-- `m'` does what `m` does, unless `m` runs out of budget. -/
def Le {α : Type} (m m' : M α) : Prop := ∀ s, m s = .fuel ∨ m' s = m s

section
variable {α β : Type}

theorem le_refl' (m : M α) : Le m m := fun _ => Or.inr rfl
theorem le_fuel (m : M α) : Le (M.fuel : M α) m := fun _ => Or.inl rfl
theorem le_trans' {a b c : M α} (h1 : Le a b) (h2 : Le b c) : Le a c := by
  intro s
  rcases h1 s with h | h
  · exact Or.inl h
  · rcases h2 s with h' | h'
    · exact Or.inl (h.symm.trans h')
    · exact Or.inr (h'.trans h)

theorem le_mbind {m m' : M α} {f f' : α → M β} (h : Le m m') (hf : ∀ a, Le (f a) (f' a)) :
    Le (M.bind m f) (M.bind m' f') := by
  intro s
  unfold M.bind
  rcases h s with h | h
  · rw [h]; exact Or.inl rfl
  · rw [h]
    cases m s with
    | ok a s' => exact hf a s'
    | _ => exact Or.inr rfl

theorem le_bind {m m' : M α} {f f' : α → M β} (h : Le m m') (hf : ∀ a, Le (f a) (f' a)) :
    Le (m >>= f) (m' >>= f') := le_mbind h hf

theorem le_ite {p : Prop} [Decidable p] {a b a' b' : M α} (ha : Le a a') (hb : Le b b') :
    Le (if p then a else b) (if p then a' else b') := by
  by_cases h : p
  · rw [if_pos h, if_pos h]; exact ha
  · rw [if_neg h, if_neg h]; exact hb

theorem le_cond {b : Bool} {m m' : M Unit} (h : Le m m') : Le (M.cond b m) (M.cond b m') := le_ite h (le_refl' _)

theorem le_catchBreak {m m' : M Unit} (h : Le m m') : Le (M.catchBreak m) (M.catchBreak m') := by
  intro s
  unfold M.catchBreak
  rcases h s with h | h
  · rw [h]; exact Or.inl rfl
  · rw [h]; exact Or.inr rfl

theorem le_catchAll {a : α} {m m' : M α} (h : Le m m') : Le (M.catchAll a m) (M.catchAll a m') := by
  intro s
  unfold M.catchAll
  rcases h s with h | h
  · rw [h]; exact Or.inl rfl
  · rw [h]; exact Or.inr rfl

theorem le_finally {m m' : M α} {d : St → St} (h : Le m m') : Le (M.finally' m d) (M.finally' m' d) := by
  intro s
  unfold M.finally'
  rcases h s with h | h
  · rw [h]; exact Or.inl rfl
  · rw [h]; exact Or.inr rfl

theorem le_inClone {m m' : M α} (h : Le m m') : Le (inClone m) (inClone m') := by
  intro s
  unfold inClone
  rcases h s.clone with h | h
  · rw [h]; exact Or.inl rfl
  · rw [h]; exact Or.inr rfl

theorem le_counter {m m' : M α} (h : Le m m') : Le (withCounter m) (withCounter m') := by
  intro s
  unfold withCounter
  simp only
  by_cases hd : isDefined s "loop_counter".toList = true
  · rw [if_pos hd, if_pos hd]
    cases lookup "loop_counter".toList s with
    | ok x s' => exact le_finally h s'
    | _ => exact Or.inr rfl
  · rw [if_neg hd, if_neg hd]
    exact le_finally h s

theorem le_repLoop {m m' : M Unit} (h : Le m m') : ∀ (k : Nat) (i : Int), Le (repLoop m k i) (repLoop m' k i) := by
  intro k
  induction k with
  | zero => intro i; exact le_refl' _
  | succ k ih => intro i; exact le_bind (le_refl' _) fun _ => le_bind h fun _ => ih _

theorem le_repForever {m m' : M Unit} (h : Le m m') : ∀ (k k' : Nat) (i : Int), k ≤ k' →
    Le (repForever m k i) (repForever m' k' i) := by
  intro k
  induction k with
  | zero => intro k' i _; exact le_fuel _
  | succ k ih =>
    intro k' i hk
    obtain ⟨j, rfl⟩ : ∃ j, k' = j + 1 := ⟨k' - 1, by omega⟩
    exact le_bind (le_refl' _) fun _ => le_bind h fun _ => ih _ _ (by omega)

theorem le_repPn {m m' : M (List Change)} (h : Le m m') : ∀ (k : Nat) (i : Int) (acc : List Change),
    Le (repPn m k i acc) (repPn m' k i acc) := by
  intro k
  induction k with
  | zero => intro i acc; exact le_refl' _
  | succ k ih =>
    intro i acc s
    unfold repPn
    have h1 := le_mbind (le_refl' (defineDyn "loop_counter".toList (.int i))) (fun _ => h) s
    rcases h1 with h1 | h1
    · rw [h1]; exact Or.inl rfl
    · rw [h1]
      cases M.bind (defineDyn "loop_counter".toList (.int i)) (fun _ => m) s with
      | ok a s' => exact ih _ _ s'
      | _ => exact Or.inr rfl

end

/-- All calls of `c` that end within the budget are those of `c'`. -/
structure LeCalls (c c' : Calls) : Prop where
  exec : ∀ e d, Le (c.exec e d) (c'.exec e d)
  eval : ∀ e, Le (c.eval e) (c'.eval e)
  bool : ∀ e, Le (c.bool e) (c'.bool e)
  int : ∀ e, Le (c.int e) (c'.int e)
  str : ∀ e, Le (c.str e) (c'.str e)
  strNl : ∀ e, Le (c.strNl e) (c'.strNl e)
  pn : ∀ e, Le (c.pn e) (c'.pn e)
  mus : ∀ e, Le (c.mus e) (c'.mus e)
  arr : ∀ e, Le (c.arr e) (c'.arr e)
  call : ∀ e a, Le (c.call e a) (c'.call e a)
  repl : ∀ e m, Le (c.repl e m) (c'.repl e m)
  type : ∀ e, Le (c.type e) (c'.type e)
  name : ∀ e, Le (c.name e) (c'.name e)

section
variable {v : Env} {c c' : Calls} (hc : LeCalls c c')
include hc

theorem le_execSymbol (n : Str) (d : Int) : Le (execSymbol c n d) (execSymbol c' n d) :=
  le_bind (le_refl' _) fun x => hc.exec x d

theorem le_everyrow : Le (execEveryrow v c) (execEveryrow v c') :=
  le_bind (le_refl' _) fun _ => le_bind (le_refl' _) fun _ => le_bind (le_execSymbol hc _ _) fun _ => le_refl' _

theorem le_proveRest (rv back : Bool) : Le (proveRest v c rv back) (proveRest v c' rv back) :=
  le_bind (le_refl' _) fun _ => le_bind (le_everyrow hc) fun _ => le_bind (le_refl' _) fun _ =>
  le_bind (le_cond (le_execSymbol hc _ _)) fun _ => le_bind (le_refl' _) fun _ =>
  le_bind (le_cond (le_execSymbol hc _ _)) fun _ => le_bind (le_cond (le_execSymbol hc _ _)) fun _ => le_refl' _

theorem le_prove (back : Bool) : Le (prove v c back) (prove v c' back) :=
  le_bind (le_refl' _) fun _ => le_ite (le_refl' _) (le_bind (le_refl' _) fun _ => le_proveRest hc _ _)

theorem le_ringAll : ∀ (cs : List Change) (back : Bool), Le (ringAll v c cs back) (ringAll v c' cs back) := by
  intro cs
  induction cs with
  | nil => intro back; exact le_refl' _
  | cons ch cs ih => intro back; exact le_bind (le_refl' _) fun _ => le_bind (le_prove hc _) fun _ => ih _

theorem le_subst : ∀ (t : Str) (k : Nat) (a : Subst), Le (subst v c t k a) (subst v c' t k a) := by
  intro t
  induction t with
  | nil => intro k a; cases k <;> exact le_refl' _
  | cons ch cs ih =>
    intro k a
    cases k with
    | succ k => exact ih k a
    | zero =>
      unfold subst
      refine le_ite ?_ (le_ite (le_ite (le_ite ?_ (le_refl' _)) (le_ite (ih _ _) ?_)) (le_ite ?_ (le_ite ?_ (ih _ _))))
      · refine le_bind (le_refl' _) fun s => le_bind (le_refl' _) fun x => ?_
        obtain ⟨m, hit⟩ := x
        refine le_ite ?_ (le_refl' _)
        cases m.info with
        | nil => exact le_refl' _
        | cons d _ => exact ih _ _
      · exact le_bind (le_refl' _) fun x => le_bind (le_inClone (hc.str x)) fun t => ih _ _
      · exact le_bind (le_refl' _) fun s => ih _ _
      · exact le_bind (le_refl' _) fun s => ih _ _
      · cases cs with
        | nil => exact le_refl' _
        | cons d cs => exact ih _ _

theorem le_load (n : Str) : Le (loadMethod v c n) (loadMethod v c' n) :=
  le_bind (le_refl' _) fun _ => le_bind (le_ite (le_bind (le_refl' _) fun x => le_bind (hc.str x) fun _ => le_refl' _)
    (le_refl' _)) fun _ => le_refl' _

theorem le_foldPn : ∀ (l : List Expr) (acc : List Change),
    Le (l.foldlM (fun acc x => do let y ← c.pn x; pure (acc ++ y)) acc : M (List Change))
      (l.foldlM (fun acc x => do let y ← c'.pn x; pure (acc ++ y)) acc : M (List Change)) := by
  intro l
  induction l with
  | nil => intro acc; exact le_refl' _
  | cons x l ih =>
    intro acc
    rw [List.foldlM_cons, List.foldlM_cons]
    exact le_bind (le_bind (hc.pn x) fun y => le_refl' _) fun a => ih a

/-- Goals made of the constructs of the model. -/
macro "mono" : tactic => `(tactic| repeat' (first
  | with_reducible (first
    | assumption | exact le_refl' _ | refine le_bind ?_ fun _ => ?_ | apply le_ite | apply le_cond | apply le_inClone
    | apply LeCalls.exec ‹_› | apply LeCalls.eval ‹_› | apply LeCalls.bool ‹_› | apply LeCalls.int ‹_›
    | apply LeCalls.str ‹_› | apply LeCalls.strNl ‹_› | apply LeCalls.pn ‹_› | apply LeCalls.mus ‹_›
    | apply LeCalls.arr ‹_› | apply LeCalls.call ‹_› | apply LeCalls.repl ‹_› | apply LeCalls.type ‹_›
    | apply LeCalls.name ‹_›)
  | split | dsimp only))

theorem le_fnCall (f : Fn) (args : List Expr) : Le (fnCall v c f args) (fnCall v c' f args) := by
  have h1 := le_foldPn hc
  have h2 := le_load (v := v) hc
  cases f <;> rcases args with _ | ⟨a, _ | ⟨b, args⟩⟩ <;> simp only [fnCall] <;> mono
  all_goals first | exact h2 _ | exact h1 (_ :: _) _

theorem le_typeN (e : Expr) : Le (typeN c e) (typeN c' e) := by
  cases e <;> simp only [typeN] <;> mono

theorem le_nameN (e : Expr) : Le (nameN c e) (nameN c' e) := by
  cases e <;> simp only [nameN] <;> mono

theorem le_bothInt (a b : Expr) : Le (bothInt c a b) (bothInt c' a b) := by
  unfold bothInt; mono

theorem le_evalCall (n : Str) (args : List Expr) : Le (evalCall c n args) (evalCall c' n args) := by
  unfold evalCall; mono

theorem le_intN (e : Expr) : Le (intN v c e) (intN v c' e) := by
  have h1 := le_bothInt hc
  have h2 := le_evalCall hc
  cases e <;> simp only [intN] <;> mono
  all_goals first | exact h1 _ _ | exact h2 _ _

theorem le_evalStr (t : Str) (f : SFlags) : Le (evalStr v c t f) (evalStr v c' t f) := by
  have h1 := le_subst (v := v) hc
  unfold evalStr; mono
  all_goals exact h1 _ _ _

theorem le_strN (e : Expr) : Le (strN v c e) (strN v c' e) := by
  have h1 := le_bothInt hc
  have h2 := le_evalCall hc
  have h3 := le_intN (v := v) hc
  have h4 := le_evalStr (v := v) hc
  cases e <;> simp only [strN] <;> mono
  all_goals first | exact h1 _ _ | exact h2 _ _ | exact h3 _ | exact h4 _ _

theorem le_strNlN (e : Expr) : Le (strNlN v c e) (strNlN v c' e) := by
  have h3 := le_strN (v := v) hc
  have h4 := le_evalStr (v := v) hc
  cases e <;> simp only [strNlN] <;> mono
  all_goals first | exact h3 _ | exact h4 _ _

theorem le_boolN (e : Expr) : Le (boolN v c e) (boolN v c' e) := by
  have h2 := le_evalCall hc
  cases e <;> simp only [boolN] <;> mono
  all_goals exact h2 _ _

theorem le_replN (e : Expr) (m : List Change) : Le (replN c e m) (replN c' e m) := by
  cases e <;> simp only [replN] <;> mono

theorem le_pnN (e : Expr) : Le (pnN c e) (pnN c' e) := by
  have h1 := le_evalCall hc
  cases e <;> simp only [pnN] <;> mono
  all_goals first | exact h1 _ _ | exact le_counter (le_repPn (hc.pn _) _ _ _)

theorem le_musN (e : Expr) : Le (musN c e) (musN c' e) := by
  have h1 := le_evalCall hc
  cases e <;> simp only [musN] <;> mono
  all_goals exact h1 _ _

theorem le_arrN (e : Expr) : Le (arrN c e) (arrN c' e) := by
  have h1 := le_evalCall hc
  cases e <;> simp only [arrN] <;> mono
  all_goals exact h1 _ _

theorem le_callN (e : Expr) (args : List Expr) : Le (callN v c e args) (callN v c' e args) := by
  have h1 := le_fnCall (v := v) hc
  cases e <;> simp only [callN] <;> mono
  all_goals exact h1 _ _

theorem le_condition (e : Expr) : Le (condition c e) (condition c' e) := le_inClone (le_catchAll (hc.bool e))

theorem le_evalN (e : Expr) : Le (evalN v c e) (evalN v c' e) := by
  have h1 := le_bothInt hc
  have h2 := le_evalCall hc
  have h3 := le_intN (v := v) hc
  have h4 := le_evalStr (v := v) hc
  have h5 := le_boolN (v := v) hc
  have h6 := le_strN (v := v) hc
  have h7 := le_pnN hc
  have h8 := le_condition hc
  cases e <;> simp only [evalN] <;> mono
  all_goals first | exact h1 _ _ | exact h2 _ _ | exact h3 _ | exact h4 _ _ | exact h5 _ | exact h6 _ | exact h7 _ | exact h8 _

theorem le_execRep (n n' : Nat) (hn : n ≤ n') (count : Int) (e : Expr) (d : Int) :
    Le (execRep c n count e d) (execRep c' n' count e d) := by
  apply le_counter
  apply le_catchBreak
  exact le_ite (le_repForever (hc.exec e d) _ _ _ hn) (le_repLoop (hc.exec e d) _ _)

theorem le_execN (n n' : Nat) (hn : n ≤ n') (e : Expr) (d : Int) : Le (execN v c n e d) (execN v c' n' e d) := by
  have h1 := le_bothInt hc
  have h2 := le_evalCall hc
  have h3 := le_intN (v := v) hc
  have h4 := le_evalStr (v := v) hc
  have h5 := le_boolN (v := v) hc
  have h6 := le_strN (v := v) hc
  have h7 := le_pnN hc
  have h8 := le_condition hc
  have h9 := le_ringAll (v := v) hc
  have h10 := le_execRep hc n n' hn
  have h11 := le_execSymbol hc
  have h12 := le_prove (v := v) hc
  cases e <;> simp only [execN] <;> mono
  all_goals first | exact h1 _ _ | exact h2 _ _ | exact h3 _ | exact h4 _ _ | exact h5 _ | exact h6 _ | exact h7 _ | exact h8 _ | exact h9 _ _ | exact h10 _ _ _ | exact h11 _ _ | exact h12 _

theorem le_step (n n' : Nat) (hn : n ≤ n') : LeCalls (step v c n) (step v c' n') where
  exec e d := le_bind (le_refl' _) fun _ => le_execN hc n n' hn e d
  eval e := le_bind (le_refl' _) fun _ => le_evalN hc e
  bool e := le_bind (le_refl' _) fun _ => le_boolN hc e
  int e := le_bind (le_refl' _) fun _ => le_intN hc e
  str e := le_bind (le_refl' _) fun _ => le_strN hc e
  strNl e := le_bind (le_refl' _) fun _ => le_strNlN hc e
  pn e := le_bind (le_refl' _) fun _ => le_pnN hc e
  mus e := le_bind (le_refl' _) fun _ => le_musN hc e
  arr e := le_bind (le_refl' _) fun _ => le_arrN hc e
  call e a := le_bind (le_refl' _) fun _ => le_callN hc e a
  repl e m := le_bind (le_refl' _) fun _ => le_replN hc e m
  type e := le_typeN hc e
  name e := le_nameN hc e

end

theorem le_none (c : Calls) : LeCalls Calls.none c :=
  ⟨fun _ _ => le_fuel _, fun _ => le_fuel _, fun _ => le_fuel _, fun _ => le_fuel _, fun _ => le_fuel _,
   fun _ => le_fuel _, fun _ => le_fuel _, fun _ => le_fuel _, fun _ => le_fuel _, fun _ _ => le_fuel _,
   fun _ _ => le_fuel _, fun _ => le_fuel _, fun _ => le_fuel _⟩

theorem le_calls (v : Env) : ∀ n n', n ≤ n' → LeCalls (calls v n) (calls v n')
  | 0, _, _ => le_none _
  | n + 1, 0, h => absurd h (by omega)
  | n + 1, n' + 1, h => le_step (le_calls v n n' (by omega)) n n' (by omega)

theorem le_body (v : Env) {n n' : Nat} (h : n ≤ n') (x : Expr) : Le (proofBody (calls v n) x) (proofBody (calls v n') x) :=
  have hc := le_calls v n n' h
  le_bind (le_execSymbol hc _ _) fun _ => le_bind (hc.exec _ _) fun _ => le_execSymbol hc _ _

theorem le_final (v : Env) {n n' : Nat} (h : n ≤ n') (nm : Str) : Le (execFinal (calls v n) nm) (execFinal (calls v n') nm) :=
  le_catchAll (le_execSymbol (le_calls v n n' h) _ _)

theorem le_proveC (v : Env) (mn : Nat) {n n' : Nat} (h : n ≤ n') (x : Expr) (e : ECtx) :
    Le (proveC v mn n x e) (proveC v mn n' x e) := by
  refine le_bind (le_refl' _) fun _ s => ?_
  have hb := le_body v h x s
  have hf := fun nm => le_final v h nm
  rcases hb with hb | hb
  · left; simp only [hb]
  · simp only [hb]
    have hfin : ∀ nm (w : Verdict), Le (M.bind (execFinal (calls v n) nm) (fun _ => M.pure w))
        (M.bind (execFinal (calls v n') nm) (fun _ => M.pure w)) := fun nm w => le_mbind (hf nm) fun _ => le_refl' _
    cases proofBody (calls v n) x s with
    | ok a s1 =>
      simp only
      cases s1.state v with
      | rounds =>
        simp only
        by_cases hm : mn ≠ 0 ∧ s1.p.size < mn
        · rw [if_pos hm, if_pos hm]; exact hfin _ _ _
        · rw [if_neg hm, if_neg hm]; exact hfin _ _ _
      | notround => exact hfin _ _ _
      | isfalse => exact hfin _ _ _
    | abort s1 => exact hfin _ _ _
    | brk s1 => exact Or.inr rfl
    | err s1 => exact Or.inr rfl
    | ub => exact Or.inr rfl
    | fuel => exact Or.inr rfl

end Ringing.Siril
