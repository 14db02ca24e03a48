import Verif.Lemmas.SirilRun
import Verif.Props.SirilReport
import Verif.Model.SirilLiterals
/-
C71: what the statements of gsiril do.
-/
namespace Ringing.Siril
open Grammar Running Spec

variable {A : RArgs} {imp : Str → World → Ex Unit}

/-! ### Definitions -/

theorem defined_defineFirst (t : Table) (x : Str) (e : Expr) : Defined t (t.defineFirst x e) x e (t x = none) := by
  unfold Table.defineFirst Table.define
  have hf : firstName = first := rfl
  by_cases h1 : t x = none
  · rw [if_neg (by simp [h1])]
    by_cases h2 : x = first
    · subst h2
      rw [if_neg (by simp [hf])]
      exact ⟨by simp, by simp, by simp, fun y h _ => by simp [h]⟩
    · by_cases h3 : t first = none
      · rw [if_pos (by simp [hf, Ne.symm h2, h3])]
        refine ⟨by simp [hf, h2], fun _ _ _ => by simp [hf], fun _ h => absurd ⟨h1, h3⟩ h, fun y h h' => by simp [h, h', hf]⟩
      · rw [if_neg (by simp [hf, Ne.symm h2, h3])]
        exact ⟨by simp, fun _ _ h => absurd h h3, fun _ _ => by simp [Ne.symm h2], fun y h _ => by simp [h]⟩
  · rw [if_pos (by cases ht : t x with | none => exact absurd ht h1 | some _ => rfl)]
    exact ⟨by simp, fun _ h => absurd h h1, fun h _ => by simp [Ne.symm h], fun y h _ => by simp [h]⟩

/-- **C71**: `x = e` defines `x` as the expression `e` (which is not evaluated) and nothing else, but if `x` had no definition and there is no
first definition yet it is the first definition. -/
theorem C71_define (x : Str) (e : Expr) (w : World) : ∃ w', execS A imp (.define x e) w = .ok () w' ∧ OnlySymbols w w' ∧
    Defined w.e.syms w'.e.syms x e (w.e.syms x = none) :=
  ⟨w.defineSym x e, by rw [execS], ⟨_, rfl⟩, defined_defineFirst _ _ _⟩

/-- **C71**: `x ?= e` does so if `x` has no definition or an empty one; otherwise it does nothing. -/
theorem C71_default (x : Str) (e : Expr) (w : World) : ∃ w', execS A imp (.dflt x e) w = .ok () w' ∧ OnlySymbols w w' ∧
    (Vacant w.e.syms x → Defined w.e.syms w'.e.syms x e True) ∧ (¬ Vacant w.e.syms x → w' = w) := by
  refine ⟨_, by rw [execS], ?_⟩
  have hv : isNopSym (w.e.syms x) = true ↔ Vacant w.e.syms x := by
    unfold Vacant isNopSym
    split <;> simp_all
  unfold World.defaultSym
  by_cases h : Vacant w.e.syms x
  · rw [if_pos (hv.2 h)]
    refine ⟨⟨_, rfl⟩, fun _ => ?_, fun h' => absurd h h'⟩
    unfold Table.define
    have hf : firstName = first := rfl
    dsimp only
    by_cases h2 : x = first
    · subst h2
      rw [if_neg (by simp [hf])]
      exact ⟨by simp, by simp, by simp, fun y h _ => by simp [h]⟩
    · by_cases h3 : w.e.syms first = none
      · rw [if_pos (by simp [hf, Ne.symm h2, h3])]
        refine ⟨by simp [hf, h2], fun _ _ _ => by simp [hf], fun _ h => absurd ⟨trivial, h3⟩ h, fun y h h' => by simp [h, h', hf]⟩
      · rw [if_neg (by simp [hf, Ne.symm h2, h3])]
        exact ⟨by simp, fun _ _ h => absurd h h3, fun _ _ => by simp [Ne.symm h2], fun y h _ => by simp [h]⟩
  · rw [if_neg (by rw [hv]; exact h)]
    exact ⟨⟨_, rfl⟩, fun h' => absurd h' h, fun _ => rfl⟩

/-- **C71**: `x := e` defines `x` as the value of `e`, if it has one; if not, no symbol is defined by the statement. -/
theorem C71_immediate (x : Str) (e : Expr) (w : World) :
    (∀ a w1, inContext A w (fun c => c.eval e) = .ok a w1 → ∃ w', execS A imp (.immediate x e) w = .ok () w' ∧ OnlySymbols w1 w' ∧
      Defined w1.e.syms w'.e.syms x a (w1.e.syms x = none)) ∧
    (∀ w1, inContext A w (fun c => c.eval e) = .err w1 → execS A imp (.immediate x e) w = .err w1) := by
  constructor
  · intro a w1 h
    refine ⟨w1.defineSym x a, ?_, ⟨_, rfl⟩, defined_defineFirst _ _ _⟩
    rw [execS, h]; rfl
  · intro w1 h
    rw [execS, h]; rfl

/-! ### Settings -/

theorem whole_mask {d : MusicDetails} (h : WholeRow d) (b : Nat) : ∃ d', Music.newWithC b d = .ok ⟨[d'], .node [] [0], b⟩ := by
  have e2 : MNode.addC b (b + 2) ['*'] 0 0 MNode.new = .ok (.node [] [0]) := by
    simp [MNode.addC, MNode.addGo, MNode.new, MNode.pushKey, show Bell.isSymbol '*' = false by decide]
  unfold Music.newWithC Music.pushBackC
  by_cases hb : b = 0
  · rw [if_neg (show ¬ (Music.new b).b ≠ 0 from not_not.2 hb), Out.ok_bind]
    have : MNode.addC (Music.new b).b ((Music.new b).b + 2) d.pat.pat (Music.new b).info.length 0 (Music.new b).top = .ok (.node [] [0]) := by
      rw [h]; exact e2
    rw [this, Out.ok_bind]
    exact ⟨_, rfl⟩
  · rw [if_pos (show (Music.new b).b ≠ 0 from hb)]
    have e4 : d.checkBellsC b = .ok { d with pat := { d.pat with b := b } } := by
      unfold MusicDetails.checkBellsC Wildcard.setBellsC
      have h' : d.pat.pat = ['*'] := h
      rw [if_neg hb]
      simp [h', Wildcard.bellsLoop, show Bell.isSymbol '*' = false by decide, Out.ok_bind]
    have e4' : d.checkBellsC (Music.new b).b = _ := e4
    rw [e4', Out.ok_bind]
    have : MNode.addC (Music.new b).b ((Music.new b).b + 2) d.pat.pat (Music.new b).info.length 0 (Music.new b).top = .ok (.node [] [0]) := by
      rw [h]; exact e2
    dsimp only
    rw [this, Out.ok_bind]
    exact ⟨_, rfl⟩

theorem whole_hits (d : MusicDetails) (v : Env) (b : Nat) (r : Row) : ∃ m d' ds,
    (⟨[d], .node [] [0], b⟩ : Music).processC (readBell v r) r false = .ok (m, true) ∧ m.info = d' :: ds ∧ d'.wilds = r := by
  refine ⟨⟨[{ ({ d with wilds := [] } : MusicDetails).increment false with wilds := r }], .node [] [0], b⟩, _, [], ?_, rfl, rfl⟩
  simp [Music.processC, MNode.matchC, MNode.dmLoop, MNode.hasKey, MNode.matchSub, readBell, Out.ok_bind, vget, vset]

theorem define_same (t : Table) (x : Str) (e : Expr) : t.define x e x = some e := by unfold Table.define; rw [if_pos rfl]
theorem define_other (t : Table) {x y : Str} (e : Expr) (h : y ≠ x) : t.define x e y = t y := by unfold Table.define; rw [if_neg h]
theorem undefine_same (t : Table) (x : Str) : t.undefine x x = none := by unfold Table.undefine; rw [if_pos rfl]
theorem undefine_other (t : Table) {x y : Str} (h : y ≠ x) : t.undefine x y = t y := by unfold Table.undefine; rw [if_neg h]

theorem defineLine_whole {w : World} (h : WholeRow w.rmask) :
    defineLine w = .ok () { w with e := { w.e with syms := w.e.syms.define "__line__".toList (.str (List.replicate w.v.bells.toNat '-') {}) } } := by
  obtain ⟨d, h1⟩ := whole_mask h w.v.bells.toNat
  obtain ⟨m, d', ds, h2, h3, h4⟩ := whole_hits d w.v w.v.bells.toNat (Row.roundsC w.v.bells.toNat)
  unfold defineLine
  simp only [h1, Ex.lift, Ex.bind, h2, h3, if_true, h4]
  simp [Row.roundsC]

/-- The rounds for `n` bells, when they were `r`: the same with the bells added, or those of `n` bells. -/
def roundsFor (n : Nat) (r : Row) : Row := if r.length ≤ n then r ++ List.range' r.length (n - r.length) else List.range n

/-- **C71**: `N bells` fails, and does nothing, unless `2 ≤ N ≤ 33`.  Otherwise, with the row mask `*`, it sets the number of bells and `__line__`
to as many hyphens; the starting row is extended by the bells added, in order, or replaced by rounds if it is on more bells, with a warning if it was
not rounds. -/
theorem C71_bells (n : Int) (w : World) :
    (¬ (2 ≤ n ∧ n ≤ 33) → execS A imp (.bells n) w = .err w) ∧
    (2 ≤ n ∧ n ≤ 33 → WholeRow w.rmask → IsRow w.v.rounds → ∃ w', execS A imp (.bells n) w = .ok () w' ∧
      w'.v = { w.v with bells := n, rounds := roundsFor n.toNat w.v.rounds } ∧
      w'.e.syms "__line__".toList = some (.str (List.replicate n.toNat '-') {}) ∧
      (∀ y, y ≠ "__line__".toList → w'.e.syms y = w.e.syms y) ∧
      w'.e.out = w.e.out ++ (if n.toNat < w.v.rounds.length ∧ w.v.rounds ≠ List.range w.v.rounds.length then "Warning: Rounds reset".toList else []) ∧
      w' = { w with v := w'.v, e := { w.e with syms := w'.e.syms, out := w'.e.out } }) := by
  constructor
  · intro h
    rw [execS, if_pos (by omega)]
  · intro h hm hr
    rw [execS, if_neg (by omega)]
    unfold setBells
    have hv := (isRow_iff_valid _).1 hr
    have hrounds : (if n > w.v.rounds.length then Row.mulC w.v.rounds (Row.roundsC n.toNat)
        else if n < w.v.rounds.length then .ok (Row.roundsC n.toNat) else .ok w.v.rounds : Out Row) = .ok (roundsFor n.toNat w.v.rounds) := by
      unfold roundsFor
      by_cases h1 : n > w.v.rounds.length
      · rw [if_pos h1, if_pos (by omega), Row.roundsC_eq (by omega), Row.mulC_eq hv (Row.valid_rounds (by omega))]
        congr 1
        apply List.ext_getElem
        · simp; omega
        · intro i h2 h3
          have e : (Row.mul w.v.rounds (Row.rounds n.toNat))[i] = Row.fn w.v.rounds i := by
            rw [← Row.fn_of_lt h2, Row.fn_mul]
            congr 1
            by_cases hi : i < n.toNat
            · rw [Row.fn_of_lt (by simpa using hi)]; simp [Row.rounds]
            · exact Row.fn_of_ge (by simpa using hi)
          rw [e]
          by_cases hi : i < w.v.rounds.length
          · rw [List.getElem_append_left hi, Row.fn_of_lt hi]
          · rw [List.getElem_append_right (by omega), Row.fn_of_ge (by omega)]
            simp only [List.getElem_range']
            omega
      · rw [if_neg h1]
        by_cases h2 : n < w.v.rounds.length
        · rw [if_pos h2, if_neg (by omega), Row.roundsC_eq (by omega)]; rfl
        · rw [if_neg h2, if_pos (by omega), show n.toNat - w.v.rounds.length = 0 by omega]
          simp
    dsimp only
    rw [hrounds]
    have h1 : (n < w.v.rounds.length ∧ ¬ Row.isrounds w.v.rounds = true) ↔ (n.toNat < w.v.rounds.length ∧ w.v.rounds ≠ List.range w.v.rounds.length) := by
      rw [Row.isrounds_iff]
      have : n < w.v.rounds.length ↔ n.toNat < w.v.rounds.length := by omega
      rw [this]; rfl
    have hd := defineLine_whole (w := { w with
      v := { w.v with rounds := roundsFor n.toNat w.v.rounds, bells := n }
      e := { w.e with out := w.e.out ++ (if n.toNat < w.v.rounds.length ∧ w.v.rounds ≠ List.range w.v.rounds.length then "Warning: Rounds reset".toList else []) } }) hm
    simp only [h1]
    refine ⟨_, hd, rfl, define_same w.e.syms "__line__".toList _,
      fun y hy => define_other w.e.syms (.str (List.replicate n.toNat '-') {}) hy, rfl, rfl⟩


theorem defineLine_throw {w : World} {x : Err} (h : Music.newWithC w.v.bells.toNat w.rmask = .throw x) : defineLine w = .err w := by
  unfold defineLine
  rw [h]
  rfl

/-- Finding: if the row mask does not fit to the new number of bells the statement fails, but the number of bells is set all the same. -/
theorem C71_bells_mask_finding {n : Int} {w : World} {x : Err} (h : 2 ≤ n ∧ n ≤ 33) (hr : IsRow w.v.rounds) (hm : Music.newWithC n.toNat w.rmask = .throw x) :
    ∃ w', execS A imp (.bells n) w = .err w' ∧ w'.v.bells = n := by
  have hv := (isRow_iff_valid _).1 hr
  rw [execS, if_neg (by omega)]
  unfold setBells
  have hrounds : ∃ r, (if n > w.v.rounds.length then Row.mulC w.v.rounds (Row.roundsC n.toNat)
      else if n < w.v.rounds.length then .ok (Row.roundsC n.toNat) else .ok w.v.rounds : Out Row) = .ok r := by
    split
    · exact ⟨_, by rw [Row.roundsC_eq (by omega), Row.mulC_eq hv (Row.valid_rounds (by omega))]⟩
    · split <;> exact ⟨_, rfl⟩
  obtain ⟨r, hr⟩ := hrounds
  dsimp only
  rw [hr]
  exact ⟨_, defineLine_throw (w := { w with
    v := { w.v with rounds := r, bells := n },
    e := { w.e with out := w.e.out ++ if n < w.v.rounds.length ∧ ¬ Row.isrounds w.v.rounds = true then "Warning: Rounds reset".toList else [] } }) hm, rfl⟩

/-- Evaluating an expression changes nothing but the symbols (those that are saved), the number of nodes executed and what has been printed. -/
theorem onlyContext_refl (w : World) : OnlyContext w w := ⟨w.e, rfl⟩

theorem onlyContext_trans {a b c : World} (h : OnlyContext a b) (h' : OnlyContext b c) : OnlyContext a c := by
  obtain ⟨e, rfl⟩ := h
  obtain ⟨e', rfl⟩ := h'
  exact ⟨e', rfl⟩

theorem onlyContext_symbols {w w' : World} (h : OnlySymbols w w') : OnlyContext w w' := by
  obtain ⟨t, rfl⟩ := h
  exact ⟨_, rfl⟩

theorem after_ok {α : Type} {w w' : World} {r : Res α} {a : α} (h : w.after r = .ok a w') : OnlyContext w w' := by
  cases r <;> simp only [World.after] at h <;> cases h
  exact ⟨_, rfl⟩
theorem after_err {α : Type} {w w' : World} {r : Res α} (h : w.after r = .err w') : OnlyContext w w' := by
  cases r <;> simp only [World.after] at h <;> cases h
  exact ⟨_, rfl⟩

theorem envC_ok {w w' : World} {v : Env} (h : w.envC = .ok v w') :
    w' = w ∧ ∃ m, Music.newWithC w.v.bells.toNat w.rmask = .ok m ∧ v = { w.v with mask := m } := by
  unfold World.envC at h
  cases hm : Music.newWithC w.v.bells.toNat w.rmask with
  | ok m => rw [hm] at h; cases h; exact ⟨rfl, m, rfl, rfl⟩
  | _ => rw [hm] at h; cases h

theorem envC_err {w w' : World} (h : w.envC = .err w') : w' = w := by
  unfold World.envC at h
  cases hm : Music.newWithC w.v.bells.toNat w.rmask with
  | throw e => rw [hm] at h; cases h; rfl
  | _ => rw [hm] at h; cases h

theorem inContext_ok {α : Type} {w w' : World} {m : Calls → M α} {a : α} (h : inContext A w m = .ok a w') : OnlyContext w w' := by
  unfold inContext at h
  cases he : w.envC with
  | ok v w1 => rw [he] at h; obtain ⟨rfl, -⟩ := envC_ok he; exact after_ok h
  | _ => rw [he] at h; cases h

theorem inContext_err {α : Type} {w w' : World} {m : Calls → M α} (h : inContext A w m = .err w') : OnlyContext w w' := by
  unfold inContext at h
  cases he : w.envC with
  | ok v w1 => rw [he] at h; obtain ⟨rfl, -⟩ := envC_ok he; exact after_err h
  | err w1 => rw [he] at h; cases h; rw [envC_err he]; exact onlyContext_refl _
  | _ => rw [he] at h; cases h

/-- **C71**: with a row mask that does not fit, or with a starting row on more bells than are set, no expression can be evaluated. -/
theorem C71_blocked {α : Type} (w : World) (m : Calls → M α)
    (h : (∃ x, Music.newWithC w.v.bells.toNat w.rmask = .throw x) ∨
      ((∃ k, Music.newWithC w.v.bells.toNat w.rmask = .ok k) ∧ w.v.bells < w.v.rounds.length)) : inContext A w m = .err w := by
  unfold inContext World.envC
  rcases h with ⟨x, h⟩ | ⟨⟨k, h⟩, h'⟩
  · rw [h]; rfl
  · rw [h]
    show w.after (M.bind _ _ _) = _
    have : startC { w.v with mask := k } w.e (noState w.e) = .err { noState w.e with e := w.e } := by
      unfold startC
      rw [if_pos (.inr h')]
    unfold M.bind
    rw [this]
    rfl

/-- **C71**: `N rows` sets the length expected, and `min_length` and `max_length` to it, or to nothing if it is 0. -/
theorem C71_rows (lo hi : Nat) (w : World) : ∃ w', execS A imp (.rows lo hi) w = .ok () w' ∧
    w' = { w with e := { w.e with syms := w'.e.syms }, v := { w.v with maxLength := hi }, minLength := lo } ∧
    (∀ y, y ≠ "min_length".toList → y ≠ "max_length".toList → w'.e.syms y = w.e.syms y) ∧
    (lo ≠ 0 → hi ≠ 0 → lo < 2 ^ 63 → hi < 2 ^ 63 →
      w'.e.syms "min_length".toList = some (.int lo) ∧ w'.e.syms "max_length".toList = some (.int hi)) ∧
    (lo = 0 ∨ hi = 0 → w'.e.syms "min_length".toList = none ∧ w'.e.syms "max_length".toList = none) := by
  have hne : "min_length".toList ≠ "max_length".toList := by decide
  have hi64 : ∀ k : Nat, k < 2 ^ 63 → toLL k = k := by intro k hk; unfold toLL; omega
  refine ⟨setLength lo hi w, by rw [execS], rfl, ?_⟩
  show (∀ y, _ → _ → (if lo ≠ 0 ∧ hi ≠ 0 then _ else _ : Table) y = _) ∧
    (_ → _ → _ → _ → (if lo ≠ 0 ∧ hi ≠ 0 then _ else _ : Table) _ = _ ∧ (if lo ≠ 0 ∧ hi ≠ 0 then _ else _ : Table) _ = _) ∧
    (_ → (if lo ≠ 0 ∧ hi ≠ 0 then _ else _ : Table) _ = _ ∧ (if lo ≠ 0 ∧ hi ≠ 0 then _ else _ : Table) _ = _)
  by_cases h : lo ≠ 0 ∧ hi ≠ 0
  · simp only [if_pos h]
    refine ⟨fun y h1 h2 => by rw [define_other _ _ h2, define_other _ _ h1], fun _ _ h1 h2 => ?_, fun h' => by omega⟩
    rw [define_other _ _ hne, define_same, define_same, hi64 lo h1, hi64 hi h2]
    exact ⟨rfl, rfl⟩
  · simp only [if_neg h]
    refine ⟨fun y h1 h2 => by rw [undefine_other _ h2, undefine_other _ h1], fun h1 h2 => absurd ⟨h1, h2⟩ h, fun _ => ?_⟩
    rw [undefine_other _ hne, undefine_same, undefine_same]
    exact ⟨rfl, rfl⟩

/-- **C71**: `N extents` and `rounds '...'` set the number of extents and the starting row, which may be on any number of bells. -/
theorem C71_sets (n : Int) (r : Row) (w : World) :
    execS A imp (.extents n) w = .ok () { w with v := { w.v with extents := n } } ∧
    execS A imp (.rounds r) w = .ok () { w with v := { w.v with rounds := r } } := by
  constructor <;> rw [execS]

/-- **C71**: a row mask fails before the number of bells is set and does nothing with `-E`; otherwise it is read for this number of bells. -/
theorem C71_row_mask (s : Str) (w : World) :
    (w.v.bells = 0 → execS A imp (.rowMask s) w = .err w) ∧
    (w.v.bells ≠ 0 → w.v.everyrowOnly = true → execS A imp (.rowMask s) w = .ok () w) ∧
    (w.v.bells ≠ 0 → w.v.everyrowOnly = false → ∀ d, A.mask w.v.bells s = .ok d → WholeRow d → ∃ w', execS A imp (.rowMask s) w = .ok () w' ∧
      w'.rmask = d ∧ OnlySymbols { w with rmask := d } w' ∧ w'.e.syms "__line__".toList = some (.str (List.replicate w.v.bells.toNat '-') {})) ∧
    (w.v.bells ≠ 0 → w.v.everyrowOnly = false → ∀ x, A.mask w.v.bells s = .throw x → execS A imp (.rowMask s) w = .err w) := by
  refine ⟨fun h => ?_, fun h h' => ?_, fun h h' d hd hm => ?_, fun h h' x hx => ?_⟩
  · rw [execS, if_pos h]
  · rw [execS, if_neg h, if_pos h']
  · rw [execS, if_neg h, if_neg (by simp [h']), hd]
    exact ⟨_, defineLine_whole (w := { w with rmask := d }) hm, rfl, ⟨_, rfl⟩, define_same w.e.syms "__line__".toList _⟩
  · rw [execS, if_neg h, if_neg (by simp [h']), hx]
    rfl

/-! ### Blocks -/

/-- **C71**: the statements of a block are executed one after the other; the first that does not succeed ends the block. -/
theorem C71_block (a b : List Stmt) (w : World) :
    execAll A imp (a ++ b) w = (execAll A imp a w).bind fun _ w => execAll A imp b w := by
  induction a generalizing w with
  | nil => rfl
  | cons s a ih =>
    rw [List.cons_append, execAll, execAll]
    cases execS A imp s w with
    | ok u w1 => exact ih w1
    | _ => rfl

theorem execIf_false {pre alts : List (Expr × List Stmt)} {w w' : World} (h : AllFalse A pre w w') :
    execIf A imp (pre ++ alts) w = execIf A imp alts w' := by
  induction h with
  | nil => rfl
  | cons hc _ ih => rw [List.cons_append, execIf, hc]; exact ih

/-- **C71**: `if` executes the block of the first alternative whose condition is true, and no other; the conditions before it are evaluated, and
those behind it are not. -/
theorem C71_if_first {pre post : List (Expr × List Stmt)} {c : Expr} {b : List Stmt} {w w1 w2 : World} (h : AllFalse A pre w w1)
    (hc : boolConst A c w1 = .ok true w2) : execS A imp (.ifs (pre ++ (c, b) :: post)) w = execAll A imp b w2 := by
  rw [execS, execIf_false h, execIf, hc]
  rfl

/-- **C71**: if no condition is true, no block is executed. -/
theorem C71_if_none {alts : List (Expr × List Stmt)} {w w1 : World} (h : AllFalse A alts w w1) :
    execS A imp (.ifs alts) w = .ok () w1 ∧ OnlyContext w w1 := by
  constructor
  · have := execIf_false (imp := imp) (alts := []) h
    rw [List.append_nil] at this
    rw [execS, this, execIf]
  · induction h with
    | nil => exact onlyContext_refl _
    | cons hc _ ih => exact onlyContext_trans (inContext_ok hc) ih

/-- **C71**: a condition that cannot be evaluated fails the statement. -/
theorem C71_if_error {pre post : List (Expr × List Stmt)} {c : Expr} {b : List Stmt} {w w1 w2 : World} (h : AllFalse A pre w w1)
    (hc : boolConst A c w1 = .err w2) : execS A imp (.ifs (pre ++ (c, b) :: post)) w = .err w2 := by
  rw [execS, execIf_false h, execIf, hc]
  rfl

/-- **C71**: `foreach` evaluates the array once and then, for each of its elements in order, defines the name as the element and executes the
block. -/
theorem C71_foreach {x : Str} {a : Expr} {body : List Stmt} {l : List Expr} {w w1 : World} (h : inContext A w (fun c => c.arr a) = .ok l w1) :
    execS A imp (.foreach x a body) w = execAll A imp (l.flatMap fun v => .define x v :: body) w1 := by
  rw [execS, h]
  show forLoop x (execAll A imp body) l w1 = _
  clear h
  induction l generalizing w1 with
  | nil => rfl
  | cons v l ih =>
    rw [forLoop, List.flatMap_cons, List.cons_append, execAll, execS]
    show Ex.bind _ _ = execAll A imp (body ++ _) _
    rw [C71_block]
    cases execAll A imp body (w1.defineSym x v) with
    | ok u w2 => exact ih
    | _ => rfl

/-! ### Printing -/

theorem ordered_env {w : World} (h : Ordered w) : ∃ m, w.envC = .ok { w.v with mask := m } w ∧ ShowsRow { w.v with mask := m } := by
  have hw : WholeRow w.rmask := by
    have := h.mask
    have e1 : MusicDetails.newC ['*'] 1 1 = .ok ⟨⟨['*'], 0⟩, 0, 0, 1, 1, []⟩ := by decide
    unfold DefaultMask at this
    rw [e1] at this
    injection this with this
    rw [← this]; rfl
  obtain ⟨d, hd⟩ := whole_mask hw w.v.bells.toNat
  refine ⟨⟨[d], .node [] [0], w.v.bells.toNat⟩, ?_, ?_⟩
  · unfold World.envC; rw [hd]; rfl
  · unfold ShowsRow
    rw [h.mask, Out.ok_bind]
    exact hd

theorem ordered_start {w : World} (h : Ordered w) (m : Music) (s0 : St) : ∃ st, startC { w.v with mask := m } w.e s0 = .ok () st ∧ st.r = w.v.rounds ∧
    st.e = w.e ∧ st.p = Prover.make w.v.extents .null := by
  have hv := (isRow_iff_valid _).1 h.row
  have hb := h.bells
  have hm : Row.mulC (Row.roundsC w.v.bells.toNat) w.v.rounds = .ok w.v.rounds := by
    have hl : w.v.rounds.length ≤ 256 := h.row.1
    rw [← hb, Int.toNat_natCast, Row.roundsC_eq hl, Row.mulC_eq (Row.valid_rounds hl) hv, Row.rounds_mul (le_refl _)]
  unfold startC
  rw [if_neg (by dsimp only; omega)]
  dsimp only
  rw [hm]
  exact ⟨_, rfl, rfl, rfl, rfl⟩

theorem substP_filled (row : Row) (bt : Nat → Str) (dup : Str) : ∀ (t : Str) (a : Subst), '$' ∉ t →
    substP (row.flatMap bt) ['0'] dup t 0 a = { a with text := a.text ++ filledIn bt row t }
  | [], a, _ => by simp [substP, filledIn]
  | c :: cs, a, h => by
    have h' : '$' ∉ cs := fun h' => h (List.mem_cons_of_mem _ h')
    have hc : c ≠ '$' := by rintro rfl; exact h List.mem_cons_self
    rw [substP]
    by_cases h1 : c = '@'
    · rw [if_pos h1, substP_filled row bt dup cs _ h']
      simp [filledIn, h1]
    · rw [if_neg h1, if_neg hc]
      by_cases h2 : c = '#'
      · rw [if_pos h2, substP_filled row bt dup cs _ h']
        simp [filledIn, h2]
      · rw [if_neg h2, substP_filled row bt dup cs _ h']
        simp [filledIn, h1, h2]

/-- The value of a string. -/
theorem strNl_text {v : Env} (hl : v.nodeLimit = 0) (hm : ShowsRow v) (s : St) (hz : s.p.size = 0) (t : Str) (h1 : '\\' ∉ t) (h2 : '{' ∉ t) (h3 : '$' ∉ t)
    {n : Nat} (hn : 2 ≤ n) :
    (calls v n).strNl (.str t { interpolate := true }) s = .ok (filledIn v.bellText s.r t, false) s.ticked.ticked := by
  obtain ⟨n, rfl⟩ : ∃ k, n = k + 2 := ⟨n - 2, by omega⟩
  have h3' : evalStr v (calls v (n + 1)) t { interpolate := true } s.ticked =
      .ok (filledIn v.bellText s.r t, { toParent := false, suppressNl := false, abort := false }) s.ticked := by
    unfold evalStr
    rw [if_pos rfl]
    show M.bind _ _ _ = _
    unfold M.bind
    rw [subst_pure hm _ _ _ _ _ h1 h2]
    have e : decimal s.ticked.p.size = ['0'] := by
      have : s.ticked.p.size = 0 := hz
      rw [this]; decide
    rw [e, substP_filled _ _ _ _ _ h3]
    rfl
  show M.bind (tick v) _ s = _
  unfold M.bind
  rw [tick_ok hl]
  show M.bind (evalStr v (calls v (n + 1)) t { interpolate := true }) _ s.ticked = _
  unfold M.bind
  rw [h3']
  show M.bind (tick v) _ s.ticked = _
  unfold M.bind
  rw [tick_ok hl]
  rfl

/-- What the three statements that print do with a text. -/
def printed (m : EchoMode) (t : Str) (w : World) : World :=
  match m with
  | .echo => { w with e := { w.e with out := w.e.out ++ t } }
  | _ => { w with cerr := w.cerr ++ t }

/-- **C71**: `echo` prints the value of its expression and a line end, unless the value suppresses it; `warn` and `error` print it to the error
output; then `error` ends the program with code 1, or only fails the proof if the session is interactive. -/
theorem C71_echo (m : EchoMode) (x : Expr) (w : World) :
    (∀ t b w1, inContext A w (fun c => (if w.v.quiet < 2 ∨ m ≠ .echo then setSilent false else M.pure ()) >>= fun _ => c.strNl x) = .ok (t, b) w1 →
      execS A imp (.echo m x) w =
        (if m ≠ .error then .ok () (printed m (t ++ if b then [] else ['\n']) w1)
         else if w.interactive then .ok () { printed m (t ++ if b then [] else ['\n']) w1 with failed := true }
         else .exit 1 (printed m (t ++ if b then [] else ['\n']) w1))) ∧
    (∀ w1, inContext A w (fun c => (if w.v.quiet < 2 ∨ m ≠ .echo then setSilent false else M.pure ()) >>= fun _ => c.strNl x) = .err w1 →
      execS A imp (.echo m x) w = .err w1) := by
  constructor
  · intro t b w1 h
    obtain ⟨e, rfl⟩ := inContext_ok h
    rw [execS]
    unfold execEcho
    rw [h]
    cases m
    · rfl
    · rfl
    · cases hi : w.interactive <;> simp [Ex.bind, printed]
  · intro w1 h
    rw [execS]
    unfold execEcho
    rw [h]
    rfl

/-- **C71**: a text without backslashes, braces and dollars is printed as it is, with the starting row for `@` and 0 for `#`. -/
theorem C71_echo_text {w : World} (h : Ordered w) (t : Str) (h1 : '\\' ∉ t) (h2 : '{' ∉ t) (h3 : '$' ∉ t) (hb : 2 ≤ A.budget) :
    ∃ w', execS A imp (.echo .echo (.str t { interpolate := true })) w = .ok () w' ∧
      w'.e.out = w.e.out ++ filledIn w.v.bellText w.v.rounds t ++ ['\n'] ∧ w'.e.syms = w.e.syms ∧ OnlyContext w w' := by
  obtain ⟨m, he, hm⟩ := ordered_env h
  obtain ⟨st, h4, h5, h6, h7⟩ := ordered_start h m (noState w.e)
  have hin : ∃ w1, inContext A w (fun c => (if w.v.quiet < 2 ∨ EchoMode.echo ≠ .echo then setSilent false else M.pure ()) >>= fun _ =>
      c.strNl (.str t { interpolate := true })) = .ok (filledIn w.v.bellText w.v.rounds t, false) w1 ∧ w1.e.out = w.e.out ∧ w1.e.syms = w.e.syms := by
    unfold inContext
    rw [he]
    show ∃ w1, w.after (M.bind _ _ _) = _ ∧ _
    unfold M.bind
    rw [h4]
    show ∃ w1, w.after (M.bind _ _ _) = _ ∧ _
    obtain ⟨s', h8, h9, h10, h11⟩ : ∃ s', (if w.v.quiet < 2 ∨ EchoMode.echo ≠ .echo then setSilent false else M.pure ()) st = .ok () s' ∧
        s'.r = st.r ∧ s'.e = st.e ∧ s'.p = st.p := by
      split
      · exact ⟨_, rfl, rfl, rfl, rfl⟩
      · exact ⟨_, rfl, rfl, rfl, rfl⟩
    unfold M.bind
    rw [h8]
    dsimp only
    rw [strNl_text (v := { w.v with mask := m }) h.limit hm s' (by rw [h11, h7]; rfl) t h1 h2 h3 hb]
    refine ⟨{ w with e := s'.ticked.ticked.e }, by rw [h9, h5]; rfl, ?_, ?_⟩
    · show s'.e.out = _; rw [h10, h6]
    · show s'.e.syms = _; rw [h10, h6]
  obtain ⟨w1, h8, h9, h10⟩ := hin
  refine ⟨_, (C71_echo .echo _ w).1 _ _ _ h8, ?_, ?_, ?_⟩
  · show w1.e.out ++ _ = _
    rw [h9]; simp
  · exact h10
  · exact onlyContext_trans (inContext_ok h8) ⟨_, rfl⟩

/-! ### Proofs -/

/-- **C71**: with `-1` a second proof is refused. -/
theorem C71_prove_again (x : Expr) (w : World) (h1 : A.proveOne = true) (h2 : w.done = true) : execS A imp (.prove x) w = .err w := by
  rw [execS]; unfold execProve; rw [if_pos ⟨h1, h2⟩]

/-- **C71**: a proof that comes to the verdict `r` is counted, and a verdict other than true and broken fails the program; nothing but that and what
is printed and saved is changed by it.  `C57` and `C59` say what the verdict is. -/
theorem C71_prove {x : Expr} {w : World} {v : Env} {r : Verdict} {s : St} (h1 : ¬ (A.proveOne = true ∧ w.done = true)) (hd : A.determineBells = false)
    (hv : w.envC = .ok v w) (h : proveC v w.minLength A.budget x w.e (noState w.e) = .ok r s) :
    execS A imp (.prove x) w = .ok () { w with done := true, e := s.e, failed := w.failed || (decide (r ≠ .true) && decide (r ≠ .broken)) } := by
  rw [execS]
  unfold execProve
  rw [if_neg h1, hd]
  obtain ⟨-, m, hm, rfl⟩ := envC_ok hv
  have e1 : ({ w with done := true, e := { w.e with out := w.e.out ++ if false = true then decimalInt w.v.bells ++ " bells\n".toList else [] } } : World) =
      { w with done := true } := by simp
  have e2 : ({ w with done := true } : World).envC = .ok { w.v with mask := m } { w with done := true } := by
    unfold World.envC
    dsimp only
    rw [hm]
    rfl
  dsimp only at e1 ⊢
  rw [e1, e2]
  show Ex.bind (World.after { w with done := true } (proveC { w.v with mask := m } w.minLength A.budget x w.e (noState w.e))) _ = _
  rw [h]
  cases r <;> simp [World.after, Ex.bind, Verdict.fails]

/-- **C71**: a proof that throws (an unknown symbol, say) fails the statement, and counts as a proof. -/
theorem C71_prove_error {x : Expr} {w : World} {v : Env} {s : St} (h1 : ¬ (A.proveOne = true ∧ w.done = true)) (hd : A.determineBells = false)
    (hv : w.envC = .ok v w) (h : proveC v w.minLength A.budget x w.e (noState w.e) = .err s) :
    execS A imp (.prove x) w = .err { w with done := true, e := s.e } := by
  rw [execS]
  unfold execProve
  rw [if_neg h1, hd]
  obtain ⟨-, m, hm, rfl⟩ := envC_ok hv
  have e1 : ({ w with done := true, e := { w.e with out := w.e.out ++ if false = true then decimalInt w.v.bells ++ " bells\n".toList else [] } } : World) =
      { w with done := true } := by simp
  have e2 : ({ w with done := true } : World).envC = .ok { w.v with mask := m } { w with done := true } := by
    unfold World.envC
    dsimp only
    rw [hm]
    rfl
  dsimp only at e1 ⊢
  rw [e1, e2]
  show Ex.bind (World.after { w with done := true } (proveC { w.v with mask := m } w.minLength A.budget x w.e (noState w.e))) _ = _
  rw [h]
  rfl

/-! ### Music -/

theorem addMusic_ok {xs : List Expr} {w w' : World} (h : addMusic A xs w = .ok () w') :
    (∃ e m, w' = { w with e := e, v := { w.v with music := m } }) ∧ ∃ infos : List (List MusicDetails), infos.length = xs.length ∧
      w.v.music.appendC infos.flatten = .ok w'.v.music := by
  induction xs generalizing w with
  | nil => cases h; exact ⟨⟨_, _, rfl⟩, [], rfl, rfl⟩
  | cons x xs ih =>
    rw [addMusic] at h
    cases h1 : inContext A w (fun c => c.mus x) with
    | ok m w1 =>
      rw [h1] at h
      obtain ⟨e, rfl⟩ := inContext_ok h1
      cases h2 : w.v.music.appendC m.info with
      | ok m2 =>
        have h : (Ex.lift _ (w.v.music.appendC m.info)).bind _ = _ := h
        rw [h2] at h
        obtain ⟨⟨e', m', h3⟩, infos, h4, h5⟩ := ih h
        refine ⟨⟨e', m', h3⟩, m.info :: infos, by simp [h4], ?_⟩
        unfold Music.appendC at h2 h5 ⊢
        rw [List.flatten_cons, List.foldlM_append, h2]
        exact h5
      | _ =>
        have h : (Ex.lift _ (w.v.music.appendC m.info)).bind _ = _ := h
        rw [h2] at h; cases h
    | _ => rw [h1] at h; cases h

/-- **C71**: `music` replaces the music by the patterns of its expressions, one list for each of them, in order, and changes nothing else but what
their evaluation does. -/
theorem C71_music {xs : List Expr} {w w' : World} (h : execS A imp (.music xs) w = .ok () w') :
    (∃ e m, w' = { w with e := e, v := { w.v with music := m } }) ∧ ∃ infos : List (List MusicDetails), infos.length = xs.length ∧
      (w.v.music.clear w.v.bells.toNat).appendC infos.flatten = .ok w'.v.music := by
  rw [execS] at h
  obtain ⟨⟨e, m, h1⟩, h2⟩ := addMusic_ok h
  exact ⟨⟨e, m, h1⟩, h2⟩

/-- **C71**: the patterns of one expression. -/
theorem C71_music_one {x : Expr} {w w1 : World} {m m' : Music}
    (h : inContext A { w with v := { w.v with music := w.v.music.clear w.v.bells.toNat } } (fun c => c.mus x) = .ok m w1)
    (h' : (w.v.music.clear w.v.bells.toNat).appendC m.info = .ok m') :
    execS A imp (.music [x]) w = .ok () { w1 with v := { w.v with music := m' } } := by
  obtain ⟨e, rfl⟩ := inContext_ok h
  rw [execS, addMusic, h]
  show (Ex.lift _ ((w.v.music.clear w.v.bells.toNat).appendC m.info)).bind _ = _
  rw [h']
  rfl

/-! ### Modules -/

theorem defineSym_first (w : World) (x : Expr) : (w.defineSym firstName x).e.syms firstName = some x :=
  (defined_defineFirst w.e.syms firstName x).here

theorem defineLine_keeps {w0 w' : World} (h : defineLine w0 = .ok () w') : w'.v = w0.v ∧ w'.interactive = w0.interactive := by
  unfold defineLine at h
  cases h1 : Music.newWithC w0.v.bells.toNat w0.rmask with
  | ok m =>
    rw [h1] at h
    have h : (Ex.lift w0 (m.processC (readBell w0.v (Row.roundsC w0.v.bells.toNat)) (Row.roundsC w0.v.bells.toNat) false)).bind _ = _ := h
    cases h2 : m.processC (readBell w0.v (Row.roundsC w0.v.bells.toNat)) (Row.roundsC w0.v.bells.toNat) false with
    | ok q =>
      obtain ⟨m', hit⟩ := q
      rw [h2] at h
      dsimp only [Ex.lift, Ex.bind] at h
      generalize (if hit = true then (match m'.info with | [] => .ub | d :: _ => .ok d.wilds.length) else .ok w0.v.bells.toNat : Out Nat) = o2 at h
      cases o2 with
      | ok k => cases h; exact ⟨rfl, rfl⟩
      | _ => cases h
    | _ => rw [h2] at h; cases h
  | _ => rw [h1] at h; cases h

theorem setBells_bells {b : Int} {w w' : World} (h : setBells b w = .ok () w') : w'.v.bells = b ∧ w'.interactive = w.interactive := by
  unfold setBells at h
  dsimp only at h
  generalize (if b > w.v.rounds.length then Row.mulC w.v.rounds (Row.roundsC b.toNat)
    else if b < w.v.rounds.length then .ok (Row.roundsC b.toNat) else .ok w.v.rounds : Out Row) = o at h
  cases o with
  | ok r =>
    have h : defineLine _ = .ok () w' := h
    obtain ⟨h1, h2⟩ := defineLine_keeps h
    exact ⟨by rw [h1], h2⟩
  | _ => cases h

theorem restore_ok {b : Int} {i : Bool} {f : Option Expr} {w w' : World} (h : restore b i f w = .ok () w') :
    (0 < b → w'.v.bells = b) ∧ (¬ 0 < b → w'.v = w.v) ∧ w'.interactive = i ∧ w'.e.syms firstName = f := by
  have fin : ∀ w1 : World, (w1.resume i f).v = w1.v ∧ (w1.resume i f).interactive = i ∧ (w1.resume i f).e.syms firstName = f := by
    intro w1
    cases f with
    | none => exact ⟨rfl, rfl, undefine_same w1.e.syms firstName⟩
    | some x => exact ⟨rfl, rfl, defineSym_first { w1 with interactive := i } x⟩
  unfold restore at h
  by_cases hb : b > 0
  · rw [if_pos hb] at h
    cases hs : setBells b w with
    | ok u w1 =>
      rw [hs] at h
      cases h
      obtain ⟨h1, h2, h3⟩ := fin w1
      exact ⟨fun _ => by rw [h1]; exact (setBells_bells hs).1, fun h => absurd hb h, h2, h3⟩
    | _ => rw [hs] at h; cases h
  · rw [if_neg hb] at h
    cases h
    obtain ⟨h1, h2, h3⟩ := fin w
    exact ⟨fun h => absurd h hb, fun _ => h1, h2, h3⟩

/-- **C71**: whether a module was imported or not, behind it the number of bells (if it was set before), whether the session is interactive, and the
first definition are what they were. -/
theorem C71_import {d : Nat} {name : Str} {w w' : World} (h : importC A d name w = .ok () w' ∨ importC A d name w = .err w' ∨
      importC A d name w = .escape w') :
    (0 < w.v.bells → w'.v.bells = w.v.bells) ∧ w'.interactive = w.interactive ∧ w'.e.syms first = w.e.syms first := by
  cases d with
  | zero => simp [importC] at h
  | succ d =>
    rw [importC] at h
    generalize importText A (importC A d) name w = body at h
    have fin : ∀ {w1 : World}, restore w.v.bells w.interactive (w.e.syms firstName) w1 = .ok () w' →
        (0 < w.v.bells → w'.v.bells = w.v.bells) ∧ w'.interactive = w.interactive ∧ w'.e.syms first = w.e.syms first := by
      intro w1 h
      obtain ⟨h1, -, h2, h3⟩ := restore_ok h
      exact ⟨h1, h2, h3⟩
    have nb : ∀ w1, restore w.v.bells w.interactive (w.e.syms firstName) w1 ≠ .err w' ∧
        restore w.v.bells w.interactive (w.e.syms firstName) w1 ≠ .escape w' := by
      intro w1
      unfold restore
      split
      · cases setBells w.v.bells w1 <;> exact ⟨by simp [Ex.bind], by simp [Ex.bind]⟩
      · exact ⟨by simp [Ex.bind], by simp [Ex.bind]⟩
    cases body with
    | ok u w1 =>
      unfold importEnd at h
      rcases h with h | h | h
      · exact fin h
      · exact absurd h (nb w1).1
      · exact absurd h (nb w1).2
    | err w1 =>
      unfold importEnd at h
      cases hr : restore w.v.bells w.interactive (w.e.syms firstName) w1 with
      | ok u w2 =>
        simp only [hr, Ex.bind] at h
        rcases h with h | h | h <;> cases h
        exact fin hr
      | _ => simp only [hr, Ex.bind] at h; rcases h with h | h | h <;> first | exact absurd (hr.trans h) (nb w1).1 | exact absurd (hr.trans h) (nb w1).2 | cases h
    | escape w1 =>
      unfold importEnd at h
      cases hr : restore w.v.bells w.interactive (w.e.syms firstName) w1 with
      | ok u w2 =>
        simp only [hr, Ex.bind] at h
        rcases h with h | h | h <;> cases h
        exact fin hr
      | _ => simp only [hr, Ex.bind] at h; rcases h with h | h | h <;> first | exact absurd (hr.trans h) (nb w1).1 | exact absurd (hr.trans h) (nb w1).2 | cases h
    | _ => unfold importEnd at h; rcases h with h | h | h <;> cases h

/-! ### Examples -/

/-- Programs with the literals of `C73` and two modules, the second with an error. -/
def exArgs : RArgs where
  proveSymbol := "__first__".toList
  lits := literals
  mask := maskLit
  files := fun s =>
    if s = "five".toList then some "5 bells; b = &3; echo \"@\"".toList else if s = "wrong".toList then some "5 bells; 99 bells".toList else none
  budget := 60

/-- The beginning, with the standard definitions. -/
def exWorld : World := { v := { bells := 0, extents := 1, rounds := [] }, e := ⟨initTable, 0, []⟩, rmask := ⟨⟨['*'], 0⟩, 0, 0, 1, 1, []⟩ }

/-- The program ends with this code and prints this text. -/
def exEnds (x : Ex Nat) (c : Nat) (out : String) : Bool :=
  match x with
  | .ok c' w => decide (c' = c) && decide (w.e.out = out.toList)
  | _ => false

/-- A program. -/
def exMain (s : String) : Ex Nat := mainC exArgs 3 50 (some s.toList) exWorld

/-- After `4 bells` and `rounds r`. -/
def exFour (r : Row) : World := { exWorld with v := { exWorld.v with bells := 4, rounds := r } }

theorem exRow : IsRow [1, 0, 3, 2] ∧ IsRow [0, 1, 2, 3] := by
  constructor <;>
  · refine ⟨by decide, ?_⟩
    intro b hb
    have : b < 4 := hb
    have : b = 0 ∨ b = 1 ∨ b = 2 ∨ b = 3 := by omega
    rcases this with rfl | rfl | rfl | rfl <;> decide

/-- `C71_define`, `C71_default`, `C71_immediate`: a symbol can be defined once by `?=`, and `:=` takes the value at the time. -/
example : exEnds (exMain "4 bells; n = 1; n ?= 2; m ?= n; k := n; n = 3; echo \"${n} ${m} ${k}\"; prove &x, &x")
    0 "3 3 1\n2 rows ending in 1234\nTouch is true\n" = true := by decide +kernel

/-- `C71_bells`: with four bells in the order 2143, there can be five, and three with a warning, but not one or 34. -/
example : (∃ w', execS A imp (.bells 5) (exFour [1, 0, 3, 2]) = .ok () w' ∧ w'.v.rounds = [1, 0, 3, 2, 4] ∧ w'.e.out = []) ∧
    (∃ w', execS A imp (.bells 3) (exFour [1, 0, 3, 2]) = .ok () w' ∧ w'.v.rounds = [0, 1, 2] ∧ w'.e.out = "Warning: Rounds reset".toList) ∧
    execS A imp (.bells 1) (exFour []) = .err (exFour []) ∧ execS A imp (.bells 34) (exFour []) = .err (exFour []) := by
  refine ⟨?_, ?_, (C71_bells 1 _).1 (by omega), (C71_bells 34 _).1 (by omega)⟩
  · obtain ⟨w', h, h1, -, -, h2, -⟩ := (C71_bells (A := A) (imp := imp) 5 (exFour [1, 0, 3, 2])).2 (by omega) rfl exRow.1
    exact ⟨w', h, by rw [h1]; rfl, by rw [h2]; rfl⟩
  · obtain ⟨w', h, h1, -, -, h2, -⟩ := (C71_bells (A := A) (imp := imp) 3 (exFour [1, 0, 3, 2])).2 (by omega) rfl exRow.1
    exact ⟨w', h, by rw [h1]; rfl, by rw [h2]; decide⟩

/-- `C71_bells_mask_finding` and `C71_blocked`: the row mask `1234` does not fit to three bells. -/
example : (∃ w', execS A imp (.bells 3) { exFour [0, 1, 2, 3] with rmask := ⟨⟨['1', '2', '3', '4'], 0⟩, 0, 0, 1, 1, []⟩ } = .err w' ∧ w'.v.bells = 3) ∧
    ∃ x, Music.newWithC 3 ⟨⟨['1', '2', '3', '4'], 0⟩, 0, 0, 1, 1, []⟩ = .throw x := by
  have h : ∃ x, Music.newWithC 3 ⟨⟨['1', '2', '3', '4'], 0⟩, 0, 0, 1, 1, []⟩ = .throw x := ⟨.invalidArgument, rfl⟩
  exact ⟨C71_bells_mask_finding (by omega) exRow.2 h.choose_spec, h⟩

/-- `C71_rows`, `C71_row_mask`, `C71_music` and `C71_prove`. -/
example : exEnds (exMain "4 bells\nrow_mask /*/\n2 rows\nmusic /*4/, /4321/\nprove &x, &x\necho \"${min_length} ${max_length} ${__line__}\"")
    0 "2 rows ending in 1234\nTouch is true\nMusic score: 1\n2 2 ----\n" = true ∧
    exEnds (exMain "4 bells; prove &x, &14") 1 "2 rows ending in 2413\nIs this OK?\n" = true := by decide +kernel

/-- `C71_if_first` and `C71_foreach`. -/
example : exEnds (exMain ("4 bells\nforeach [1,2,3] as i\nif i == 2\necho \"two ${i}\"; elseif i == 3\necho \"three\"\n" ++
      "else\necho \"other\"; endif\nendfor\nprove &x,&x"))
    0 "other\ntwo 2\nthree\n2 rows ending in 1234\nTouch is true\n" = true := by decide +kernel

/-- `C71_echo_text` has hypotheses that are met. -/
example : Ordered (exFour [0, 1, 2, 3]) := ⟨rfl, exRow.2, rfl, by unfold DefaultMask; decide⟩

/-- `C71_import`: the number of bells is restored, but the starting row is not; and a module with an error ends the program. -/
example : exEnds (exMain "4 bells\nrounds '2143'\nimport five; echo \" @\"")
    0 "21435\nWarning: Rounds reset 1234\n" = true ∧
    exEnds (exMain "4 bells\nimport wrong; echo \"@\"") 2 "" = true := by decide +kernel

end Ringing.Siril
