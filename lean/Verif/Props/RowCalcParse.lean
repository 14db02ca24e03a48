import Verif.Lemmas.RowCalcParse
import Verif.Props.RowCalc
/-!
# C92: reading row expressions (apps/utils/row_calc.cpp)
-/
namespace Ringing
namespace RowCalc

variable {mk : List Char → Option Row}

theorem not_enclosed {i : Item} {ta tb : List Tok} {t : Tok} (h : Shape i ta) (k : Br) : enclosedC k (ta ++ t :: tb) = .ok false := by
  obtain ⟨x, ta', rfl⟩ := List.exists_cons_of_ne_nil h.ne
  rw [List.cons_append, enclosedC]
  split
  · rename_i hx
    subst hx
    obtain ⟨r, h1, h2⟩ := h.close k ta' rfl
    rw [scan_append h1]
    simp only [List.length_append, List.length_cons]
    rw [if_neg (by omega)]
    simp
  · rfl

theorem is_enclosed {i : Item} {ts : List Tok} (h : Shape i ts) (k : Br) : enclosedC k (.opn k :: (ts ++ [.cls k])) = .ok true := by
  have h1 : scanC k 1 (ts ++ [.cls k]) = some [] := by
    rw [scan_stay (h.stay _ 1 le_rfl), h.zero]
    simp [scanC, wt]
  have := List.length_pos_iff.2 h.ne
  rw [enclosedC, if_pos rfl, h1]
  simp only [List.length_append, List.length_cons, List.length_nil]
  rw [if_neg (by omega)]; rfl

theorem other_enclosed {k j : Br} {ts : List Tok} (h : k ≠ j) : enclosedC j (.opn k :: ts) = .ok false := by
  rw [enclosedC, if_neg (by simpa using h)]

theorem single_enclosed {t : Tok} (k : Br) (ht : ∀ k, wt k t = 0) : enclosedC k [t] = .ok false := by
  rw [enclosedC, if_neg]
  rintro rfl
  have := ht (some k)
  simp [wt] at this

theorem check_ok {a b : List Tok} (ha : a ≠ []) (hb : b ≠ []) : checkC a b = .ok () := by
  rw [checkC, if_neg (by tauto)]

/-- A bracketed expression. -/
theorem parse_paren {ts : List Tok} {i : Item} (h : Shape i ts) (fuel : Nat) :
    parseE mk (fuel + 1) (.opn .paren :: (ts ++ [.cls .paren])) = parseE mk fuel ts := by
  rw [parseE, if_neg (by simp), is_enclosed h, Out.ok_bind, if_pos rfl, List.tail_cons, List.dropLast_concat]

theorem parse_set {ts : List Tok} {i : Item} (h : Shape i ts) (fuel : Nat) :
    parseE mk (fuel + 1) (.opn .brace :: (ts ++ [.cls .brace])) = parseSet mk fuel ts >>= fun es => .ok (.set es) := by
  rw [parseE, if_neg (by simp), other_enclosed (by decide), Out.ok_bind, if_neg (by decide), is_enclosed h, Out.ok_bind, if_pos rfl, List.tail_cons, List.dropLast_concat]

theorem parse_group {ts : List Tok} {i : Item} (h : Shape i ts) (fuel : Nat) :
    parseE mk (fuel + 1) (.opn .angle :: (ts ++ [.cls .angle])) = parseSet mk fuel ts >>= fun es => .ok (.group es) := by
  rw [parseE, if_neg (by simp), other_enclosed (by decide), Out.ok_bind, if_neg (by decide), other_enclosed (by decide), Out.ok_bind, if_neg (by decide),
    is_enclosed h, Out.ok_bind, if_pos rfl, List.tail_cons, List.dropLast_concat]

/-- The search for the operators, once the whole is not in brackets. -/
theorem parse_open {ts : List Tok} (h0 : ts ≠ []) (h : ∀ k, enclosedC k ts = .ok false) (fuel : Nat) :
    parseE mk (fuel + 1) ts = findLastC (fun t => t == .minus) ts >>= fun
      | some x => checkC x.1 x.2.2 >>= fun _ => parseE mk fuel x.1 >>= fun a => parseE mk fuel x.2.2 >>= fun b => .ok (.diff a b)
      | none => findLastC isOp ts >>= fun
        | some x => checkC x.1 x.2.2 >>= fun _ => parseE mk fuel x.1 >>= fun a => parseE mk fuel x.2.2 >>= fun b =>
          match x.2.1 with
          | .op o => .ok (.mult o a b)
          | _ => .throw .runtimeError
        | none => findC (fun t => t == .power) 0 ts >>= fun
          | some x => checkC x.1 x.2.2 >>= fun _ => parseE mk fuel x.1 >>= fun a => parseRI mk fuel x.2.2 >>= fun b => .ok (.exp a b)
          | none => leafC mk ts := by
  rw [parseE, if_neg h0, h, Out.ok_bind, if_neg (by decide), h, Out.ok_bind, if_neg (by decide), h, Out.ok_bind, if_neg (by decide)]
  rfl

theorem Shape.clearOf {i : Item} {ts : List Tok} {p : Tok → Bool} (h : Shape i ts) (hp : ∀ t, p t = true → forbid i t = true) : Clear p 0 ts :=
  clear_mono hp h.clear

theorem parse_single {t : Tok} (ht : ∀ k, wt k t = 0) (h1 : t ≠ .minus) (h2 : isOp t = false) (h3 : t ≠ .power) (fuel : Nat) :
    parseE mk (fuel + 1) [t] = leafC mk [t] := by
  have hd : dep none [t] = 0 := by simp [ht]
  rw [parse_open (by simp) (fun k => single_enclosed k ht)]
  rw [findLast_none (p := fun t => t == .minus) (a := [t]) ⟨fun _ _ => by simpa using h1, trivial⟩ hd, Out.ok_bind]
  simp only
  rw [findLast_none (p := isOp) (a := [t]) ⟨fun _ _ => h2, trivial⟩ hd, Out.ok_bind]
  simp only
  rw [find_none (p := fun t => t == .power) (a := [t]) ⟨fun _ _ => by simpa using h3, trivial⟩ hd, Out.ok_bind]

/-- What is read for an item. -/
def Reads (mk : List Char → Option Row) (fuel : Nat) (ts : List Tok) : Item → Prop
  | .diff e | .mult e | .power e | .prim e => parseE mk fuel ts = .ok e
  | .expo e => parseRI mk fuel ts = .ok e
  | .list es => parseSet mk fuel ts = .ok es

theorem reads {i : Item} {ts : List Tok} (h : Spells mk i ts) : ∃ N, ∀ fuel, N ≤ fuel → Reads mk fuel ts i := by
  induction h with
  | diffUp _ ih => exact ih
  | multUp _ ih => exact ih
  | powerUp _ ih => exact ih
  | @diff a b ta tb ha hb iha ihb =>
    obtain ⟨N1, h1⟩ := iha
    obtain ⟨N2, h2⟩ := ihb
    refine ⟨N1 + N2 + 1, fun fuel hf => ?_⟩
    obtain ⟨f, rfl⟩ : ∃ f, fuel = f + 1 := ⟨fuel - 1, by omega⟩
    have sa := shape ha
    have sb := shape hb
    have e1 : parseE mk f ta = .ok a := h1 f (by omega)
    have e2 : parseE mk f tb = .ok b := h2 f (by omega)
    rw [Reads, parse_open (by simp) (not_enclosed sa),
      findLast_some (p := fun t => t == .minus) (sb.clearOf (by intro t; simp only [forbid, Bool.or_eq_true]; tauto)) (sb.zero none) rfl (by rfl), Out.ok_bind]
    simp only
    rw [check_ok sa.ne sb.ne, Out.ok_bind, e1, Out.ok_bind, e2, Out.ok_bind]
  | @mult a b ta tb o ha hb iha ihb =>
    obtain ⟨N1, h1⟩ := iha
    obtain ⟨N2, h2⟩ := ihb
    refine ⟨N1 + N2 + 1, fun fuel hf => ?_⟩
    obtain ⟨f, rfl⟩ : ∃ f, fuel = f + 1 := ⟨fuel - 1, by omega⟩
    have sa := shape ha
    have sb := shape hb
    have sc := shape (Spells.mult o ha hb)
    have e1 : parseE mk f ta = .ok a := h1 f (by omega)
    have e2 : parseE mk f tb = .ok b := h2 f (by omega)
    rw [Reads, parse_open (by simp) (not_enclosed sa),
      findLast_none (p := fun t => t == .minus) (sc.clearOf (by intro t; simp only [forbid, Bool.or_eq_true]; tauto)) (sc.zero none), Out.ok_bind]
    simp only
    rw [findLast_some (p := isOp) (sb.clearOf (by intro t; simp only [forbid, Bool.or_eq_true]; tauto)) (sb.zero none) rfl (by rfl), Out.ok_bind]
    simp only
    rw [check_ok sa.ne sb.ne, Out.ok_bind, e1, Out.ok_bind, e2, Out.ok_bind]
  | @power a b ta tb ha hb iha ihb =>
    obtain ⟨N1, h1⟩ := iha
    obtain ⟨N2, h2⟩ := ihb
    refine ⟨N1 + N2 + 1, fun fuel hf => ?_⟩
    obtain ⟨f, rfl⟩ : ∃ f, fuel = f + 1 := ⟨fuel - 1, by omega⟩
    have sa := shape ha
    have sb := shape hb
    have sc := shape (Spells.power ha hb)
    have e1 : parseE mk f ta = .ok a := h1 f (by omega)
    have e2 : parseRI mk f tb = .ok b := h2 f (by omega)
    rw [Reads, parse_open (by simp) (not_enclosed sa),
      findLast_none (p := fun t => t == .minus) (sc.clearOf (by intro t; simp only [forbid, Bool.or_eq_true]; tauto)) (sc.zero none), Out.ok_bind]
    simp only
    rw [findLast_none (p := isOp) (sc.clearOf (by intro t; simp only [forbid, Bool.or_eq_true]; tauto)) (sc.zero none), Out.ok_bind]
    simp only
    rw [find_some (p := fun t => t == .power) (sa.clearOf (by intro t; simp only [forbid, Bool.or_eq_true]; tauto)) (sa.zero none) rfl (by rfl), Out.ok_bind]
    simp only
    rw [check_ok sa.ne sb.ne, Out.ok_bind, e1, Out.ok_bind, e2, Out.ok_bind]
  | @int s hs =>
    refine ⟨1, fun fuel hf => ?_⟩
    obtain ⟨f, rfl⟩ : ∃ f, fuel = f + 1 := ⟨fuel - 1, by omega⟩
    rw [Reads, parseRI]
    by_cases h1 : s.length = 1
    · rw [if_pos h1]; rfl
    · rw [if_neg h1, hs.resolve_left h1]; rfl
  | plus =>
    refine ⟨1, fun fuel hf => ?_⟩
    obtain ⟨f, rfl⟩ : ∃ f, fuel = f + 1 := ⟨fuel - 1, by omega⟩
    rw [Reads, parseRI]; rfl
  | @expo e ts he hs ih =>
    obtain ⟨N, hN⟩ := ih
    refine ⟨N + 2, fun fuel hf => ?_⟩
    obtain ⟨f, rfl⟩ : ∃ f, fuel = f + 1 := ⟨fuel - 1, by omega⟩
    have s := shape he
    have e1 : parseE mk f ts = .ok e := hN f (by omega)
    rw [Reads]
    obtain ⟨t, ts', rfl⟩ := List.exists_cons_of_ne_nil s.ne
    have hp : t ≠ .plus := by simpa using s.head rfl
    have hm : t ≠ .minus := by
      rintro rfl
      have := s.clear.1 rfl rfl
      simp [forbid] at this
    by_cases hn : ∃ x, t :: ts' = [.num x]
    · obtain ⟨x, hx⟩ := hn
      have hl := hs x hx
      rw [hx] at e1 ⊢
      obtain ⟨f', rfl⟩ : ∃ f', f = f' + 1 := ⟨f - 1, by omega⟩
      rw [parse_single (fun k => by cases k <;> rfl) (by simp) rfl (by simp)] at e1
      rw [parseRI, if_neg hl]
      simp only [leafC] at e1
      cases hr : mk x with
      | none => rw [hr] at e1; cases e1
      | some r => rw [hr] at e1; exact e1
    · rw [parseRI]
      · exact e1
      · intro h; cases h
      · intro ts2 h; rw [List.cons.injEq] at h; exact hm h.1
      · intro ts2 h; rw [List.cons.injEq] at h; exact hp h.1
      · intro x h; exact hn ⟨x, h⟩
  | @num s r hr =>
    refine ⟨1, fun fuel hf => ?_⟩
    obtain ⟨f, rfl⟩ : ∃ f, fuel = f + 1 := ⟨fuel - 1, by omega⟩
    rw [Reads, parse_single (fun k => by cases k <;> rfl) (by simp) rfl (by simp)]
    simp only [leafC, hr]
  | @lit s r hr =>
    refine ⟨1, fun fuel hf => ?_⟩
    obtain ⟨f, rfl⟩ : ∃ f, fuel = f + 1 := ⟨fuel - 1, by omega⟩
    rw [Reads, parse_single (fun k => by cases k <;> rfl) (by simp) rfl (by simp)]
    simp only [leafC, hr]
  | exec =>
    refine ⟨1, fun fuel hf => ?_⟩
    obtain ⟨f, rfl⟩ : ∃ f, fuel = f + 1 := ⟨fuel - 1, by omega⟩
    rw [Reads, parse_single (fun k => by cases k <;> rfl) (by simp) rfl (by simp)]; rfl
  | read =>
    refine ⟨1, fun fuel hf => ?_⟩
    obtain ⟨f, rfl⟩ : ∃ f, fuel = f + 1 := ⟨fuel - 1, by omega⟩
    rw [Reads, parse_single (fun k => by cases k <;> rfl) (by simp) rfl (by simp)]; rfl
  | @paren e ts h ih =>
    obtain ⟨N, hN⟩ := ih
    refine ⟨N + 1, fun fuel hf => ?_⟩
    obtain ⟨f, rfl⟩ : ∃ f, fuel = f + 1 := ⟨fuel - 1, by omega⟩
    have e1 : parseE mk f ts = .ok e := hN f (by omega)
    rw [Reads, parse_paren (shape h), e1]
  | @set es ts h ih =>
    obtain ⟨N, hN⟩ := ih
    refine ⟨N + 1, fun fuel hf => ?_⟩
    obtain ⟨f, rfl⟩ : ∃ f, fuel = f + 1 := ⟨fuel - 1, by omega⟩
    have e1 : parseSet mk f ts = .ok es := hN f (by omega)
    rw [Reads, parse_set (shape h), e1, Out.ok_bind]
  | @group es ts h ih =>
    obtain ⟨N, hN⟩ := ih
    refine ⟨N + 1, fun fuel hf => ?_⟩
    obtain ⟨f, rfl⟩ : ∃ f, fuel = f + 1 := ⟨fuel - 1, by omega⟩
    have e1 : parseSet mk f ts = .ok es := hN f (by omega)
    rw [Reads, parse_group (shape h), e1, Out.ok_bind]
  | @one e ts h ih =>
    obtain ⟨N, hN⟩ := ih
    refine ⟨N + 1, fun fuel hf => ?_⟩
    obtain ⟨f, rfl⟩ : ∃ f, fuel = f + 1 := ⟨fuel - 1, by omega⟩
    have s := shape h
    have e1 : parseE mk f ts = .ok e := hN f (by omega)
    rw [Reads, parseSet, find_none (p := fun t => t == .comma) (s.clearOf (by intro t; exact id)) (s.zero none), Out.ok_bind]
    simp only
    rw [e1, Out.ok_bind]
  | @more e es ts tl h hl ih ihl =>
    obtain ⟨N1, h1⟩ := ih
    obtain ⟨N2, h2⟩ := ihl
    refine ⟨N1 + N2 + 1, fun fuel hf => ?_⟩
    obtain ⟨f, rfl⟩ : ∃ f, fuel = f + 1 := ⟨fuel - 1, by omega⟩
    have s := shape h
    have e1 : parseE mk f ts = .ok e := h1 f (by omega)
    have e2 : parseSet mk f tl = .ok es := h2 f (by omega)
    rw [Reads, parseSet, find_some (p := fun t => t == .comma) (s.clearOf (by intro t; exact id)) (s.zero none) rfl (by rfl), Out.ok_bind]
    simp only
    rw [check_ok s.ne (shape hl).ne, Out.ok_bind, e2, Out.ok_bind, e1, Out.ok_bind]

/-- The tokens of an expression are read as that expression, with the precedences of the grammar. -/
theorem C92_reads {e : T} {ts : List Tok} (h : Spells mk (.diff e) ts) : ∃ N, ∀ fuel, N ≤ fuel → parseE mk fuel ts = .ok e := reads h

/-- So the grammar is unambiguous. -/
theorem C92_unambiguous {e e' : T} {ts : List Tok} (h : Spells mk (.diff e) ts) (h' : Spells mk (.diff e') ts) : e = e' := by
  obtain ⟨N, hN⟩ := C92_reads h
  obtain ⟨N', hN'⟩ := C92_reads h'
  have h1 := hN (N + N') (by omega)
  rw [hN' (N + N') (by omega)] at h1
  cases h1; rfl

/-- From the tokens to the rows: those of the expression that is written (see C91), if it is one for which none are lost. -/
theorem C92_evaluates {run : List Char → List Row} {e : T} {ts : List Tok} (h : Spells mk (.diff e) ts) (hs : Safe (toE run e)) :
    ∃ N, ∀ fuel, N ≤ fuel → evalC mk run fuel ts = .ok (den (toE run e)) := by
  obtain ⟨N, hN⟩ := C92_reads h
  obtain ⟨M, hM⟩ := C91_rows hs
  refine ⟨N + M, fun fuel hf => ?_⟩
  rw [evalC, hN fuel (by omega), Out.ok_bind, hM fuel (by omega)]

/-! ### Negative powers -/

mutual
/-- No integer of the tree is negative. -/
def NoNeg : T → Prop
  | .row _ | .exec _ | .read _ => True
  | .int neg _ => neg = false
  | .set es | .group es => NoNegs es
  | .mult _ a b | .exp a b | .diff a b => NoNeg a ∧ NoNeg b
def NoNegs : Ts → Prop
  | .nil => True
  | .cons e es => NoNeg e ∧ NoNegs es
end

theorem out_bind {α β : Type} {x : Out α} {f : α → Out β} {b : β} (h : (x >>= f) = .ok b) : ∃ a, x = .ok a ∧ f a = .ok b := by
  cases x with
  | ok a => exact ⟨a, rfl, h⟩
  | throw e => cases h
  | ub => cases h
  | timeout => cases h

theorem find_inv {p : Tok → Bool} : ∀ {ts : List Tok} {d : Int} {r}, findC p d ts = .ok r →
    (r = none → Clear p d ts ∧ d + dep none ts = 0) ∧
    ∀ a t b, r = some (a, t, b) → ts = a ++ t :: b ∧ d + dep none a = 0 ∧ wt none t = 0 ∧ p t = true
  | [], d, r, h => by
    rw [findC] at h
    split at h
    · cases h
      exact ⟨fun _ => ⟨trivial, by simpa using by assumption⟩, fun _ _ _ h => by cases h⟩
    · cases h
  | t :: ts, d, r, h => by
    rw [findC] at h
    split at h
    · rename_i h0
      cases h
      refine ⟨fun h => (nomatch h), ?_⟩
      intro a u b hu
      cases hu
      exact ⟨rfl, by simpa using h0.2.1, h0.1, h0.2.2⟩
    · rename_i h0
      obtain ⟨q, h1, h2⟩ := out_bind h
      obtain ⟨i1, i2⟩ := find_inv h1
      cases h2
      refine ⟨fun hn => ?_, ?_⟩
      · obtain ⟨c, e⟩ := i1 (by simpa using hn)
        refine ⟨⟨fun x y => ?_, c⟩, by rw [dep_cons, ← add_assoc]; exact e⟩
        cases hp : p t
        · rfl
        · exact absurd ⟨x, y, hp⟩ h0
      · intro a u b hu
        cases q with
        | none => cases hu
        | some q =>
          obtain ⟨qa, qt, qb⟩ := q
          simp only [Option.map_some, Option.some.injEq, Prod.mk.injEq] at hu
          obtain ⟨rfl, rfl, rfl⟩ := hu
          obtain ⟨e1, e2, e3, e4⟩ := i2 _ _ _ rfl
          exact ⟨by rw [e1]; rfl, by rw [dep_cons, ← add_assoc]; exact e2, e3, e4⟩

/-- Where no `-` is found from the end, none is at depth zero from the front. -/
theorem no_minus {p : Tok → Bool} {ts : List Tok} (h : findLastC p ts = .ok none) : Clear p 0 ts := by
  rw [findLastC] at h
  obtain ⟨q, h1, h2⟩ := out_bind h
  have hq : q = none := by cases q with
    | none => rfl
    | some q => cases h2
  obtain ⟨c, e⟩ := (find_inv h1).1 hq
  have := clear_rev c
  rwa [e, List.reverse_reverse, neg_zero] at this

theorem parseInt_inv {neg : Bool} {ts : List Tok} {e : T} (h : parseInt neg ts = .ok e) : ∃ s, e = .int neg s := by
  unfold parseInt at h
  split at h
  · cases h; exact ⟨_, rfl⟩
  · cases h

theorem leaf_inv {ts : List Tok} {e : T} (h : leafC mk ts = .ok e) : NoNeg e := by
  unfold leafC at h
  split at h
  · split at h
    · cases h; trivial
    · cases h
  · split at h
    · cases h; trivial
    · cases h
  · cases h; trivial
  · cases h; trivial
  · cases h

theorem no_neg : ∀ fuel, (∀ ts e, parseE mk fuel ts = .ok e → NoNeg e) ∧ (∀ ts es, parseSet mk fuel ts = .ok es → NoNegs es) ∧
    ∀ ts e, parseRI mk fuel ts = .ok e → ts.head? ≠ some .minus → NoNeg e := by
  intro fuel
  induction fuel with
  | zero =>
    refine ⟨fun ts e h => ?_, fun ts e h => ?_, fun ts e h => ?_⟩
    · rw [parseE] at h; cases h
    · rw [parseSet] at h; cases h
    · rw [parseRI] at h; cases h
  | succ f ih =>
    obtain ⟨i1, i2, i3⟩ := ih
    refine ⟨fun ts e h => ?_, fun ts es h => ?_, fun ts e h hm => ?_⟩
    · rw [parseE] at h
      split at h
      · cases h
      obtain ⟨b, -, h⟩ := out_bind h
      split at h
      · exact i1 _ _ h
      obtain ⟨b, -, h⟩ := out_bind h
      split at h
      · obtain ⟨es, h1, h⟩ := out_bind h
        cases h
        exact i2 _ _ h1
      obtain ⟨b, -, h⟩ := out_bind h
      split at h
      · obtain ⟨es, h1, h⟩ := out_bind h
        cases h
        exact i2 _ _ h1
      obtain ⟨x, hx, h⟩ := out_bind h
      cases x with
      | some x =>
        simp only at h
        obtain ⟨-, -, h⟩ := out_bind h
        obtain ⟨a, h1, h⟩ := out_bind h
        obtain ⟨b, h2, h⟩ := out_bind h
        cases h
        exact ⟨i1 _ _ h1, i1 _ _ h2⟩
      | none =>
        simp only at h
        have hc := no_minus hx
        obtain ⟨x, -, h⟩ := out_bind h
        cases x with
        | some x =>
          simp only at h
          obtain ⟨-, -, h⟩ := out_bind h
          obtain ⟨a, h1, h⟩ := out_bind h
          obtain ⟨b, h2, h⟩ := out_bind h
          split at h
          · cases h
            exact ⟨i1 _ _ h1, i1 _ _ h2⟩
          · cases h
        | none =>
          simp only at h
          obtain ⟨x, hx, h⟩ := out_bind h
          cases x with
          | some x =>
            obtain ⟨xa, xt, xb⟩ := x
            simp only at h
            obtain ⟨-, -, h⟩ := out_bind h
            obtain ⟨a, h1, h⟩ := out_bind h
            obtain ⟨b, h2, h⟩ := out_bind h
            cases h
            refine ⟨i1 _ _ h1, i3 _ _ h2 ?_⟩
            obtain ⟨e1, e2, e3, -⟩ := (find_inv hx).2 _ _ _ rfl
            intro hm
            cases xb with
            | nil => cases hm
            | cons m xb =>
              cases hm
              rw [e1, clear_append, e2] at hc
              have := hc.2.2.1 rfl (by rw [e3]; rfl)
              simp at this
          | none => exact leaf_inv h
    · rw [parseSet] at h
      obtain ⟨x, -, h⟩ := out_bind h
      cases x with
      | some x =>
        simp only at h
        obtain ⟨-, -, h⟩ := out_bind h
        obtain ⟨es, h1, h⟩ := out_bind h
        obtain ⟨e, h2, h⟩ := out_bind h
        cases h
        exact ⟨i1 _ _ h2, i2 _ _ h1⟩
      | none =>
        simp only at h
        obtain ⟨e, h2, h⟩ := out_bind h
        cases h
        exact ⟨i1 _ _ h2, trivial⟩
    · unfold parseRI at h
      split at h
      · cases h
      · simp at hm
      · obtain ⟨s, rfl⟩ := parseInt_inv h
        rfl
      · split at h
        · obtain ⟨s, rfl⟩ := parseInt_inv h
          rfl
        · split at h
          · cases h; trivial
          · obtain ⟨s, rfl⟩ := parseInt_inv h
            rfl
      · exact i1 _ _ h

/-- No tokens are read as an expression with a negative power, though `parse_row_or_int` allows for a `-` in front
of an integer: the `-` of `12^-1` is taken as a difference, that has no left-hand side or one that ends in `^`. -/
theorem C92_no_negative_power {fuel : Nat} {ts : List Tok} {e : T} (h : parseE mk fuel ts = .ok e) : NoNeg e := (no_neg fuel).1 ts e h

/-- `21^-1` is refused. -/
theorem C92_negative_refused : parseE (fun _ => some [1, 0]) 9 [.num ['2', '1'], .power, .minus, .num ['1']] = .throw .runtimeError := by
  rfl

/-- `21` and `12`. -/
def exRows (s : List Char) : Option Row := if s = ['2', '1'] then some [1, 0] else if s = ['1', '2'] then some [0, 1] else none

/-- `21-12*21^2`. -/
def exTree : T := .diff (.row [1, 0]) (.mult .times (.row [0, 1]) (.exp (.row [1, 0]) (.int false ['2'])))

example : Spells exRows (.diff exTree) [.num ['2', '1'], .minus, .num ['1', '2'], .op .times, .num ['2', '1'], .power, .num ['2']] :=
  .diff (ta := [.num ['2', '1']]) (.diffUp (.multUp (.powerUp (.num rfl))))
    (.mult (ta := [.num ['1', '2']]) .times (.multUp (.powerUp (.num rfl))) (.power (ta := [.num ['2', '1']]) (.num rfl) (.int (.inl rfl))))

example : Safe (toE (fun _ => []) exTree) ∧ den (toE (fun _ => []) exTree) = [[1, 0]] := by
  have h1 : Spec.IsRow [0, 1] ∧ ([0, 1] : Row) ≠ [] := ⟨by unfold Spec.IsRow; decide, by decide⟩
  have h2 : Spec.IsRow [1, 0] ∧ ([1, 0] : Row) ≠ [] := ⟨by unfold Spec.IsRow; decide, by decide⟩
  refine ⟨?_, by decide +kernel⟩
  simp only [exTree, toE, Safe]
  refine ⟨h2, ⟨h1, ⟨h2, ?_⟩, by decide⟩, fun _ => by decide +kernel⟩
  intro r hr
  left
  rw [den, List.mem_singleton] at hr
  rw [hr]; decide

end RowCalc
end Ringing
