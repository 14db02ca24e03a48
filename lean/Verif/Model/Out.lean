/-
Outcomes of running a piece of C++ and the loop combinators used to transcribe it.
This file models no particular function of /repo: it is the vocabulary of the model.
-/
namespace Ringing

/-- The exceptions thrown by the modelled code (`RINGING_USE_EXCEPTIONS = 1`). -/
inductive Err
  | rowInvalid      -- row::invalid            (row.cpp:115-120)
  | bellInvalid     -- bell::invalid           (bell.cpp)
  | changeInvalid   -- change::invalid         (change.cpp)
  | changeRange     -- change::out_of_range    (change.cpp)
  | pnInvalid       -- place_notation::invalid (place_notation.h)
  | logicError      -- std::logic_error
  | invalidArgument -- std::invalid_argument and other subclasses
  | outOfRange      -- std::out_of_range
  | badCast         -- bad_lexical_cast        (lexical_cast.h:112-117)
  | runtimeError    -- std::runtime_error
  deriving DecidableEq, Repr

/-- The outcome of a C++ call: a value, an exception, or undefined behaviour
(an out-of-bounds access, dereferencing an end iterator, division by zero).  `timeout` is not an
outcome of the code: it is what a definition with a step budget returns when the budget runs out.
Theorems either show that it is never returned (the loop ends) or that it is returned for every
budget (the loop does not end). -/
inductive Out (α : Type) : Type
  | ok (a : α)
  | throw (e : Err)
  | ub
  | timeout
  deriving DecidableEq, Repr

namespace Out

@[simp] def bind {α β : Type} (x : Out α) (f : α → Out β) : Out β :=
  match x with
  | ok a => f a
  | throw e => throw e
  | ub => ub
  | timeout => timeout

instance : Monad Out where
  pure := ok
  bind := bind

@[simp] theorem pure_eq {α : Type} (a : α) : (pure a : Out α) = ok a := rfl
@[simp] theorem ok_bind {α β : Type} (a : α) (f : α → Out β) : (ok a >>= f) = f a := rfl
@[simp] theorem throw_bind {α β : Type} (e : Err) (f : α → Out β) :
    ((throw e : Out α) >>= f) = throw e := rfl
@[simp] theorem timeout_bind {α β : Type} (f : α → Out β) :
    ((timeout : Out α) >>= f) = timeout := rfl
@[simp] theorem ub_bind {α β : Type} (f : α → Out β) : ((ub : Out α) >>= f) = ub := rfl

theorem bind_assoc' {α β γ : Type} (x : Out α) (f : α → Out β) (g : β → Out γ) :
    ((x >>= f) >>= g) = (x >>= fun a => f a >>= g) := by cases x <;> rfl

instance : LawfulMonad Out := LawfulMonad.mk'
  (id_map := by intro α x; cases x <;> rfl)
  (pure_bind := by intros; rfl)
  (bind_assoc := by intro α β γ x f g; cases x <;> rfl)

end Out

/-- `v[i]` on a `std::vector`: undefined behaviour out of range. -/
def vget {α : Type} (v : List α) (i : Nat) : Out α :=
  match v[i]? with
  | some a => .ok a
  | none => .ub

/-- `v[i] = a` on a `std::vector`: undefined behaviour out of range. -/
def vset {α : Type} (v : List α) (i : Nat) (a : α) : Out (List α) :=
  if i < v.length then .ok (v.set i a) else .ub

/-- `for (int i = lo; i < lo + k; ++i) s = body(s, i);` -/
def forN {σ : Type} (body : σ → Nat → Out σ) : (k : Nat) → (lo : Nat) → σ → Out σ
  | 0, _, s => .ok s
  | k + 1, lo, s => body s lo >>= fun s' => forN body k (lo + 1) s'

/-- `for (int i = lo; i < hi; ++i) s = body(s, i);` -/
def forUp {σ : Type} (lo hi : Nat) (s : σ) (body : σ → Nat → Out σ) : Out σ :=
  forN body (hi - lo) lo s

/-- Conversion of an `int` to `bell`'s 8-bit underlying type (bell.h:80, bell.h:83, bell.h:121).
Only non-negative `int`s are converted in the modelled code, except where noted. -/
def toBell (i : Nat) : Nat := i % 256

end Ringing
