import Verif.Model.Group
import Verif.Model.RowCycles
/-!
Model of the evaluation of row expressions (apps/utils/row_calc.cpp, apps/utils/row_calc.h).  A node of the
expression is a machine: `eval` gives the next row, or none where the code throws `vector_end`, and the
state after it; exceptions other than `vector_end` are those of `Out`.  Not modelled: the tokens and the
parser (see Model/RowCalcParse), negative integers (which it never gives), files and standard input
(`read_node`; so `reads_stdin` is false), the running of a command (`exec_node` has the rows in its
output) and the number of bells (row_calc.cpp:890-895).
-/
namespace Ringing
namespace RowCalc

/-- A node (row_calc.h:72-87): its members, `evaluate`, `restart` and `count_vectors`. -/
structure Mach where
  σ : Type
  init : σ
  eval : σ → Out (Option Row × σ)
  restart : σ → σ
  vec : Nat

/-- `row_node` (row_calc.cpp:328-341). -/
def rowM (r : Row) : Mach where
  σ := Unit
  init := ()
  eval := fun _ => .ok (some r, ())
  restart := id
  vec := 0

/-- `exec_node` (row_calc.cpp:436-473) with the rows `rows` in the output; the state is `idx`. -/
def execM (rows : List Row) : Mach where
  σ := Nat
  init := 0
  eval := fun i => match rows[i]? with
    | some r => .ok (some r, i + 1)
    | none => .ok (none, i)
  restart := fun _ => 0
  vec := 1

/-- `vector_end` is thrown until it is caught: the rows of a node up to its end (row_calc.cpp:226-230, 417-421). -/
def drainC (M : Mach) : (fuel : Nat) → M.σ → Out (List Row × M.σ)
  | 0, _ => .timeout
  | fuel + 1, s => M.eval s >>= fun p => match p.1 with
    | none => .ok ([], p.2)
    | some r => drainC M fuel p.2 >>= fun q => .ok (r :: q.1, q.2)

/-- The expressions of a `set_node` from one on (row_calc.cpp:343-395): whether the iterator is past the first
of them, its state, and the states of the others.  `restart` moves the iterator to the first. -/
def nilM : Mach where
  σ := Unit
  init := ()
  eval := fun _ => .ok (none, ())
  restart := id
  vec := 1

/-- See `nilM`. -/
def consM (M R : Mach) : Mach where
  σ := Bool × M.σ × R.σ
  init := (false, M.init, R.init)
  eval := fun s =>
    if s.1 then R.eval s.2.2 >>= fun p => .ok (p.1, (true, s.2.1, p.2))
    else M.eval s.2.1 >>= fun p =>
      if M.vec ≠ 0 then
        match p.1 with
        | some r => .ok (some r, (false, p.2, s.2.2))
        | none => R.eval s.2.2 >>= fun q => .ok (q.1, (true, p.2, q.2))
      else .ok (p.1, (true, p.2, s.2.2))
  restart := fun s => (false, s.2.1, R.restart s.2.2)
  vec := R.vec + if M.vec ≠ 0 then 1 else 0

/-- `group_node` (row_calc.cpp:397-434): the state of the generators and, once started, the rows that are left. -/
def groupM (fuel : Nat) (S : Mach) : Mach where
  σ := S.σ × Option (List Row)
  init := (S.init, none)
  eval := fun s =>
    (match s.2 with
      | some l => .ok (s.1, l)
      | none => drainC S fuel s.1 >>= fun p => Group.ofVectorC p.1 >>= fun g => .ok (p.2, g.v)) >>= fun q =>
    match q.2 with
    | [] => .ok (none, (q.1, some []))
    | r :: l => .ok (some r, (q.1, some l))
  restart := fun s => (S.restart s.1, none)
  vec := S.vec

/-- The last loop of `evaluate_binary_arguments` (row_calc.cpp:194-205): both arguments are vectors.  The
function is called with its arguments exchanged (row_calc.cpp:266, 301), so that the outer loop is over the
right-hand side. -/
def crossLoop (A B : Mach) : (fuel : Nat) → A.σ × B.σ × Row → Out (Option (Row × Row) × (A.σ × B.σ × Row))
  | 0, _ => .timeout
  | fuel + 1, (a, b, r) =>
    (if r.length = 0 then B.eval b else .ok (some r, b)) >>= fun p => match p.1 with
      | none => .ok (none, (a, p.2, r))
      | some r => A.eval a >>= fun q => match q.1 with
        | some l => if r.length = 0 then crossLoop A B fuel (q.2, p.2, r) else .ok (some (l, r), (q.2, p.2, r))
        | none => crossLoop A B fuel (A.restart q.2, p.2, [])

/-- `evaluate_binary_arguments` (row_calc.cpp:173-206). -/
def argsC (fuel : Nat) (A B : Mach) (s : A.σ × B.σ × Row) : Out (Option (Row × Row) × (A.σ × B.σ × Row)) :=
  if A.vec = 0 ∨ B.vec = 0 then
    B.eval s.2.1 >>= fun p => match p.1 with
      | none => .ok (none, (s.1, p.2, s.2.2))
      | some r => A.eval s.1 >>= fun q => match q.1 with
        | none => .ok (none, (q.2, p.2, r))
        | some l => .ok (some (l, r), (q.2, p.2, r))
  else crossLoop A B fuel s

/-- `mult_node` (row_calc.cpp:249-282) and `exp_node` with a row (row_calc.cpp:284-310), whose `restart` is that of
the left-hand side only. -/
def binM (fuel : Nat) (both : Bool) (op : Row → Row → Out Row) (A B : Mach) : Mach where
  σ := A.σ × B.σ × Row
  init := (A.init, B.init, [])
  eval := fun s => argsC fuel A B s >>= fun p => match p.1 with
    | none => .ok (none, p.2)
    | some x => op x.1 x.2 >>= fun r => .ok (some r, p.2)
  restart := fun s => (A.restart s.1, if both then B.restart s.2.1 else s.2.1, s.2.2)
  vec := A.vec + B.vec

/-- The loop of `setdiff_node` (row_calc.cpp:236-241). -/
def diffLoop (A : Mach) (exclude : List Row) : (fuel : Nat) → A.σ → Out (Option Row × A.σ)
  | 0, _ => .timeout
  | fuel + 1, a => A.eval a >>= fun p => match p.1 with
    | none => .ok (none, p.2)
    | some r =>
      if A.vec ≠ 0 ∧ r ∈ exclude then diffLoop A exclude fuel p.2
      else if r ∈ exclude then .ok (none, p.2) else .ok (some r, p.2)

/-- `setdiff_node` (row_calc.cpp:208-247): the states of both sides and, once started, the rows excluded. -/
def diffM (fuel : Nat) (A B : Mach) : Mach where
  σ := A.σ × B.σ × Option (List Row)
  init := (A.init, B.init, none)
  eval := fun s =>
    (match s.2.2 with
      | some l => .ok (some l, s.2.1)
      | none =>
        if B.vec ≠ 0 then drainC B fuel s.2.1 >>= fun p => .ok (some p.1, p.2)
        else B.eval s.2.1 >>= fun p => .ok (p.1.map fun r => [r], p.2)) >>= fun q =>
    match q.1 with
    | none => .ok (none, (s.1, q.2, none))
    | some l => diffLoop A l fuel s.1 >>= fun p => .ok (p.1, (p.2, q.2, some l))
  restart := fun s => (A.restart s.1, s.2.1, s.2.2)
  vec := A.vec

/-- The operators of `mult_node` (row_calc.cpp:268-276). -/
inductive Op | times | divide | ldivide
  deriving DecidableEq, Repr

/-- See `Op`. -/
def opC : Op → Row → Row → Out Row
  | .times, l, r => Row.mulC l r
  | .divide, l, r => Row.inverseC r >>= fun i => Row.mulC l i
  | .ldivide, l, r => Row.inverseC l >>= fun i => Row.mulC i r

/-- `r.inverse() * l * r` (row_calc.cpp:302). -/
def conjC (l r : Row) : Out Row := Row.inverseC r >>= fun i => Row.mulC i l >>= fun x => Row.mulC x r

/-- `exp_node` with an integer (row_calc.cpp:284-310), which counts no vectors (row_calc.cpp:312-326). -/
def powM (fuel : Nat) (n : Nat) (A : Mach) : Mach where
  σ := A.σ
  init := A.init
  eval := fun s => A.eval s >>= fun p => match p.1 with
    | none => .ok (none, p.2)
    | some r => Row.powerC fuel r n >>= fun x => .ok (some x, p.2)
  restart := A.restart
  vec := A.vec + 0

mutual
/-- Expressions (row_calc.cpp:778-848). -/
inductive E where
  | row (r : Row)
  | exec (rows : List Row)
  | set (es : Es)
  | group (es : Es)
  | mult (op : Op) (a b : E)
  | conj (a b : E)
  | pow (a : E) (n : Nat)
  | diff (a b : E)
/-- The lists of expressions in braces or angle brackets. -/
inductive Es where
  | nil
  | cons (e : E) (es : Es)
end

mutual
/-- The node of an expression. -/
def mach (fuel : Nat) : E → Mach
  | .row r => rowM r
  | .exec rows => execM rows
  | .set es => machs fuel es
  | .group es => groupM fuel (machs fuel es)
  | .mult op a b => binM fuel true (opC op) (mach fuel a) (mach fuel b)
  | .conj a b => binM fuel false conjC (mach fuel a) (mach fuel b)
  | .pow a n => powM fuel n (mach fuel a)
  | .diff a b => diffM fuel (mach fuel a) (mach fuel b)
/-- The node of a list. -/
def machs (fuel : Nat) : Es → Mach
  | .nil => nilM
  | .cons e es => consM (mach fuel e) (machs fuel es)
end

/-- `row_calc::const_iterator` from `begin` to `end` (row_calc.cpp:881-889). -/
def rowsC (fuel : Nat) (M : Mach) : Out (List Row) :=
  if M.vec = 0 then M.eval M.init >>= fun p => .ok p.1.toList
  else drainC M fuel M.init >>= fun p => .ok p.1

end RowCalc
end Ringing
