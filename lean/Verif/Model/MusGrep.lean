import Verif.Model.Music
import Verif.Model.RowCycles
/-!
Model of the loop of the program `musgrep` (apps/musgrep/musgrep.cpp) over the rows read.  Not modelled: the arguments, the
reading of rows, the scores and the counts of rows with positive and negative scores; the count does not overflow.
-/
namespace Ringing
namespace MusGrep

/-- The members of `arguments` used (musgrep.cpp:62-83), and `output_rows` (musgrep.cpp:211-213). -/
structure Opts where
  bells : Nat
  inCourse : Bool
  ooCourse : Bool
  hilight : Bool
  rows : Bool

/-- The loop (musgrep.cpp:219-246), where `rd` reads a bell of a row: the music, the count and the rows written, each with whether
it is marked. -/
def loopC (o : Opts) (rd : Row → Nat → Out Nat) : List Row → (back : Bool) → Music → Out (Music × Nat × List (Row × Bool))
  | [], _, m => .ok (m, 0, [])
  | r :: rs, back, m =>
    if r.length ≠ o.bells then loopC o rd rs back m
    else
      Row.signC r >>= fun s =>
      if s < 0 ∧ o.inCourse = true then loopC o rd rs (!back) m
      else if s > 0 ∧ o.ooCourse = true then loopC o rd rs (!back) m
      else
        m.processC (rd r) r (!back) >>= fun x =>
        loopC o rd rs (!back) x.1 >>= fun y =>
        .ok (if x.2 then (y.1, y.2.1 + 1, (if o.rows then [(r, o.hilight)] else []) ++ y.2.2)
          else (y.1, y.2.1, (if o.rows && o.hilight then [(r, false)] else []) ++ y.2.2))

/-- The loop from its start (musgrep.cpp:217-218). -/
def mainC (o : Opts) (rd : Row → Nat → Out Nat) (rs : List Row) (m : Music) : Out (Music × Nat × List (Row × Bool)) :=
  loopC o rd rs true m

end MusGrep
end Ringing
