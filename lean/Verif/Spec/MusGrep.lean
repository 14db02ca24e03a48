import Verif.Model.MusGrep
import Verif.Spec.Music
/-! Which rows `musgrep` looks at. -/
namespace Ringing
namespace MusGrep
open Spec

/-- The rows on the number of bells, with whether they are at backstroke: the strokes alternate. -/
def strokes (bells : Nat) : List Row → Bool → List (Row × Bool)
  | [], _ => []
  | r :: rs, back => if r.length = bells then (r, back) :: strokes bells rs (!back) else strokes bells rs back

/-- The row is of the course asked for. -/
def Course (o : Opts) (r : Row) : Prop := (o.inCourse = true → Row.signC r ≠ .ok (-1)) ∧ (o.ooCourse = true → Row.signC r ≠ .ok 1)

/-- The row matches one of the patterns. -/
def Hit (ps : List (List Tok)) (r : Row) : Prop := ∃ p ∈ ps, Matches (full p) r

open Classical in
/-- The rows looked at, if the first is at backstroke or not: those on the number of bells and of the course asked for. -/
noncomputable def looked (o : Opts) (rs : List Row) (back : Bool) : List (Row × Bool) :=
  (strokes o.bells rs back).filter fun x => decide (Course o x.1)

end MusGrep
end Ringing
