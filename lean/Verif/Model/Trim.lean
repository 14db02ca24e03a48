import Verif.Model.Bell
/-! Model of the trimming of text (apps/utils/stringutils.cpp). -/
namespace Ringing
namespace Trim

/-- `trim_leading_whitespace` (stringutils.cpp:52-57). -/
def leading (line : List Char) : List Char := line.dropWhile Bell.isSpace

/-- The loop of `trim_trailing_whitespace` (stringutils.cpp:62), with `j` the distance from the start; before the start
(`j = 0`) the character read does not exist. -/
def trailLoop (line : List Char) : (j : Nat) → Out Nat
  | 0 => .ub
  | j + 1 => if j = 0 then .ok 1 else vget line j >>= fun c => if Bell.isSpace c then trailLoop line j else .ok (j + 1)

/-- `trim_trailing_whitespace` (stringutils.cpp:59-64). -/
def trailingC (line : List Char) : Out (List Char) := trailLoop line line.length >>= fun j => .ok (line.take j)

/-- `trim_whitespace` (stringutils.cpp:66-70). -/
def trimC (line : List Char) : Out (List Char) := trailingC (leading line)

end Trim
end Ringing
