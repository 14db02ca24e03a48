import Verif.Model.Out
/-
Model of class `bell` (ringing/bell.h, ringing/bell.cpp) with the default symbol table.
Strings are lists of characters; a C string ends at the end of the list (no embedded NUL), and the
NUL at its end is the character `'\x00'`.
-/
namespace Ringing
namespace Bell

/-- `bell::symbols` (bell.cpp:60) and `bell::MAX_BELLS` = 33 (bell.cpp:61). -/
def symbols : List Char := "1234567890ETABCDFGHJKLMNPQRSUVWYZ".toList

/-- `bell::to_char` (bell.h:100). -/
def toChar (b : Nat) : Char := if b < 33 then symbols.getD b '*' else '*'

/-- `strchr(symbols, c) - symbols`; note that `strchr` finds the terminating NUL. -/
def strchr (c : Char) : Option Nat :=
  if c = '\x00' then some symbols.length else symbols.findIdx? (· == c)

/-- `bell::is_symbol` (bell.cpp:96-110) with the default table, whose case mapper is `toupper`
(bell.cpp:59). The `I`/`1` and `O`/`0` cases: exactly one of each pair is in the table. -/
def isSymbol (c : Char) : Bool :=
  let c := c.toUpper
  if (strchr c).isSome then true
  else if c = 'I' ∨ c = '1' then (strchr 'I').isNone ^^ (strchr '1').isNone
  else if c = 'O' ∨ c = '0' then (strchr 'O').isNone ^^ (strchr '0').isNone
  else false

/-- `bell::read_char` (bell.cpp:112-133) with the default table. The recursive calls of the
`I`/`1`/`O`/`0` cases are unrolled: they look up the other character of the pair. -/
def readChar (c : Char) : Out Nat :=
  let c := c.toUpper
  match strchr c with
  | some i => .ok i
  | none =>
    let alt (d : Char) (k : Out Nat) : Out Nat :=
      if isSymbol d then (match strchr d with | some i => .ok i | none => .throw .bellInvalid) else k
    let c4 := alt 'O' (.throw .bellInvalid)
    let c3 := alt '0' c4
    let c2 := alt 'I' c3
    let c1 := alt '1' c2
    if c = 'I' then c1 else if c = '1' then c2 else if c = 'O' then c3 else if c = '0' then c4
    else .throw .bellInvalid

/-- C `isspace` in the "C" locale. -/
def isSpace (c : Char) : Bool :=
  c = ' ' ∨ c = '\t' ∨ c = '\n' ∨ c = '\x0b' ∨ c = '\x0c' ∨ c = '\r'

/-- C `isdigit`. -/
def isDigit (c : Char) : Bool := '0' ≤ c ∧ c ≤ '9'

/-- The value of a decimal digit. -/
def digitVal (c : Char) : Nat := c.toNat - '0'.toNat

/-- The digit loop of `strtoul`: accumulate digits, saturating at `ULONG_MAX`. -/
def scanDigits : List Char → Nat → Nat × List Char
  | [], acc => (acc, [])
  | c :: cs, acc =>
    if isDigit c then scanDigits cs (min (10 * acc + digitVal c) (2 ^ 64 - 1)) else (acc, c :: cs)

/-- The optional sign read by `strtoul`. -/
def signSplit : List Char → Bool × List Char
  | [] => (false, [])
  | c :: u => if c = '-' then (true, u) else if c = '+' then (false, u) else (false, c :: u)

/-- C `strtoul(str, &end, 10)`: leading white space, an optional sign, digits.  Without digits the
result is 0 and `end` is `str`. A negated value is reduced modulo 2^64. -/
def strtoul (s : List Char) : Nat × List Char :=
  let nu := signSplit (s.dropWhile isSpace)
  match nu.2 with
  | c :: _ =>
    if isDigit c then
      let vr := scanDigits nu.2 0
      (if nu.1 ∧ vr.1 < 2 ^ 64 - 1 then (2 ^ 64 - vr.1) % 2 ^ 64 else vr.1, vr.2)
    else (0, s)
  | [] => (0, s)

/-- `bell::read_extended` (bell.cpp:135-158): returns the bell and the rest of the string.
Only called on non-empty strings in the library (reading past the NUL is undefined). -/
def readExtended (str : List Char) : Out (Nat × List Char) :=
  match str with
  | [] => .ub
  | c :: cs =>
    if c ≠ '{' then do
      let b ← readChar c
      pure (b, cs)
    else
      let (val, endp) := strtoul cs
      let endp := endp.dropWhile isSpace
      match endp with
      | [] => .throw .bellInvalid
      | e :: endp' =>
        if cs.head? = some '-' ∨ e ≠ '}' ∨ val > 256 then .throw .bellInvalid
        else .ok ((val + 2 ^ 64 - 1) % 256, endp')

/-- Decimal representation of a number, as written by `ostream << unsigned long`. -/
def decimal (n : Nat) : List Char := Nat.toDigits 10 n

/-- `operator<<(ostream&, bell const&)` (bell.cpp:160-167). -/
def write (b : Nat) : List Char :=
  if b < 33 then [toChar b] else '{' :: (decimal (b + 1) ++ ['}'])

end Bell
end Ringing
