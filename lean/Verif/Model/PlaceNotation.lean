import Verif.Model.Change
/-
Model of `interpret_pn` (ringing/place_notation.h:75-153).

The text between `first` and `last` is a list of characters.  Characters are the ASCII ones
(`isspace`, `isalnum` in the "C" locale).  `endc` is what dereferencing `last` gives: the NUL at the
end of a C string for `method(const char*, ...)` (method.cpp:117-122), undefined behaviour for the
`std::string` iterators of `method(const string&, ...)` (method.cpp:124-129).
-/
namespace Ringing
namespace PN

/-- C `isalnum` in the "C" locale. -/
def isAlnum (c : Char) : Bool :=
  ('0' ≤ c ∧ c ≤ '9') ∨ ('A' ≤ c ∧ c ≤ 'Z') ∨ ('a' ≤ c ∧ c ≤ 'z')

/-- `skip_ws` (place_notation.h:76-79). -/
def skipWs (s : List Char) : List Char := s.dropWhile Bell.isSpace

/-- `skip_sep` (place_notation.h:83-90), the text after it; its result (whether the separator was
found) is not used by `interpret_pn`. -/
def skipSep (sep : Char) (s : List Char) : List Char :=
  match skipWs s with
  | [] => []
  | c :: cs => if c = sep then skipWs cs else skipWs (c :: cs)

/-- The `for` loop of `read_bell_expr` (place_notation.h:97-101) followed by the test of line 102:
`acc` is the text read so far (backwards), the result the text read and the text left.  The second
test of the loop reads `*last`, not `*first`. -/
def readExprLoop (endc : Out Char) : (s : List Char) → (depth : Int) → (acc : List Char) →
    Out (List Char × List Char)
  | [], _, _ => .throw .bellInvalid
  | c :: cs, depth, acc =>
    if c = '}' ∧ depth = 0 then .ok ((c :: acc).reverse, cs)
    else if c = '{' then readExprLoop endc cs (depth + 1) (c :: acc)
    else do
      let e ← endc
      readExprLoop endc cs (if e = '}' then depth - 1 else depth) (c :: acc)

/-- `read_bell_expr` (place_notation.h:93-106) on a text starting with `{`. -/
def readBellExpr (endc : Out Char) (s : List Char) : Out (List Char × List Char) :=
  match s with
  | [] => endc >>= fun _ => .ok ([], [])
  | c :: cs => if c = '{' then readExprLoop endc cs 0 [c] else .ok ([], c :: cs)

/-- The scan for the end of a change (place_notation.h:131-136): the text scanned and the text
left. -/
def scanChange (endc : Out Char) : (fuel : Nat) → (s : List Char) → (acc : List Char) →
    Out (List Char × List Char)
  | _, [], acc => .ok (acc, [])
  | 0, _ :: _, _ => .timeout
  | fuel + 1, c :: cs, acc =>
    if c = '{' then do
      let (t, rest) ← readBellExpr endc (c :: cs)
      scanChange endc fuel rest (acc ++ t)
    else if isAlnum c ∧ c ≠ 'X' ∧ c ≠ 'x' then scanChange endc fuel cs (acc ++ [c])
    else .ok (acc, c :: cs)

/-- Whether a character can start a change (place_notation.h:124-125). -/
def startsChange (c : Char) : Bool := isAlnum c ∨ c = '-' ∨ c = '{'

/-- `if (j != first) block.push_back(change(num, string(first, j)));` (place_notation.h:137). -/
def pushChange (num : Nat) (t : List Char) (block : List Change) : Out (List Change) :=
  if t ≠ [] then Change.ofStringC num t >>= fun ch => .ok (block ++ [ch]) else .ok block

/-- The loop reading the changes of a block (place_notation.h:124-141): the block and the text
left. -/
def readBlock (endc : Out Char) (num : Nat) : (fuel : Nat) → (s : List Char) → (block : List Change) →
    Out (List Change × List Char)
  | _, [], block => .ok (block, [])
  | 0, _ :: _, _ => .timeout
  | fuel + 1, c :: cs, block =>
    if startsChange c then
      if c = 'X' ∨ c = 'x' ∨ c = '-' then do
        let ch ← Change.ofStringC num ['X']
        readBlock endc num fuel (skipSep '.' cs) (block ++ [ch])
      else do
        let tr ← scanChange endc (c :: cs).length (c :: cs) []
        let block ← pushChange num tr.1 block
        readBlock endc num fuel (skipSep '.' tr.2) block
    else .ok (block, c :: cs)

/-- The changes output for a block (place_notation.h:143-147). -/
def blockOut (sym : Bool) (block : List Change) : List Change :=
  if sym ∧ block ≠ [] then block ++ block.dropLast.reverse else block

/-- The end of a block (place_notation.h:148-151): a comma, unless the text is finished. -/
def endBlock : List Char → Out (List Char)
  | [] => .ok []
  | d :: ds => if d ≠ ',' then .throw .pnInvalid else .ok (skipSep ',' (d :: ds))

/-- The loop over blocks of `interpret_pn` (place_notation.h:114-152), returning the changes sent to
the output iterator. -/
def blocks (endc : Out Char) (num : Nat) : (fuel : Nat) → (s : List Char) → (out : List Change) →
    Out (List Change)
  | _, [], out => .ok out
  | 0, _ :: _, _ => .timeout
  | fuel + 1, c :: cs, out => do
    let s := if c = '&' ∨ c = '+' then skipSep '.' cs else c :: cs
    let br ← readBlock endc num s.length s []
    let rest ← endBlock br.2
    blocks endc num fuel rest (out ++ blockOut (c = '&') br.1)

/-- `interpret_pn` (place_notation.h:108-153). -/
def interpret (endc : Out Char) (num : Nat) (s : List Char) : Out (List Change) :=
  blocks endc num s.length (skipWs s) []

/-- `interpret_pn` as called by `method(const char*, ...)` (method.cpp:117-122). -/
def ofCStr (num : Nat) (s : List Char) : Out (List Change) := interpret (.ok '\x00') num s

/-- `interpret_pn` as called by `method(const string&, ...)` (method.cpp:124-129). -/
def ofString (num : Nat) (s : List Char) : Out (List Change) := interpret .ub num s

end PN
end Ringing
