import Verif.Model.MethodName
/-
Model of the method libraries: the iteration over a library and the searches in it (ringing/library.h,
ringing/library.cpp, ringing/libbase.h), the lightweight format (ringing/litelib.cpp), the MicroSiril format
(ringing/mslib.cpp) and the output of methods (ringing/method_stream.cpp).

A `char` is a `Char` below 256.  Files are byte sequences that do not change while they are read.
-/
namespace Ringing.Lib

abbrev Str := List Char

/-! ### Streams and strings -/

/-- `std::istream`: what is left to read, `eofbit` and `failbit`.  `badbit` (I/O errors) is not modelled. -/
structure IStream where
  rest : Str
  eof : Bool := false
  fail : Bool := false
  deriving DecidableEq, Repr

/-- `bool(is)`. -/
def IStream.ok (s : IStream) : Bool := !s.fail

/-- `is.good()`. -/
def IStream.good (s : IStream) : Bool := !s.fail && !s.eof

/-- The characters before the first `'\n'`, and those behind it if there is one. -/
def takeLine : Str → Str × Option Str
  | [] => ([], none)
  | c :: cs => if c = '\n' then ([], some cs) else (c :: (takeLine cs).1, (takeLine cs).2)

/-- `std::getline(is, buf)` (streamutils.cpp:40-73 is the copy of it used with old compilers): a stream that is
not good fails and leaves the buffer alone. -/
def getline (s : IStream) (buf : Str) : IStream × Str :=
  if s.eof || s.fail then ({ s with fail := true }, buf)
  else
    match takeLine s.rest with
    | (l, some r) => (⟨r, false, false⟩, l)
    | (l, none) => (⟨[], true, decide (l = [])⟩, l)

/-- `s.find_first_of` / `s.find_first_not_of` from a position, for the characters with `p`; `none` is `npos`. -/
def findFrom (p : Char → Bool) (s : Str) (k : Nat) : Option Nat := ((s.drop k).findIdx? p).map (· + k)

/-- `s.find_last_not_of`, for the characters with `p`. -/
def findLast (p : Char → Bool) (s : Str) : Option Nat := (s.reverse.findIdx? p).map (s.length - 1 - ·)

/-- `s.substr(pos)`. -/
def substrEnd (s : Str) (pos : Nat) : Out Str := if pos ≤ s.length then .ok (s.drop pos) else .throw .outOfRange

/-- `s.substr(pos, n)`. -/
def substr (s : Str) (pos n : Nat) : Out Str := if pos ≤ s.length then .ok ((s.drop pos).take n) else .throw .outOfRange

/-- `s.find(t)` from a position: the first position at which `t` stands. -/
def findSub (t : Str) : (s : Str) → (k : Nat) → Option Nat
  | [], k => if t = [] then some k else none
  | c :: cs, k => if t.isPrefixOf (c :: cs) then some k else findSub t cs (k + 1)

/-- The value of a string of digits. -/
def digitsValue (ds : Str) : Nat := ds.foldl (fun v d => 10 * v + (d.toNat - '0'.toNat)) 0

/-- `lexical_cast<int>` from a `string` (lexical_cast.h:123-138): `operator>>` skips white space and reads an
optional sign and digits (base ten, C locale), a value that is no `int` is a failure; then only white space
may follow. -/
def lexicalCastInt (s : Str) : Out Int :=
  let t := s.dropWhile Bell.isSpace
  let neg := t.head? = some '-'
  let u := if t.head? = some '-' ∨ t.head? = some '+' then t.tail else t
  let ds := u.takeWhile Bell.isDigit
  let v : Int := if neg then -(digitsValue ds : Int) else digitsValue ds
  if ds = [] then .throw .badCast
  else if v < -2 ^ 31 ∨ 2 ^ 31 ≤ v then .throw .badCast
  else if (u.dropWhile Bell.isDigit).dropWhile Bell.isSpace = [] then .ok v
  else .throw .badCast

/-! ### Libraries -/

/-- `method` with its name (method.h:150-152). -/
structure Named where
  m : Method
  name : Str
  deriving DecidableEq, Repr

/-- The virtual functions of `library_entry::impl` (libbase.h:81-100) other than `readentry`, and what
`get_facet<litelib::payload>` gives (`none` if there is no such facet).  `own` is the result of `meth` if the
class overrides it. -/
structure View where
  name : Out Str
  baseName : Out Str
  pn : Out Str
  bells : Int
  payload : Option Str := none
  own : Option Named := none
  deriving DecidableEq, Repr

/-- `method( i->pn(), i->bells(), i->base_name() )` (library.cpp:176, 212).  A negative number of bells is not
modelled. -/
def View.made (v : View) : Out Named := do
  let pn ← v.pn
  let n ← v.baseName
  if v.bells < 0 then .ub
  else do
    let m ← Method.ofStringC pn v.bells.toNat
    pure ⟨m, n⟩

/-- `library_entry::meth` (libbase.h:116, library.cpp:210-213). -/
def View.meth (v : View) : Out Named :=
  match v.own with
  | some m => .ok m
  | none => v.made

/-- A subclass of `library_base` (library.h:55-103): `σ` is the state of the library object, `ε` that of an
entry object.  `start` is what `begin()` does to the library and `fresh` the entry object it makes; `read` is
`readentry`. -/
structure Library (σ ε : Type) where
  start : σ → σ
  fresh : σ → ε
  read : ε → σ → Out (Bool × ε × σ)
  view : ε → View

variable {σ ε α : Type}

/-- `for ( const_iterator i(begin()); i != end(); ++i ) if (...) return ...;` (library.cpp:162-178, 194-208): the
constructor of the iterator and its `++` call `readentry` (library.h:121-143), and an iterator is equal to
`end()` when that returned false.  `f` is the body, which returns a value or goes on.  The iterations are
limited by the first argument. -/
def searchLoop (L : Library σ ε) (f : View → Out (Option α)) : Nat → ε → σ → Out (Option α × σ)
  | 0, _, _ => .timeout
  | n + 1, e, s => L.read e s >>= fun r =>
    if r.1 then
      f (L.view r.2.1) >>= fun o =>
      match o with
      | some a => .ok (some a, r.2.2)
      | none => searchLoop L f n r.2.1 r.2.2
    else .ok (none, r.2.2)

/-- A search from `begin()`. -/
def search (L : Library σ ε) (f : View → Out (Option α)) (n : Nat) (s : σ) : Out (Option α × σ) :=
  searchLoop L f n (L.fresh (L.start s)) (L.start s)

/-- `tolower` in the C locale (library.cpp:145-149). -/
def lowercase (c : Char) : Char := if 'A' ≤ c ∧ c ≤ 'Z' then Char.ofNat (c.toNat + 32) else c

/-- The body of the loop of `load` (library.cpp:164-177). -/
def loadBody (name : Str) (stage : Int) (v : View) : Out (Option Named) :=
  v.name >>= fun w =>
  if w.map lowercase = name.map lowercase ∧ (stage = 0 ∨ v.bells = stage) then v.made >>= fun m => .ok (some m)
  else .ok none

/-- `library_base::load` (library.cpp:156-192). -/
def load (L : Library σ ε) (n : Nat) (s : σ) (name : Str) (stage : Int) : Out (Named × σ) :=
  search L (loadBody name stage) n s >>= fun r =>
  match r.1 with
  | some m => .ok (m, r.2)
  | none => .throw .invalidArgument

/-- `library_base::find(const method&)` (library.cpp:194-200): methods are compared as vectors of changes (there is
only one change on no bells, so that `change::operator==` is equality).  `none` is a null entry. -/
def findMethod (L : Library σ ε) (n : Nat) (s : σ) (m : Method) : Out (Option View × σ) :=
  search L (fun v => v.meth >>= fun x => .ok (if x.m.ch = m.ch then some v else none)) n s

/-- `library_base::find(const string&)` (library.cpp:202-208); `fullname()` is that of `meth()` (libbase.h:113),
for the year 9999.  `past` is as for `methclass`. -/
def findTitle (L : Library σ ε) (past : Out Nat) (n : Nat) (s : σ) (title : Str) : Out (Option View × σ) :=
  search L (fun v => v.meth >>= fun x => Method.fullnameC past x.name x.m 9999 >>= fun t =>
    .ok (if t = title then some v else none)) n s

/-- Copying a whole library, as `libout::append(first, last)` (libout.h:46-49) and `dir` do: the views of the
entries in order. -/
def listLoop (L : Library σ ε) : Nat → ε → σ → Out (List View × σ)
  | 0, _, _ => .timeout
  | n + 1, e, s => L.read e s >>= fun r =>
    if r.1 then listLoop L n r.2.1 r.2.2 >>= fun t => .ok (L.view r.2.1 :: t.1, t.2)
    else .ok ([], r.2.2)

/-- The entries from `begin()` to `end()`. -/
def list (L : Library σ ε) (n : Nat) (s : σ) : Out (List View × σ) := listLoop L n (L.fresh (L.start s)) (L.start s)

/-! ### The lightweight format -/

/-- `litelib::impl` (litelib.cpp:43-70).  `file` is the contents of the file if the library has been made from a
file name (`f_owner`).  A library always refers to one stream.  `ok` is never read and is left out. -/
structure Lite where
  b : Int
  file : Option Str
  f : IStream
  nameFlag : Bool
  deriving DecidableEq, Repr

/-- `f.peek() == c`: on a good stream without a character left it sets `eofbit`. -/
def peekIs (s : IStream) (c : Char) : Bool × IStream :=
  if s.good then
    match s.rest with
    | [] => (false, { s with eof := true })
    | x :: _ => (decide (x = c), s)
  else (false, { s with fail := true })

/-- `f.get()`. -/
def get (s : IStream) : IStream :=
  if s.good then
    match s.rest with
    | [] => { s with eof := true, fail := true }
    | _ :: r => { s with rest := r }
  else { s with fail := true }

/-- The bytes of the UTF-8 encoded byte order mark. -/
def bom : Str := [Char.ofNat 0xEF, Char.ofNat 0xBB, Char.ofNat 0xBF]

/-- `litelib::impl::skip_bom` (litelib.cpp:72-87).  `f && f.peek() != 0xBB` is false on a stream that has failed,
so that `get` is then called. -/
def skipBom (s : IStream) : IStream :=
  if s.ok then
    let p := peekIs s (Char.ofNat 0xEF)
    if p.1 then
      let s := get p.2
      let p := if s.ok then peekIs s (Char.ofNat 0xBB) else (true, s)
      if p.1 then
        let s := get p.2
        let p := if s.ok then peekIs s (Char.ofNat 0xBF) else (true, s)
        if p.1 then get p.2 else p.2
      else p.2
    else p.2
  else s

/-- `litelib::impl::impl` from a stream (litelib.cpp:50-52). -/
def Lite.ofStream (b : Int) (s : IStream) (nameFlag : Bool) : Lite := ⟨b, none, skipBom s, nameFlag⟩

/-- `litelib::impl::impl` from the name of a file that can be read (litelib.cpp:45-48). -/
def Lite.ofFile (b : Int) (contents : Str) (nameFlag : Bool) : Lite := ⟨b, some contents, skipBom ⟨contents, false, false⟩, nameFlag⟩

/-- `litelib::impl::entry_type` (litelib.cpp:95-125). -/
structure LiteEntry where
  linebuf : Str
  linestart : Nat
  b : Int
  nameFlag : Bool
  deriving DecidableEq, Repr

/-- One of the characters `" \t\r\n"`. -/
def isBlank4 (c : Char) : Bool := c = ' ' ∨ c = '\t' ∨ c = '\r' ∨ c = '\n'

/-- One of the characters `" \t"`. -/
def isBlank2 (c : Char) : Bool := c = ' ' ∨ c = '\t'

namespace LiteEntry

/-- `entry_type::pn` (litelib.cpp:169-175). -/
def pn (e : LiteEntry) : Out Str :=
  match findFrom isBlank4 e.linebuf e.linestart with
  | none => substrEnd e.linebuf e.linestart
  | some i => substr e.linebuf e.linestart (i - e.linestart)

/-- `entry_type::get_payload` (litelib.cpp:232-241).  The result of `find_last_not_of` can only be `npos` if `i`
is. -/
def payload (e : LiteEntry) : Out Str :=
  match (findFrom isBlank4 e.linebuf e.linestart).bind (findFrom (fun c => !isBlank4 c) e.linebuf) with
  | none => .ok []
  | some i =>
    match findLast (fun c => !isBlank4 c) e.linebuf with
    | none => substrEnd e.linebuf i
    | some j => substr e.linebuf i (j - i + 1)

/-- `entry_type::name` (litelib.cpp:127-133). -/
def name (e : LiteEntry) : Out Str := if e.nameFlag then payload e else .ok []

/-- `entry_type::read_bells` (litelib.cpp:202-211). -/
def readBells (e : LiteEntry) : Out (Int × LiteEntry) := do
  let p ← pn e
  match findFrom (· = ':') p 0 with
  | none => .ok (0, e)
  | some i =>
    let t ← substr p 0 i
    let v ← lexicalCastInt t
    .ok (v, { e with linestart := e.linestart + i + 1 })

end LiteEntry

/-- `trim_trailing_whitespace` (litelib.cpp:135-140): for an empty string `j-1` is before the beginning.  The
first character always stays. -/
def trimTrailing : Str → Out Str
  | [] => .ub
  | c :: cs => .ok (c :: (cs.reverse.dropWhile Bell.isSpace).reverse)

/-- `remove_suffix` (litelib.cpp:142-150). -/
def removeSuffix (n suffix : Str) : Out (Bool × Str) :=
  match findSub suffix n 0 with
  | some i =>
    if (i : Int) = n.length - suffix.length then trimTrailing (n.take i) >>= fun n' => .ok (true, n') else .ok (false, n)
  | none => .ok (false, n)

/-- The loop over the classes in `base_name` (litelib.cpp:156-161). -/
def classLoop : (k c : Nat) → Str → Out (Bool × Str)
  | 0, _, n => .ok (false, n)
  | k + 1, c, n => Method.classnameC c 9999 >>= fun w => removeSuffix n w >>= fun r =>
    if r.1 then .ok r else classLoop k (c + 1) r.2

/-- `entry_type::base_name` (litelib.cpp:152-167) as a function of the name and the number of bells. -/
def baseName (n : Str) (b : Int) : Out Str := do
  let r ← removeSuffix n (Method.stagename b)
  if r.1 then do
    let r ← classLoop 9 2 r.2
    let n ← if r.1 then do
        let w ← Method.classnameC Method.M_LITTLE 9999
        let r' ← removeSuffix r.2 w
        pure r'.2
      else pure r.2
    let w ← Method.classnameC Method.M_DIFFERENTIAL 9999
    let r ← removeSuffix n w
    pure r.2
  else pure r.2

/-- The loop of `entry_type::readentry` (litelib.cpp:177-200).  The iterations are limited by the first argument.
`linestart` is not changed for a blank line: it is not used before the next line is read. -/
def liteRead (req : Int) : Nat → LiteEntry → IStream → Out (Bool × LiteEntry × IStream)
  | 0, _, _ => .timeout
  | n + 1, e, s =>
    if s.ok then
      let g := getline s e.linebuf
      let e := { e with linebuf := g.2 }
      if g.1.ok then
        match findFrom (fun c => !isBlank2 c) e.linebuf 0 with
        | some k =>
          LiteEntry.readBells { e with linestart := k } >>= fun r =>
          if req = 0 ∧ r.1 ≠ 0 then .ok (true, { r.2 with b := r.1 }, g.1)
          else if req ≠ 0 ∧ (r.1 = req ∨ r.1 = 0) then .ok (true, r.2, g.1)
          else liteRead req n r.2 g.1
        | none => liteRead req n e g.1
      else liteRead req n e g.1
    else .ok (false, e, s)

/-- `litelib` (litelib.cpp:89-93, 213-221). -/
def lite : Library Lite LiteEntry where
  start l := match l.file with
    | some t => { l with f := ⟨t, false, false⟩ }
    | none => l
  fresh l := ⟨[], 0, l.b, l.nameFlag⟩
  read e l := liteRead l.b (l.f.rest.length + 2) e l.f >>= fun r => .ok (r.1, r.2.1, { l with f := r.2.2 })
  view e := {
    name := e.name
    baseName := e.name >>= fun n => baseName n e.b
    pn := e.pn
    bells := e.b
    payload := match e.payload with | .ok p => some p | _ => none }

/-! ### The MicroSiril format -/

/-- `atoi`: white space, an optional sign and digits; no digits give 0.  A value that is no `int` is undefined
behaviour. -/
def atoi (s : Str) : Out Int :=
  let t := s.dropWhile Bell.isSpace
  let u := if t.head? = some '-' ∨ t.head? = some '+' then t.tail else t
  let ds := u.takeWhile Bell.isDigit
  let v : Int := if t.head? = some '-' then -(digitsValue ds : Int) else digitsValue ds
  if v < -2 ^ 31 ∨ 2 ^ 31 ≤ v then .ub else .ok v

/-- C `isalpha`, C locale. -/
def isAlpha (c : Char) : Bool := ('A' ≤ c ∧ c ≤ 'Z') ∨ ('a' ≤ c ∧ c ≤ 'z')

/-- The contents of a C string: what is before the first null character. -/
def cStr (s : Str) : Str := s.takeWhile (· ≠ '\x00')

/-- `mslib::impl::entry_type` (mslib.cpp:90-110). -/
structure MsEntry where
  linebuf : Str
  b : Int
  deriving DecidableEq, Repr

/-- `mslib::impl` (mslib.cpp:50-80): the contents of the file and the stream.  The number at the end of the file
name (mslib.cpp:225-251) is stored but never read. -/
structure Ms where
  file : Str
  f : IStream
  deriving DecidableEq, Repr

/-- The header line (mslib.cpp:136-148). -/
def msHeader (e : MsEntry) : Out MsEntry :=
  match findFrom (· = ' ') e.linebuf 0 with
  | none => .ok e
  | some p =>
    let t := (e.linebuf.drop (p + 1)).dropWhile isAlpha
    if t ≠ [] then atoi (cStr t) >>= fun v => .ok { e with b := v } else .ok e

/-- The loop of `entry_type::readentry` (mslib.cpp:126-168).  The iterations are limited by the first
argument. -/
def msRead : Nat → MsEntry → IStream → Out (Bool × MsEntry × IStream)
  | 0, _, _ => .timeout
  | n + 1, e, s =>
    if s.ok then
      let g := getline s e.linebuf
      let e := { e with linebuf := g.2 }
      if e.linebuf.head? = some '*' then msHeader e >>= fun e => msRead n e g.1
      else if (findSub "Name".toList e.linebuf 0).isSome ∧ (findSub "No.".toList e.linebuf 0).isSome then .ok (false, e, g.1)
      else if e.linebuf.length > 0 then
        if e.linebuf.count ' ' ≠ 2 then .ok (false, e, g.1) else .ok (g.1.ok, e, g.1)
      else msRead n e g.1
    else .ok (false, e, s)

namespace MsEntry

/-- `entry_type::name` (mslib.cpp:170-173): the constructor of the substring takes all if there is no space. -/
def name (e : MsEntry) : Str :=
  match findFrom (· = ' ') e.linebuf 0 with
  | none => e.linebuf
  | some p => e.linebuf.take p

/-- `entry_type::pn` (mslib.cpp:181-220), for a line with two spaces.  A line without them is not looked at;
`placenotation[0]` and `lh[0]` of an empty `string` are null characters. -/
def pn (e : MsEntry) : Out Str :=
  match findFrom (· = ' ') e.linebuf 0 with
  | none => .ub
  | some s1 =>
    match findFrom (· = ' ') e.linebuf (s1 + 1) with
    | none => .ub
    | some s2 =>
      let lh := (e.linebuf.drop (s1 + 1)).take (s2 - s1 - 1)
      let p := ((e.linebuf.drop (s2 + 1)).reverse.dropWhile Bell.isSpace).reverse
      let c := lh.head?.getD '\x00'
      .ok (if p.head? ≠ some '+' then
          (if lh.getLast? = some 'z' then p ++ ',' :: lh.dropLast
            else if ('a' ≤ c ∧ c ≤ 'f') ∨ c = 'p' ∨ c = 'q' then p ++ [',', '2'] else p ++ [',', '1'])
        else p)

end MsEntry

/-- `mslib` for a file that can be read (mslib.cpp:87-124). -/
def ms : Library Ms MsEntry where
  start l := { l with f := ⟨l.file, false, false⟩ }
  fresh _ := ⟨[], 0⟩
  read e l := msRead (l.f.rest.length + 2) e l.f >>= fun r => .ok (r.1, r.2.1, { l with f := r.2.2 })
  view e := { name := .ok e.name, baseName := .ok e.name, pn := e.pn, bells := e.b }

/-! ### Output -/

/-- `method_stream::name_form` (method_stream.h). -/
inductive NameForm
  | none | payloadOrName | payload | name | fullTitle
  deriving DecidableEq, Repr

/-- `method_stream::impl::append` (method_stream.cpp:38-62): the text written to `cout`. -/
def append (past : Out Nat) (incBells : Bool) (form : NameForm) (v : View) : Out Str := do
  let pn ← v.pn
  let head := (if incBells then decimalInt v.bells ++ [':'] else []) ++ pn ++ (if form = .none then [] else ['\t'])
  let t ← match form with
    | .payloadOrName => match v.payload with
      | some p => .ok p
      | none => v.name
    | .payload => match v.payload with
      | some p => .ok p
      | none => .ok []
    | .name => v.name
    | .fullTitle => v.meth >>= fun m => Method.fullnameC past m.name m.m 9999
    | .none => .ok []
  pure (head ++ t ++ ['\n'])

/-- Appending several entries. -/
def appendAll (past : Out Nat) (incBells : Bool) (form : NameForm) : List View → Out Str
  | [] => .ok []
  | v :: vs => append past incBells form v >>= fun t => appendAll past incBells form vs >>= fun u => .ok (t ++ u)

end Ringing.Lib
