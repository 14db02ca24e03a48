import Verif.Model.SirilParser
import Verif.Model.PlaceNotation
/-
Model of the tokeniser of gsiril: apps/utils/tokeniser.cpp as set up by `mstokeniser` in apps/gsiril/parser.cpp.

Simplifications:
* the iterators `i` and `e` into the buffer are the characters between them; a buffer is always one line with `'\n'` behind it,
  because none of the quoted tokens of gsiril goes over several lines;
* the characters are those of the C locale (`isspace` etc. are called with `char`, which is undefined for negative ones);
* the character at the end iterator of a `string`, which `read_bell_expr` looks at, is `'\0'`;
* the text of tokens with a fixed text and of comments is left out; line numbers are left out.
-/
namespace Ringing.Siril

/-- The arguments the tokeniser looks at: `msiril_syntax` and `case_insensitive`. -/
structure TArgs where
  msiril : Bool := false
  caseless : Bool := false

/-- `basic_token::parse_result` (tokeniser.h:157), with the token and what is behind it. -/
inductive Parsed
  | done (t : Tok) (rest : Str)
  | more
  | failed

/-- `string_token::parse` (tokeniser.cpp:94-115) for one line strings. -/
def quotedTok (q : Char) (k : LitKind) : Str → Out Parsed
  | [] => .ok .failed
  | c :: cs =>
    if c ≠ q then .ok .failed
    else
      match cs.dropWhile (fun d => d ≠ q ∧ d ≠ '\n') with
      | [] => .ok .more
      | d :: rest => .ok (if d ≠ q then .failed else .done (.lit k (cs.takeWhile fun d => d ≠ q ∧ d ≠ '\n')) rest)

/-- `basic_token::parse` (tokeniser.cpp:72-83). -/
def fixedTok (a b : Char) (y : Sym) : Str → Out Parsed
  | c :: d :: rest => .ok (if c = a ∧ d = b then .done (.sym y) rest else .failed)
  | _ => .ok .failed

/-- The loop of `pn_impl::parse` (parser.cpp:116-120); `n` bounds its passes. -/
def pnScan : (n : Nat) → Str → Out (Str × Str)
  | _, [] => .ok ([], [])
  | 0, _ :: _ => .timeout
  | n + 1, c :: cs =>
    if c = '{' then
      PN.readBellExpr (.ok '\x00') (c :: cs) >>= fun (t, rest) => pnScan n rest >>= fun (u, rest) => .ok (t ++ u, rest)
    else if c = '.' ∨ c = '-' ∨ PN.isAlnum c then pnScan n cs >>= fun (u, rest) => .ok (c :: u, rest)
    else .ok ([], c :: cs)

/-- `pn_impl::parse` (parser.cpp:110-125). -/
def pnTok : Str → Out Parsed
  | [] => .ok .failed
  | c :: cs =>
    if c ≠ '&' ∧ c ≠ '+' then .ok .failed
    else pnScan cs.length cs >>= fun (u, rest) => .ok (if 1 + u.length < 2 then .failed else .done (.lit .pn (c :: u)) rest)

/-- `line_comment_impl::parse` (parser.cpp:135-144). -/
def commentTok (s : Str) : Out Parsed := .ok (.done (.sym .comment) (s.dropWhile (· ≠ '\n')))

/-- The quoted tokens in the order in which they are tried, with the text for `matches` (parser.cpp:149-183). -/
def qtypes (msiril : Bool) : List (Str × (Str → Out Parsed)) :=
  [(if msiril then ['/'] else ['/', '/'], commentTok)] ++ (if msiril then [] else [(['/'], quotedTok '/' .regex)]) ++
  [(['\''], quotedTok '\'' .transp), (['"'], quotedTok '"' .string),
   (['?', '='], fixedTok '?' '=' .defAssign), ([':', '='], fixedTok ':' '=' .immAssign), (['.', '='], fixedTok '.' '=' .appendAssign),
   (['&', '&'], fixedTok '&' '&' .logicAnd), (['|', '|'], fixedTok '|' '|' .logicOr), (['=', '='], fixedTok '=' '=' .equals),
   (['!', '='], fixedTok '!' '=' .notEquals), (['>', '='], fixedTok '>' '=' .greaterEq), (['<', '='], fixedTok '<' '=' .lessEq),
   (['+', '+'], fixedTok '+' '+' .increment), (['-', '-'], fixedTok '-' '-' .decrement), (['<', '<'], fixedTok '<' '<' .leftShift),
   (['>', '>'], fixedTok '>' '>' .rightShift), (['&'], pnTok), (['+'], pnTok)]

/-- The loop over the quoted tokens (tokeniser.cpp:159-180): the token found and what is behind it.  `more` does not happen, because the buffer
ends with `'\n'`: it is made undefined here, so that the theorem that nothing is undefined says so. -/
def tryTypes : List (Str × (Str → Out Parsed)) → Str → Out (Option (Tok × Str))
  | [], _ => .ok none
  | (p, f) :: qs, s =>
    if p.isPrefixOf s then
      f s >>= fun
        | .done t rest => .ok (some (t, rest))
        | .failed => tryTypes qs s
        | .more => .ub
    else tryTypes qs s

/-- The characters with which a name begins (tokeniser.cpp:183-184, parser.cpp:187-190); `strchr` finds the null character too. -/
def idFirst (msiril : Bool) (c : Char) : Bool := Lib.isAlpha c || c == '_' || (msiril && c == '\x00')

/-- The characters within names (tokeniser.cpp:187-188, parser.cpp:191-194). -/
def idOther (msiril : Bool) (c : Char) : Bool :=
  PN.isAlnum c || c == '_' || (msiril && (c == '%' || c == '-' || c == '!' || c == '\x00'))

/-- The type of the token that is a single character (tokeniser.cpp:214-217, parser.cpp:57-82). -/
def charSym (c : Char) : Sym :=
  if c = '(' then .openParen else if c = ')' then .closeParen else if c = '{' then .openBrace else if c = '}' then .closeBrace
  else if c = '[' then .openBrack else if c = ']' then .closeBrack else if c = ':' then .colon else if c = ',' then .comma
  else if c = '+' then .plus else if c = '-' then .minus else if c = '*' then .times else if c = '/' then .divide
  else if c = '%' then .modulo else if c = '.' then .append else if c = '=' then .assignment else if c = '\n' then .newLine
  else if c = ';' then .semicolon else if c = '~' then .reverse else if c = '>' then .greater else if c = '<' then .less
  else if c = '!' then .logicNot else if c = '&' then .merge else if c = '\x1a' then .ctrlZ else .other

/-- `tolower` in the C locale. -/
def toLowerC (c : Char) : Char := if 'A' ≤ c ∧ c ≤ 'Z' then Char.ofNat (c.toNat + 32) else c

/-- `tokeniser::parse` (tokeniser.cpp:141-219) from where there is a character that is not skipped. -/
def readTok (T : TArgs) : Str → Out (Tok × Str)
  | [] => .ub
  | c :: cs =>
    tryTypes (qtypes T.msiril) (c :: cs) >>= fun
      | some r => .ok r
      | none =>
        if idFirst T.msiril c then
          let w := c :: cs.takeWhile (idOther T.msiril)
          .ok (.name (if T.caseless then w.map toLowerC else w), cs.dropWhile (idOther T.msiril))
        else if Bell.isDigit c then .ok (.num (c :: cs.takeWhile Bell.isDigit), cs.dropWhile Bell.isDigit)
        else .ok (.sym (charSym c), cs)

/-- The tokens of a buffer, and how they end: with the buffer or with an exception (tokeniser.cpp:143-144); `n` bounds their number. -/
def lineToks (T : TArgs) : (n : Nat) → Str → List Tok × Out Unit
  | 0, _ => ([], .timeout)
  | n + 1, s =>
    match s.dropWhile fun c => Bell.isSpace c && c != '\n' with
    | [] => ([], .ok ())
    | c :: cs =>
      match readTok T (c :: cs) with
      | .ok (t, rest) => (t :: (lineToks T n rest).1, (lineToks T n rest).2)
      | .throw e => ([], .throw e)
      | .ub => ([], .ub)
      | .timeout => ([], .timeout)

/-- The tokens of a stream (tokeniser.cpp:141-157), and how they end; `n` bounds the number of lines. -/
def streamToks (T : TArgs) : (n : Nat) → (s : Lib.IStream) → List Tok × Out Unit
  | 0, _ => ([], .timeout)
  | n + 1, s =>
    let (s, buf) := Lib.getline s []
    if s.fail then ([], .ok ())
    else
      match lineToks T (buf.length + 2) (buf ++ ['\n']) with
      | (ts, .ok ()) => (ts ++ (streamToks T n s).1, (streamToks T n s).2)
      | r => r

/-- The tokens of a text. -/
def tokensC (T : TArgs) (text : Str) : List Tok × Out Unit := streamToks T (text.length + 2) ⟨text, false, false⟩

end Ringing.Siril
