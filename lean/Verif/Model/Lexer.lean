import Verif.Basic.Text
import Verif.Basic.Regex
import Verif.Model.Syntax
import Verif.Model.Text
/-!
Model of `tombi-lexer` (`crates/tombi-lexer/src/{lib,cursor,lexed,token,error}.rs`).

Conventions: `&mut self` methods return the new cursor. `debug_assert!`s are not modelled.
A panic is the explicit outcome `panic`. Loops over the remaining text recurse structurally over
a copy of the remaining text (`c.rest`), which every iteration consumes in step with the cursor.
-/
namespace Tombi

/-! ### error.rs, token.rs -/

/-- `crates/tombi-lexer/src/error.rs:8-22` (`ErrorKind`). -/
inductive LexErrorKind where
  | InvalidKey | InvalidBasicString | InvalidLiteralString | InvalidMultilineBasicString
  | InvalidMultilineLiteralString | InvalidNumber | InvalidOffsetDateTime | InvalidLocalDateTime
  | InvalidLocalDate | InvalidLocalTime | InvalidLineBreak | InvalidToken
  deriving DecidableEq, Repr

/-- `error.rs:1-6` (`Error`). -/
structure LexError where
  kind : LexErrorKind
  span : Span
  range : Range
  deriving DecidableEq, Repr

/-- `token.rs:3-8` (`Token`). -/
structure Token where
  kind : SyntaxKind
  span : Span
  range : Range
  deriving DecidableEq, Repr

/-- `token.rs:15-21` (`Token::eof`). -/
def Token.eof : Token := ⟨.EOF, Span.max, Range.max⟩

/-! ### cursor.rs -/

/-- `cursor.rs:3-12` (`Cursor`); `rest` are the characters not yet consumed (`chars`). -/
structure Cursor where
  rest : List Char
  cur : Char
  off : Nat
  pos : Position
  startOff : Nat
  startPos : Position
  lineEnding : LineEnding
  deriving DecidableEq, Repr

/-- `cursor.rs:14` (`EOF_CHAR`). -/
def eofChar : Char := '\x00'

/-- `cursor.rs:17-30` (`Cursor::new`). -/
def Cursor.new (input : List Char) : Cursor :=
  { rest := input, cur := input.headD eofChar, off := 0, pos := Position.zero,
    startOff := 0, startPos := Position.zero, lineEnding := .lf }

namespace Cursor

/-- `cursor.rs:37-45` (`peek`). -/
def peek (c : Cursor) (i : Nat) : Char := c.rest.getD (i - 1) eofChar

/-- `cursor.rs:47-58` (`peek_while`), for stateless predicates. -/
def peekWhile (c : Cursor) (p : Char → Bool) : List Char := c.rest.takeWhile p

/-- `cursor.rs:60-72` (`peeks`). -/
def peeks (c : Cursor) (size : Nat) : List Char := c.rest.take size

/-- `cursor.rs:74-87` (`peeks_with_current`). -/
def peeksWithCurrent (c : Cursor) (size : Nat) : List Char := c.cur :: c.rest.take (size - 1)

/-- `cursor.rs:89-101` (`peek_with_current_while`), for stateless predicates. -/
def peekWithCurrentWhile (c : Cursor) (p : Char → Bool) : List Char := c.cur :: c.rest.takeWhile p

/-- Longest prefix whose `j`-th character (counting from `i`) satisfies `p j`. -/
def takeWhileIdx (p : Nat → Char → Bool) : Nat → List Char → List Char
  | _, [] => []
  | i, x :: xs => if p i x then x :: takeWhileIdx p (i + 1) xs else []

/-- `cursor.rs:89-101` (`peek_with_current_while`) with a predicate that counts its calls; the
count is 1 at the first call. -/
def peekWithCurrentWhileIdx (c : Cursor) (p : Nat → Char → Bool) : List Char :=
  c.cur :: takeWhileIdx p 1 c.rest

/-- loop of `cursor.rs:109-113`. -/
def matchesTail (c : Cursor) : Nat → List Char → Bool
  | _, [] => true
  | i, x :: xs => c.peek (i + 1) == x && matchesTail c (i + 1) xs

/-- `cursor.rs:104-115` (`matches`). -/
def «matches» (c : Cursor) : List Char → Bool
  | [] => false
  | x :: xs => x == c.cur && matchesTail c 0 xs

/-- `cursor.rs:123-133` (`bump`), the new cursor. -/
def bump (c : Cursor) : Cursor :=
  match c.rest with
  | x :: xs =>
    { c with rest := xs, cur := x, off := c.off + x.utf8Size,
             pos := c.pos.add (RelPosition.ofChar x) }
  | [] => { c with cur := eofChar }

/-- `cursor.rs:135-142` (`eat_n`): stops early at the end of the text. -/
def eatN : Nat → Cursor → Cursor
  | 0, c => c
  | n + 1, c =>
    match c.rest with
    | [] => c.bump
    | _ :: _ => eatN n c.bump

/-- loop of `cursor.rs:148-150`. -/
def eatWhileLoop (p : Char → Bool) : List Char → Cursor → Cursor
  | [], c => c
  | x :: xs, c => if p x then eatWhileLoop p xs c.bump else c

/-- `cursor.rs:145-151` (`eat_while`). -/
def eatWhile (c : Cursor) (p : Char → Bool) : Cursor := eatWhileLoop p c.rest c

/-- `cursor.rs:154-167` (`pop_span_range`). -/
def popSpanRange (c : Cursor) : (Span × Range) × Cursor :=
  ((⟨c.startOff, c.off⟩, Range.new c.startPos c.pos),
   { c with startOff := c.off, startPos := c.pos })

end Cursor

/-! ### lib.rs -/

/-- `lib.rs:547-549` (`is_whitespace`). -/
def isWhitespace (c : Char) : Bool := c == ' ' || c == '\t'

/-- `lib.rs:552-554` (`is_line_break`). -/
def isLineBreak (c : Char) : Bool := c == '\r' || c == '\n'

/-- `lib.rs:557-562` (`is_token_separator`). -/
def isTokenSeparator (c : Char) : Bool :=
  c == '{' || c == '}' || c == '[' || c == ']' || c == ',' || c == '=' || c == ' ' || c == '\t'
    || c == '\r' || c == '\n' || c == '#' || c == '\x00'

/-- `lib.rs:565-570` (`is_token_separator_with_dot`). -/
def isTokenSeparatorWithDot (c : Char) : Bool :=
  c == '{' || c == '}' || c == '[' || c == ']' || c == ',' || c == '.' || c == '=' || c == ' '
    || c == '\t' || c == '\r' || c == '\n' || c == '#' || c == '\x00'

/-- Inclusive character range pattern `a..=b`. -/
def inRange (a b c : Char) : Bool := decide (a ≤ c) && decide (c ≤ b)

/-- `char::is_ascii_digit`. -/
def isAsciiDigit (c : Char) : Bool := inRange '0' '9' c

/-- `lib.rs:493-535`: the characters eaten by `key`. -/
def isKeyChar (c : Char) : Bool :=
  inRange 'A' 'Z' c || inRange 'a' 'z' c || inRange '0' '9' c || c == '_' || c == '-'
    || c == '$' || c == '{' || c == '}'
    || u 0xB2 0xB2 || u 0xB3 0xB3 || u 0xB9 0xB9 || u 0xBC 0xBE
    || u 0xC0 0xD6 || u 0xD8 0xF6 || u 0xF8 0x37D
    || u 0x37F 0x1FFF
    || u 0x200C 0x200D || u 0x203F 0x2040
    || u 0x2070 0x218F || u 0x2460 0x24FF
    || u 0x2C00 0x2FEF || u 0x3001 0xD7FF
    || u 0xF900 0xFDCF || u 0xFDF0 0xFFFD
    || u 0x10000 0xEFFFF
where u (a b : Nat) : Bool := decide (a ≤ c.toNat) && decide (c.toNat ≤ b)

namespace LexRx
open Rx

def digit : Rx := .cls [('0', '9')]
def digitU : Rx := .cls [('0', '9'), ('_', '_')]
def oct : Rx := .cls [('0', '7')]
def hex : Rx := .cls [('0', '9'), ('A', 'F'), ('a', 'f')]
/-- `[0|1]` – the source's class contains a literal `|`. -/
def bin : Rx := .cls [('0', '0'), ('|', '|'), ('1', '1')]
/-- `(:?_?X)*` – the source writes `(:?` (an optional colon) where `(?:` was meant. -/
def tail (x : Rx) : Rx := .star (seq [opt (ch ':'), opt (ch '_'), x])

/-- `lib.rs:24`. -/
def integerBin : Rx := seq [ch '0', ch 'b', bin, tail bin]
/-- `lib.rs:25`. -/
def integerOct : Rx := seq [ch '0', ch 'o', oct, tail oct]
/-- `lib.rs:26`. -/
def integerHex : Rx := seq [ch '0', ch 'x', hex, tail hex]
/-- `lib.rs:27`. -/
def integerDec : Rx := .alt (seq [opt (ch ':'), .cls [('1', '9')], tail digit]) (ch '0')
/-- `lib.rs:28`. -/
def float : Rx :=
  .cat (plus digitU)
    (.alt (seq [opt (ch ':'), opt (seq [opt (ch ':'), ch '.', plus digitU]),
                .cls [('e', 'e'), ('E', 'E')], opt (.cls [('+', '+'), ('-', '-')]), plus digitU])
          (seq [ch '.', plus digitU]))
/-- `[0-9]{4}-[0-9]{2}-[0-9]{2}` -/
def date : Rx := seq [rep digit 4, ch '-', rep digit 2, ch '-', rep digit 2]
/-- `[0-9]{2}:[0-9]{2}(?::[0-9]{2})?(?:[\.,][0-9]+)?` -/
def time : Rx :=
  seq [rep digit 2, ch ':', rep digit 2, opt (seq [ch ':', rep digit 2]),
       opt (seq [.cls [('.', '.'), (',', ',')], plus digit])]
def dateTimeSep : Rx := .cls [('T', 'T'), ('t', 't'), (' ', ' ')]
/-- `(?:[Zz]|[+-][0-9]{2}:[0-9]{2})` -/
def zone : Rx :=
  .alt (.cls [('Z', 'Z'), ('z', 'z')])
    (seq [.cls [('+', '+'), ('-', '-')], rep digit 2, ch ':', rep digit 2])
/-- `lib.rs:30-31`. -/
def offsetDateTime : Rx := seq [date, dateTimeSep, time, zone]
/-- `lib.rs:32`. -/
def localDateTime : Rx := seq [date, dateTimeSep, time]
/-- `lib.rs:33`. -/
def localDate : Rx := date
/-- `lib.rs:34`. -/
def localTime : Rx := time

end LexRx

/-- Match of an expression against a prefix (pattern `^…` without `$`), as in `lib.rs:29`. -/
def Rx.matchPrefix (r : Rx) : List Char → Bool
  | [] => r.nullable
  | c :: cs => r.nullable || (r.deriv c).matchPrefix cs

/-- `Regex::find` for a pattern anchored at both ends (`^…$`): the end offset in bytes of the only
possible match. -/
def Rx.findEnd (r : Rx) (line : List Char) : Option Nat :=
  if r.matchAll line then some (utf8Len line) else none

/-- Outcome of `advance_token`: `Result<Token, Error>`, or a panic. -/
inductive LexStep where
  | tok (t : Token)
  | err (e : LexError)
  | panic
  deriving DecidableEq, Repr

/-- `Ok(Token::new(kind, self.pop_span_range()))`. -/
def Cursor.ok (c : Cursor) (k : SyntaxKind) : LexStep × Cursor :=
  (.tok ⟨k, c.popSpanRange.1.1, c.popSpanRange.1.2⟩, c.popSpanRange.2)

/-- `Err(crate::Error::new(kind, self.pop_span_range()))`. -/
def Cursor.fail (c : Cursor) (k : LexErrorKind) : LexStep × Cursor :=
  (.err ⟨k, c.popSpanRange.1.1, c.popSpanRange.1.2⟩, c.popSpanRange.2)

namespace Cursor

/-- `if m.end() > 1 { self.eat_n(m.end() - 1) }`. -/
def eatMatch (c : Cursor) (e : Nat) : Cursor := if e > 1 then eatN (e - 1) c else c

/-- `lib.rs:182-185`. -/
def whitespace (c : Cursor) : LexStep × Cursor := (c.eatWhile isWhitespace).ok .WHITESPACE

/-- `lib.rs:187-192`. -/
def lineComment (c : Cursor) : LexStep × Cursor :=
  (c.eatWhile fun x => !(x == '\n' || x == '\r')).ok .COMMENT

/-- `lib.rs:198-212`. -/
def lineBreak (c : Cursor) : LexStep × Cursor :=
  if c.cur = '\r' then
    if c.peek 1 = '\n' then
      ({ Cursor.eatN 1 c with lineEnding := .crlf } : Cursor).ok .LINE_BREAK
    else c.fail .InvalidLineBreak
  else c.ok .LINE_BREAK

/-- `lib.rs:215-217`; `keyword.len()` is the byte length. -/
def isKeyword (c : Cursor) (kw : List Char) : Bool :=
  c.matches kw && isTokenSeparatorWithDot (c.peek (utf8Len kw))

/-- `lib.rs:219-223`. -/
def isDateTime (c : Cursor) : Bool := LexRx.date.matchPrefix (c.peeksWithCurrent 10)

/-- `lib.rs:225-290`. `&line[..10]` may panic in principle. -/
def dateTime (c : Cursor) : LexStep × Cursor :=
  let line := c.peekWithCurrentWhileIdx fun i x => (i == 10 && x == ' ') || !isTokenSeparator x
  let finish (c : Cursor) (k : LexErrorKind) : LexStep × Cursor :=
    (c.eatWhile fun x => !isTokenSeparatorWithDot x).fail k
  match LexRx.offsetDateTime.findEnd line with
  | some e =>
    let c1 := c.eatMatch e
    if isTokenSeparatorWithDot (c1.peek 1) then c1.ok .OFFSET_DATE_TIME
    else finish c1 .InvalidLocalDate
  | none =>
    match LexRx.localDateTime.findEnd line with
    | some e =>
      let c1 := c.eatMatch e
      if isTokenSeparatorWithDot (c1.peek 1) then c1.ok .LOCAL_DATE_TIME
      else finish c1 .InvalidOffsetDateTime
    | none =>
      match byteTake 10 line with
      | none => (.panic, c)
      | some line10 =>
        match LexRx.localDate.findEnd line10 with
        | some e =>
          let c1 := c.eatMatch e
          if isTokenSeparatorWithDot (c1.peek 1) then c1.ok .LOCAL_DATE
          else finish c1 .InvalidLocalDateTime
        | none => finish c .InvalidLocalDate

/-- `lib.rs:292-296`. -/
def isTime (c : Cursor) : Bool := (LexRx.localTime.findEnd (c.peeksWithCurrent 5)).isSome

/-- `lib.rs:298-314`. -/
def time (c : Cursor) : LexStep × Cursor :=
  let line := c.peekWithCurrentWhile fun x => !isTokenSeparator x
  match LexRx.localTime.findEnd line with
  | some e => (c.eatMatch e).ok .LOCAL_TIME
  | none => (c.eatWhile fun x => !isLineBreak x && !isWhitespace x).fail .InvalidLocalTime

/-- `lib.rs:316-324`. -/
def isNumber (c : Cursor) : Bool :=
  let line := c.peekWithCurrentWhile fun x => !isTokenSeparator x
  (LexRx.float.findEnd line).isSome || (LexRx.integerBin.findEnd line).isSome
    || (LexRx.integerOct.findEnd line).isSome || (LexRx.integerHex.findEnd line).isSome
    || (LexRx.integerDec.findEnd line).isSome

/-- `lib.rs:326-377`; the five branches of the `if let` chain, tried in the source's order. -/
def number (c : Cursor) : LexStep × Cursor :=
  let line := c.peekWithCurrentWhile fun x => !isTokenSeparator x
  let finish (c : Cursor) : LexStep × Cursor :=
    (c.eatWhile fun x => !isTokenSeparatorWithDot x).fail .InvalidNumber
  let arm (e : Nat) (k : SyntaxKind) : LexStep × Cursor :=
    let c1 := c.eatMatch e
    if isTokenSeparatorWithDot (c1.peek 1) then c1.ok k else finish c1
  match LexRx.float.findEnd line with
  | some e => arm e .FLOAT
  | none =>
    match LexRx.integerBin.findEnd line with
    | some e => arm e .INTEGER_BIN
    | none =>
      match LexRx.integerOct.findEnd line with
      | some e => arm e .INTEGER_OCT
      | none =>
        match LexRx.integerHex.findEnd line with
        | some e => arm e .INTEGER_HEX
        | none =>
          match LexRx.integerDec.findEnd line with
          | some e => arm e .INTEGER_DEC
          | none => finish c

/-- loop of `lib.rs:382-395`; the list is the remaining text. -/
def basicStringLoop : List Char → Cursor → LexStep × Cursor
  | [], c => c.bump.fail .InvalidBasicString
  | x :: xs, c =>
    let c1 := c.bump
    if x = '"' then c1.ok .BASIC_STRING
    else if x = '\\' ∧ (c1.peek 1 = '"' ∨ c1.peek 1 = '\\') then
      match xs with
      | [] => c1.bump.bump.fail .InvalidBasicString
      | _ :: ys => basicStringLoop ys c1.bump
    else if isLineBreak (c1.peek 1) then c1.fail .InvalidBasicString
    else basicStringLoop xs c1

/-- `lib.rs:379-396`. -/
def basicString (c : Cursor) : LexStep × Cursor := basicStringLoop c.rest c

/-- loop of `lib.rs:404-436`; the list is the remaining text, the flag is `was_quote`. -/
def multiLineBasicStringLoop : List Char → Bool → Cursor → LexStep × Cursor
  | [], _, c => c.bump.fail .InvalidMultilineBasicString
  | x :: xs, wasQuote, c =>
    let c1 := c.bump
    if !wasQuote && c1.cur == '"' && c1.peek 1 == '"' && c1.peek 2 == '"' then
      let lastQuotes := c1.peekWhile (· == '"')
      let c2 := c1.eatWhile (· == '"')
      if utf8Len lastQuotes > 4 then c2.fail .InvalidMultilineBasicString
      else c2.ok .MULTI_LINE_BASIC_STRING
    else if x = '\\' then multiLineBasicStringLoop xs true c1
    else multiLineBasicStringLoop xs false c1

/-- `lib.rs:398-437`. -/
def multiLineBasicString (c : Cursor) : LexStep × Cursor :=
  multiLineBasicStringLoop (Cursor.eatN 2 c).rest false (Cursor.eatN 2 c)

/-- loop of `lib.rs:442-458`. -/
def literalStringLoop : List Char → Cursor → LexStep × Cursor
  | [], c => c.bump.fail .InvalidLiteralString
  | x :: xs, c =>
    let c1 := c.bump
    if x = '\'' then c1.ok .LITERAL_STRING
    else if isLineBreak (c1.peek 1) then c1.fail .InvalidLiteralString
    else literalStringLoop xs c1

/-- `lib.rs:439-459`. -/
def literalString (c : Cursor) : LexStep × Cursor := literalStringLoop c.rest c

/-- loop of `lib.rs:466-488`. -/
def multiLineLiteralStringLoop : List Char → Cursor → LexStep × Cursor
  | [], c => c.bump.fail .InvalidMultilineLiteralString
  | _ :: xs, c =>
    let c1 := c.bump
    if c1.cur == '\'' && c1.peek 1 == '\'' && c1.peek 2 == '\'' then
      let lastQuotes := c1.peekWhile (· == '\'')
      let c2 := c1.eatWhile (· == '\'')
      if utf8Len lastQuotes > 4 then c2.fail .InvalidMultilineLiteralString
      else c2.ok .MULTI_LINE_LITERAL_STRING
    else multiLineLiteralStringLoop xs c1

/-- `lib.rs:461-489`. -/
def multiLineLiteralString (c : Cursor) : LexStep × Cursor :=
  multiLineLiteralStringLoop (Cursor.eatN 2 c).rest (Cursor.eatN 2 c)

/-- `lib.rs:491-543`. -/
def key (c : Cursor) : LexStep × Cursor :=
  let c1 := c.eatWhile isKeyChar
  if isTokenSeparatorWithDot (c1.peek 1) then c1.ok .BARE_KEY
  else (c1.eatWhile fun x => !isTokenSeparatorWithDot x).fail .InvalidKey

/-- `lib.rs:171-174`: the default arm. -/
def invalidToken (c : Cursor) : LexStep × Cursor :=
  (c.eatWhile fun x => !isTokenSeparatorWithDot x).fail .InvalidToken

/-- `lib.rs:103-113`: the arm for a digit. -/
def digitArm (c : Cursor) : LexStep × Cursor :=
  if c.isDateTime then c.dateTime
  else if c.isTime then c.time
  else if c.isNumber then c.number
  else c.key

/-- `lib.rs:121-132`: the arm for `+`. -/
def plusArm (c : Cursor) : LexStep × Cursor :=
  let c1 := c.bump
  if c1.isKeyword ['i', 'n', 'f'] || c1.isKeyword ['n', 'a', 'n'] then (Cursor.eatN 2 c1).ok .FLOAT
  else if isAsciiDigit c1.cur then c1.number
  else c1.invalidToken

/-- `lib.rs:133-149`: the arm for `-`. -/
def minusArm (c : Cursor) : LexStep × Cursor :=
  if (c.peeks 3 = ['i', 'n', 'f'] ∨ c.peeks 3 = ['n', 'a', 'n'])
      ∧ isTokenSeparatorWithDot (c.peek 4) = true then
    (Cursor.eatN 3 c).ok .FLOAT
  else if isAsciiDigit (c.peek 1) then
    let c1 := c.bump
    if c1.isNumber then c1.number else c1.key
  else c.key

/-- `lib.rs:157-170`: the arm for letters, `_`, `$` and characters from U+A0. -/
def wordArm (c : Cursor) : LexStep × Cursor :=
  if c.isKeyword ['i', 'n', 'f'] || c.isKeyword ['n', 'a', 'n'] then (Cursor.eatN 2 c).ok .FLOAT
  else if c.isKeyword ['t', 'r', 'u', 'e'] then (Cursor.eatN 3 c).ok .BOOLEAN
  else if c.isKeyword ['f', 'a', 'l', 's', 'e'] then (Cursor.eatN 4 c).ok .BOOLEAN
  else c.key

/-- `lib.rs:91-175`: the `match` of `advance_token`, after the first character was consumed. -/
def dispatch (c : Cursor) : LexStep × Cursor :=
  if isWhitespace c.cur then c.whitespace
  else if isLineBreak c.cur then c.lineBreak
  else if c.cur = '#' then c.lineComment
  else if c.cur = '"' then
    if c.matches ['"', '"', '"'] then c.multiLineBasicString else c.basicString
  else if isAsciiDigit c.cur then c.digitArm
  else if c.cur = '\'' then
    if c.matches ['\'', '\'', '\''] then c.multiLineLiteralString else c.literalString
  else if c.cur = '+' then c.plusArm
  else if c.cur = '-' then c.minusArm
  else if c.cur = '{' then c.ok .BRACE_START
  else if c.cur = '}' then c.ok .BRACE_END
  else if c.cur = '[' then c.ok .BRACKET_START
  else if c.cur = ']' then c.ok .BRACKET_END
  else if c.cur = ',' then c.ok .COMMA
  else if c.cur = '.' then c.ok .DOT
  else if c.cur = '=' then c.ok .EQUAL
  else if inRange 'A' 'Z' c.cur || inRange 'a' 'z' c.cur || c.cur == '_' || c.cur == '$'
      || decide (0xA0 ≤ c.cur.toNat) then c.wordArm
  else c.invalidToken

/-- `lib.rs:87-176` (`advance_token`). -/
def advanceToken (c : Cursor) : LexStep × Cursor :=
  match c.rest with
  | [] => (.tok Token.eof, c.bump)
  | _ :: _ => c.bump.dispatch

end Cursor

/-! ### lexed.rs -/

/-- `lexed.rs:7-13` (`Lexed`); each `u64` of `joints` is a `Nat` (bits above 63 are never set). -/
structure Lexed where
  tokens : List Token
  joints : List Nat
  errors : List LexError
  lineEnding : LineEnding
  deriving DecidableEq, Repr

/-- Why a computation did not return. -/
inductive Abort where
  | panic
  | outOfFuel
  deriving DecidableEq, Repr

/-- `lexed.rs:46-50` (`bit_index`). -/
def bitIndex (n : Nat) : Nat × Nat := (n / 64, n % 64)

/-- `lexed.rs:63-67` (`set_joint`). `self.len() - 1` underflows on an empty list, and
`self.joints[idx]` may be out of range: both panic. -/
def Lexed.setJoint (l : Lexed) : Except Abort Lexed :=
  if l.tokens.length = 0 then .error .panic
  else
    let (idx, b) := bitIndex (l.tokens.length - 1)
    match l.joints[idx]? with
    | none => .error .panic
    | some w => .ok { l with joints := l.joints.set idx (w ||| (1 <<< b)) }

/-- `lexed.rs:69-72` (`is_joint`); `none` = panic. -/
def Lexed.isJoint (l : Lexed) (n : Nat) : Option Bool :=
  (l.joints[(bitIndex n).1]?).map fun w => w.testBit (bitIndex n).2

/-- `lexed.rs:21-24`. -/
def Lexed.growJoints (l : Lexed) : Lexed :=
  if l.tokens.length % 64 = 0 then { l with joints := l.joints ++ [0] } else l

/-- `lexed.rs:17-44` (`push_result_token`) for an `Ok` result. -/
def Lexed.pushToken (l : Lexed) (t : Token) : Lexed :=
  { l.growJoints with tokens := l.tokens ++ [t] }

/-- `lexed.rs:17-44` (`push_result_token`) for an `Err` result. -/
def Lexed.pushError (l : Lexed) (e : LexError) : Lexed :=
  { l.growJoints with
      tokens := l.tokens ++ [⟨.INVALID_TOKEN, e.span, e.range⟩], errors := l.errors ++ [e] }

/-- State of the loop `lib.rs:45-58`. -/
structure LexState where
  lexed : Lexed
  wasJoint : Bool
  lastOff : Nat
  lastPos : Position
  deriving DecidableEq, Repr

/-- Body of the loop `lib.rs:45-58` for an `Ok` token. -/
def LexState.onToken (s : LexState) (t : Token) : Except Abort LexState :=
  if t.kind.isTrivia then
    .ok ⟨s.lexed.pushToken t, false, t.span.stop, t.range.stop⟩
  else do
    let l ← if s.wasJoint then s.lexed.setJoint else .ok s.lexed
    .ok ⟨l.pushToken t, true, t.span.stop, t.range.stop⟩

/-- Body of the loop `lib.rs:45-58` for an `Err`. -/
def LexState.onError (s : LexState) (e : LexError) : Except Abort LexState := do
  let l ← if s.wasJoint then s.lexed.setJoint else .ok s.lexed
  .ok ⟨l.pushError e, true, e.span.stop, e.range.stop⟩

/-- The loop `lib.rs:45-58` over `tokenize` (`lib.rs:75-83`): runs `advance_token` until it returns
an `EOF` token. The first argument bounds the number of iterations; running out of it is reported
as `outOfFuel`, so termination is a theorem about this function, not an assumption. -/
def lexLoop : Nat → Cursor → LexState → Except Abort (Cursor × LexState)
  | 0, _, _ => .error .outOfFuel
  | n + 1, c, s =>
    match c.advanceToken with
    | (.panic, _) => .error .panic
    | (.tok t, c') =>
      if t.kind = .EOF then .ok (c', s)
      else
        match s.onToken t with
        | .ok s' => lexLoop n c' s'
        | .error e => .error e
    | (.err e, c') =>
      match s.onError e with
      | .ok s' => lexLoop n c' s'
      | .error e => .error e

/-- `lib.rs:38-41`: initial state. -/
def LexState.init : LexState := ⟨⟨[], [], [], .lf⟩, false, 0, Position.zero⟩

/-- `lib.rs:60-72`: the final `EOF` token. `&source[last_offset..]` may panic. -/
def lexFinish (G : Segmenter) (source : List Char) (c : Cursor) (s : LexState) :
    Except Abort Lexed :=
  match byteDrop s.lastOff source with
  | none => .error .panic
  | some tail =>
    .ok { s.lexed with
          lineEnding := c.lineEnding
          tokens := s.lexed.tokens ++
            [⟨.EOF, ⟨s.lastOff, utf8Len source⟩,
              Range.new s.lastPos (s.lastPos.add (RelPosition.of G tail))⟩] }

/-- `lib.rs:37-73` (`lex`), with at most `fuel` iterations of the token loop. -/
def lexWith (G : Segmenter) (fuel : Nat) (source : List Char) : Except Abort Lexed :=
  match lexLoop fuel (Cursor.new source) LexState.init with
  | .error e => .error e
  | .ok (c, s) => lexFinish G source c s

/-- `lib.rs:37-73` (`lex`). One iteration per character plus one is always enough (proved:
`C03_lex_terminates`). -/
def lex (G : Segmenter) (source : List Char) : Except Abort Lexed :=
  lexWith G (source.length + 1) source

end Tombi
