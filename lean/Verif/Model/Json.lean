import Verif.Model.Lexer
/-!
Model of `tombi-json-lexer` (`crates/tombi-json-lexer/src/{lib,cursor,lexed,token,error}.rs`), of
the JSON parser (`crates/tombi-json/src/parser.rs`) and of the tree it returns
(`crates/tombi-json/src/node.rs`).

`tombi-json-lexer/src/cursor.rs` is a copy of the cursor of `tombi-lexer` without the line ending;
the model reuses `Tombi.Cursor` for it (the field `lineEnding` is never read here).

Conventions as in `Verif.Model.Lexer`: `&mut self` methods return the new state, a panic is an
explicit outcome, loops whose number of iterations is not structural take fuel and report running
out of it.
-/
namespace Tombi.Json

/-- `crates/tombi-json-syntax/src/lib.rs:8-37` (`SyntaxKind`), the kinds of tokens. -/
inductive Kind where
  | EOF | COMMA | COLON | BRACKET_START | BRACKET_END | BRACE_START | BRACE_END
  | NUMBER | STRING | BOOLEAN | NULL | WHITESPACE | LINE_BREAK | INVALID_TOKEN
  deriving DecidableEq, Repr

/-- `tombi-json-syntax/src/lib.rs:41-43` (`is_trivia`). -/
def Kind.isTrivia : Kind → Bool
  | .WHITESPACE | .LINE_BREAK => true
  | _ => false

/-- `tombi-json-lexer/src/error.rs:9-20` (`ErrorKind`), the kinds that are used. -/
inductive LexErrorKind where
  | InvalidString | InvalidNumber | InvalidTrue | InvalidFalse | InvalidNull | InvalidToken
  | InvalidLineBreak
  deriving DecidableEq, Repr

/-- `tombi-json-lexer/src/error.rs:1-6` (`Error`). -/
structure LexError where
  kind : LexErrorKind
  span : Span
  range : Range
  deriving DecidableEq, Repr

/-- `tombi-json-lexer/src/token.rs` (`Token`). -/
structure Token where
  kind : Kind
  span : Span
  range : Range
  deriving DecidableEq, Repr

/-- `Result<Token, Error>`. -/
inductive Step where
  | tok (t : Token)
  | err (e : LexError)
  deriving DecidableEq, Repr

/-- `Ok(Token::new(kind, self.pop_span_range()))`. -/
def ok (c : Cursor) (k : Kind) : Step × Cursor :=
  (.tok ⟨k, c.popSpanRange.1.1, c.popSpanRange.1.2⟩, c.popSpanRange.2)

/-- `Err(crate::Error::new(kind, self.pop_span_range()))`. -/
def fail (c : Cursor) (k : LexErrorKind) : Step × Cursor :=
  (.err ⟨k, c.popSpanRange.1.1, c.popSpanRange.1.2⟩, c.popSpanRange.2)

/-- `lib.rs:247-251` (`is_token_separator`). -/
def isSep (c : Char) : Bool :=
  isWhitespace c || isLineBreak c || c == '{' || c == '}' || c == '[' || c == ']' || c == ','
    || c == ':' || c == '"' || c == '\x00'

/-- `lib.rs:132-135` (`whitespace`). -/
def whitespace (c : Cursor) : Step × Cursor := ok (c.eatWhile isWhitespace) .WHITESPACE

/-- `lib.rs:141-157` (`line_break`). The loop `while self.peek(1) == '\r' { self.eat_n(1) }` is
`eatWhile`: `'\r'` is not `EOF_CHAR`. -/
def lineBreak (c : Cursor) : Step × Cursor :=
  if c.cur = '\r' then
    if c.peek 1 = '\n' then ok (Cursor.eatN 1 c) .LINE_BREAK
    else fail c .InvalidLineBreak
  else ok (c.eatWhile (· == '\r')) .LINE_BREAK

namespace Rxs
open Rx

def digit : Rx := .cls [('0', '9')]
/-- `lib.rs:23`: `-?(:?[1-9](:?[0-9])*|0)` – the source writes `(:?` (an optional colon) where
`(?:` was meant. -/
def integer : Rx :=
  .cat (opt (ch '-'))
    (.alt (seq [opt (ch ':'), .cls [('1', '9')], .star (seq [opt (ch ':'), digit])]) (ch '0'))
/-- `lib.rs:24`: `-?[0-9]+(:?(:?\.[0-9]+)?[eE][+-]?[0-9]+|\.[0-9]+)`. -/
def float : Rx :=
  seq [opt (ch '-'), plus digit,
    .alt (seq [opt (ch ':'), opt (seq [opt (ch ':'), ch '.', plus digit]),
               .cls [('e', 'e'), ('E', 'E')], opt (.cls [('+', '+'), ('-', '-')]), plus digit])
         (seq [ch '.', plus digit])]

end Rxs

/-- `lib.rs:159-179` (`number`). -/
def number (c : Cursor) : Step × Cursor :=
  let line := c.peekWithCurrentWhile fun x => !isSep x
  match Rxs.float.findEnd line with
  | some e => ok (c.eatMatch e) .NUMBER
  | none =>
    match Rxs.integer.findEnd line with
    | some e => ok (c.eatMatch e) .NUMBER
    | none => fail (c.eatWhile fun x => !isSep x) .InvalidNumber

/-- Where the loop of `string` stands: between characters (`lib.rs:185`), after a backslash
(`:197`), or after `\u` with `n + 1` hexadecimal digits to come (`:202`). -/
inductive StrMode where
  | plain | escape | hex (n : Nat)
  deriving DecidableEq, Repr

/-- `char::is_ascii_hexdigit`. -/
def isHex (c : Char) : Bool := inRange '0' '9' c || inRange 'a' 'f' c || inRange 'A' 'F' c

/-- `lib.rs:199`: the characters of a two-character escape. -/
def isSimpleEscape (c : Char) : Bool :=
  c == '"' || c == '\\' || c == '/' || c == 'b' || c == 'f' || c == 'n' || c == 'r' || c == 't'

/-- loop of `lib.rs:185-230`, one step per `bump()`; the flag is `first_error.is_some()` (the only
error kind stored is `InvalidString`); the list is the remaining text. -/
def stringLoop : StrMode → Bool → List Char → Cursor → Step × Cursor
  | _, _, [], c => fail c.bump .InvalidString
  | .plain, e, x :: xs, c =>
    if x = '"' then
      if e then fail c.bump .InvalidString else ok c.bump .STRING
    else if x.toNat ≤ 0x1F then stringLoop .plain true xs c.bump
    else if x = '\\' then stringLoop .escape e xs c.bump
    else stringLoop .plain e xs c.bump
  | .escape, e, x :: xs, c =>
    if isSimpleEscape x then stringLoop .plain e xs c.bump
    else if x = 'u' then stringLoop (.hex 3) e xs c.bump
    else stringLoop .plain true xs c.bump
  | .hex n, e, x :: xs, c =>
    if isHex x then
      match n with
      | 0 => stringLoop .plain e xs c.bump
      | m + 1 => stringLoop (.hex m) e xs c.bump
    else stringLoop .plain true xs c.bump

/-- `lib.rs:181-233` (`string`). -/
def string (c : Cursor) : Step × Cursor := stringLoop .plain false c.rest c

/-- `lib.rs:95-97` and the three similar places: one more character, then up to a separator. -/
def junk (c : Cursor) (k : LexErrorKind) : Step × Cursor :=
  fail (c.bump.eatWhile fun x => !isSep x) k

/-- `lib.rs:74-125`: the `match` of `advance_token`, after the first character was consumed. -/
def dispatch (c : Cursor) : Step × Cursor :=
  if isWhitespace c.cur then whitespace c
  else if isLineBreak c.cur then lineBreak c
  else if c.cur = '{' then ok c .BRACE_START
  else if c.cur = '}' then ok c .BRACE_END
  else if c.cur = '[' then ok c .BRACKET_START
  else if c.cur = ']' then ok c .BRACKET_END
  else if c.cur = ',' then ok c .COMMA
  else if c.cur = ':' then ok c .COLON
  else if c.cur = '"' then string c
  else if isAsciiDigit c.cur || c.cur == '-' then number c
  else if c.cur = 't' then
    if c.matches ['t', 'r', 'u', 'e'] then ok (Cursor.eatN 3 c) .BOOLEAN
    else junk c .InvalidTrue
  else if c.cur = 'f' then
    if c.matches ['f', 'a', 'l', 's', 'e'] then ok (Cursor.eatN 4 c) .BOOLEAN
    else junk c .InvalidFalse
  else if c.cur = 'n' then
    if c.matches ['n', 'u', 'l', 'l'] then ok (Cursor.eatN 3 c) .NULL
    else junk c .InvalidNull
  else junk c .InvalidToken

/-- `lib.rs:70-126` (`advance_token`) as used by `tokenize` (`:52-66`): `none` when the text is
used up (`Token::eof()`; no other token of kind `EOF` is made). -/
def advanceToken (c : Cursor) : Option (Step × Cursor) :=
  match c.rest with
  | [] => none
  | _ :: _ => some (dispatch c.bump)

/-- `lexed.rs:3-7` (`Lexed`), with the end of the last token (`lib.rs:29-30`). -/
structure LexState where
  tokens : List Token
  errors : List LexError
  lastOff : Nat
  lastPos : Position
  deriving DecidableEq, Repr

/-- `lexed.rs:11-35` (`push_result_token`) and `lib.rs:34-35`. -/
def LexState.push (s : LexState) : Step → LexState
  | .tok t => ⟨s.tokens ++ [t], s.errors, t.span.stop, t.range.stop⟩
  | .err e => ⟨s.tokens ++ [⟨.INVALID_TOKEN, e.span, e.range⟩], s.errors ++ [e], e.span.stop,
      e.range.stop⟩

/-- The loop `lib.rs:32-36` over `tokenize`, with a bound on the number of iterations. -/
def lexLoop : Nat → Cursor → LexState → Except Abort LexState
  | 0, _, _ => .error .outOfFuel
  | n + 1, c, s =>
    match advanceToken c with
    | none => .ok s
    | some (r, c') => lexLoop n c' (s.push r)

/-- `lexed.rs:3-7` (`Lexed`). -/
structure Lexed where
  tokens : List Token
  errors : List LexError
  deriving DecidableEq, Repr

/-- `lib.rs:38-49`: the final `EOF` token. `&source[last_offset..]` may panic. -/
def lexFinish (G : Segmenter) (source : List Char) (s : LexState) : Except Abort Lexed :=
  match byteDrop s.lastOff source with
  | none => .error .panic
  | some tail =>
    .ok ⟨s.tokens ++ [⟨.EOF, ⟨s.lastOff, utf8Len source⟩,
          Range.new s.lastPos (s.lastPos.add (RelPosition.of G tail))⟩], s.errors⟩

/-- `lib.rs:27-50` (`lex`). -/
def lex (G : Segmenter) (source : List Char) : Except Abort Lexed :=
  match lexLoop (source.length + 1) (Cursor.new source) ⟨[], [], 0, Position.zero⟩ with
  | .error e => .error e
  | .ok s => lexFinish G source s

/-! ### node.rs -/

/-- `crates/tombi-json/src/node.rs:8-22, 152-280` (`ValueNode`). A number keeps the text of its
token: `parser.rs:185-198` stores what `f64::from_str` makes of it (see `readInteger`). The
properties of an object are in insertion order (an `IndexMap`). -/
inductive Node where
  | null (range : Range)
  | bool (value : Bool) (range : Range)
  | num (text : List Char) (range : Range)
  | str (value : List Char) (range : Range)
  | arr (items : List Node) (range : Range)
  | obj (properties : List (List Char × Node)) (range : Range)
  deriving Repr

/-- `crates/tombi-json-value/src/lib.rs` (`Value`): the same without ranges. -/
inductive Val where
  | null
  | bool (value : Bool)
  | num (text : List Char)
  | str (value : List Char)
  | arr (items : List Val)
  | obj (members : List (List Char × Val))
  deriving Repr

mutual
/-- `node.rs:322-341` (`From<ValueNode> for Value`). -/
def Node.toVal : Node → Val
  | .null _ => .null
  | .bool b _ => .bool b
  | .num t _ => .num t
  | .str s _ => .str s
  | .arr xs _ => .arr (Node.toVals xs)
  | .obj ms _ => .obj (Node.toMembers ms)
def Node.toVals : List Node → List Val
  | [] => []
  | x :: xs => x.toVal :: Node.toVals xs
def Node.toMembers : List (List Char × Node) → List (List Char × Val)
  | [] => []
  | (k, x) :: xs => (k, x.toVal) :: Node.toMembers xs
end

/-- `node.rs:26-35` (`range`). -/
def Node.range : Node → Range
  | .null r | .bool _ r | .num _ r | .str _ r | .arr _ r | .obj _ r => r

/-! ### parser.rs -/

/-- `crates/tombi-json/src/parser/error.rs` (`Error`), and the two ways a run of the model can end
without a result. -/
inductive Err where
  | invalidValue
  | unexpectedToken (expected actual : Kind)
  | unexpectedEof
  | invalidEscape
  | invalidUnicodeEscape
  | invalidUnicodeCodePoint
  | duplicateKey (key : List Char)
  | recursionLimit
  | panic
  | outOfFuel
  deriving DecidableEq, Repr

/-- `parser.rs:15` (`MAX_RECURSION_DEPTH`). -/
def maxDepth : Nat := 128

/-- `char::to_digit(16)` for a hexadecimal digit. -/
def hexVal (c : Char) : Nat :=
  if inRange '0' '9' c then c.toNat - '0'.toNat
  else if inRange 'a' 'f' c then c.toNat - 'a'.toNat + 10
  else c.toNat - 'A'.toNat + 10

/-- `parser.rs:99-108`, `:114-123`: four hexadecimal digits; the value and the remaining text. -/
def hex4 : List Char → Option (Nat × List Char)
  | a :: b :: c :: d :: rest =>
    if isHex a && isHex b && isHex c && isHex d then
      some (((hexVal a * 16 + hexVal b) * 16 + hexVal c) * 16 + hexVal d, rest)
    else none
  | _ => none

/-- `std::char::from_u32`. -/
def charOf (n : Nat) : Option Char := if h : n.isValidChar then some (Char.ofNatAux n h) else none

/-- `parser.rs:89-96`: two-character escapes. -/
def simpleEscape (c : Char) : Option Char :=
  if c = '"' then some '"'
  else if c = '\\' then some '\\'
  else if c = '/' then some '/'
  else if c = 'b' then some '\x08'
  else if c = 'f' then some '\x0C'
  else if c = 'n' then some '\n'
  else if c = 'r' then some '\r'
  else if c = 't' then some '\t'
  else none

/-- `parser.rs:97-151`: what follows `\u`; the decoded character and the remaining text. -/
def unicodeEscape (s : List Char) : Except Err (Char × List Char) :=
  match hex4 s with
  | none => .error .invalidUnicodeEscape
  | some (cp, rest) =>
    if 0xD800 ≤ cp ∧ cp ≤ 0xDBFF then
      match rest with
      | '\\' :: 'u' :: rest =>
        match hex4 rest with
        | none => .error .invalidUnicodeEscape
        | some (lo, rest) =>
          if 0xDC00 ≤ lo ∧ lo ≤ 0xDFFF then
            match charOf (0x10000 + (cp - 0xD800) * 1024 + (lo - 0xDC00)) with
            | some c => .ok (c, rest)
            | none => .error .invalidUnicodeCodePoint
          else .error .invalidUnicodeCodePoint
      | _ => .error .invalidUnicodeCodePoint
    else if 0xDC00 ≤ cp ∧ cp ≤ 0xDFFF then .error .invalidUnicodeCodePoint
    else
      match charOf cp with
      | some c => .ok (c, rest)
      | none => .error .invalidUnicodeCodePoint

/-- loop of `parser.rs:85-157`; every iteration consumes a character, so the length of the text is
enough fuel. -/
def decodeLoop : Nat → List Char → Except Err (List Char)
  | _, [] => .ok []
  | 0, _ :: _ => .error .outOfFuel
  | n + 1, c :: cs =>
    if c = '\\' then
      match cs with
      | [] => .error .invalidEscape
      | e :: cs =>
        match simpleEscape e with
        | some x =>
          match decodeLoop n cs with
          | .ok t => .ok (x :: t)
          | .error e => .error e
        | none =>
          if e = 'u' then
            match unicodeEscape cs with
            | .error e => .error e
            | .ok (x, rest) =>
              match decodeLoop n rest with
              | .ok t => .ok (x :: t)
              | .error e => .error e
          else .error .invalidEscape
    else
      match decodeLoop n cs with
      | .ok t => .ok (c :: t)
      | .error e => .error e

/-- `parser.rs:78-157`: `content = &raw_str[1..raw_str.len() - 1]` (may panic), decoded. -/
def decodeToken (raw : List Char) : Except Err (List Char) :=
  if utf8Len raw = 0 then .error .panic
  else
    match byteSlice 1 (utf8Len raw - 1) raw with
    | none => .error .panic
    | some content => decodeLoop content.length content

/-- loop of `parser.rs:412-418`. -/
def skipTrivia : List Token → List Token
  | [] => []
  | t :: ts => if t.kind.isTrivia then skipTrivia ts else t :: ts

/-- `parser.rs:403-421` (`advance`): the tokens from the new position on. The position is modelled
by the tokens from it on; `peek` (`:395-397`) is the first of them. -/
def advance : List Token → List Token
  | [] => []
  | _ :: ts => skipTrivia ts

/-- `&self.source[span.start.into()..span.end.into()]`. -/
def slice (source : List Char) (t : Token) : Except Err (List Char) :=
  match byteSlice t.span.start t.span.stop source with
  | none => .error .panic
  | some s => .ok s

/-- `parser.rs:423-432` (`expect`). -/
def expect (k : Kind) : List Token → Except Err (List Token)
  | [] => .error .unexpectedEof
  | t :: ts => if t.kind = k then .ok (skipTrivia ts) else .error (.unexpectedToken k t.kind)

/-- `parser.rs:68-170` (`parse_string`), for a token already known to be a `STRING` (both callers
have checked it, `:176` and `:331`). -/
def parseString (source : List Char) (t : Token) : Except Err (List Char) :=
  match slice source t with
  | .error e => .error e
  | .ok raw => decodeToken raw

/-- `node.rs:213-219`: keys are equal when their texts are (`contains_key`, `parser.rs:341`). -/
def hasKey (k : List Char) (ms : List (List Char × Node)) : Bool := ms.any fun m => m.1 == k

mutual
/-- `parser.rs:172-226` (`parse_value`), the node and the tokens from the new position on. -/
def parseValue (source : List Char) : Nat → Nat → List Token → Except Err (Node × List Token)
  | 0, _, _ => .error .outOfFuel
  | _ + 1, _, [] => .error .unexpectedEof
  | n + 1, depth, t :: ts =>
    match t.kind with
    | .STRING =>
      match parseString source t with
      | .ok s => .ok (.str s t.range, skipTrivia ts)
      | .error e => .error e
    | .NUMBER =>
      match slice source t with
      | .ok s => .ok (.num s t.range, skipTrivia ts)
      | .error e => .error e
    | .NULL => .ok (.null t.range, skipTrivia ts)
    | .BOOLEAN =>
      match slice source t with
      | .ok s => .ok (.bool (s == ['t', 'r', 'u', 'e']) t.range, skipTrivia ts)
      | .error e => .error e
    | .BRACKET_START =>
      -- `parser.rs:228-250`
      if maxDepth ≤ depth then .error .recursionLimit
      else
        match skipTrivia ts with
        | [] => parseItems source n depth t.range [] []
        | u :: us =>
          if u.kind = .BRACKET_END then
            .ok (.arr [] (Range.new t.range.start u.range.stop), skipTrivia us)
          else parseItems source n depth t.range [] (u :: us)
    | .BRACE_START =>
      -- `parser.rs:299-322`
      if maxDepth ≤ depth then .error .recursionLimit
      else
        match skipTrivia ts with
        | [] => parseMembers source n depth t.range [] []
        | u :: us =>
          if u.kind = .BRACE_END then
            .ok (.obj [] (Range.new t.range.start u.range.stop), skipTrivia us)
          else parseMembers source n depth t.range [] (u :: us)
    | _ => .error .invalidValue
/-- The loop `parser.rs:253-296` of `parse_array`; `items` are the elements so far. -/
def parseItems (source : List Char) :
    Nat → Nat → Range → List Node → List Token → Except Err (Node × List Token)
  | 0, _, _, _, _ => .error .outOfFuel
  | n + 1, depth, start, items, ts =>
    match parseValue source n (depth + 1) ts with
    | .error e => .error e
    | .ok (_, []) => .error (.unexpectedToken .BRACKET_END .EOF)
    | .ok (v, u :: us) =>
      if u.kind = .COMMA then
        match skipTrivia us with
        | [] => parseItems source n depth start (items ++ [v]) []
        | w :: ws =>
          if w.kind = .BRACKET_END then
            .ok (.arr (items ++ [v]) (Range.new start.start w.range.stop), skipTrivia ws)
          else parseItems source n depth start (items ++ [v]) (w :: ws)
      else if u.kind = .BRACKET_END then
        .ok (.arr (items ++ [v]) (Range.new start.start u.range.stop), skipTrivia us)
      else .error (.unexpectedToken .BRACKET_END u.kind)
/-- The loop `parser.rs:325-392` of `parse_object`; `ms` are the properties so far. -/
def parseMembers (source : List Char) :
    Nat → Nat → Range → List (List Char × Node) → List Token → Except Err (Node × List Token)
  | 0, _, _, _, _ => .error .outOfFuel
  | _ + 1, _, _, _, [] => .error .unexpectedEof
  | n + 1, depth, start, ms, k :: ks =>
    if k.kind = .STRING then
      match parseString source k with
      | .error e => .error e
      | .ok key =>
        if hasKey key ms then .error (.duplicateKey key)
        else
          match expect .COLON (skipTrivia ks) with
          | .error e => .error e
          | .ok ts =>
            match parseValue source n (depth + 1) ts with
            | .error e => .error e
            | .ok (_, []) => .error (.unexpectedToken .BRACE_END .EOF)
            | .ok (v, u :: us) =>
              if u.kind = .COMMA then
                match skipTrivia us with
                | [] => parseMembers source n depth start (ms ++ [(key, v)]) []
                | w :: ws =>
                  if w.kind = .BRACE_END then
                    .ok (.obj (ms ++ [(key, v)]) (Range.new start.start w.range.stop), skipTrivia ws)
                  else parseMembers source n depth start (ms ++ [(key, v)]) (w :: ws)
              else if u.kind = .BRACE_END then
                .ok (.obj (ms ++ [(key, v)]) (Range.new start.start u.range.stop), skipTrivia us)
              else .error (.unexpectedToken .BRACE_END u.kind)
    else .error (.unexpectedToken .STRING k.kind)
end

/-- `parser.rs:34-66` (`Parser::parse`) on the tokens of `source`. The loop over leading trivia
skips as `advance` does. Every call of one of the three functions consumes a token or is the last
before one does, so twice the number of tokens is enough fuel. -/
def parseTokens (source : List Char) (tokens : List Token) : Except Err Node :=
  match parseValue source (2 * tokens.length + 2) 0 (skipTrivia tokens) with
  | .error e => .error e
  | .ok (v, rest) =>
    match skipTrivia rest with
    | [] => .ok v
    | t :: _ => if t.kind = .EOF then .ok v else .error (.unexpectedToken .EOF t.kind)

/-- `parser.rs:436-439` (`parse`), also `ValueNode::from_str` (`node.rs:144-150`). -/
def parse (G : Segmenter) (source : List Char) : Except Err Node :=
  match lex G source with
  | .error .panic => .error .panic
  | .error .outOfFuel => .error .outOfFuel
  | .ok l => parseTokens source l.tokens

/-! ### numbers -/

/-- The nearest integer with at most 53 significant bits, ties to even: what `f64::from_str` gives
for an integer (IEEE 754 round-to-nearest-even, before the overflow check). -/
def round53 (n : Nat) : Nat :=
  let s := n.log2 + 1 - 53
  let q := n / 2 ^ s
  let r := n % 2 ^ s
  if 2 * r > 2 ^ s ∨ (2 * r = 2 ^ s ∧ q % 2 = 1) then (q + 1) * 2 ^ s else q * 2 ^ s

/-- The decimal value of a list of digits. -/
def digitsVal (ds : List Char) : Nat := ds.foldl (fun n d => n * 10 + (d.toNat - '0'.toNat)) 0

/-- `parser.rs:185-198` with `tombi-json-value/src/number.rs:27-34` (`Number::from_f64`), for a
number token without fraction and exponent: `str::parse::<f64>` rounds, a value of `2^1024` or more
is infinite and is replaced by zero, a value in the `i64` range becomes an `i64` (the cast
saturates), any other stays a float (`none`). -/
def readInteger (text : List Char) : Option Int :=
  let (neg, ds) := match text with
    | '-' :: ds => (true, ds)
    | ds => (false, ds)
  let m := round53 (digitsVal ds)
  if 2 ^ 1024 ≤ m then some 0
  else if neg then
    if m ≤ 2 ^ 63 then some (-(m : Int)) else none
  else
    if m ≤ 2 ^ 63 then some (if m = 2 ^ 63 then (2 : Int) ^ 63 - 1 else (m : Int)) else none

/-! ### printing -/

/-- `node.rs:34-37, 344-365` and `itertools::join(", ")`. -/
def joinComma : List (List Char) → List Char
  | [] => []
  | [x] => x
  | x :: xs => x ++ [',', ' '] ++ joinComma xs

mutual
/-- `node.rs:344-369` (`Display for ValueNode`): texts are not escaped and keys are not quoted. A
number prints the text it was read from (in the source: the number it became). -/
def Val.display : Val → List Char
  | .null => ['n', 'u', 'l', 'l']
  | .bool true => ['t', 'r', 'u', 'e']
  | .bool false => ['f', 'a', 'l', 's', 'e']
  | .num t => t
  | .str s => '"' :: s ++ ['"']
  | .arr xs => '[' :: joinComma (Val.displays xs) ++ [']']
  | .obj ms => '{' :: joinComma (Val.displayMembers ms) ++ ['}']
def Val.displays : List Val → List (List Char)
  | [] => []
  | x :: xs => x.display :: Val.displays xs
def Val.displayMembers : List (List Char × Val) → List (List Char)
  | [] => []
  | (k, v) :: ms => (k ++ [':', ' '] ++ v.display) :: Val.displayMembers ms
end

end Tombi.Json
