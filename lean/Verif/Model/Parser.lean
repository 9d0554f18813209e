import Verif.Model.Lexer
import Verif.Model.TokenSet
/-!
Model of the parser proper: `crates/tombi-parser/src/{parser,marker,event,error}.rs`,
`parse.rs`, `parse/*.rs` and `support/comment.rs`.

Conventions. A parser method is a function in `PM`: it takes the parser and returns a result and the
new parser, or aborts. A failing `debug_assert!`, an index out of range, a slice off a character
boundary, a counter underflow and `unreachable!()` are `Abort.panic`: the model is the debug build;
where no abort happens the release build behaves the same. Loops take fuel: running out is
`Abort.outOfFuel`, which the theorems show never happens.

Simplifications: `Event::Start` has no `forward_parent` field (`parser.rs`/`marker.rs` only ever
write `None`); event indexes are `Nat` instead of `u32`; the drop bomb of `Marker` is not modelled,
except in `Value::parse` (`value.rs:41`), the only place where a marker could be dropped.
-/
namespace Tombi

open SyntaxKind

/-- `crates/tombi-parser/src/error.rs:3-75` (`ErrorKind`). -/
inductive PErrorKind where
  | lex (k : LexErrorKind)
  | UnknownLine | ExpectedKey | ExpectedValue | ExpectedEqual | ExpectedBracketEnd
  | ExpectedDoubleBracketEnd | ExpectedBraceEnd | ExpectedLineBreak | ForbiddenKeysLastPeriod
  | RecursionLimitExceeded
  deriving DecidableEq, Repr

/-- `error.rs:77-82` (`Error`). -/
structure PError where
  kind : PErrorKind
  range : Range
  deriving DecidableEq, Repr

/-- `event.rs:5-26` (`Event`). -/
inductive Event where
  | start (kind : SyntaxKind)
  | finish
  | token (kind : SyntaxKind) (nRaw : Nat)
  | error (e : PError)
  deriving DecidableEq, Repr

/-- `parser.rs:16-23` (`Parser`). -/
structure Parser where
  source : List Char
  input : List Token
  pos : Nat
  depth : Nat
  tokens : List Token
  events : List Event
  deriving DecidableEq, Repr

/-- `parser.rs:26-35` (`Parser::new`). -/
def Parser.new (source : List Char) (input : List Token) : Parser :=
  { source, input, pos := 0, depth := 0, tokens := [], events := [] }

/-- `parser.rs:13` (`MAX_RECURSION_DEPTH`). -/
def maxRecursionDepth : Nat := 128

/-- A parser method with result `α`. -/
abbrev PM (α : Type) := StateT Parser (Except Abort) α

namespace Parser

/-- `parser.rs:55-60` (`finish`). -/
def finish (p : Parser) : List Token × List Event := (p.tokens ++ p.input.drop p.pos, p.events)

/-- `parser.rs:86-95`: the loop of `nth_index` over the tokens from position `pos` on; `n` is the
number of further non-trivia tokens to pass. -/
def nthIndexFrom : List Token → Nat → Nat → Nat
  | [], pos, _ => pos
  | t :: ts, pos, n =>
    if t.kind.isTrivia then nthIndexFrom ts (pos + 1) n
    else match n with
      | 0 => pos
      | n + 1 => nthIndexFrom ts (pos + 1) n

/-- `parser.rs:84-96` (`nth_index`). -/
def nthIndex (p : Parser) (n : Nat) : Nat := nthIndexFrom (p.input.drop p.pos) p.pos n

/-- `parser.rs:98-105` (`nth_token`). -/
def nthToken (p : Parser) (n : Nat) : Token := p.input[p.nthIndex n]?.getD Token.eof

/-- `parser.rs:108-110` (`nth`). -/
def nth (p : Parser) (n : Nat) : SyntaxKind := (p.nthToken n).kind

/-- `parser.rs:63-65` (`current`). -/
def current (p : Parser) : SyntaxKind := p.nth 0

/-- `parser.rs:130-137` (`is_joint`). -/
def isJoint (p : Parser) (n : Nat) : Bool :=
  match p.input[p.nthIndex n + 1]? with
  | none => false
  | some t => !t.kind.isTrivia

/-- `parser.rs:139-141` (`at_composite2`). -/
def atComposite2 (p : Parser) (n : Nat) (k1 k2 : SyntaxKind) : Bool :=
  p.nth n == k1 && p.nth (n + 1) == k2 && p.isJoint n

/-- `parser.rs:117-123` (`nth_at`). -/
def nthAt (p : Parser) (n : Nat) (k : SyntaxKind) : Bool :=
  match k with
  | DOUBLE_BRACKET_START => p.atComposite2 n BRACKET_START BRACKET_START
  | DOUBLE_BRACKET_END => p.atComposite2 n BRACKET_END BRACKET_END
  | k => p.nth n == k

/-- `parser.rs:113-115` (`at`). -/
def atKind (p : Parser) (k : SyntaxKind) : Bool := p.nthAt 0 k

/-- `parser.rs:171-173` (`nth_at_ts`). -/
def nthAtTs (p : Parser) (n : Nat) (ts : TokenSet) : Bool := ts.contains (p.nth n)

/-- `parser.rs:166-168` (`at_ts`). -/
def atTs (p : Parser) (ts : TokenSet) : Bool := ts.contains p.current

/-- `parser.rs:126-128` (`nth_range`). -/
def nthRange (p : Parser) (n : Nat) : Range := (p.nthToken n).range

/-- `parser.rs:77-81`: the backwards walk of `previous_range`. -/
def previousFrom (input : List Token) : Nat → Nat
  | 0 => 0
  | pos + 1 =>
    if (input[pos + 1]?.getD Token.eof).kind.isTrivia then previousFrom input pos else pos + 1

end Parser

namespace PM

/-- A panic. -/
def panic {α : Type} : PM α := throw .panic

/-- `debug_assert!`. -/
def dassert (b : Bool) : PM Unit := if b then pure () else panic

/-- Reads a pure method of the parser. -/
def read {α : Type} (f : Parser → α) : PM α := do return f (← get)

/-- `parser.rs:68-70` (`current_range`): indexes `input_tokens`. -/
def currentRange : PM Range := do
  let p ← get
  match p.input[p.pos]? with
  | some t => return t.range
  | none => panic

/-- `parser.rs:73-82` (`previous_range`). -/
def previousRange : PM Range := do
  let p ← get
  if p.pos = 0 then return Range.zero
  match p.input[Parser.previousFrom p.input (p.pos - 1)]? with
  | some t => return t.range
  | none => panic

/-- `parser.rs:329-331` (`push_event`). -/
def pushEvent (e : Event) : PM Unit := modify fun p => { p with events := p.events ++ [e] }

/-- `parser.rs:340-342` (`error`). -/
def error (kind : PErrorKind) (range : Range) : PM Unit := pushEvent (.error ⟨kind, range⟩)

/-- `parser.rs:178-182` (`start`): returns the index of the pushed tombstone. -/
def start : PM Nat := do
  let p ← get
  pushEvent (.start TOMBSTONE)
  return p.events.length

/-- `marker.rs:20-30` (`Marker::complete`). -/
def complete (m : Nat) (kind : SyntaxKind) : PM Unit := do
  let p ← get
  match p.events[m]? with
  | some (.start _) =>
    set { p with events := p.events.set m (.start kind) }
    pushEvent .finish
  | _ => panic

/-- `parser.rs:311-317` (`do_bump`). -/
def doBump (kind : SyntaxKind) (n : Nat) : PM Unit := do
  pushEvent (.token kind n)
  let p ← get
  let i := p.nthIndex n
  if p.pos ≤ i then
    set { p with tokens := p.tokens ++ (p.input.take i).drop p.pos, pos := i }
  else panic

/-- `parser.rs:319-326` (`do_bump_kind`). -/
def doBumpKind (kind : SyntaxKind) : PM Unit :=
  doBump kind (if kind = DOUBLE_BRACKET_START ∨ kind = DOUBLE_BRACKET_END then 2 else 1)

/-- `parser.rs:144-152` (`eat`). -/
def eat (kind : SyntaxKind) : PM Bool := do
  if ← read (·.atKind kind) then
    doBumpKind kind
    return true
  else return false

/-- `parser.rs:154-163` (`eat_ts`). -/
def eatTs (kinds : TokenSet) : PM Bool := do
  let kind ← read (·.current)
  if kinds.contains kind then
    doBumpKind kind
    return true
  else return false

/-- `parser.rs:185-188` (`bump`). -/
def bump (kind : SyntaxKind) : PM Unit := do
  let eaten ← eat kind
  dassert eaten

/-- `parser.rs:191-197` (`bump_any`). -/
def bumpAny : PM Unit := do
  let kind ← read (·.nth 0)
  if kind = EOF then return ()
  doBump kind 1

/-- `parser.rs:205-211` (`bump_remap`). -/
def bumpRemap (kind : SyntaxKind) : PM Unit := do
  if (← read (·.nth 0)) = EOF then return ()
  doBump kind 1

/-- `str::split('.')` (`parser.rs:225`): the pieces between the dots, never empty. -/
def splitDot : List Char → List (List Char)
  | [] => [[]]
  | '.' :: cs => [] :: splitDot cs
  | c :: cs => match splitDot cs with
    | [] => [[c]]
    | w :: ws => (c :: w) :: ws

/-- `parser.rs:229-253`, `:255-281`, `:283-307`: pushes a made-up token, wrapped in a node of its own
kind. -/
def pushToken (t : Token) : PM Unit := do
  let m ← start
  modify fun p => { p with tokens := p.tokens ++ [t] }
  pushEvent (.token t.kind 1)
  complete m t.kind

/-- The made-up token of kind `kind` that starts at byte `off`, position `pos` with text `text`
(`parser.rs:231-243`, `:257-269`, `:285-297`). -/
def madeToken (G : Segmenter) (kind : SyntaxKind) (off : Nat) (pos : Position) (text : List Char) :
    Token :=
  ⟨kind, ⟨off, off + utf8Len text⟩, Range.new pos (pos.add (RelPosition.of G text))⟩

/-- `parser.rs:213-309` (`bump_float_key`). -/
def bumpFloatKey (G : Segmenter) : PM Unit := do
  dassert (← read fun p => p.nth 0 == FLOAT)
  let token ← read (·.nthToken 0)
  match byteSlice token.span.start token.span.stop (← read (·.source)) with
  | none => panic
  | some text =>
    if '.' ∈ text then
      match splitDot text with
      | [part0, part1] =>
        let key1 := madeToken G BARE_KEY token.span.start token.range.start part0
        pushToken key1
        let dot := madeToken G DOT key1.span.stop key1.range.stop ['.']
        pushToken dot
        pushToken (madeToken G BARE_KEY dot.span.stop dot.range.stop part1)
        modify fun p => { p with pos := p.pos + 1 }
      | _ => panic
    else
      let m ← start
      bumpRemap BARE_KEY
      complete m BARE_KEY

/-- `parser.rs:334-336` (`invalid_token`). -/
def invalidToken : PM Unit := do
  let m ← start
  complete m INVALID_TOKEN

/-- Enough rounds for any loop each round of which consumes a token. -/
def loopFuel (p : Parser) : Nat := p.input.length + 1

/-! ### support/comment.rs -/

/-- `support/comment.rs:5-16`: the loop of `peek_leading_comments`. -/
def peekLeadingCommentsLoop (p : Parser) : Nat → Nat → Except Abort Nat
  | 0, _ => .error .outOfFuel
  | fuel + 1, n =>
    if p.nthAt n LINE_BREAK then peekLeadingCommentsLoop p fuel (n + 1)
    else if p.nthAt n COMMENT && p.nthAt (n + 1) LINE_BREAK && !p.nthAt (n + 2) LINE_BREAK then
      peekLeadingCommentsLoop p fuel (n + 2)
    else .ok n

/-- `support/comment.rs:3-17` (`peek_leading_comments`). -/
def peekLeadingComments : PM Nat := do
  let p ← get
  peekLeadingCommentsLoop p (loopFuel p) 0

/-- `while p.eat_ts(kinds) {}`. -/
def eatTsLoop (kinds : TokenSet) : Nat → PM Unit
  | 0 => throw .outOfFuel
  | fuel + 1 => do
    if ← eatTs kinds then eatTsLoop kinds fuel else return ()

/-- `while p.eat(kind) {}`. -/
def eatLoop (kind : SyntaxKind) : Nat → PM Unit
  | 0 => throw .outOfFuel
  | fuel + 1 => do
    if ← eat kind then eatLoop kind fuel else return ()

/-- `support/comment.rs:20-22` (`leading_comments`). -/
def leadingComments : PM Unit := do eatTsLoop TS_LEADING_COMMENTS_KINDS (loopFuel (← get))

/-- `support/comment.rs:25-27` (`trailing_comment`). -/
def trailingComment : PM Unit := do eatLoop COMMENT (loopFuel (← get))

/-- `while p.eat(LINE_BREAK) {}` (e.g. `parse/root.rs:16`). -/
def eatLineBreaks : PM Unit := do eatLoop LINE_BREAK (loopFuel (← get))

/-! ### parse.rs -/

/-- `while !p.at_ts(stop) { p.bump_any(); }`. -/
def bumpUntil (stop : TokenSet) : Nat → PM Unit
  | 0 => throw .outOfFuel
  | fuel + 1 => do
    if ← read (·.atTs stop) then return ()
    bumpAny
    bumpUntil stop fuel

/-- `parse.rs:21-27` (`invalid_line`). -/
def invalidLine (kind : PErrorKind) : PM Unit := do
  error kind (← currentRange)
  bumpAny
  bumpUntil TS_LINE_END (loopFuel (← get))

/-- `parse.rs:29-31` (`is_group_separator`). -/
def isGroupSeparator : PM Bool := read fun p => p.atTs TS_LINE_END && p.nthAtTs 1 TS_LINE_END

/-! ### parse/key.rs -/

/-- `parse/key.rs:41-68` (`eat_key`). -/
def eatKey (G : Segmenter) : PM Bool := do
  let kind ← read (·.current)
  match kind with
  | BARE_KEY | BASIC_STRING | LITERAL_STRING =>
    let m ← start
    bump kind
    complete m kind
    return true
  | INTEGER_DEC | INTEGER_HEX | INTEGER_OCT | INTEGER_BIN | BOOLEAN | LOCAL_DATE =>
    let m ← start
    bumpRemap BARE_KEY
    complete m BARE_KEY
    return true
  | FLOAT =>
    bumpFloatKey G
    return true
  | _ =>
    let m ← start
    error .ExpectedKey (← currentRange)
    complete m INVALID_TOKEN
    return false

/-- `parse/key.rs:21-35`: the loop over dotted keys. -/
def eatKeysLoop (G : Segmenter) : Nat → Bool → PM Bool
  | 0, _ => throw .outOfFuel
  | fuel + 1, hasError => do
    let hasError := hasError || !(← eatKey G)
    if !(← eat DOT) then return !hasError
    if !(← read (·.atTs TS_KEY_FIRST)) then
      error .ForbiddenKeysLastPeriod (← currentRange)
      return !hasError
    eatKeysLoop G fuel hasError

/-- `parse/key.rs:17-39` (`eat_keys`). -/
def eatKeys (G : Segmenter) : PM Bool := do
  if ← read (·.nthAt 1 DOT) then eatKeysLoop G (loopFuel (← get)) false
  else eatKey G

/-- `parse/key.rs:6-15` (`Keys::parse`). -/
def keys (G : Segmenter) : PM Unit := do
  let m ← start
  if ← eatKeys G then complete m KEYS else complete m INVALID_TOKEN

/-! ### parse/comma.rs, parse/dangling_comment_group.rs -/

/-- `parse/comma.rs:6-18` (`Comma::parse`). -/
def comma : PM Unit := do
  let m ← start
  leadingComments
  dassert (← read (·.atKind COMMA))
  let _ ← eat COMMA
  trailingComment
  complete m COMMA

/-- `parse/dangling_comment_group.rs:30-41`: the loop of `dangling_comment_group_len`. -/
def danglingLenLoop (p : Parser) : Nat → Nat → Except Abort (Option Nat)
  | 0, _ => .error .outOfFuel
  | fuel + 1, n =>
    if !p.nthAtTs (n + 1) TS_LINE_END then .ok none
    else if p.nthAtTs (n + 2) TS_DANGLING_COMMENT_GROUP_END then .ok (some (n + 1))
    else if !p.nthAt (n + 2) COMMENT then .ok none
    else danglingLenLoop p fuel (n + 2)

/-- `parse/dangling_comment_group.rs:25-42` (`dangling_comment_group_len`). -/
def danglingLen : PM (Option Nat) := do
  let p ← get
  if !p.nthAt 0 COMMENT then return none
  danglingLenLoop p (loopFuel p) 0

/-- `(0..n).for_each(|_| p.bump_any())`. -/
def bumpAnyN : Nat → PM Unit
  | 0 => return ()
  | n + 1 => do
    bumpAny
    bumpAnyN n

/-- `parse/dangling_comment_group.rs:11-21`: the loop. -/
def danglingLoop : Nat → PM Unit
  | 0 => throw .outOfFuel
  | fuel + 1 => do
    eatLineBreaks
    match ← danglingLen with
    | none => return ()
    | some n =>
      let m ← start
      bumpAnyN n
      complete m DANGLING_COMMENT_GROUP
      danglingLoop fuel

/-- `parse/dangling_comment_group.rs:9-23` (`Vec<DanglingCommentGroup>::parse`). -/
def danglingCommentGroups : PM Unit := do danglingLoop (loopFuel (← get))

/-! ### parse/value.rs, parts without recursion -/

/-- `parse/value.rs:79-100`: the loop of `skip_too_deep_value`; returns the end range. -/
def skipLoop : Nat → Nat → Range → PM Range
  | 0, _, _ => throw .outOfFuel
  | fuel + 1, bracketDepth, endRange => do
    match ← read (·.current) with
    | EOF => return endRange
    | BRACKET_START | BRACE_START =>
      let endRange ← currentRange
      bumpAny
      skipLoop fuel (bracketDepth + 1) endRange
    | BRACKET_END | BRACE_END =>
      let endRange ← currentRange
      bumpAny
      match bracketDepth with
      | 0 => panic
      | 1 => return endRange
      | d + 2 => skipLoop fuel (d + 1) endRange
    | _ =>
      let endRange ← currentRange
      bumpAny
      skipLoop fuel bracketDepth endRange

/-- `parse/value.rs:71-110` (`skip_too_deep_value`). -/
def skipTooDeepValue : PM Unit := do
  let m ← start
  leadingComments
  let startRange ← currentRange
  let endRange ← skipLoop (loopFuel (← get)) 0 startRange
  error .RecursionLimitExceeded (startRange.add endRange)
  trailingComment
  complete m INVALID_TOKEN

/-- `parse/value.rs:112-124` (`parse_literal_value`). -/
def literalValue : PM Unit := do
  let m ← start
  leadingComments
  let kind ← read (·.current)
  bump kind
  trailingComment
  complete m kind

/-- `parse/value.rs:135-138`: the loop of `parse_invalid_value`; returns the end range. -/
def invalidValueLoop : Nat → Range → PM Range
  | 0, _ => throw .outOfFuel
  | fuel + 1, endRange => do
    if ← read (·.atTs TS_COMMENT_OR_LINE_END) then return endRange
    let endRange ← currentRange
    bumpAny
    invalidValueLoop fuel endRange

/-- `parse/value.rs:126-144` (`parse_invalid_value`). -/
def invalidValue (n : Nat) : PM Unit := do
  let m ← start
  if n > 1 && (← read (·.nthAt n LINE_BREAK)) then leadingComments
  let startRange ← currentRange
  let endRange ← invalidValueLoop (loopFuel (← get)) startRange
  error .ExpectedValue (startRange.add endRange)
  trailingComment
  complete m INVALID_TOKEN

/-- `parse/value.rs:32-47`: a bare key where a value is expected. The inner marker is dropped
without being completed, a panic, when `eat_keys` fails. -/
def bareKeyValue (G : Segmenter) (n : Nat) : PM Unit := do
  error .ExpectedValue (← read (·.nthRange n))
  let m ← start
  leadingComments
  let m' ← start
  if ← eatKeys G then complete m' KEYS else panic
  trailingComment
  complete m KEY_VALUE

/-! ### The mutually recursive functions

Each function takes the recursion `rec` as an argument: the names of the functions and loops it may
call are listed in `NT`. `parseNT` ties the knot with fuel. -/

/-- The functions and loops that take part in the recursion. -/
inductive NT where
  | value | array | arrayLoop | inlineTable | inlineTableLoop
  | valueGroup | valueGroupLoop | commaGroup | commaGroupLoop
  | keyValue | keyValueGroup | keyValueGroupLoop
  | sectionLoop | table | arrayOfTable | rootLoop
  deriving DecidableEq, Repr

/-- `parse/value.rs:57-65` (`parse_nested`). -/
def nested (inner : PM Unit) : PM Unit := do
  if (← read (·.depth)) ≥ maxRecursionDepth then skipTooDeepValue
  else
    modify fun p => { p with depth := p.depth + 1 }
    inner
    if (← read (·.depth)) = 0 then panic
    modify fun p => { p with depth := p.depth - 1 }

/-- `parse/value.rs:12-51` (`Value::parse`). -/
def value (G : Segmenter) (rec : NT → PM Unit) : PM Unit := do
  let n ← peekLeadingComments
  match ← read (·.nth n) with
  | BASIC_STRING | MULTI_LINE_BASIC_STRING | LITERAL_STRING | MULTI_LINE_LITERAL_STRING
  | INTEGER_DEC | INTEGER_BIN | INTEGER_OCT | INTEGER_HEX | FLOAT | BOOLEAN | OFFSET_DATE_TIME
  | LOCAL_DATE_TIME | LOCAL_DATE | LOCAL_TIME => literalValue
  | BRACKET_START => nested (rec .array)
  | BRACE_START => nested (rec .inlineTable)
  | BARE_KEY => bareKeyValue G n
  | _ => invalidValue n

/-- `parse/array.rs:11-44` (`Array::parse`). -/
def array (rec : NT → PM Unit) : PM Unit := do
  let m ← start
  leadingComments
  dassert (← read (·.atKind BRACKET_START))
  let _ ← eat BRACKET_START
  trailingComment
  rec .arrayLoop
  if !(← eat BRACKET_END) then error .ExpectedBracketEnd (← currentRange)
  trailingComment
  complete m ARRAY

/-- `parse/array.rs:23-34`: the loop over groups of values. -/
def arrayLoop (rec : NT → PM Unit) : PM Unit := do
  eatLineBreaks
  danglingCommentGroups
  let n ← peekLeadingComments
  if ← read (·.nthAtTs n TS_ARRAY_END) then return ()
  rec .valueGroup
  rec .arrayLoop

/-- `parse/inline_table.rs:11-44` (`InlineTable::parse`). -/
def inlineTable (rec : NT → PM Unit) : PM Unit := do
  let m ← start
  leadingComments
  dassert (← read (·.atKind BRACE_START))
  let _ ← eat BRACE_START
  trailingComment
  rec .inlineTableLoop
  if !(← eat BRACE_END) then error .ExpectedBraceEnd (← currentRange)
  trailingComment
  complete m INLINE_TABLE

/-- `parse/inline_table.rs:23-34`: the loop over groups of key-values. -/
def inlineTableLoop (rec : NT → PM Unit) : PM Unit := do
  eatLineBreaks
  danglingCommentGroups
  let n ← peekLeadingComments
  if ← read (·.nthAtTs n TS_INLINE_TABLE_END) then return ()
  rec .commaGroup
  rec .inlineTableLoop

/-- `parse/value_with_comma_group.rs:10-36` (`ValueWithCommaGroup::parse`). -/
def valueGroup (rec : NT → PM Unit) : PM Unit := do
  let m ← start
  rec .valueGroupLoop
  complete m VALUE_WITH_COMMA_GROUP

/-- `parse/value_with_comma_group.rs:14-32`: the loop. -/
def valueGroupLoop (rec : NT → PM Unit) : PM Unit := do
  if ← isGroupSeparator then return ()
  rec .value
  let n ← peekLeadingComments
  if ← read (·.nthAt n COMMA) then comma
  else if ← read (·.nthAtTs n TS_ARRAY_END) then return ()
  let n ← peekLeadingComments
  if !(← read (·.nthAtTs n TS_VALUE_FIRST)) then return ()
  rec .valueGroupLoop

/-- `parse/key_value_with_comma_group.rs:10-36` (`KeyValueWithCommaGroup::parse`). -/
def commaGroup (rec : NT → PM Unit) : PM Unit := do
  let m ← start
  rec .commaGroupLoop
  complete m KEY_VALUE_WITH_COMMA_GROUP

/-- `parse/key_value_with_comma_group.rs:14-32`: the loop. -/
def commaGroupLoop (rec : NT → PM Unit) : PM Unit := do
  if ← isGroupSeparator then return ()
  rec .keyValue
  let n ← peekLeadingComments
  if ← read (·.nthAt n COMMA) then comma
  else if ← read (·.nthAtTs n TS_INLINE_TABLE_END) then return ()
  let n ← peekLeadingComments
  if !(← read (·.nthAtTs n TS_KEY_FIRST)) then return ()
  rec .commaGroupLoop

/-- `parse/key_value.rs:10-36` (`KeyValue::parse`). -/
def keyValue (G : Segmenter) (rec : NT → PM Unit) : PM Unit := do
  let m ← start
  leadingComments
  keys G
  if !(← eat EQUAL) then error .ExpectedEqual (← currentRange)
  if ← read (·.atTs TS_LINE_END) then
    invalidToken
    error .ExpectedValue (← currentRange)
  else if ← read (·.atKind COMMENT) then
    invalidToken
    error .ExpectedValue (← previousRange)
  else rec .value
  trailingComment
  complete m KEY_VALUE

/-- `parse/key_value_group.rs:10-38` (`KeyValueGroup::parse`). -/
def keyValueGroup (rec : NT → PM Unit) : PM Unit := do
  let m ← start
  rec .keyValueGroupLoop
  complete m KEY_VALUE_GROUP

/-- `parse/key_value_group.rs:14-34`: the loop. -/
def keyValueGroupLoop (rec : NT → PM Unit) : PM Unit := do
  if ← isGroupSeparator then return ()
  rec .keyValue
  let n ← peekLeadingComments
  if ← read (·.nthAt n COMMA) then comma
  if !(← read (·.atKind LINE_BREAK)) then return ()
  let n ← peekLeadingComments
  if !(← read (·.nthAtTs n TS_KEY_FIRST)) then return ()
  rec .keyValueGroupLoop

/-- `parse/root.rs:15-30`, `parse/table.rs:34-49` and `parse/array_of_table.rs:34-49`: the loop over
the groups of key-values of a section, the same text in the three places. -/
def sectionLoop (rec : NT → PM Unit) : PM Unit := do
  eatLineBreaks
  danglingCommentGroups
  let n ← peekLeadingComments
  if ← read (·.nthAtTs n TS_NEXT_SECTION) then return ()
  rec .keyValueGroup
  if !(← read (·.atTs TS_LINE_END)) then invalidLine .ExpectedLineBreak
  rec .sectionLoop

/-- `parse/table.rs:12-53` (`Table::parse`). -/
def table (G : Segmenter) (rec : NT → PM Unit) : PM Unit := do
  let m ← start
  leadingComments
  dassert (← read (·.atKind BRACKET_START))
  let _ ← eat BRACKET_START
  keys G
  if !(← eat BRACKET_END) then invalidLine .ExpectedBracketEnd
  trailingComment
  if !(← read (·.atTs TS_LINE_END)) then invalidLine .ExpectedLineBreak
  rec .sectionLoop
  complete m TABLE

/-- `parse/array_of_table.rs:12-53` (`ArrayOfTable::parse`). -/
def arrayOfTable (G : Segmenter) (rec : NT → PM Unit) : PM Unit := do
  let m ← start
  leadingComments
  dassert (← read (·.atKind DOUBLE_BRACKET_START))
  let _ ← eat DOUBLE_BRACKET_START
  keys G
  if !(← eat DOUBLE_BRACKET_END) then invalidLine .ExpectedDoubleBracketEnd
  trailingComment
  if !(← read (·.atTs TS_LINE_END)) then invalidLine .ExpectedLineBreak
  rec .sectionLoop
  complete m ARRAY_OF_TABLE

/-- `parse/root.rs:51-64` (`unknwon_line`). -/
def unknownLine : PM Unit := do
  let m ← start
  leadingComments
  bumpUntil TS_LINE_END (loopFuel (← get))
  error .UnknownLine (← currentRange)
  trailingComment
  complete m ERROR

/-- `parse/root.rs:32-45`: the loop over the sections. -/
def rootLoop (rec : NT → PM Unit) : PM Unit := do
  eatLineBreaks
  let n ← peekLeadingComments
  if ← read (·.nthAt n EOF) then return ()
  if ← read (·.nthAt n DOUBLE_BRACKET_START) then rec .arrayOfTable
  else if ← read (·.nthAt n BRACKET_START) then rec .table
  else unknownLine
  rec .rootLoop

/-- One unfolding of the recursion. -/
def body (G : Segmenter) (rec : NT → PM Unit) : NT → PM Unit
  | .value => value G rec
  | .array => array rec
  | .arrayLoop => arrayLoop rec
  | .inlineTable => inlineTable rec
  | .inlineTableLoop => inlineTableLoop rec
  | .valueGroup => valueGroup rec
  | .valueGroupLoop => valueGroupLoop rec
  | .commaGroup => commaGroup rec
  | .commaGroupLoop => commaGroupLoop rec
  | .keyValue => keyValue G rec
  | .keyValueGroup => keyValueGroup rec
  | .keyValueGroupLoop => keyValueGroupLoop rec
  | .sectionLoop => sectionLoop rec
  | .table => table G rec
  | .arrayOfTable => arrayOfTable G rec
  | .rootLoop => rootLoop rec

/-- The recursion, with fuel: every call and every further round of a loop costs one. -/
def parseNT (G : Segmenter) : Nat → NT → PM Unit
  | 0, _ => throw .outOfFuel
  | fuel + 1, nt => body G (parseNT G fuel) nt

/-- Fuel that is enough for `parseNT` on the parser's input. -/
def recFuel (p : Parser) : Nat := 8 * (p.input.length + 2)

/-- `parse/root.rs:11-49` (`Root::parse`). -/
def root (G : Segmenter) : PM Unit := do
  let m ← start
  let fuel := recFuel (← get)
  parseNT G fuel .sectionLoop
  parseNT G fuel .rootLoop
  complete m ROOT

end PM
end Tombi
