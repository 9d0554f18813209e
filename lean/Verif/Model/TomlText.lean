import Verif.Basic.Text
/-!
Model of `crates/tombi-toml-text/src/lib.rs`: decoding of string literals and keys, and their rendering;
with the `std` functions it uses.
-/
namespace Tombi

/-- `crates/tombi-toml-version/src/lib.rs:10-17` (`TomlVersion`). -/
inductive TomlVersion where
  | V1_0_0 | V1_1_0_Preview | V1_1_0
  deriving DecidableEq, Repr

/-! ### std -/

/-- `char::is_whitespace`: the Unicode property White_Space. -/
def charIsWhitespace (c : Char) : Bool :=
  let n := c.toNat
  (9 ≤ n && n ≤ 13) || n == 0x20 || n == 0x85 || n == 0xA0 || n == 0x1680
    || (0x2000 ≤ n && n ≤ 0x200A) || n == 0x2028 || n == 0x2029 || n == 0x202F || n == 0x205F || n == 0x3000

/-- `char::is_control`: the Unicode category Cc. -/
def charIsControl (c : Char) : Bool := c.toNat ≤ 0x1F || (0x7F ≤ c.toNat && c.toNat ≤ 0x9F)

/-- `char::to_digit(radix)` for a radix up to 16. -/
def toDigit (radix : Nat) (c : Char) : Option Nat :=
  let n := c.toNat
  let d := if 48 ≤ n ∧ n ≤ 57 then n - 48
    else if 97 ≤ n ∧ n ≤ 102 then n - 87
    else if 65 ≤ n ∧ n ≤ 70 then n - 55
    else radix
  if d < radix then some d else none

/-- The digit loop of `from_str_radix`: `none` on a character that is no digit. -/
def radixLoop (radix : Nat) : Nat → List Char → Option Nat
  | acc, [] => some acc
  | acc, c :: cs => match toDigit radix c with
    | some d => radixLoop radix (acc * radix + d) cs
    | none => none

/-- `u32::from_str_radix`: one leading `+` is accepted, the empty text and a lone sign are not; `none` is
any error. The overflow test is made at the end, which gives the same result. -/
def u32FromStrRadix (radix : Nat) (s : List Char) : Option Nat :=
  let digits := match s with
    | '+' :: ds => ds
    | ds => ds
  if digits = [] then none
  else match radixLoop radix 0 digits with
    | some n => if n < 2 ^ 32 then some n else none
    | none => none

/-- The optional sign of `i64::from_str_radix`. -/
def signSplit : List Char → Bool × List Char
  | '+' :: ds => (false, ds)
  | '-' :: ds => (true, ds)
  | ds => (false, ds)

/-- `i64::from_str_radix`: as above, with an optional sign of both kinds and the range of `i64`. -/
def i64FromStrRadix (radix : Nat) (s : List Char) : Option Int :=
  if (signSplit s).2 = [] then none
  else match radixLoop radix 0 (signSplit s).2 with
    | some n =>
      let v : Int := if (signSplit s).1 then -(n : Int) else n
      if -(2 ^ 63) ≤ v ∧ v < 2 ^ 63 then some v else none
    | none => none

/-- `char::from_u32`. -/
def charFromU32 (n : Nat) : Option Char := if n.isValidChar then some (Char.ofNat n) else none

namespace TomlText

/-- `lib.rs:3-40` (`ParseError`), the variants in use; `outOfFuel` is not in the code and is proved never
to be returned. -/
inductive TextError where
  | InvalidEscapeSequence | InvalidUnicodeEscapeSequence | InvalidUnicodeCodePoint
  | InvalidWhitespaceEscapeSequence | InvalidLineBreak | InvalidControlCharacter | PlusCharacter
  | TrailingBackslash | EscapeCharacter | HexEscapeSequence | UnicodeKey
  | outOfFuel
  deriving DecidableEq, Repr

/-- `lib.rs:51-58`: the characters allowed in a bare key. -/
def isBareKeyChar (c : Char) : Bool :=
  ('a' ≤ c && c ≤ 'z') || ('A' ≤ c && c ≤ 'Z') || ('0' ≤ c && c ≤ '9') || c == '_' || c == '-' || c == '.'

/-- `lib.rs:42-63` (`try_from_bare_key`). -/
def tryFromBareKey (value : List Char) : Except TextError (List Char) :=
  if value.any (· == '+') then .error .PlusCharacter
  else if value.all isBareKeyChar then .ok value
  else .error .UnicodeKey

/-- `for _ in 0..n { chars.next() }` (`lib.rs:148-154`): the `n` characters and the rest, or `none` if there
are fewer. -/
def takeChars : Nat → List Char → Option (List Char × List Char)
  | 0, cs => some ([], cs)
  | _ + 1, [] => none
  | n + 1, c :: cs => (takeChars n cs).map fun (ds, rest) => (c :: ds, rest)

/-- `lib.rs:145-164`, `:165-184`, `:190-210`: an escape with `n` hexadecimal digits, after its letter. -/
def unicodeEscape (n : Nat) (cs : List Char) : Except TextError (Char × List Char) :=
  match takeChars n cs with
  | none => .error .InvalidUnicodeEscapeSequence
  | some (buf, rest) =>
    match u32FromStrRadix 16 buf with
    | none => .error .InvalidUnicodeEscapeSequence
    | some codePoint =>
      match charFromU32 codePoint with
      | none => .error .InvalidUnicodeCodePoint
      | some c => .ok (c, rest)

/-- `lib.rs:216-223`: skips white space; says whether a line feed was seen. -/
def skipWhite : Bool → List Char → Bool × List Char
  | seen, [] => (seen, [])
  | seen, c :: cs => if charIsWhitespace c then skipWhite (seen || c == '\n') cs else (seen, c :: cs)

/-- `lib.rs:246-248`, `:273-275`: the control characters that are rejected. -/
def isForbidden (c : Char) : Bool :=
  c.toNat ≤ 8 || (0xA ≤ c.toNat && c.toNat ≤ 0x1F) || c.toNat == 0x7F

/-- `lib.rs:107-235`: the escape after a backslash: what is pushed to the output, and the rest. -/
def escape (v : TomlVersion) (cs : List Char) : Except TextError (List Char × List Char) :=
  match cs with
  | [] => .error .TrailingBackslash
  | e :: rest =>
    if e = 'b' then .ok (['\x08'], rest)
    else if e = 'e' then
      if v = .V1_0_0 then .error .EscapeCharacter else .ok (['\x1b'], rest)
    else if e = 't' then .ok (['\t'], rest)
    else if e = 'n' then .ok (['\n'], rest)
    else if e = 'f' then .ok (['\x0c'], rest)
    else if e = 'r' then .ok (['\r'], rest)
    else if e = '"' then .ok (['"'], rest)
    else if e = '\\' then .ok (['\\'], rest)
    else if e = 'u' then (unicodeEscape 4 rest).map fun (x, rest) => ([x], rest)
    else if e = 'U' then (unicodeEscape 8 rest).map fun (x, rest) => ([x], rest)
    else if e = 'x' then
      if v = .V1_0_0 then .error .HexEscapeSequence
      else (unicodeEscape 2 rest).map fun (x, rest) => ([x], rest)
    else if charIsWhitespace e then
      if (skipWhite (e == '\n') rest).1 then .ok ([], (skipWhite (e == '\n') rest).2)
      else .error .InvalidWhitespaceEscapeSequence
    else .error .InvalidEscapeSequence

/-- `lib.rs:105-253`: one round of the loop of `parse_basic_string` with character `c`: what is pushed to
the output, and the rest. -/
def basicStep (v : TomlVersion) (multi : Bool) (c : Char) (cs : List Char) :
    Except TextError (List Char × List Char) :=
  if c = '\\' then escape v cs
  else if (c = '\r' ∨ c = '\n') ∧ multi = true then
    if c = '\r' then
      match cs with
      | '\n' :: rest => .ok (['\r', '\n'], rest)
      | _ => .error .InvalidLineBreak
    else .ok ([c], cs)
  else if isForbidden c then .error .InvalidControlCharacter
  else .ok ([c], cs)

/-- `lib.rs:104-254`: the loop of `parse_basic_string`, with fuel. -/
def basicLoop (v : TomlVersion) (multi : Bool) : Nat → List Char → List Char → Except TextError (List Char)
  | 0, _, _ => .error .outOfFuel
  | _ + 1, out, [] => .ok out
  | fuel + 1, out, c :: cs =>
    match basicStep v multi c cs with
    | .ok (x, rest) => basicLoop v multi fuel (out ++ x) rest
    | .error e => .error e

/-- `lib.rs:97-255` (`parse_basic_string`). -/
def parseBasicString (input : List Char) (v : TomlVersion) (multi : Bool) : Except TextError (List Char) :=
  basicLoop v multi (input.length + 1) [] input

/-- `lib.rs:261-281`: the loop of `parse_literal_string`. -/
def literalLoop (multi : Bool) : List Char → List Char → Except TextError (List Char)
  | out, [] => .ok out
  | out, '\r' :: '\n' :: rest =>
    if multi then literalLoop multi (out ++ ['\r', '\n']) rest else .error .InvalidControlCharacter
  | out, c :: cs =>
    if (c = '\r' ∨ c = '\n') ∧ multi = true then
      if c = '\r' then .error .InvalidLineBreak else literalLoop multi (out ++ [c]) cs
    else if isForbidden c then .error .InvalidControlCharacter
    else literalLoop multi (out ++ [c]) cs

/-- `lib.rs:257-282` (`parse_literal_string`). -/
def parseLiteralString (input : List Char) (multi : Bool) : Except TextError (List Char) :=
  literalLoop multi [] input

/-- `&value[n..value.len() - n]` (`lib.rs:66`, `:70`, `:78`, `:89`); `none` is a panic, also when
`value.len() - n` underflows. -/
def inner (n : Nat) (value : List Char) : Option (List Char) :=
  if n ≤ utf8Len value then byteSlice n (utf8Len value - n) value else none

/-- `lib.rs:65-67` (`try_from_basic_string`); `none` is a panic. -/
def tryFromBasicString (value : List Char) (v : TomlVersion) : Option (Except TextError (List Char)) :=
  (inner 1 value).map fun s => parseBasicString s v false

/-- `lib.rs:69-71` (`try_from_literal_string`). -/
def tryFromLiteralString (value : List Char) : Option (Except TextError (List Char)) :=
  (inner 1 value).map fun s => parseLiteralString s false

/-- `lib.rs:73-85` (`try_from_multi_line_basic_string`). -/
def tryFromMultiLineBasicString (value : List Char) (v : TomlVersion) :
    Option (Except TextError (List Char)) :=
  (inner 3 value).map fun s => parseBasicString (s.dropWhile (· == '\n')) v true

/-- `lib.rs:87-95` (`try_from_multi_line_literal_string`). -/
def tryFromMultiLineLiteralString (value : List Char) : Option (Except TextError (List Char)) :=
  (inner 3 value).map fun s => parseLiteralString (s.dropWhile (· == '\n')) true

/-- A lower-case hexadecimal digit. -/
def hexDigit (n : Nat) : Char := if n < 10 then Char.ofNat (48 + n) else Char.ofNat (87 + n)

/-- `format!("\\u{:04x}", n)` for `n < 16^4` (`lib.rs:301`); control characters are below `0xA0`. -/
def formatU (n : Nat) : List Char :=
  ['\\', 'u', hexDigit (n / 4096 % 16), hexDigit (n / 256 % 16), hexDigit (n / 16 % 16), hexDigit (n % 16)]

/-- `lib.rs:288-304`: what `to_basic_string` writes for one character. -/
def escapeChar (c : Char) : List Char :=
  if c = '"' then ['\\', '"']
  else if c = '\\' then ['\\', '\\']
  else if c = '\x00' then ['\\', '0']
  else if c = '\x07' then ['\\', 'a']
  else if c = '\x08' then ['\\', 'b']
  else if c = '\x09' then ['\\', 't']
  else if c = '\x0a' then ['\\', 'n']
  else if c = '\x0b' then ['\\', 'v']
  else if c = '\x0c' then ['\\', 'f']
  else if c = '\x0d' then ['\\', 'r']
  else if c = '\x1b' then ['\\', 'e']
  else if charIsControl c then formatU c.toNat
  else [c]

/-- `lib.rs:284-308` (`to_basic_string`). -/
def toBasicString (value : List Char) : List Char := ['"'] ++ (value.map escapeChar).flatten ++ ['"']

/-- `lib.rs:318-320` (`is_variable_placeholder`). -/
def isVariablePlaceholder (value : List Char) : Bool :=
  ['$', '{'].isPrefixOf value && ['}'].isSuffixOf value

/-- `lib.rs:322-324` (`is_display_bare_key`). -/
def isDisplayBareKey (value : List Char) : Bool :=
  !value.isEmpty && !value.contains '.' && (tryFromBareKey value).toBool

/-- `lib.rs:310-316` (`to_key_string`). -/
def toKeyString (value : List Char) : List Char :=
  if isVariablePlaceholder value || isDisplayBareKey value then value else toBasicString value

/-- `lib.rs:326-328` (`to_literal_string`). -/
def toLiteralString (value : List Char) : List Char := ['\''] ++ value ++ ['\'']

/-- `lib.rs:330-332` (`to_multi_line_basic_string`). -/
def toMultiLineBasicString (value : List Char) : List Char :=
  ['"', '"', '"', '\n'] ++ value ++ ['"', '"', '"']

/-- `lib.rs:334-336` (`to_multi_line_literal_string`). -/
def toMultiLineLiteralString (value : List Char) : List Char :=
  ['\'', '\'', '\'', '\n'] ++ value ++ ['\'', '\'', '\'']

end TomlText
end Tombi
