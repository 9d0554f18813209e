import Verif.Model.Lexer
/-! The `format` keyword for texts: the validators that tombi has written itself (`crates/tombi-validator/src/validate/format/*.rs`).
Those that only call another crate (`email`, `hostname`, `uri`, `uuid`, `ipv4`, `ipv6`, `regex`) are not modelled. -/
namespace Tombi.Formats

abbrev Text := List Char

/-- `str::is_ascii`. -/
def isAscii (s : Text) : Bool := s.all fun c => c.toNat < 128

/-- The number that digits denote. -/
def number (digits : Text) : Nat := digits.foldl (fun n c => n * 10 + (c.toNat - '0'.toNat)) 0

/-- `str::parse::<u32>`: decimal digits, also after a `+`. -/
def parseU32 (s : Text) : Option Nat :=
  let digits := if s.head? = some '+' then s.tail else s
  if digits ≠ [] ∧ digits.all isAsciiDigit = true ∧ number digits < 2 ^ 32 then some (number digits) else none

/-- `date.rs:26-37`; the last case is not reached. -/
def maxDay (year month : Nat) : Nat :=
  match month with
  | 1 | 3 | 5 | 7 | 8 | 10 | 12 => 31
  | 4 | 6 | 9 | 11 => 30
  | 2 => if year % 4 = 0 ∧ (year % 100 ≠ 0 ∨ year % 400 = 0) then 29 else 28
  | _ => 0

/-- `date.rs:1-40` (`validate_format`). Slices of bytes are lists of characters, since the text is ASCII. -/
def validDate (s : Text) : Bool :=
  if utf8Len s ≠ 10 ∨ isAscii s = false then false
  else if s[4]? ≠ some '-' ∨ s[7]? ≠ some '-' then false
  else match parseU32 (s.take 4), parseU32 ((s.drop 5).take 2), parseU32 ((s.drop 8).take 2) with
    | some year, some month, some day =>
      if ¬ (1 ≤ month ∧ month ≤ 12) then false else 1 ≤ day && day ≤ maxDay year month
    | _, _, _ => false

/-- `time.rs:13-52` (`parse_time_components`). -/
def timeComponents (s : Text) : Option Text :=
  if utf8Len s < 8 ∨ isAscii s = false then none
  else if s[2]? ≠ some ':' ∨ s[5]? ≠ some ':' then none
  else match parseU32 (s.take 2), parseU32 ((s.drop 3).take 2), parseU32 ((s.drop 6).take 2) with
    | some hour, some minute, some second =>
      if hour > 23 ∨ minute > 59 ∨ second > 60 then none
      else match s.drop 8 with
        | '.' :: stripped =>
          if stripped.takeWhile isAsciiDigit = [] then none else some (stripped.dropWhile isAsciiDigit)
        | rest => some rest
    | _, _, _ => none

/-- `time.rs:55-70` (`validate_timezone`). -/
def validTimezone (rest : Text) : Bool :=
  if isAscii rest = false then false
  else if rest = ['Z'] ∨ rest = ['z'] then true
  else if (rest.head? = some '+' ∨ rest.head? = some '-') ∧ rest.length = 6 then
    decide (rest.tail[2]? = some ':')
      && (match parseU32 (rest.tail.take 2) with | some h => decide (h ≤ 23) | none => false)
      && (match parseU32 ((rest.tail.drop 3).take 2) with | some m => decide (m ≤ 59) | none => false)
  else false

/-- `time.rs:1-10` (`validate_format`). -/
def validTime (s : Text) : Bool :=
  match timeComponents s with
  | some rest => validTimezone rest
  | none => false

/-- `local_time.rs:1-9` (`validate_format`). -/
def validLocalTime (s : Text) : Bool :=
  match timeComponents s with
  | some rest => rest.isEmpty
  | none => false

/-- The separators of `date_time.rs:8`. -/
def isSeparator (c : Char) : Bool := c == 'T' || c == 't' || c == ' '

/-- `date_time.rs:6-17` (`parse_date_time`) and `local_date_time.rs:1-12`: the first separator, and the parts before and after it. The
bytes of the separators are no parts of other characters. -/
def splitDateTime (s : Text) : Option (Text × Text) :=
  match s.dropWhile fun c => !isSeparator c with
  | [] => none
  | _ :: time => some (s.takeWhile (fun c => !isSeparator c), time)

/-- `date_time.rs:1-17` (`validate_format`). -/
def validDateTime (s : Text) : Bool :=
  match splitDateTime s with
  | some (date, time) => validDate date && validTime time
  | none => false

/-- `local_date_time.rs:1-12` (`validate_format`). -/
def validLocalDateTime (s : Text) : Bool :=
  match splitDateTime s with
  | some (date, time) => validDate date && validLocalTime time
  | none => false

/-- `json_pointer.rs:13-21`: the loop. -/
def pointerLoop : Text → Bool
  | [] => true
  | [c] => c != '~'
  | c :: d :: rest => if c = '~' then (d == '0' || d == '1') && pointerLoop rest else pointerLoop (d :: rest)

/-- `json_pointer.rs:1-24` (`validate_format`). -/
def validPointer (s : Text) : Bool :=
  match s with
  | [] => true
  | c :: rest => if c ≠ '/' then false else pointerLoop rest

/-- `char::is_ascii_hexdigit`. -/
def isHex (c : Char) : Bool := ('0' ≤ c && c ≤ '9') || ('a' ≤ c && c ≤ 'f') || ('A' ≤ c && c ≤ 'F')

/-- `uri_reference.rs:50`: the characters of a component. -/
def isComponentChar (c : Char) : Bool :=
  ('0' ≤ c && c ≤ '9') || ('a' ≤ c && c ≤ 'z') || ('A' ≤ c && c ≤ 'Z') || "-._~:@!$&'()*+,;=/".toList.contains c

/-- `uri_reference.rs:34-56` (`validate_uri_component`). -/
def uriComponent : Text → Bool
  | [] => true
  | c :: cs =>
    if c = '%' then
      match cs with
      | a :: b :: rest => isHex a && isHex b && uriComponent rest
      | _ => false
    else isComponentChar c && uriComponent cs

/-- `str::split_once` with a character; a missing character gives the text and nothing (`uri_reference.rs:18-26`). -/
def splitOnce (c : Char) : Text → Text × Option Text
  | [] => ([], none)
  | d :: s => if d = c then ([], some s) else ((d :: (splitOnce c s).1), (splitOnce c s).2)

/-- `uri_reference.rs:10-32` (`is_relative_reference`). -/
def relativeReference (value : Text) : Bool :=
  if value = [] then true
  else
    let (withoutFragment, fragment) := splitOnce '#' value
    let (path, query) := splitOnce '?' withoutFragment
    uriComponent path && (query.map uriComponent).getD true && (fragment.map uriComponent).getD true

/-- `uri_reference.rs:3-8` (`validate_format`). `isUri` is `tombi_uri::Uri::from_str(_).is_ok()`. -/
def validUriReference (isUri : Text → Bool) (value : Text) : Bool := isUri value || relativeReference value

end Tombi.Formats
