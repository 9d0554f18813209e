import Verif.Basic.DateTime
import Verif.Model.Lexer
import Verif.Model.TomlText
/-!
Model of `crates/tombi-date-time` and of `crates/tombi-document-tree/src/support/chrono.rs`.
`u8`, `u16`, `u32`, `i16` are `Nat`/`Int`: the parsed numbers have two, four or nine digits and cannot
overflow (`C21_fits`). The `serde` impls are not modelled.
-/
namespace Tombi.DateTime

/-- `error.rs:4-72` (`parse::Error`). -/
inductive Error
  | TooShort | TooLong | ExpectedNumber | ExpectedOffsetDateTime | ExpectedLocalDateTime
  | ExpectedLocalDate | ExpectedLocalTime | ExpectedDateOrTimeFormat | ExpectedYearFormat
  | ExpectedTimeFormat | ExpectedNanoseconds | ExpectedTimeZoneOffsetSign | ExpectedTimeZoneOffsetColon
  | InvalidMonth | InvalidDay (maxDays : Nat) | InvalidHour | InvalidMinute | InvalidSecond
  | InvalidNanoseconds | InvalidTimeZoneOffsetHour | InvalidTimeZoneOffsetMinute
  | InvalidTimeZoneOffset | InvalidFormat
  deriving DecidableEq, Repr

/-- `private/date_time.rs:2-14`. -/
structure DateTime where
  date : Option Date
  time : Option Time
  offset : Option Offset
  deriving DecidableEq, Repr

/-- `private/date_time.rs:344-349` (`digit`). -/
def digit : List Char → Except Error (Nat × List Char)
  | c :: cs => if isAsciiDigit c then .ok (c.toNat - '0'.toNat, cs) else .error .InvalidFormat
  | [] => .error .InvalidFormat

/-- The pattern `match chars.next() { Some(x) => {} _ => return Err(e) }`
(`private/date_time.rs:99-102`, `107-110`, `160-163`, `248-251`). -/
def expect (x : Char) (e : Error) : List Char → Except Error (List Char)
  | c :: cs => if c = x then .ok cs else .error e
  | [] => .error e

/-- Two consecutive calls of `digit` combined to a number (`private/date_time.rs:104-105,117` and the same
for the other two-digit fields). -/
def twoDigits (s : List Char) : Except Error (Nat × List Char) := do
  let (d1, s) ← digit s
  let (d2, s) ← digit s
  .ok (d1 * 10 + d2, s)

/-- `private/date_time.rs:94-97,116`: the year. -/
def fourDigits (s : List Char) : Except Error (Nat × List Char) := do
  let (y1, s) ← digit s
  let (y2, s) ← digit s
  let (y3, s) ← digit s
  let (y4, s) ← digit s
  .ok (y1 * 1000 + y2 * 100 + y3 * 10 + y4, s)

/-- `private/date_time.rs:124-131`: `is_leap_year` and `max_days_in_month`. -/
def maxDaysInMonth (year month : Nat) : Nat :=
  let isLeap := year % 4 == 0 && (!(year % 100 == 0) || year % 400 == 0)
  if month = 2 then (if isLeap then 29 else 28)
  else if month = 4 ∨ month = 6 ∨ month = 9 ∨ month = 11 then 30
  else 31

/-- `private/date_time.rs:121-136`: the checks on a date. -/
def checkDate (d : Date) : Except Error Unit :=
  if d.month < 1 ∨ d.month > 12 then .error .InvalidMonth
  else if d.day < 1 ∨ d.day > maxDaysInMonth d.year d.month then
    .error (.InvalidDay (maxDaysInMonth d.year d.month))
  else .ok ()

/-- `private/date_time.rs:94-138`: the date. -/
def fullDate (s : List Char) : Except Error (Date × List Char) := do
  let (year, s) ← fourDigits s
  let s ← expect '-' .ExpectedDateOrTimeFormat s
  let (month, s) ← twoDigits s
  let s ← expect '-' .ExpectedYearFormat s
  let (day, s) ← twoDigits s
  let date : Date := ⟨year, month, day⟩
  checkDate date
  .ok (date, s)

/-- `private/date_time.rs:178-193`: the loop over the digits of the fraction; `i` counts them. The loop runs
over bytes, the model over characters: it stops at the first non-digit, so all bytes before are characters. -/
def fracLoop (i nanosecond : Nat) : List Char → Nat × Nat × List Char
  | [] => (i, nanosecond, [])
  | c :: cs =>
    if isAsciiDigit c then
      fracLoop (i + 1)
        (if i < 9 then nanosecond + 10 ^ (8 - i) * (c.toNat - '0'.toNat) else nanosecond) cs
    else (i, nanosecond, c :: cs)

/-- `private/date_time.rs:172-199`: the fraction of a second after its dot. -/
def fraction (s : List Char) : Except Error (Nat × List Char) :=
  if (fracLoop 0 0 s).1 = 0 then .error .ExpectedNanoseconds
  else .ok ((fracLoop 0 0 s).2.1, (fracLoop 0 0 s).2.2)

/-- `private/date_time.rs:170-199`: an optional fraction. -/
def optFraction : List Char → Except Error (Nat × List Char)
  | '.' :: s => fraction s
  | s => .ok (0, s)

/-- `private/date_time.rs:165-204`: optional seconds with an optional fraction. -/
def optSeconds : List Char → Except Error ((Nat × Nat) × List Char)
  | ':' :: s => do
    let (second, s) ← twoDigits s
    let (nanosecond, s) ← optFraction s
    .ok ((second, nanosecond), s)
  | s => .ok ((0, 0), s)

/-- `private/date_time.rs:213-225`: the checks on a time. -/
def checkTime (t : Time) : Except Error Unit :=
  if t.hour ≥ 24 then .error .InvalidHour
  else if t.minute ≥ 60 then .error .InvalidMinute
  else if t.second > 60 then .error .InvalidSecond
  else if t.nanosecond > 999999999 then .error .InvalidNanoseconds
  else .ok ()

/-- `private/date_time.rs:157-227`: the time. -/
def partialTime (s : List Char) : Except Error (Time × List Char) := do
  let (hour, s) ← twoDigits s
  let s ← expect ':' .ExpectedTimeFormat s
  let (minute, s) ← twoDigits s
  let ((second, nanosecond), s) ← optSeconds s
  let time : Time := ⟨hour, minute, second, nanosecond⟩
  checkTime time
  .ok (time, s)

/-- `private/date_time.rs:246-275`: a numeric offset after its sign. -/
def customOffset (sign : Int) (s : List Char) : Except Error (Offset × List Char) := do
  let (hours, s) ← twoDigits s
  let s ← expect ':' .ExpectedTimeZoneOffsetColon s
  let (minutes, s) ← twoDigits s
  if hours ≥ 24 then .error .InvalidTimeZoneOffsetHour
  else if minutes ≥ 60 then .error .InvalidTimeZoneOffsetMinute
  else
    let total : Int := sign * ((hours : Int) * 60 + minutes)
    if ¬ (-24 * 60 ≤ total ∧ total ≤ 24 * 60) then .error .InvalidTimeZoneOffset
    else .ok (.Custom total, s)

/-- `private/date_time.rs:234-275`: the offset, where one is allowed. -/
def optOffset : List Char → Except Error (Option Offset × List Char)
  | [] => .ok (none, [])
  | c :: s =>
    if c = 'Z' ∨ c = 'z' then .ok (some .Z, s)
    else if c = '+' then (customOffset 1 s).map fun p => (some p.1, p.2)
    else if c = '-' then (customOffset (-1) s).map fun p => (some p.1, p.2)
    else .error .ExpectedTimeZoneOffsetSign

/-- `private/date_time.rs:281-285`: the end of the text. -/
def atEnd (d : DateTime) : List Char → Except Error DateTime
  | [] => .ok d
  | _ :: _ => .error .TooLong

/-- `private/date_time.rs:142-152`, with a date: does a time follow? -/
def timeFollows : List Char → Bool
  | c :: _ => c == 'T' || c == 't' || c == ' '
  | [] => false

/-- `private/date_time.rs:74-292` (`DateTime::from_str`). The text is at least three bytes long and begins with
a date unless its third character is a colon; a time alone takes no offset. -/
def fromStr (s : List Char) : Except Error DateTime :=
  if utf8Len s < 3 then .error .TooShort
  else if s[2]? = some ':' then do
    let (time, s) ← partialTime s
    atEnd ⟨none, some time, none⟩ s
  else do
    let (date, s) ← fullDate s
    if timeFollows s then
      let (time, s) ← partialTime (s.drop 1)
      let (offset, s) ← optOffset s
      atEnd ⟨some date, some time, offset⟩ s
    else atEnd ⟨some date, none, none⟩ s

/-- `local_date.rs:28-42` (`LocalDate::from_str`). -/
def localDateFromStr (s : List Char) : Except Error Date :=
  match fromStr s with
  | .ok ⟨some date, none, none⟩ => .ok date
  | .ok _ => .error .ExpectedLocalDate
  | .error e => .error e

/-- `local_time.rs:57-71` (`LocalTime::from_str`). -/
def localTimeFromStr (s : List Char) : Except Error Time :=
  match fromStr s with
  | .ok ⟨none, some time, none⟩ => .ok time
  | .ok _ => .error .ExpectedLocalTime
  | .error e => .error e

/-- `local_date_time.rs:90-104` (`LocalDateTime::from_str`). -/
def localDateTimeFromStr (s : List Char) : Except Error (Date × Time) :=
  match fromStr s with
  | .ok ⟨some date, some time, none⟩ => .ok (date, time)
  | .ok _ => .error .ExpectedLocalDateTime
  | .error e => .error e

/-- `offset_date_time.rs:82-96` (`OffsetDateTime::from_str`). -/
def offsetDateTimeFromStr (s : List Char) : Except Error (Date × Time × Offset) :=
  match fromStr s with
  | .ok ⟨some date, some time, some offset⟩ => .ok (date, time, offset)
  | .ok _ => .error .ExpectedOffsetDateTime
  | .error e => .error e

/-- A decimal digit. -/
def digitChar (n : Nat) : Char := Char.ofNat (48 + n)

/-- The decimal digits of a number (`{}`); the fuel bounds their number. -/
def decLoop : Nat → Nat → List Char
  | 0, _ => []
  | fuel + 1, n => if n < 10 then [digitChar n] else decLoop fuel (n / 10) ++ [digitChar (n % 10)]

/-- `format!("{}", n)`. -/
def dec (n : Nat) : List Char := decLoop (n + 1) n

/-- `format!("{:0k}", n)`: at least `k` digits. -/
def padded (k n : Nat) : List Char := List.replicate (k - (dec n).length) '0' ++ dec n

/-- `private/date.rs:11-15` (`Display for Date`). -/
def showDate (d : Date) : List Char := padded 4 d.year ++ '-' :: padded 2 d.month ++ '-' :: padded 2 d.day

/-- `str::trim_end_matches('0')`. -/
def trimZeros (s : List Char) : List Char := (s.reverse.dropWhile (· == '0')).reverse

/-- `private/time.rs:13-22` (`Display for Time`). -/
def showTime (t : Time) : List Char :=
  padded 2 t.hour ++ ':' :: padded 2 t.minute ++ ':' :: padded 2 t.second
    ++ (if t.nanosecond ≠ 0 then '.' :: trimZeros (padded 9 t.nanosecond) else [])

/-- `offset.rs:17-33` (`Display for TimeZoneOffset`). The code overflows for `i16::MIN`, which no text denotes. -/
def showOffset : Offset → List Char
  | .Z => ['Z']
  | .Custom m => (if m < 0 then '-' else '+') :: padded 2 (m.natAbs / 60) ++ ':' :: padded 2 (m.natAbs % 60)

/-- `local_date_time.rs:106-114` (`Display for LocalDateTime`). -/
def showLocalDateTime (d : Date) (t : Time) : List Char := showDate d ++ 'T' :: showTime t

/-- `offset_date_time.rs:98-105` (`Display for OffsetDateTime`). -/
def showOffsetDateTime (d : Date) (t : Time) (o : Offset) : List Char :=
  showDate d ++ 'T' :: showTime t ++ showOffset o

/-- `private/date_time.rs:52-68` (`Display for DateTime`). -/
def showDateTime (d : DateTime) : List Char :=
  (d.date.map showDate).getD []
    ++ (match d.time with
        | some t => (if d.date.isSome then ['T'] else []) ++ showTime t
        | none => [])
    ++ (d.offset.map showOffset).getD []

/-- The loop of `make_datetime_str` (`tombi-document-tree/src/support/chrono.rs:160-175`); `i` is the byte index
and `none` stands for `Err(OptionalSeconds)`. -/
def makeDatetimeLoop (v : TomlVersion) : Nat → List Char → Option (List Char)
  | _, [] => some []
  | i, c :: cs =>
    if i = 10 ∧ (c = 'T' ∨ c = 't') then (makeDatetimeLoop v (i + c.utf8Size) cs).map (' ' :: ·)
    else if i = 16 ∧ c ≠ ':' then
      if v = .V1_0_0 then none
      else (makeDatetimeLoop v (i + c.utf8Size) cs).map fun r => ':' :: '0' :: '0' :: c :: r
    else (makeDatetimeLoop v (i + c.utf8Size) cs).map (c :: ·)

/-- `tombi-document-tree/src/support/chrono.rs:151-187` (`make_datetime_str`). -/
def makeDatetimeStr (v : TomlVersion) (value : List Char) : Option (List Char) :=
  match makeDatetimeLoop v 0 value with
  | none => none
  | some s =>
    if utf8Len s = 16 then if v = .V1_0_0 then none else some (s ++ [':', '0', '0'])
    else some s

/-- The errors of the `try_new_*` functions of `tombi-document-tree/src/support/chrono.rs`, without their range:
`none` is `OptionalSeconds`. The text is that of the node's token, which `tombi-parser` always adds. -/
abbrev NewError := Option Error

/-- `tombi-document-tree/src/support/chrono.rs:47-70` (`try_new_offset_date_time`). -/
def tryNewOffsetDateTime (v : TomlVersion) (text : List Char) : Except NewError (Date × Time × Offset) :=
  match makeDatetimeStr v text with
  | none => .error none
  | some s => (offsetDateTimeFromStr s).mapError some

/-- `chrono.rs:72-95` (`try_new_local_date_time`). -/
def tryNewLocalDateTime (v : TomlVersion) (text : List Char) : Except NewError (Date × Time) :=
  match makeDatetimeStr v text with
  | none => .error none
  | some s => (localDateTimeFromStr s).mapError some

/-- `chrono.rs:97-114` (`try_new_local_date`). -/
def tryNewLocalDate (_v : TomlVersion) (text : List Char) : Except NewError Date :=
  (localDateFromStr text).mapError some

/-- `chrono.rs:116-149` (`try_new_local_time`). -/
def tryNewLocalTime (v : TomlVersion) (text : List Char) : Except NewError Time :=
  if text[5]? = some ':' then (localTimeFromStr text).mapError some
  else if v = .V1_0_0 then .error none
  else (localTimeFromStr text).mapError some

/-- A `chrono::DateTime<FixedOffset>`: its local date and time, and `local_minus_utc` in seconds. -/
structure ChronoDateTime where
  year : Int
  month : Nat
  day : Nat
  hour : Nat
  minute : Nat
  second : Nat
  nanosecond : Nat
  offsetSeconds : Int
  deriving DecidableEq, Repr

/-- `x as i16` -/
def asI16 (x : Int) : Int := (x + 32768) % 65536 - 32768

/-- `offset_date_time.rs:107-126` (`From<chrono::DateTime<chrono::FixedOffset>>`); `as u16` of the year wraps
modulo `65536`, `as u8` of the other fields loses nothing. -/
def fromFixedOffset (c : ChronoDateTime) : Date × Time × Offset :=
  (⟨(c.year % 65536).toNat, c.month, c.day⟩, ⟨c.hour, c.minute, c.second, 0⟩, .Custom (asI16 c.offsetSeconds))

end Tombi.DateTime
