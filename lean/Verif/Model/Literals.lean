import Verif.Model.TomlText
import Verif.Basic.Regex
/-!
Model of `crates/tombi-ast/src/support/literal/{integer,float}.rs`: evaluation of number literals.
-/
namespace Tombi
namespace Literals

/-- `str::replace('_', "")`. -/
def stripUnderscores (s : List Char) : List Char := s.filter (· ≠ '_')

/-- `integer.rs:3-5`, `:7-9`, `:15-17` (`try_from_binary`, `try_from_octal`, `try_from_hexadecimal`):
the outer `none` is a panic of `&value[2..]`, the inner one a `ParseIntError`. -/
def tryFromPrefixed (radix : Nat) (value : List Char) : Option (Option Int) :=
  (byteDrop 2 value).map fun s => i64FromStrRadix radix (stripUnderscores s)

/-- `integer.rs:3-5` -/
def tryFromBinary : List Char → Option (Option Int) := tryFromPrefixed 2
/-- `integer.rs:7-9` -/
def tryFromOctal : List Char → Option (Option Int) := tryFromPrefixed 8
/-- `integer.rs:15-17` -/
def tryFromHexadecimal : List Char → Option (Option Int) := tryFromPrefixed 16

/-- `integer.rs:11-13` (`try_from_decimal`); `str::parse::<i64>` is `from_str_radix(_, 10)`. -/
def tryFromDecimal (value : List Char) : Option Int := i64FromStrRadix 10 (stripUnderscores value)

open Rx in
/-- The texts `f64::from_str` accepts, by its documentation (`core::num::dec2flt`): a sign, then `inf`,
`infinity` or `nan` in any case, or digits with at most one point and at least one digit, and an optional
exponent. -/
def f64Syntax : Rx :=
  let digit : Rx := .cls [('0', '9')]
  let sign : Rx := opt (.cls [('+', '+'), ('-', '-')])
  let ci (l u : Char) : Rx := .cls [(l, l), (u, u)]
  let exp : Rx := seq [ci 'e' 'E', sign, plus digit]
  let inf := seq [ci 'i' 'I', ci 'n' 'N', ci 'f' 'F']
  let infinity := seq [ci 'i' 'I', ci 'n' 'N', ci 'f' 'F', ci 'i' 'I', ci 'n' 'N', ci 'i' 'I', ci 't' 'T', ci 'y' 'Y']
  let nan := seq [ci 'n' 'N', ci 'a' 'A', ci 'n' 'N']
  let number := .alt (plus digit) (.alt (seq [plus digit, ch '.', .star digit]) (seq [.star digit, ch '.', plus digit]))
  .cat sign (.alt (.alt inf (.alt infinity nan)) (.cat number (opt exp)))

/-- `float.rs:1-9` (`ParseError`), and the panic of `i - 1` for `i = 0`. -/
inductive FloatError where
  | Std | Underscore | LeadingZero | panic
  deriving DecidableEq, Repr

/-- `char::is_ascii_digit`. -/
def isDigit (c : Char) : Bool := '0' ≤ c && c ≤ '9'

/-- `float.rs:12-23`: the test of the closure at a position `i > 0`. -/
def badUnderscore (s : List Char) (i : Nat) : Bool :=
  s[i]? == some '_' && match s[i - 1]?, s[i + 1]? with
    | some d1, some d2 => !isDigit d1 || !isDigit d2
    | _, _ => true

/-- `str::split(c).next().unwrap()`: the text before the first `c`. -/
def beforeChar (c : Char) (s : List Char) : List Char := s.takeWhile (· ≠ c)

/-- `float.rs:28-32` -/
def intSlice (s : List Char) : List Char := if s.contains '.' then beforeChar '.' s else beforeChar 'e' s

/-- `float.rs:34-38` -/
def intNumber (s : List Char) : List Char :=
  match intSlice s with
  | '+' :: r => r
  | '-' :: r => r
  | r => r

/-- `float.rs:11-45` (`try_from_float`). The value is given by the text handed to `f64::from_str`; its
conversion to a binary floating point number is not modelled. `int_number.len()` counts bytes, which is the
number of characters unless a character is not ASCII. -/
def tryFromFloat (s : List Char) : Except FloatError (List Char) :=
  if s.head? = some '_' then .error .panic
  else if (List.range s.length).any (badUnderscore s) then .error .Underscore
  else if utf8Len (intNumber s) > 1 && (intNumber s).head? == some '0' then .error .LeadingZero
  else if f64Syntax.matchAll (stripUnderscores s) then .ok (stripUnderscores s)
  else .error .Std

end Literals
end Tombi
