import Verif.Model.Formats
import Verif.Spec.DateTime
import Verif.Spec.Pointer
/-! Specification: the texts of the formats, from RFC 3339. The texts of dates, times and offsets are those of `Spec/DateTime.lean`; JSON
pointers are those of `Spec/Pointer.lean`. -/
namespace Tombi.Formats
open Tombi.Spec Tombi.DateTime

/-- RFC 3339, `full-date`. -/
def RfcDate (s : Text) : Prop := ∃ d : Date, DateText d s ∧ ValidDate d

/-- RFC 3339, `partial-time`. -/
def RfcLocalTime (s : Text) : Prop := ∃ t : Time, SecondsText t s ∧ t.hour < 24 ∧ t.minute < 60 ∧ t.second ≤ 60

/-- RFC 3339, `full-time`. -/
def RfcTime (s : Text) : Prop := ∃ (a b : Text) (o : Offset), s = a ++ b ∧ RfcLocalTime a ∧ OffsetText o b

/-- RFC 3339, between date and time. -/
def Separator (c : Char) : Prop := c = 'T' ∨ c = 't' ∨ c = ' '

/-- RFC 3339, `date-time`. -/
def RfcDateTime (s : Text) : Prop := ∃ (a b : Text) (c : Char), s = a ++ c :: b ∧ RfcDate a ∧ Separator c ∧ RfcTime b

/-- A `date-time` without offset. -/
def RfcLocalDateTime (s : Text) : Prop := ∃ (a b : Text) (c : Char), s = a ++ c :: b ∧ RfcDate a ∧ Separator c ∧ RfcLocalTime b

/-- Every plus sign stands before two digits and a colon, as in an offset. -/
def PlainSigns (s : Text) : Prop := ∀ a b, s = a ++ '+' :: b →
  ∃ d e r, b = d :: e :: ':' :: r ∧ ('0' ≤ d ∧ d ≤ '9') ∧ ('0' ≤ e ∧ e ≤ '9')

/-! ### RFC 3986 -/

/-- RFC 3986, `unreserved` and `sub-delims`. -/
def NameChar (c : Char) : Prop :=
  ('0' ≤ c ∧ c ≤ '9') ∨ ('a' ≤ c ∧ c ≤ 'z') ∨ ('A' ≤ c ∧ c ≤ 'Z') ∨ c ∈ "-._~".toList ∨ c ∈ "!$&'()*+,;=".toList

/-- RFC 3986: texts of some characters and `pct-encoded`. -/
inductive Encoded (extra : List Char) : Text → Prop where
  | nil : Encoded extra []
  | plain {c s} : NameChar c ∨ c ∈ extra → Encoded extra s → Encoded extra (c :: s)
  | percent {a b s n m} : Tombi.Pointer.HexDigit a n → Tombi.Pointer.HexDigit b m → Encoded extra s → Encoded extra ('%' :: a :: b :: s)

/-- RFC 3986, `segment`. -/
def UriSegment (s : Text) : Prop := Encoded [':', '@'] s

/-- RFC 3986, `path-abempty`. -/
inductive UriPath : Text → Prop where
  | nil : UriPath []
  | cons {s t} : UriSegment s → UriPath t → UriPath ('/' :: s ++ t)

/-- RFC 3986, `authority`, where the host is a `reg-name` or an `IPv4address` (whose texts are also `reg-name`s), not an `IP-literal`. -/
def UriAuthority (s : Text) : Prop := ∃ user host port, s = user ++ host ++ port ∧
  (user = [] ∨ ∃ u, user = u ++ ['@'] ∧ Encoded [':'] u) ∧ Encoded [] host ∧
  (port = [] ∨ ∃ p, port = ':' :: p ∧ ∀ c ∈ p, '0' ≤ c ∧ c ≤ '9')

/-- RFC 3986, `relative-part`. -/
inductive RelativePart : Text → Prop where
  | authority {a p} : UriAuthority a → UriPath p → RelativePart ('/' :: '/' :: a ++ p)
  | root : RelativePart ['/']
  | absolute {s p} : UriSegment s → s ≠ [] → UriPath p → RelativePart ('/' :: s ++ p)
  | noscheme {s p} : Encoded ['@'] s → s ≠ [] → UriPath p → RelativePart (s ++ p)
  | empty : RelativePart []

/-- RFC 3986, `query` and `fragment`, with the sign that introduces them; either may be missing. -/
def UriTail (sign : Char) (s : Text) : Prop := s = [] ∨ ∃ q, s = sign :: q ∧ Encoded [':', '@', '/', '?'] q

/-- RFC 3986, `relative-ref`, from its parts. -/
def RelativeRef (path query fragment : Text) : Prop := RelativePart path ∧ UriTail '?' query ∧ UriTail '#' fragment

end Tombi.Formats
