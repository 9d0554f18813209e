import Verif.Spec.Numbers
import Verif.Basic.DateTime
/-!
Specification of dates and times: the calendar, and the texts of the TOML 1.1 grammar that denote a value.
The types `Date`, `Time`, `Offset` are plain records of numbers.
-/
namespace Tombi.Spec
open DateTime

/-- the Gregorian rule -/
def LeapYear (y : Nat) : Prop := (4 ∣ y ∧ ¬ 100 ∣ y) ∨ 400 ∣ y

/-- the number of days of the twelve months -/
inductive MonthLength (y : Nat) : Nat → Nat → Prop
  | january : MonthLength y 1 31
  | february_leap : LeapYear y → MonthLength y 2 29
  | february : ¬ LeapYear y → MonthLength y 2 28
  | march : MonthLength y 3 31
  | april : MonthLength y 4 30
  | may : MonthLength y 5 31
  | june : MonthLength y 6 30
  | july : MonthLength y 7 31
  | august : MonthLength y 8 31
  | september : MonthLength y 9 30
  | october : MonthLength y 10 31
  | november : MonthLength y 11 30
  | december : MonthLength y 12 31

/-- a day of the calendar, with a year of at most four digits -/
def ValidDate (d : Date) : Prop :=
  d.year ≤ 9999 ∧ ∃ n, MonthLength d.year d.month n ∧ 1 ≤ d.day ∧ d.day ≤ n

/-- a time of the day (second 60 is a leap second) -/
def ValidTime (t : Time) : Prop :=
  t.hour < 24 ∧ t.minute < 60 ∧ t.second ≤ 60 ∧ t.nanosecond < 1000000000

/-- an offset of less than a day -/
def ValidOffset : Offset → Prop
  | .Z => True
  | .Custom m => -1440 < m ∧ m < 1440

/-- `w` is a number of exactly `k` decimal digits and denotes `n` -/
def Digits (k : Nat) (w : List Char) (n : Nat) : Prop :=
  w.length = k ∧ (∀ c ∈ w, '0' ≤ c ∧ c ≤ '9') ∧ n = posValue 10 w

/-- `yyyy-mm-dd` -/
def DateText (d : Date) (w : List Char) : Prop :=
  ∃ y m dd, Digits 4 y d.year ∧ Digits 2 m d.month ∧ Digits 2 dd d.day ∧ w = y ++ '-' :: m ++ '-' :: dd

/-- a fraction of a second: any positive number of digits, those after the ninth are cut off -/
def FractionText (n : Nat) (w : List Char) : Prop :=
  w ≠ [] ∧ (∀ c ∈ w, '0' ≤ c ∧ c ≤ '9') ∧ n = posValue 10 (w.take 9) * 10 ^ (9 - w.length)

/-- `hh:mm:ss` or `hh:mm:ss.fff` -/
inductive SecondsText (t : Time) : List Char → Prop
  | whole {h m s : List Char} : Digits 2 h t.hour → Digits 2 m t.minute → Digits 2 s t.second →
      t.nanosecond = 0 → SecondsText t (h ++ ':' :: m ++ ':' :: s)
  | fraction {h m s f : List Char} : Digits 2 h t.hour → Digits 2 m t.minute → Digits 2 s t.second →
      FractionText t.nanosecond f → SecondsText t (h ++ ':' :: m ++ ':' :: s ++ '.' :: f)

/-- `hh:mm`, of TOML 1.1 -/
def MinutesText (t : Time) (w : List Char) : Prop :=
  ∃ h m, Digits 2 h t.hour ∧ Digits 2 m t.minute ∧ t.second = 0 ∧ t.nanosecond = 0 ∧ w = h ++ ':' :: m

/-- the times of TOML 1.1 -/
def TimeText (t : Time) (w : List Char) : Prop := SecondsText t w ∨ MinutesText t w

/-- `hh:mm.fff`: a fraction of a second after the minutes, which TOML does not have -/
def LaxTimeText (t : Time) (w : List Char) : Prop :=
  ∃ h m f, Digits 2 h t.hour ∧ Digits 2 m t.minute ∧ t.second = 0 ∧ FractionText t.nanosecond f
    ∧ w = h ++ ':' :: m ++ '.' :: f

/-- `Z`, `+hh:mm` or `-hh:mm` -/
inductive OffsetText : Offset → List Char → Prop
  | upper : OffsetText .Z ['Z']
  | lower : OffsetText .Z ['z']
  | plus {h m : List Char} {hours minutes : Nat} : Digits 2 h hours → Digits 2 m minutes →
      hours < 24 → minutes < 60 → OffsetText (.Custom (hours * 60 + minutes)) ('+' :: h ++ ':' :: m)
  | minus {h m : List Char} {hours minutes : Nat} : Digits 2 h hours → Digits 2 m minutes →
      hours < 24 → minutes < 60 → OffsetText (.Custom (-(hours * 60 + minutes))) ('-' :: h ++ ':' :: m)

/-- the characters between a date and a time -/
def DateTimeSeparator (c : Char) : Prop := c = 'T' ∨ c = 't' ∨ c = ' '

end Tombi.Spec
