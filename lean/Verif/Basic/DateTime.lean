import Verif.Basic.Text
/-! The records of `crates/tombi-date-time`, shared by the model and the specification. -/
namespace Tombi.DateTime

/-- `private/date.rs:2-9`. -/
structure Date where
  year : Nat
  month : Nat
  day : Nat
  deriving DecidableEq, Repr

/-- `private/time.rs:2-11`. -/
structure Time where
  hour : Nat
  minute : Nat
  second : Nat
  nanosecond : Nat
  deriving DecidableEq, Repr

/-- `offset.rs:2-15` (`TimeZoneOffset`). -/
inductive Offset
  | Z
  | Custom (minutes : Int)
  deriving DecidableEq, Repr

end Tombi.DateTime
