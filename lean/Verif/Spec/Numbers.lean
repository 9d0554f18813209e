/-!
Specification: the integer denoted by a TOML integer literal, by positional notation.
-/
namespace Tombi.Spec

/-- the value of a digit (decimal or hexadecimal) -/
def digitVal (c : Char) : Nat :=
  if c ≤ '9' then c.toNat - '0'.toNat else if c ≤ 'F' then c.toNat - 'A'.toNat + 10
  else c.toNat - 'a'.toNat + 10

/-- the number of digits; underscores do not count -/
def digitCount (s : List Char) : Nat := (s.filter (· ≠ '_')).length

/-- the value of a sequence of digits and underscores in base `b` -/
def posValue (b : Nat) : List Char → Nat
  | [] => 0
  | c :: cs => if c = '_' then posValue b cs else digitVal c * b ^ digitCount cs + posValue b cs

/-- the value of a decimal literal with optional sign -/
def decValue : List Char → Int
  | '-' :: s => -(posValue 10 s : Int)
  | '+' :: s => posValue 10 s
  | s => posValue 10 s

/-- the value of a literal in base `b` with a prefix of two characters (`0x`, `0o`, `0b`) -/
def prefixedValue (b : Nat) (s : List Char) : Int := posValue b (s.drop 2)

/-- the range of signed 64-bit integers -/
def InI64 (v : Int) : Prop := -(2 ^ 63) ≤ v ∧ v < 2 ^ 63

end Tombi.Spec
