import Verif.Model.Pointer
/-! Specification: JSON pointers in URI fragments, from RFC 6901. -/
namespace Tombi.Pointer
open Tombi.SchemaFile (Json)
open Tombi.Offer (Text)

/-- RFC 6901, section 4: the value that a list of reference tokens selects: a member by its name, an element by its index in decimal digits
without leading zeros. -/
inductive Selects : Json → List Text → Json → Prop where
  | here (j : Json) : Selects j [] j
  | member {o : SchemaFile.Members} {name : Text} {j v : Json} {rest : List Text} : o.lookup name = some j → Selects j rest v →
      Selects (.obj o) (name :: rest) v
  | element {xs : List Json} {i : Nat} {j v : Json} {rest : List Text} : xs[i]? = some j → Selects j rest v →
      Selects (.arr xs) (Nat.toDigits 10 i :: rest) v

/-- Section 3: a reference token with `~` and `/` escaped. -/
def escape : Text → Text
  | [] => []
  | '~' :: cs => '~' :: '0' :: escape cs
  | '/' :: cs => '~' :: '1' :: escape cs
  | c :: cs => c :: escape cs

/-- Section 3: a pointer, each token after a slash. -/
def pointer : List Text → Text
  | [] => []
  | t :: ts => '/' :: escape t ++ pointer ts

/-- A hexadecimal digit, in lower or upper case. -/
def HexDigit (c : Char) (n : Nat) : Prop := "0123456789abcdef".toList[n]? = some c ∨ "0123456789ABCDEF".toList[n]? = some c

/-- Bytes in percent-encoding. -/
inductive PercentBytes : List UInt8 → Text → Prop where
  | nil : PercentBytes [] []
  | cons {byte : UInt8} {bytes : List UInt8} {a b : Char} {w : Text} : HexDigit a (byte.toNat / 16) → HexDigit b (byte.toNat % 16) →
      PercentBytes bytes w → PercentBytes (byte :: bytes) ('%' :: a :: b :: w)

/-- Section 6: a text in a fragment of a URI: every character but `%` may stand for itself, every character may be percent-encoded. -/
inductive Fragment : Text → Text → Prop where
  | nil : Fragment [] []
  | plain {c : Char} {s w : Text} : c ≠ '%' → Fragment s w → Fragment (c :: s) (c :: w)
  | coded {c : Char} {h s w : Text} : PercentBytes (String.utf8EncodeChar c) h → Fragment s w → Fragment (c :: s) (h ++ w)

/-- What is assumed of `String::from_utf8_lossy`: the bytes of a text are read as the text. -/
def ReadsUtf8 (lossy : List UInt8 → Text) : Prop := ∀ s, lossy (s.flatMap String.utf8EncodeChar) = s

/-- A number that is written with a sign or with leading zeros. -/
def LooseNumber (t : Text) : Prop := (∃ ds, t = '+' :: ds) ∨ ∃ d ds, t = '0' :: d :: ds

end Tombi.Pointer
