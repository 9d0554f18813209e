import Verif.Model.Serialize
/-!
Model of the last step of reading a TOML text into a Rust value (`serde_tombi::from_str_async`): the document tree becomes a
document (`crates/tombi-document/src/{lib,key,value}.rs`, `value/{array,table}.rs`), and the document is handed to the
`Deserialize` implementation of the type asked for.

`Ty` is the type asked for, `Val` a value of it. What `serde` itself does for `std` types and for `#[derive(Deserialize)]`
is not part of the repository; it is written down here from serde's documentation and belongs to the trusted base: which
`deserialize_…` method each type calls, which `visit_…` methods it has, that unknown fields are ignored, that a missing field
is `None` for an `Option` and an error otherwise, that a tuple or a struct takes as many elements of a sequence as it has
components and leaves the rest alone. Field names and variant names are those after renaming; the attributes `default`,
`flatten`, `untagged`, `tag` and `deny_unknown_fields`, and `f32`, 128-bit numbers, bytes, `()` and tuple and struct variants
are left out.
-/
namespace Tombi.Deserializing
open Tombi.Reading (Scalar Text)
open Tombi.Serializing (Value Entry Key)
open Tombi.DateTime (offsetDateTimeFromStr localDateTimeFromStr localDateFromStr localTimeFromStr)

/-- A Rust type. -/
inductive Ty where
  | bool
  /-- `i8` to `i64`. -/
  | signed (bits : Nat)
  /-- `u8` to `u64`. -/
  | unsigned (bits : Nat)
  | f64
  | string
  | char
  /-- The four types of `tombi-date-time`. -/
  | offsetDateTime | localDateTime | localDate | localTime
  | option (t : Ty)
  /-- `struct N(T);` -/
  | newtype (t : Ty)
  /-- A field of type `T` with `#[tombi(inline)]`, which `Deserialize` does not see (`serde_tombi_macros/src/lib.rs`). -/
  | inline (t : Ty)
  /-- `Vec<T>`. -/
  | seq (t : Ty)
  | tuple (ts : List Ty)
  /-- `BTreeMap<String, T>`. -/
  | map (t : Ty)
  | struct (fields : List (Text × Ty))
  /-- An enum: the names of its unit variants, its newtype variants. -/
  | enum (units : List Text) (payloads : List (Text × Ty))

/-- A Rust value. A `BTreeMap` is the list of its entries in the order of the keys, a struct has its fields in the order of
the type. -/
inductive Val where
  | bool (b : Bool)
  | int (n : Int)
  | uint (n : Nat)
  | float (t : Text)
  | string (s : Text)
  | char (c : Char)
  | date (s : Scalar)
  | none
  | some (x : Val)
  | newtype (x : Val)
  | inline (x : Val)
  | seq (xs : List Val)
  | tuple (xs : List Val)
  | map (es : List (Text × Val))
  | struct (fs : List (Text × Val))
  | unitVariant (name : Text)
  | variant (name : Text) (x : Val)

/-! ### the document -/

/-- `value/table.rs:12-21`. -/
def tableKind : TableKind → Serializing.TableKind
  | .root | .table | .parentTable | .parentKey => .table
  | .inlineTable => .inlineTable
  | .keyValue => .keyValue

/-- `value/array.rs:23-32`. -/
def arrayKind : ArrayKind → Serializing.ArrayKind
  | .arrayOfTable | .parentArrayOfTable => .arrayOfTable
  | .array => .array

mutual
/-- `value.rs:144-168`; `none` is the `unreachable!` in `:164`. The kind of a key (`key.rs:79-86`) is left out: every key is
a bare key here. -/
def intoValue : DValue Scalar → Option Value
  | .scalar s => Option.some (.scalar s)
  | .array kind vs => (intoValues vs).map (.array (arrayKind kind))
  | .table kind es => (intoEntries es).map (.table (tableKind kind))
  | .incomplete => Option.none
/-- `value/array.rs:79-89`. -/
def intoValues : List (DValue Scalar) → Option (List Value)
  | [] => Option.some []
  | v :: vs => match intoValue v, intoValues vs with
    | Option.some w, Option.some ws => Option.some (w :: ws)
    | _, _ => Option.none
/-- `value/table.rs:66-84`. -/
def intoEntries : List (DKey × DValue Scalar) → Option (List Entry)
  | [] => Option.some []
  | (k, v) :: es => match intoValue v, intoEntries es with
    | Option.some w, Option.some ws => Option.some (.mk ⟨.bareKey, k⟩ w :: ws)
    | _, _ => Option.none
end

/-! ### single values -/

/-- `value.rs:315` (`deserialize_bool`). -/
def takeBool : Value → Option Val
  | .scalar (.boolean b) => Option.some (.bool b)
  | _ => Option.none

/-- `value.rs:316` (`deserialize_i64`), and `:394` for the other signed types: serde checks the range. -/
def takeSigned (bits : Nat) : Value → Option Val
  | .scalar (.integer n) => if -2 ^ (bits - 1) ≤ n ∧ n < 2 ^ (bits - 1) then Option.some (.int n) else Option.none
  | _ => Option.none

/-- `value.rs:394` with `:295`: the number is handed over as an `i64`; serde checks the range. -/
def takeUnsigned (bits : Nat) : Value → Option Val
  | .scalar (.integer n) => if 0 ≤ n ∧ n < 2 ^ bits then Option.some (.uint n.toNat) else Option.none
  | _ => Option.none

/-- `value.rs:317` (`deserialize_f64`). -/
def takeFloat : Value → Option Val
  | .scalar (.float t) => Option.some (.float t)
  | _ => Option.none

/-- `value.rs:318` and `:394` with `:297`. -/
def takeString : Value → Option Val
  | .scalar (.string s) => Option.some (.string s)
  | _ => Option.none

/-- `value.rs:394` with `:297`: serde takes a string of one character. -/
def takeChar : Value → Option Val
  | .scalar (.string [c]) => Option.some (.char c)
  | _ => Option.none

/-- `tombi-date-time/src/{offset_date_time,local_date_time,local_date,local_time}.rs` (`Deserialize`) with
`private/date_time.rs:319-342`: the type calls `deserialize_newtype_struct` (`value.rs:346-355`), its visitor then
`deserialize_str` (`value.rs:318`) on the same value, which is an error unless the value is a string; the string is parsed. -/
def takeDate (parse : Text → Option Scalar) : Value → Option Val
  | .scalar (.string s) => (parse s).map .date
  | _ => Option.none

/-- `offset_date_time.rs`, after `FromStr`. -/
def parseOffsetDateTime (s : Text) : Option Scalar :=
  match offsetDateTimeFromStr s with
  | .ok (d, t, o) => Option.some (.offsetDateTime d t o)
  | .error _ => Option.none
/-- `local_date_time.rs`, after `FromStr`. -/
def parseLocalDateTime (s : Text) : Option Scalar :=
  match localDateTimeFromStr s with
  | .ok (d, t) => Option.some (.localDateTime d t)
  | .error _ => Option.none
/-- `local_date.rs:60-80`, after `FromStr`. -/
def parseLocalDate (s : Text) : Option Scalar :=
  match localDateFromStr s with
  | .ok d => Option.some (.localDate d)
  | .error _ => Option.none
/-- `local_time.rs`, after `FromStr`. -/
def parseLocalTime (s : Text) : Option Scalar :=
  match localTimeFromStr s with
  | .ok t => Option.some (.localTime t)
  | .error _ => Option.none

/-! ### values with parts -/

/-- All the elements of a sequence are read (`value/array.rs:130-146`, by serde's visitor of `Vec`). -/
def takeAll (f : Value → Option Val) : List Value → Option (List Val)
  | [] => Option.some []
  | v :: vs => match f v, takeAll f vs with
    | Option.some x, Option.some xs => Option.some (x :: xs)
    | _, _ => Option.none

/-- `BTreeMap::insert`. -/
def insertSorted (k : Text) (x : Val) : List (Text × Val) → List (Text × Val)
  | [] => [(k, x)]
  | (k', x') :: es =>
    if k < k' then (k, x) :: (k', x') :: es
    else if k = k' then (k, x) :: es
    else (k', x') :: insertSorted k x es

/-- All the entries of a table are read into a map (`value/table.rs:126-159`, by serde's visitor of `BTreeMap`); a key is
its text (`key.rs:124-140`). -/
def takeEntries (f : Value → Option Val) (acc : List (Text × Val)) : List Entry → Option (List (Text × Val))
  | [] => Option.some acc
  | .mk k v :: es => match f v with
    | Option.some x => takeEntries f (insertSorted k.value x acc) es
    | Option.none => Option.none

/-- The value of a field in a table. -/
def entryOf (es : List Entry) (k : Text) : Option Value :=
  match es with
  | [] => Option.none
  | .mk k' v :: es => if k'.value = k then Option.some v else entryOf es k

/-- A field that is missing. -/
def missing : Ty → Option Val
  | .option _ => Option.some .none
  | .inline t => match missing t with
    | Option.some x => Option.some (.inline x)
    | Option.none => Option.none
  | _ => Option.none

/-- A field, found or missing. -/
def takeField (f : Value → Option Val) (absent : Option Val) : Option Value → Option Val
  | Option.some v => f v
  | Option.none => absent

mutual
/-- `value.rs:286-398` (`Deserializer for &Value`), called by the `Deserialize` of the type. -/
def fromValue : Ty → Value → Option Val
  | .bool, v => takeBool v
  | .signed bits, v => takeSigned bits v
  | .unsigned bits, v => takeUnsigned bits v
  | .f64, v => takeFloat v
  | .string, v => takeString v
  | .char, v => takeChar v
  | .offsetDateTime, v => takeDate parseOffsetDateTime v
  | .localDateTime, v => takeDate parseLocalDateTime v
  | .localDate, v => takeDate parseLocalDate v
  | .localTime, v => takeDate parseLocalTime v
  -- `:364-369`
  | .option t, v => (fromValue t v).map .some
  -- `:346-355`
  | .newtype t, v => (fromValue t v).map .newtype
  | .inline t, v => (fromValue t v).map .inline
  -- `:320-331`
  | .seq t, v => match v with
    | .array _ vs => (takeAll (fromValue t) vs).map .seq
    | _ => Option.none
  -- `:395` with `:310`
  | .tuple ts, v => match v with
    | .array _ vs => (fromTuple ts vs).map .tuple
    | _ => Option.none
  -- `:333-344`
  | .map t, v => match v with
    | .table _ es => (takeEntries (fromValue t) [] es).map .map
    | _ => Option.none
  -- `:396` with `:310-311`
  | .struct fs, v => match v with
    | .table _ es => (fromFields fs es).map .struct
    | .array _ vs => (fromElements fs vs).map .struct
    | _ => Option.none
  -- `:371-391`, `:400-445`, `value/table.rs:179-210`
  | .enum us ps, v => match v with
    | .scalar (.string s) => if s ∈ us then Option.some (.unitVariant s) else Option.none
    | .table _ [.mk k v] => (fromVariant ps k.value v).map (.variant k.value)
    | _ => Option.none
/-- The components of a tuple. -/
def fromTuple : List Ty → List Value → Option (List Val)
  | [], _ => Option.some []
  | _ :: _, [] => Option.none
  | t :: ts, v :: vs => match fromValue t v, fromTuple ts vs with
    | Option.some x, Option.some xs => Option.some (x :: xs)
    | _, _ => Option.none
/-- The fields of a struct from a table. -/
def fromFields : List (Text × Ty) → List Entry → Option (List (Text × Val))
  | [], _ => Option.some []
  | (k, t) :: fs, es =>
    match takeField (fromValue t) (missing t) (entryOf es k), fromFields fs es with
    | Option.some x, Option.some xs => Option.some ((k, x) :: xs)
    | _, _ => Option.none
/-- The fields of a struct from an array. -/
def fromElements : List (Text × Ty) → List Value → Option (List (Text × Val))
  | [], _ => Option.some []
  | _ :: _, [] => Option.none
  | (k, t) :: fs, v :: vs => match fromValue t v, fromElements fs vs with
    | Option.some x, Option.some xs => Option.some ((k, x) :: xs)
    | _, _ => Option.none
/-- The payload of a newtype variant. -/
def fromVariant : List (Text × Ty) → Text → Value → Option Val
  | [], _, _ => Option.none
  | (k, t) :: ps, name, v => if k = name then fromValue t v else fromVariant ps name v
end

/-- `lib.rs:88-103`: at the root every type gets a map, whatever it asks for (`value/table.rs:165-177`); of the types here
only structs and maps take one. -/
def fromDocument : Ty → List Entry → Option Val
  | .map t, es => (takeEntries (fromValue t) [] es).map .map
  | .struct fs, es => (fromFields fs es).map .struct
  | _, _ => Option.none

/-! ### from the text -/

/-- Why no value is returned: the text is refused (`de.rs:96-98`, `:190-192`), `into_document` panics, the document is not a
value of the type. -/
inductive Refused where
  | document (f : Reading.Failure)
  | panic
  | mismatch

/-- `de.rs:90-113`, `:181-197` (`from_str_async`), for the TOML version it has determined. -/
def fromStr (G : Segmenter) (v : TomlVersion) (t : Ty) (source : Text) : Except Refused Val :=
  match Reading.readDocument G v source with
  | .error f => .error (.document f)
  | .ok T => match intoEntries T.entries with
    | Option.none => .error .panic
    | Option.some es => match fromDocument t es with
      | Option.none => .error .mismatch
      | Option.some x => .ok x

end Tombi.Deserializing
