import Verif.Model.ReadDocument
/-!
Model of writing a value as TOML: `rust/serde_tombi/src/ser.rs` (from a value to a document), `document.rs` of the same
crate (from a document to a text), `crates/tombi-document/src` (documents).

Simplifications: what `serde` hands to the serializer is a tree (`Data`), so a type that drives the serializer in other
ways (a key without a value) is left out; accessors, which only name the place of an error, are left out; a float is the
text that its `Display` gives; a field or key of a map is a text (a key of another type is an error, `ser.rs:484-498`).
-/
namespace Tombi.Serializing
open Tombi.Reading (Scalar Text)
open DateTime

/-- `crates/tombi-document/src/value/table.rs:5-10` (`TableKind`). -/
inductive TableKind where
  | table | inlineTable | keyValue
  deriving DecidableEq, Repr

/-- `value/array.rs:5-23` (`ArrayKind`). -/
inductive ArrayKind where
  | arrayOfTable | array
  deriving DecidableEq, Repr

/-- `key.rs:6-11` (`KeyKind`). -/
inductive KeyKind where
  | bareKey | basicString | literalString
  deriving DecidableEq, Repr

/-- `key.rs:23-27` (`Key`). -/
structure Key where
  kind : KeyKind
  value : Text
  deriving DecidableEq, Repr

mutual
/-- `value.rs` (`Value`), `table.rs:23-27` (`Table`), `array.rs:36-40` (`Array`). The kinds of strings and integers are left
out: the serializer makes basic strings and decimal integers. The `IndexMap` of a table is a list. -/
inductive Value where
  | scalar (s : Scalar)
  | array (kind : ArrayKind) (values : List Value)
  | table (kind : TableKind) (entries : List Entry)
/-- A key with its value. -/
inductive Entry where
  | mk (key : Key) (value : Value)
end

/-- The key of an entry. -/
def Entry.key : Entry → Key
  | .mk k _ => k

/-- The value of an entry. -/
def Entry.value : Entry → Value
  | .mk _ v => v

/-! ### from a value to a document -/

/-- What `serde` hands to the serializer. `scalar` stands for booleans, `i8` to `i64`, floats, strings, `char`s, unit
variants and tombi's date-times; `uint` for `u8` to `u64`; `unit` for units, unit structs and bytes; `seq` for sequences,
tuples and tuple structs; `record` for maps and structs; `variant` for a variant of an enum with a payload; `inline` for
the fields with `#[tombi(inline)]`. -/
inductive Data where
  | scalar (s : Scalar)
  | uint (n : Nat)
  | unit
  | none
  | some (d : Data)
  | seq (items : List Data)
  | record (fields : List (Text × Data))
  | variant (name : Text) (d : Data)
  | inline (d : Data)

/-- `ser/error.rs`, the errors of this model. -/
inductive SerError where
  | unit | arrayValueRequired | dateTime | rootMustBeTable
  deriving DecidableEq, Repr

/-- `v as i64` of a `u64` (`ser.rs:208-210`). -/
def asI64 (n : Nat) : Int := if n < 2 ^ 63 then n else (n : Int) - 2 ^ 64

/-- `ser.rs:156-239` for scalars; `:270-302` with `tombi-date-time/src/private/date_time.rs:287-316` and `ser.rs:660-672`
for date-times, which are handed over as texts and parsed again. -/
def serializeScalar : Scalar → Except SerError Scalar
  | .offsetDateTime d t o => match offsetDateTimeFromStr (showDateTime ⟨Option.some d, Option.some t, Option.some o⟩) with
    | .ok (d, t, o) => .ok (.offsetDateTime d t o)
    | .error _ => .error .dateTime
  | .localDateTime d t => match localDateTimeFromStr (showDateTime ⟨Option.some d, Option.some t, Option.none⟩) with
    | .ok (d, t) => .ok (.localDateTime d t)
    | .error _ => .error .dateTime
  | .localDate d => match localDateFromStr (showDateTime ⟨Option.some d, Option.none, Option.none⟩) with
    | .ok d => .ok (.localDate d)
    | .error _ => .error .dateTime
  | .localTime t => match localTimeFromStr (showDateTime ⟨Option.none, Option.some t, Option.none⟩) with
    | .ok t => .ok (.localTime t)
    | .error _ => .error .dateTime
  | s => .ok s

/-- `key.rs:48-62` (`Key::from(String)`), for basic strings. -/
def keyFrom (s : Text) : Key :=
  if !s.contains '\'' && !s.contains '"' then ⟨.bareKey, s⟩ else ⟨.basicString, s⟩

/-- `ser.rs:418-440`: an element is added to an array, of this kind so far: the kind from here on, and the element. -/
def place (kind : ArrayKind) : Value → ArrayKind × Value
  | .scalar s => (.array, .scalar s)
  | .array k vs => (kind, .array (if kind = .array then .array else k) vs)
  | .table k es => (kind, .table (if kind = .array then .inlineTable else k) es)

mutual
/-- `ser.rs:522-538` (`force_inline`). -/
def forceInline : Value → Value
  | .scalar s => .scalar s
  | .array _ vs => .array .array (forceInlines vs)
  | .table _ es => .table .inlineTable (forceEntries es)
/-- `force_inline` on the elements of an array. -/
def forceInlines : List Value → List Value
  | [] => []
  | v :: vs => forceInline v :: forceInlines vs
/-- `force_inline` on the values of a table. -/
def forceEntries : List Entry → List Entry
  | [] => []
  | .mk k v :: es => .mk k (forceInline v) :: forceEntries es
end

/-- `Table::insert` (`table.rs:59-61`): the `IndexMap` keeps the place and the key of an entry it has already. -/
def insertEntry (es : List Entry) (k : Key) (v : Value) : List Entry :=
  match es with
  | [] => [.mk k v]
  | .mk k' v' :: rest => if k'.value = k.value then .mk k' v :: rest else .mk k' v' :: insertEntry rest k v

mutual
/-- `ser.rs:156-391` (`ValueSerializer`). `none` is a value that is left out. -/
def serialize : Data → Except SerError (Option Value)
  | .scalar s => match serializeScalar s with
    | .ok s => .ok (Option.some (.scalar s))
    | .error e => .error e
  | .uint n => .ok (Option.some (.scalar (.integer (asI64 n))))
  | .unit => .error .unit
  | .none => .ok Option.none
  | .some d => serialize d
  | .seq ds => match serializeItems .arrayOfTable ds with
    | .ok (kind, vs) => .ok (Option.some (.array kind vs))
    | .error e => .error e
  | .record fs => match serializeFields fs with
    | .ok es => .ok (Option.some (.table .table (es.foldl (fun acc e => insertEntry acc e.key e.value) [])))
    | .error e => .error e
  | .variant _ d => serialize d
  | .inline d => match serialize d with
    | .ok (Option.some v) => .ok (Option.some (forceInline v))
    | .ok Option.none => .ok Option.none
    | .error e => .error e
/-- `ser.rs:398-450` (`SerializeArray`): the kind of the array and its elements. -/
def serializeItems (kind : ArrayKind) : List Data → Except SerError (ArrayKind × List Value)
  | [] => .ok (kind, [])
  | d :: ds => match serialize d with
    | .error e => .error e
    | .ok Option.none => .error .arrayValueRequired
    | .ok (Option.some v) => match serializeItems (place kind v).1 ds with
      | .error e => .error e
      | .ok (k, vs) => .ok (k, (place kind v).2 :: vs)
/-- `ser.rs:548-608` (`SerializeTable`): the key-values. -/
def serializeFields : List (Text × Data) → Except SerError (List Entry)
  | [] => .ok []
  | (k, d) :: fs => match serialize d with
    | .error e => .error e
    | .ok Option.none => serializeFields fs
    | .ok (Option.some v) => match serializeFields fs with
      | .error e => .error e
      | .ok es => .ok (.mk (keyFrom k) v :: es)
end

/-- `ser.rs:86-99` (`to_document`): the entries of the root. -/
def toDocument (d : Data) : Except SerError (List Entry) :=
  match serialize d with
  | .ok (Option.some (.table _ es)) => .ok es
  | .ok (Option.some _) => .error .rootMustBeTable
  | .ok Option.none => .ok []
  | .error e => .error e

/-! ### from a document to a text -/

/-- `i64::to_string`. -/
def showInt (n : Int) : Text := if n < 0 then '-' :: dec n.natAbs else dec n.natAbs

/-- `document.rs:48-65` of `serde_tombi`: the text of a scalar. -/
def scalarText : Scalar → Text
  | .string s => '"' :: (s ++ ['"'])
  | .integer n => showInt n
  | .float t => t
  | .boolean b => if b then ['t', 'r', 'u', 'e'] else ['f', 'a', 'l', 's', 'e']
  | .offsetDateTime d t o => showOffsetDateTime d t o
  | .localDateTime d t => showLocalDateTime d t
  | .localDate d => showDate d
  | .localTime t => showTime t

/-- `key.rs:70-78` (`Display for Key`). -/
def keyText (k : Key) : Text :=
  match k.kind with
  | .bareKey => k.value
  | .basicString => '"' :: (k.value ++ ['"'])
  | .literalString => '\'' :: (k.value ++ ['\''])

/-- Keys joined with dots. -/
def dotted : List Key → Text
  | [] => []
  | [k] => keyText k
  | k :: ks => keyText k ++ '.' :: dotted ks

/-- `document.rs:81-88`, `:108-120`: is a value written as tables with headers of their own? -/
def isSection : Value → Bool
  | .table .table _ => true
  | .array .arrayOfTable _ => true
  | _ => false

/-- `document.rs:95-103`: the header of a table. -/
def tableHeader (parents : List Key) : Text :=
  if parents.isEmpty then [] else '[' :: (dotted parents ++ [']', '\n'])

/-- `document.rs:196-203`: the header of an element of an array of tables. -/
def elementHeader (parents : List Key) : Text := '[' :: '[' :: (dotted parents ++ [']', ']', '\n'])

mutual
/-- `document.rs:41-66` (`Value::to_toml_string`), `:68-149` (`Table`), `:176-231` (`Array`). -/
def writeValue (parents : List Key) : Value → Text
  | .scalar s => scalarText s
  | .array .array vs => '[' :: (writeItems parents vs ++ [']'])
  | .array .arrayOfTable vs => writeElements parents vs
  | .table .table es => match writeOnly parents es with
    | Option.some t => t
    | Option.none => tableHeader parents ++ (writePlain es ++ writeSections parents es)
  | .table .inlineTable es => '{' :: (writeInline es ++ ['}'])
  | .table .keyValue es => writeDotted parents es
/-- `document.rs:74-92`: a table whose only entry is a table or an array of tables. -/
def writeOnly (parents : List Key) : List Entry → Option Text
  | [.mk k v] => if isSection v then Option.some (writeValue (parents ++ [k]) v) else Option.none
  | _ => Option.none
/-- `document.rs:105-121`: the other entries of a table. -/
def writePlain : List Entry → Text
  | [] => []
  | e :: es => (if isSection e.value then [] else writePair [] e) ++ writePlain es
/-- `document.rs:123-128`: the tables and the arrays of tables in a table. -/
def writeSections (parents : List Key) : List Entry → Text
  | [] => []
  | .mk k v :: es => (if isSection v then writeValue (parents ++ [k]) v else []) ++ writeSections parents es
/-- `document.rs:17-39`: a key and a value. -/
def writePair (parents : List Key) : Entry → Text
  | .mk k (.table .keyValue es) => writeDotted (parents ++ [k]) es ++ ['\n']
  | .mk k v => dotted (parents ++ [k]) ++ (' ' :: '=' :: ' ' :: (writeValue [] v ++ ['\n']))
/-- `document.rs:141-145`: the entries of a table that is written with dotted keys. -/
def writeDotted (parents : List Key) : List Entry → Text
  | [] => []
  | e :: es => writePair parents e ++ writeDotted parents es
/-- `document.rs:131-140`: the entries of an inline table. -/
def writeInline : List Entry → Text
  | [] => []
  | [e] => writeInlineEntry e
  | e :: es => writeInlineEntry e ++ (',' :: ' ' :: writeInline es)
/-- `document.rs:151-174` (`inline_table_entry_to_toml_string`). -/
def writeInlineEntry : Entry → Text
  | .mk k (.table .keyValue es) => keyText k ++ (' ' :: '=' :: ' ' :: '{' :: (writeInline es ++ ['}']))
  | .mk k v => keyText k ++ (' ' :: '=' :: ' ' :: writeValue [] v)
/-- `document.rs:184-194`: the elements of an array. -/
def writeItems (parents : List Key) : List Value → Text
  | [] => []
  | [v] => writeValue parents v
  | v :: vs => writeValue parents v ++ (',' :: ' ' :: writeItems parents vs)
/-- `document.rs:195-228`: the elements of an array of tables. -/
def writeElements (parents : List Key) : List Value → Text
  | [] => []
  | v :: vs => elementHeader parents ++ (writeElement parents v ++ writeElements parents vs)
/-- `document.rs:204-226`: an element of an array of tables. What is no table is left out. -/
def writeElement (parents : List Key) : Value → Text
  | .table _ es => writeElementEntries parents es
  | _ => []
/-- `document.rs:205-225`: the entries of an element of an array of tables. -/
def writeElementEntries (parents : List Key) : List Entry → Text
  | [] => []
  | e :: es => writeElementEntry parents e ++ ('\n' :: writeElementEntries parents es)
/-- `document.rs:206-223`: an entry of an element of an array of tables. -/
def writeElementEntry (parents : List Key) : Entry → Text
  | .mk k (.table .keyValue es) => writeDotted (parents ++ [k]) es
  | .mk k v => keyText k ++ (' ' :: '=' :: ' ' :: writeValue (parents ++ [k]) v)
end

/-- `ser.rs:114-116`: the text of a document. -/
def documentText (es : List Entry) : Text := writeValue [] (.table .table es)

/-- How `to_string` fails: with an error, or with the panic of `ser.rs:149-153`. -/
inductive Failed where
  | error (e : SerError)
  | panic
  deriving DecidableEq, Repr

/-- `ser.rs:109-156` (`to_string_async`): the document is written and formatted. The formatter is `formatSource`, with the
settings `E`. -/
def toToml (E : Formatter.Env) (d : Data) : Except Failed Text :=
  match toDocument d with
  | .error e => .error (.error e)
  | .ok es => match Formatter.formatSource E (documentText es) with
    | Option.some t => .ok t
    | Option.none => .error .panic

end Tombi.Serializing
