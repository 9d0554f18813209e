import Verif.Model.Serialize
import Verif.Spec.ReadDocument
/-!
What a value handed to the serializer stands for, as the nodes of a tree (`Verif/Spec/Document.lean`), and the values that
the serializer is able to write.
-/
namespace Tombi.Serializing
open Spec
open Tombi.Reading (Scalar Text)
open Tombi.Formatter (PlainKey DotKey)

mutual
/-- The nodes of a value: what is left out (`none`) has none, a variant with a payload is a table with the variant's name
as its key. -/
def dataNodes : Data → List (Path × Node Scalar)
  | .scalar s => [([], .scalar s)]
  | .uint n => [([], .scalar (.integer n))]
  | .unit => []
  | .none => []
  | .some d => dataNodes d
  | .seq ds => ([], .array) :: itemNodes 0 ds
  | .record fs => ([], .table) :: fieldNodes fs
  | .variant name d => ([], .table) :: below [.key name] (dataNodes d)
  | .inline d => dataNodes d
/-- The nodes of the elements of a sequence, from element `i` on. -/
def itemNodes (i : Nat) : List Data → List (Path × Node Scalar)
  | [] => []
  | d :: ds => below [.index i] (dataNodes d) ++ itemNodes (i + 1) ds
/-- The nodes of the fields of a record. -/
def fieldNodes : List (Text × Data) → List (Path × Node Scalar)
  | [] => []
  | (k, d) :: fs => below [.key k] (dataNodes d) ++ fieldNodes fs
end

mutual
/-- How deep sequences and records are nested. -/
def depth : Data → Nat
  | .scalar _ => 0
  | .uint _ => 0
  | .unit => 0
  | .none => 0
  | .some d => depth d
  | .seq ds => depthItems ds + 1
  | .record fs => depthFields fs + 1
  | .variant _ d => depth d
  | .inline d => depth d
/-- The deepest element. -/
def depthItems : List Data → Nat
  | [] => 0
  | d :: ds => max (depth d) (depthItems ds)
/-- The deepest field. -/
def depthFields : List (Text × Data) → Nat
  | [] => 0
  | (_, d) :: fs => max (depth d) (depthFields fs)
end

/-! ### what can be written -/

/-- A text without quotation marks, backslashes and control characters. -/
def PlainText (s : Text) : Prop := ∀ c ∈ s, c ≠ '"' ∧ Literal c

/-- A scalar that can be written: a float with a point or `inf`, a plain text, a date and time that exists. -/
def PlainScalar : Scalar → Prop
  | .boolean _ => True
  | .integer n => InI64 n
  | .float t => Toml.float.Lang t ∧ '_' ∉ t ∧ 'E' ∉ t
  | .string s => PlainText s
  | .offsetDateTime d t o => ValidDate d ∧ ValidTime t ∧ ValidOffset o
  | .localDateTime d t => ValidDate d ∧ ValidTime t
  | .localDate d => ValidDate d
  | .localTime t => ValidTime t

/-- The name of a field: a bare key (`PlainKey`), or a plain text with an apostrophe. -/
def FieldName (k : Text) : Prop := PlainKey k ∨ ('\'' ∈ k ∧ PlainText k)

/-- The name of a table: as before, but not a number or a date. -/
def TableName (k : Text) : Prop := DotKey k ∨ ('\'' ∈ k ∧ PlainText k)

/-- Nothing is written for this value. -/
def isAbsent : Data → Bool
  | .none => true
  | .some d => isAbsent d
  | .inline d => isAbsent d
  | _ => false

/-- A single value. -/
def isScalar : Data → Bool
  | .scalar _ => true
  | .uint _ => true
  | .some d => isScalar d
  | .inline d => isScalar d
  | _ => false

/-- A record. -/
def isRecord : Data → Bool
  | .record _ => true
  | .some d => isRecord d
  | _ => false

mutual
/-- What can be written behind `#[tombi(inline)]`: everything, if its names and scalars can be written. -/
def Inline : Data → Prop
  | .scalar s => PlainScalar s
  | .uint n => n < 2 ^ 63
  | .some d => Inline d
  | .inline d => Inline d
  | .seq ds => InlineItems ds
  | .record fs => (fs.map (·.1)).Nodup ∧ InlineFields fs
  | _ => False
/-- The elements of a sequence. -/
def InlineItems : List Data → Prop
  | [] => True
  | d :: ds => Inline d ∧ InlineItems ds
/-- The fields of a record. -/
def InlineFields : List (Text × Data) → Prop
  | [] => True
  | (k, d) :: fs => (isAbsent d = true ∨ FieldName k ∧ Inline d) ∧ InlineFields fs
end

mutual
/-- What is written on one line by itself: a scalar, what is marked `#[tombi(inline)]`, a sequence of such values with at
least one scalar. -/
def Flat : Data → Prop
  | .scalar s => PlainScalar s
  | .uint n => n < 2 ^ 63
  | .some d => Flat d
  | .inline d => Inline d
  | .seq ds => (∃ d ∈ ds, isScalar d = true) ∧ FlatItems ds
  | _ => False
/-- The elements of a sequence. -/
def FlatItems : List Data → Prop
  | [] => True
  | d :: ds => Flat d ∧ FlatItems ds
end

/-- The fields of an element of an array of tables. -/
def FlatFields (fs : List (Text × Data)) : Prop := ∀ f ∈ fs, isAbsent f.2 = true ∨ FieldName f.1 ∧ Flat f.2

/-- An element of an array of tables: a record with such fields. -/
def Element : Data → Prop
  | .record fs => (fs.map (·.1)).Nodup ∧ FlatFields fs
  | .some d => Element d
  | _ => False

mutual
/-- What can be written as a field of a table: a value on one line, a table, a sequence of at least one element of an array
of tables. -/
def Field : Data → Prop
  | .record fs => (fs.map (·.1)).Nodup ∧ TableFields fs
  | .seq ds => Flat (.seq ds) ∨ (ds ≠ [] ∧ ∀ d ∈ ds, Element d)
  | .some d => Field d
  | .scalar s => PlainScalar s
  | .uint n => n < 2 ^ 63
  | .inline d => Inline d
  | _ => False
/-- The fields of a table. -/
def TableFields : List (Text × Data) → Prop
  | [] => True
  | (k, d) :: fs =>
    (isAbsent d = true ∨ (if isRecord d then TableName k else FieldName k) ∧ Field d) ∧ TableFields fs
end

end Tombi.Serializing
