import Verif.Model.Deserialize
import Verif.Spec.Serialize
/-!
What it means that a Rust value of a type is what a TOML document says, stated on the nodes of the document
(`Verif/Spec/Document.lean`): a function from places to what is there.
-/
namespace Tombi.Deserializing
open Spec
open Tombi.Reading (Scalar Text)
open Tombi.Serializing (Data)
open DateTime (offsetDateTimeFromStr localDateTimeFromStr localDateFromStr localTimeFromStr)

/-- The nodes of a document, or of a part of it. -/
abbrev Nodes := Path → Option (Node Scalar)

/-- The part below a step. -/
def Nodes.down (N : Nodes) (s : Spec.Step) : Nodes := fun p => N (s :: p)

/-- There is something. -/
def Nodes.Present (N : Nodes) : Prop := N [] ≠ Option.none

/-- There is a single value. -/
def Nodes.IsScalar (N : Nodes) (s : Scalar) : Prop := N [] = Option.some (.scalar s)

mutual
/-- The value is what the document says. With `loose`, it is what the program takes it to be: date-times are taken from
strings and not from date-times; an array is taken as a struct, element by element; an array longer than a tuple is taken
as the tuple. -/
def Holds (loose : Bool) : Ty → Val → Nodes → Prop
  | .bool, x, N => ∃ b, x = .bool b ∧ N.IsScalar (.boolean b)
  | .signed bits, x, N => ∃ n, x = .int n ∧ (-2 ^ (bits - 1) ≤ n ∧ n < 2 ^ (bits - 1)) ∧ N.IsScalar (.integer n)
  | .unsigned bits, x, N => ∃ n, x = .uint n ∧ n < 2 ^ bits ∧ N.IsScalar (.integer n)
  | .f64, x, N => ∃ t, x = .float t ∧ N.IsScalar (.float t)
  | .string, x, N => ∃ s, x = .string s ∧ N.IsScalar (.string s)
  | .char, x, N => ∃ c, x = .char c ∧ N.IsScalar (.string [c])
  | .offsetDateTime, x, N => ∃ d t o, x = .date (.offsetDateTime d t o) ∧
    if loose then ∃ s, N.IsScalar (.string s) ∧ offsetDateTimeFromStr s = .ok (d, t, o) else N.IsScalar (.offsetDateTime d t o)
  | .localDateTime, x, N => ∃ d t, x = .date (.localDateTime d t) ∧
    if loose then ∃ s, N.IsScalar (.string s) ∧ localDateTimeFromStr s = .ok (d, t) else N.IsScalar (.localDateTime d t)
  | .localDate, x, N => ∃ d, x = .date (.localDate d) ∧
    if loose then ∃ s, N.IsScalar (.string s) ∧ localDateFromStr s = .ok d else N.IsScalar (.localDate d)
  | .localTime, x, N => ∃ t, x = .date (.localTime t) ∧
    if loose then ∃ s, N.IsScalar (.string s) ∧ localTimeFromStr s = .ok t else N.IsScalar (.localTime t)
  | .option t, x, N => (x = .none ∧ ¬ N.Present) ∨ ∃ y, x = .some y ∧ N.Present ∧ Holds loose t y N
  | .newtype t, x, N => ∃ y, x = .newtype y ∧ N.Present ∧ Holds loose t y N
  | .inline t, x, N => ∃ y, x = .inline y ∧ Holds loose t y N
  | .seq t, x, N => ∃ xs, x = .seq xs ∧ N [] = Option.some .array ∧
    (∀ i, (N.down (.index i)).Present ↔ i < xs.length) ∧
    ∀ i y, xs[i]? = Option.some y → Holds loose t y (N.down (.index i))
  | .tuple ts, x, N => ∃ xs, x = .tuple xs ∧ N [] = Option.some .array ∧
    (∀ i, (N.down (.index i)).Present → loose = true ∨ i < ts.length) ∧ HoldsTuple loose 0 ts xs N
  | .map t, x, N => ∃ es, x = .map es ∧ N [] = Option.some .table ∧ es.Pairwise (fun a b => a.1 < b.1) ∧
    (∀ k, (N.down (.key k)).Present ↔ k ∈ es.map (·.1)) ∧
    ∀ e ∈ es, Holds loose t e.2 (N.down (.key e.1))
  | .struct fs, x, N => ∃ es, x = .struct es ∧
    ((N [] = Option.some .table ∧ HoldsFields loose fs es N) ∨
      (loose = true ∧ N [] = Option.some .array ∧ HoldsElements loose 0 fs es N))
  | .enum us ps, x, N =>
    (∃ s, x = .unitVariant s ∧ s ∈ us ∧ N.IsScalar (.string s)) ∨
    (∃ k y, x = .variant k y ∧ N [] = Option.some .table ∧ (∀ k', (N.down (.key k')).Present ↔ k' = k) ∧
      HoldsVariant loose ps k y (N.down (.key k)))
/-- The components of a tuple, from component `i` on. -/
def HoldsTuple (loose : Bool) (i : Nat) : List Ty → List Val → Nodes → Prop
  | [], xs, _ => xs = []
  | t :: ts, xs, N => ∃ y ys, xs = y :: ys ∧ (N.down (.index i)).Present ∧ Holds loose t y (N.down (.index i)) ∧
    HoldsTuple loose (i + 1) ts ys N
/-- The fields of a struct; there may be other keys. -/
def HoldsFields (loose : Bool) : List (Text × Ty) → List (Text × Val) → Nodes → Prop
  | [], es, _ => es = []
  | (k, t) :: fs, es, N => ∃ y ys, es = (k, y) :: ys ∧ Holds loose t y (N.down (.key k)) ∧ HoldsFields loose fs ys N
/-- The fields of a struct, from field `i` on, taken from an array. -/
def HoldsElements (loose : Bool) (i : Nat) : List (Text × Ty) → List (Text × Val) → Nodes → Prop
  | [], es, _ => es = []
  | (k, t) :: fs, es, N => ∃ y ys, es = (k, y) :: ys ∧ (N.down (.index i)).Present ∧
    Holds loose t y (N.down (.index i)) ∧ HoldsElements loose (i + 1) fs ys N
/-- The payload of the variant with this name. -/
def HoldsVariant (loose : Bool) : List (Text × Ty) → Text → Val → Nodes → Prop
  | [], _, _, _ => False
  | (k, t) :: ps, name, y, N => (k = name ∧ Holds loose t y N) ∨ (k ≠ name ∧ HoldsVariant loose ps name y N)
end

/-- The types a document as a whole can have. -/
def Root : Ty → Prop
  | .map _ => True
  | .struct _ => True
  | _ => False

mutual
/-- A type without date-times. -/
def NoDates : Ty → Prop
  | .offsetDateTime => False
  | .localDateTime => False
  | .localDate => False
  | .localTime => False
  | .option t => NoDates t
  | .newtype t => NoDates t
  | .inline t => NoDates t
  | .seq t => NoDates t
  | .tuple ts => NoDatesAll ts
  | .map t => NoDates t
  | .struct fs => NoDatesIn fs
  | .enum _ ps => NoDatesIn ps
  | _ => True
/-- The components of a tuple. -/
def NoDatesAll : List Ty → Prop
  | [] => True
  | t :: ts => NoDates t ∧ NoDatesAll ts
/-- Fields, variants. -/
def NoDatesIn : List (Text × Ty) → Prop
  | [] => True
  | (_, t) :: fs => NoDates t ∧ NoDatesIn fs
end

/-! ### writing and reading back -/

mutual
/-- What `serde` hands to the serializer for a value (`Verif/Model/Serialize.lean`). -/
def toData : Val → Data
  | .bool b => .scalar (.boolean b)
  | .int n => .scalar (.integer n)
  | .uint n => .uint n
  | .float t => .scalar (.float t)
  | .string s => .scalar (.string s)
  | .char c => .scalar (.string [c])
  | .date s => .scalar s
  | .none => .none
  | .some x => .some (toData x)
  | .newtype x => toData x
  | .inline x => .inline (toData x)
  | .seq xs => .seq (toDatas xs)
  | .tuple xs => .seq (toDatas xs)
  | .map es => .record (toFields es)
  | .struct fs => .record (toFields fs)
  | .unitVariant name => .scalar (.string name)
  | .variant name x => .variant name (toData x)
/-- Elements. -/
def toDatas : List Val → List Data
  | [] => []
  | x :: xs => toData x :: toDatas xs
/-- Fields. -/
def toFields : List (Text × Val) → List (Text × Data)
  | [] => []
  | (k, x) :: fs => (k, toData x) :: toFields fs
end

/-- Something is written for the value: it is not `None`. -/
def Written : Val → Prop
  | .none => False
  | .some x => Written x
  | .newtype x => Written x
  | .inline x => Written x
  | _ => True

mutual
/-- The value is one of the type. An `Option` is the type of a field, or, as an element, an entry, a component, a payload or
the content of a newtype or another `Option`, it is not `None`: TOML has no null. -/
def Is : Ty → Val → Prop
  | .bool, x => ∃ b, x = .bool b
  | .signed bits, x => ∃ n, x = .int n ∧ -2 ^ (bits - 1) ≤ n ∧ n < 2 ^ (bits - 1)
  | .unsigned bits, x => ∃ n, x = .uint n ∧ n < 2 ^ bits
  | .f64, x => ∃ t, x = .float t
  | .string, x => ∃ s, x = .string s
  | .char, x => ∃ c, x = .char c
  | .offsetDateTime, x => ∃ d t o, x = .date (.offsetDateTime d t o)
  | .localDateTime, x => ∃ d t, x = .date (.localDateTime d t)
  | .localDate, x => ∃ d, x = .date (.localDate d)
  | .localTime, x => ∃ t, x = .date (.localTime t)
  | .option t, x => x = .none ∨ ∃ y, x = .some y ∧ Written y ∧ Is t y
  | .newtype t, x => ∃ y, x = .newtype y ∧ Written y ∧ Is t y
  | .inline t, x => ∃ y, x = .inline y ∧ Is t y
  | .seq t, x => ∃ xs, x = .seq xs ∧ ∀ y ∈ xs, Written y ∧ Is t y
  | .tuple ts, x => ∃ xs, x = .tuple xs ∧ IsTuple ts xs
  | .map t, x => ∃ es, x = .map es ∧ es.Pairwise (fun a b => a.1 < b.1) ∧ ∀ e ∈ es, Written e.2 ∧ Is t e.2
  | .struct fs, x => ∃ es, x = .struct es ∧ (fs.map (·.1)).Nodup ∧ IsStruct fs es
  | .enum us ps, x => (∃ s, x = .unitVariant s ∧ s ∈ us) ∨ ∃ k y, x = .variant k y ∧ Written y ∧ IsPayload ps k y
/-- The components of a tuple. -/
def IsTuple : List Ty → List Val → Prop
  | [], xs => xs = []
  | t :: ts, xs => ∃ y ys, xs = y :: ys ∧ Written y ∧ Is t y ∧ IsTuple ts ys
/-- The fields of a struct. -/
def IsStruct : List (Text × Ty) → List (Text × Val) → Prop
  | [], es => es = []
  | (k, t) :: fs, es => ∃ y ys, es = (k, y) :: ys ∧ Is t y ∧ IsStruct fs ys
/-- The payload of a variant. -/
def IsPayload : List (Text × Ty) → Text → Val → Prop
  | [], _, _ => False
  | (k, t) :: ps, name, y => (k = name ∧ Is t y) ∨ (k ≠ name ∧ IsPayload ps name y)
end

end Tombi.Deserializing
