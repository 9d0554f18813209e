import Verif.Model.Offers
import Verif.Spec.FormatWords
import Verif.Spec.ReadDocument
/-! What a JSON schema allows, keyword by keyword, and the schemas for which completion is exact. -/
namespace Tombi.Spec
open Tombi.Offer (J Floats Text)

variable {F : Type}

/-- Equal JSON values: the order of the members of objects does not matter. -/
def SameJson (a b : J F) : Prop := a.sorted = b.sorted

/-- A number, as a float. -/
inductive NumberIs (fl : Floats F) : J F → F → Prop where
  | int (i : Int) : NumberIs fl (.int i) (fl.ofInt i)
  | float (f : F) : NumberIs fl (.float f) f

/-- The types of JSON Schema. A number that is whole and in the range of 64 bits is an `int`; that other numbers are no integers is a
simplification. -/
inductive OfType : Text → J F → Prop where
  | null : OfType "null".toList .null
  | bool (b : Bool) : OfType "boolean".toList (.bool b)
  | int (i : Int) : OfType "integer".toList (.int i)
  | intNumber (i : Int) : OfType "number".toList (.int i)
  | number (f : F) : OfType "number".toList (.float f)
  | str (s : Text) : OfType "string".toList (.str s)
  | arr (xs : List (J F)) : OfType "array".toList (.arr xs)
  | obj (ms : List (Text × J F)) : OfType "object".toList (.obj ms)

/-- The keywords that have no schemas in them: `k` is the keyword, `v` its value, `x` what is tested. `m` says which texts a regular
expression matches. Lengths count characters. -/
structure PlainKeyword (fl : Floats F) (m : Text → Text → Prop) (k : Text) (v x : J F) : Prop where
  type : k = "type".toList → ∃ name, (v = .str name ∨ ∃ names, v = .arr names ∧ .str name ∈ names) ∧ OfType name x
  const : k = "const".toList → SameJson v x
  enum : k = "enum".toList → ∃ vs, v = .arr vs ∧ ∃ c ∈ vs, SameJson c x
  minimum : k = "minimum".toList → ∀ a b, NumberIs fl v a → NumberIs fl x b → fl.le a b
  maximum : k = "maximum".toList → ∀ a b, NumberIs fl v a → NumberIs fl x b → fl.le b a
  exclusiveMinimum : k = "exclusiveMinimum".toList → ∀ a b, NumberIs fl v a → NumberIs fl x b → fl.lt a b
  exclusiveMaximum : k = "exclusiveMaximum".toList → ∀ a b, NumberIs fl v a → NumberIs fl x b → fl.lt b a
  multipleOf : k = "multipleOf".toList → ∀ a b, NumberIs fl v a → NumberIs fl x b → fl.multiple a b
  minLength : k = "minLength".toList → ∀ (n : Int) s, v = .int n → x = .str s → n ≤ s.length
  maxLength : k = "maxLength".toList → ∀ (n : Int) s, v = .int n → x = .str s → s.length ≤ n
  pattern : k = "pattern".toList → ∀ p s, v = .str p → x = .str s → m p s

mutual
/-- A schema allows a value: every keyword does. Keywords about the items of arrays and the members of objects, and references, are
left out. -/
def Allows (fl : Floats F) (m : Text → Text → Prop) (x : J F) : J F → Prop
  | .bool b => b = true
  | .obj ms => Keywords fl m x ms ∧ (Has fl m x "if".toList ms → Each fl m x "then".toList ms) ∧
      (HasNot fl m x "if".toList ms → Each fl m x "else".toList ms)
  | _ => False
/-- Every keyword of an object. -/
def Keywords (fl : Floats F) (m : Text → Text → Prop) (x : J F) : List (Text × J F) → Prop
  | [] => True
  | (k, v) :: ms => PlainKeyword fl m k v x ∧ (k = "allOf".toList → AllOf fl m x v) ∧ (k = "anyOf".toList → AnyOf fl m x v) ∧
      (k = "oneOf".toList → OneOf fl m x v) ∧ (k = "not".toList → ¬ Allows fl m x v) ∧ Keywords fl m x ms
/-- There is a member of this name, and it allows the value. -/
def Has (fl : Floats F) (m : Text → Text → Prop) (x : J F) (name : Text) : List (Text × J F) → Prop
  | [] => False
  | (k, v) :: ms => (k = name ∧ Allows fl m x v) ∨ Has fl m x name ms
/-- There is a member of this name, and it does not allow the value. -/
def HasNot (fl : Floats F) (m : Text → Text → Prop) (x : J F) (name : Text) : List (Text × J F) → Prop
  | [] => False
  | (k, v) :: ms => (k = name ∧ ¬ Allows fl m x v) ∨ HasNot fl m x name ms
/-- If there is a member of this name, it allows the value. -/
def Each (fl : Floats F) (m : Text → Text → Prop) (x : J F) (name : Text) : List (Text × J F) → Prop
  | [] => True
  | (k, v) :: ms => (k = name → Allows fl m x v) ∧ Each fl m x name ms
/-- All schemas of an array. -/
def AllOf (fl : Floats F) (m : Text → Text → Prop) (x : J F) : J F → Prop
  | .arr ss => AllIn fl m x ss
  | _ => False
/-- At least one. -/
def AnyOf (fl : Floats F) (m : Text → Text → Prop) (x : J F) : J F → Prop
  | .arr ss => AnyIn fl m x ss
  | _ => False
/-- Exactly one. -/
def OneOf (fl : Floats F) (m : Text → Text → Prop) (x : J F) : J F → Prop
  | .arr ss => OneIn fl m x ss
  | _ => False
def AllIn (fl : Floats F) (m : Text → Text → Prop) (x : J F) : List (J F) → Prop
  | [] => True
  | s :: ss => Allows fl m x s ∧ AllIn fl m x ss
def AnyIn (fl : Floats F) (m : Text → Text → Prop) (x : J F) : List (J F) → Prop
  | [] => False
  | s :: ss => Allows fl m x s ∨ AnyIn fl m x ss
def OneIn (fl : Floats F) (m : Text → Text → Prop) (x : J F) : List (J F) → Prop
  | [] => False
  | s :: ss => (Allows fl m x s ∧ ¬ AnyIn fl m x ss) ∨ (¬ Allows fl m x s ∧ OneIn fl m x ss)
end

/-- Keywords that assert something and that completion does not test. -/
def untested : List Text :=
  ["$ref", "$dynamicRef", "$recursiveRef", "if", "then", "else", "pattern", "items", "prefixItems", "additionalItems", "contains",
    "unevaluatedItems", "minItems", "maxItems", "uniqueItems", "minContains", "maxContains", "properties", "patternProperties",
    "additionalProperties", "unevaluatedProperties", "propertyNames", "required", "dependencies", "dependentRequired",
    "dependentSchemas", "minProperties", "maxProperties"].map String.toList

/-- The names of the types. -/
def typeNames : List Text := ["null", "boolean", "object", "array", "number", "string", "integer"].map String.toList

/-- The value of a keyword has the form that JSON Schema asks for. -/
structure KeywordShape (k : Text) (v : J F) : Prop where
  tested : k ∉ untested
  type : k = "type".toList → (∃ n ∈ typeNames, v = .str n) ∨ (∃ ns, v = .arr ns ∧ ns ≠ [] ∧ ∀ x ∈ ns, ∃ n ∈ typeNames, x = .str n)
  enum : k = "enum".toList → ∃ vs, v = .arr vs
  maxLength : k = "maxLength".toList → ∀ n, v = .int n → 0 ≤ n

mutual
/-- A well-formed schema of keywords that completion tests, and of annotations. -/
def Tested : J F → Prop
  | .bool _ => True
  | .obj ms => (ms.map (·.1)).Nodup ∧ TestedMembers ms
  | _ => False
def TestedMembers : List (Text × J F) → Prop
  | [] => True
  | (k, v) :: ms => KeywordShape k v ∧ (k = "allOf".toList ∨ k = "anyOf".toList ∨ k = "oneOf".toList → TestedItems v) ∧
      (k = "not".toList → Tested v) ∧ TestedMembers ms
def TestedItems : J F → Prop
  | .arr ss => ss ≠ [] ∧ TestedAll ss
  | _ => False
def TestedAll : List (J F) → Prop
  | [] => True
  | s :: ss => Tested s ∧ TestedAll ss
end

/-- The TOML value of a JSON value that is no array, no object and not null. -/
def scalarOf (fl : Floats F) : J F → Option Reading.Scalar
  | .bool b => some (.boolean b)
  | .int i => some (.integer i)
  | .float f => some (.float (fl.text f))
  | .str s => some (.string s)
  | _ => none

/-- What can be written as it is: texts have no backslash and no control character, whole numbers have 64 bits, and floats are shown
as TOML floats. -/
def Writable (fl : Floats F) : J F → Prop
  | .int i => InI64 i
  | .float f => Toml.float.Lang (fl.text f) ∧ '_' ∉ fl.text f
  | .str s => ∀ c ∈ s, Literal c
  | _ => True

/-- The text is a TOML literal for the value. -/
def Writes (fl : Floats F) (v : TomlVersion) (x : J F) (t : Text) : Prop :=
  ∃ k s, scalarOf fl x = some s ∧ Formatter.TomlLiteral k t ∧ Reading.LiteralMeans v k t s

end Tombi.Spec
