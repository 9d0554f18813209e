import Verif.Model.SchemaFile
import Verif.Spec.Validate
/-! What a JSON Schema file says, keyword by keyword and by the names of the keywords, and the files for which the validator follows it.
Nothing here depends on how the validator reads a file; of the model only the types of JSON values and of TOML values are used. -/
namespace Tombi.Spec.SchemaFile
open Tombi.Offer (Text)
open Tombi.SchemaFile (Json Members Dialect)
open Tombi.Validate (Key Value)
open Tombi.Spec.Validate (Same Count Small)

/-- The value of a keyword. -/
def kw (o : Members) (name : String) : Option Json := o.lookup name.toList

mutual
/-- The value that a JSON literal stands for. -/
inductive Denotes : Json → Value → Prop where
  | bool (b : Bool) : Denotes (.bool b) (.bool b)
  | int (i : Int) : Denotes (.int i) (.int i)
  | str (s : Text) : Denotes (.str s) (.str s)
  | arr {xs ws} : DenotesAll xs ws → Denotes (.arr xs) (.arr ws)
  | obj {ms ws} : DenotesMembers ms ws → Denotes (.obj ms) (.tbl ws)
inductive DenotesAll : List Json → List Value → Prop where
  | nil : DenotesAll [] []
  | cons {x w xs ws} : Denotes x w → DenotesAll xs ws → DenotesAll (x :: xs) (w :: ws)
inductive DenotesMembers : Members → List (Key × Value) → Prop where
  | nil : DenotesMembers [] []
  | cons {k x w ms ws} : Denotes x w → DenotesMembers ms ws → DenotesMembers ((k, x) :: ms) ((k, w) :: ws)
end

/-- The value is the literal. -/
def Equals (c : Json) (v : Value) : Prop := ∃ w, Denotes c w ∧ Same v w

/-- The names of types. -/
def OfType (name : Text) : Value → Prop
  | .bool _ => name = "boolean".toList
  | .int _ => name = "integer".toList ∨ name = "number".toList
  | .str _ => name = "string".toList
  | .arr _ => name = "array".toList
  | .tbl _ => name = "object".toList

/-- The number is at most `i`. -/
def AtMost : Json → Int → Prop
  | .int m, i => m ≤ i
  | .float f, i => f.mantissa ≤ i * 10 ^ f.places
  | _, _ => True

/-- The number is at least `i`. -/
def AtLeast : Json → Int → Prop
  | .int m, i => i ≤ m
  | .float f, i => i * 10 ^ f.places ≤ f.mantissa
  | _, _ => True

/-- The number is less than `i`. -/
def LessThan : Json → Int → Prop
  | .int m, i => m < i
  | .float f, i => f.mantissa < i * 10 ^ f.places
  | _, _ => True

/-- The number is more than `i`. -/
def MoreThan : Json → Int → Prop
  | .int m, i => i < m
  | .float f, i => i * 10 ^ f.places < f.mantissa
  | _, _ => True

/-- `i` is a multiple of the number. -/
def Divides : Json → Int → Prop
  | .int m, i => ∃ c : Int, i = m * c
  | .float f, i => ∃ c : Int, i * 10 ^ f.places = f.mantissa * c
  | _, _ => True

/-- The page that names a dialect. -/
def page : Dialect → String
  | .draft07 => "json-schema.org/draft-07/schema"
  | .draft2019 => "json-schema.org/draft/2019-09/schema"
  | .draft2020 => "json-schema.org/draft/2020-12/schema"

/-- The file says that it is of the dialect `d`, or does not name one of the dialects. -/
def InDialect (root : Json) (d : Option Dialect) : Prop :=
  ∀ x, d = some x ↔ ∃ o scheme tail, root = .obj o ∧ scheme ∈ ["http://", "https://"] ∧ tail ∈ ["", "#"] ∧
    kw o "$schema" = some (.str (scheme ++ page x ++ tail).toList)

/-- The dialects before 2020-12, where a tuple is an array `items` and the rest is `additionalItems`. -/
def Older (d : Option Dialect) : Prop := d = some .draft07 ∨ d = some .draft2019

/-- The schemas for the element `x` at index `i` of an array hold. `H` is the meaning of the inner schemas. -/
structure Element (d : Option Dialect) (H : Json → Value → Prop) (o : Members) (i : Nat) (x : Value) : Prop where
  /-- an element of the tuple -/
  prefixItems : ¬ Older d → ∀ ps s, kw o "prefixItems" = some (.arr ps) → ps[i]? = some s → H s x
  /-- an element after the tuple, or of an array without tuple -/
  items : ¬ Older d → (∀ ps, kw o "prefixItems" = some (.arr ps) → ps.length ≤ i) → ∀ s, kw o "items" = some s → H s x
  olderTuple : Older d → ∀ ps s, kw o "items" = some (.arr ps) → ps[i]? = some s → H s x
  olderRest : Older d → ∀ ps s, kw o "items" = some (.arr ps) → ps.length ≤ i → kw o "additionalItems" = some s → H s x
  olderItems : Older d → ∀ s, kw o "items" = some s → (∀ ps, s ≠ .arr ps) → H s x

/-- The key is listed in `properties`, or matched by one of the `patternProperties`. -/
def Listed (m : Text → Option (Key → Bool)) (o : Members) (k : Key) : Prop :=
  (∃ ps s, kw o "properties" = some (.obj ps) ∧ (k, s) ∈ ps) ∨
  ∃ ps r s f, kw o "patternProperties" = some (.obj ps) ∧ (r, s) ∈ ps ∧ m r = some f ∧ f k = true

/-- A value is valid against a schema object that is no reference. `m` says which texts a regular expression matches (a text that is no
regular expression asserts nothing), `H` is the meaning of the inner schemas. Lengths count characters. -/
structure Holds (d : Option Dialect) (m : Text → Option (Key → Bool)) (H : Json → Value → Prop) (o : Members) (v : Value) :
    Prop where
  type : ∀ t, kw o "type" = some t → ∃ name, (t = .str name ∨ ∃ names, t = .arr names ∧ .str name ∈ names) ∧ OfType name v
  const : ∀ c, kw o "const" = some c → Equals c v
  enum : ∀ cs, kw o "enum" = some (.arr cs) → ∃ c ∈ cs, Equals c v
  minimum : ∀ n i, kw o "minimum" = some n → v = .int i → AtMost n i
  maximum : ∀ n i, kw o "maximum" = some n → v = .int i → AtLeast n i
  exclusiveMinimum : ∀ n i, kw o "exclusiveMinimum" = some n → v = .int i → LessThan n i
  exclusiveMaximum : ∀ n i, kw o "exclusiveMaximum" = some n → v = .int i → MoreThan n i
  multipleOf : ∀ n i, kw o "multipleOf" = some n → v = .int i → Divides n i
  minLength : ∀ (n : Nat) s, kw o "minLength" = some (.int n) → v = .str s → n ≤ s.length
  maxLength : ∀ (n : Nat) s, kw o "maxLength" = some (.int n) → v = .str s → s.length ≤ n
  pattern : ∀ r f s, kw o "pattern" = some (.str r) → m r = some f → v = .str s → f s = true
  items : ∀ xs (i : Nat) x, v = .arr xs → xs[i]? = some x → Element d H o i x
  contains : ∀ s xs, kw o "contains" = some s → v = .arr xs → ∃ c, Count (H s) xs c ∧
    (∀ n : Nat, kw o "minContains" = some (.int n) → n ≤ c) ∧ (kw o "minContains" = none → 1 ≤ c) ∧
    (∀ n : Nat, kw o "maxContains" = some (.int n) → c ≤ n)
  minItems : ∀ (n : Nat) xs, kw o "minItems" = some (.int n) → v = .arr xs → n ≤ xs.length
  maxItems : ∀ (n : Nat) xs, kw o "maxItems" = some (.int n) → v = .arr xs → xs.length ≤ n
  uniqueItems : ∀ xs, kw o "uniqueItems" = some (.bool true) → v = .arr xs →
    ∀ (i j : Nat) x y, xs[i]? = some x → xs[j]? = some y → i ≠ j → ¬ Same x y
  properties : ∀ ps kvs k x s, kw o "properties" = some (.obj ps) → v = .tbl kvs → (k, x) ∈ kvs → (k, s) ∈ ps → H s x
  patternProperties : ∀ ps kvs k x r s f, kw o "patternProperties" = some (.obj ps) → v = .tbl kvs → (k, x) ∈ kvs →
    (r, s) ∈ ps → m r = some f → f k = true → H s x
  additionalProperties : ∀ s kvs k x, kw o "additionalProperties" = some s → v = .tbl kvs → (k, x) ∈ kvs → ¬ Listed m o k → H s x
  required : ∀ rs kvs r, kw o "required" = some (.arr rs) → v = .tbl kvs → .str r ∈ rs → r ∈ kvs.map Prod.fst
  minProperties : ∀ (n : Nat) kvs, kw o "minProperties" = some (.int n) → v = .tbl kvs → n ≤ kvs.length
  maxProperties : ∀ (n : Nat) kvs, kw o "maxProperties" = some (.int n) → v = .tbl kvs → kvs.length ≤ n
  propertyNames : ∀ s kvs k, kw o "propertyNames" = some s → v = .tbl kvs → k ∈ kvs.map Prod.fst → H s (.str k)
  dependentRequired : ∀ ds kvs k rs r, kw o "dependentRequired" = some (.obj ds) → v = .tbl kvs → (k, .arr rs) ∈ ds →
    k ∈ kvs.map Prod.fst → .str r ∈ rs → r ∈ kvs.map Prod.fst
  dependentSchemas : ∀ ds kvs k s, kw o "dependentSchemas" = some (.obj ds) → v = .tbl kvs → (k, s) ∈ ds →
    k ∈ kvs.map Prod.fst → H s v
  allOf : ∀ ms s, kw o "allOf" = some (.arr ms) → s ∈ ms → H s v
  anyOf : ∀ ms, kw o "anyOf" = some (.arr ms) → ∃ s ∈ ms, H s v
  oneOf : ∀ ms, kw o "oneOf" = some (.arr ms) →
    ∃ (i : Nat) (s : Json), ms[i]? = some s ∧ H s v ∧ ∀ (j : Nat) (s' : Json), ms[j]? = some s' → H s' v → j = i
  not : ∀ s, kw o "not" = some s → ¬ H s v
  thenIf : ∀ c s, kw o "if" = some c → kw o "then" = some s → H c v → H s v
  elseIf : ∀ c s, kw o "if" = some c → kw o "else" = some s → ¬ H c v → H s v

/-! ### references -/

/-- The parts of a text between slashes. -/
def split : Text → List Text
  | [] => [[]]
  | c :: cs => if c = '/' then [] :: split cs else match split cs with
    | [] => [[c]]
    | t :: ts => (c :: t) :: ts

/-- RFC 6901, section 4: `~1` is a slash and `~0` is a tilde. -/
def unescape : Text → Text
  | '~' :: '1' :: cs => '/' :: unescape cs
  | '~' :: '0' :: cs => '~' :: unescape cs
  | c :: cs => c :: unescape cs
  | [] => []

/-- The member of a member and so on. -/
def walk : Json → List Text → Option Json
  | j, [] => some j
  | .obj o, k :: ks => match o.lookup k with
    | some j => walk j ks
    | none => none
  | _, _ :: _ => none

/-- The schema that `"$ref": "#/…"` refers to. Positions in arrays, percent-encoding, anchors and other files are left out. -/
def target (root : Json) : Text → Option Json
  | '#' :: '/' :: path => walk root ((split path).map unescape)
  | _ => none

/-! ### a file -/

/-- `s` is a schema directly inside the schema object `o`. -/
inductive Child (o : Members) : Json → Prop where
  | direct {name : String} {s} : name ∈ ["items", "additionalItems", "contains", "additionalProperties", "propertyNames", "not", "if",
      "then", "else"] → kw o name = some s → (∀ xs, s ≠ .arr xs) → Child o s
  | listed {name : String} {ss s} : name ∈ ["items", "prefixItems", "oneOf", "anyOf", "allOf"] → kw o name = some (.arr ss) →
      s ∈ ss → Child o s
  | named {name : String} {ms k s} : name ∈ ["properties", "patternProperties", "dependentSchemas", "definitions", "$defs"] →
      kw o name = some (.obj ms) → (k, s) ∈ ms → Child o s

/-- `j` is a schema in the file `root`, or all of it. -/
inductive Inside : Json → Json → Prop where
  | refl (j) : Inside j j
  | child {o s j} : Child o s → Inside s j → Inside (.obj o) j

/-- `H` is a meaning of the schemas in the file: it says what the keywords say. -/
structure Meaning (d : Option Dialect) (m : Text → Option (Key → Bool)) (root : Json) (H : Json → Value → Prop) : Prop where
  bool : ∀ b v, H (.bool b) v ↔ b = true
  obj : ∀ o, Inside root (.obj o) → (∀ r, kw o "$ref" ≠ some (.str r)) → ∀ v, H (.obj o) v ↔ Holds d m H o v
  ref : ∀ o r, Inside root (.obj o) → kw o "$ref" = some (.str r) → ∀ v, H (.obj o) v ↔ ∃ t, target root r = some t ∧ H t v

/-- `s` is a schema directly inside the schema object `o` that is applied to the same value. -/
inductive Applied (o : Members) : Json → Prop where
  | direct {name : String} {s} : name ∈ ["not", "if", "then", "else"] → kw o name = some s → Applied o s
  | listed {name : String} {ss s} : name ∈ ["oneOf", "anyOf", "allOf"] → kw o name = some (.arr ss) → s ∈ ss → Applied o s
  | named {ms k s} : kw o "dependentSchemas" = some (.obj ms) → (k, s) ∈ ms → Applied o s

/-- `s` is one of the alternatives of the schema object `o`. -/
def Alternate (o : Members) (s : Json) : Prop := ∃ name ∈ ["oneOf", "anyOf"], ∃ ss, kw o name = some (.arr ss) ∧ s ∈ ss

/-- The file may have recursion, but each round goes down into the value: `rank` decreases from a schema to the schemas inside of it
that are applied to the same value, and to the schema that it refers to. And no recursion goes through `oneOf` or `anyOf`: `level`
never increases, and it decreases to an alternative. -/
structure Grounded (root : Json) (rank level : Json → Nat) (bound : Nat) : Prop where
  bound : ∀ j, Inside root j → rank j ≤ bound
  applied : ∀ o s, Inside root (.obj o) → Applied o s → rank s < rank (.obj o)
  ref : ∀ o r t, Inside root (.obj o) → kw o "$ref" = some (.str r) → target root r = some t →
    rank t < rank (.obj o) ∧ level t ≤ level (.obj o)
  child : ∀ o s, Inside root (.obj o) → Child o s → level s ≤ level (.obj o)
  alternate : ∀ o s, Inside root (.obj o) → Alternate o s → level s < level (.obj o)

/-! ### the files that are covered -/

/-- A schema is a boolean or an object. -/
def IsSchema (j : Json) : Prop := (∃ b, j = .bool b) ∨ ∃ o, j = .obj o

/-- What the value of a keyword must be. -/
inductive Form where
  | int
  | nat
  | text
  | bool
  | types
  | literal
  | literals
  | texts
  | textsByName
  | schema
  | tupleOrSchema
  | schemas
  | schemasByName

mutual
/-- A literal without fractions and `null`, with small numbers and without repeated keys. -/
def PlainLiteral : Json → Prop
  | .bool _ => True
  | .int i => Small i
  | .str _ => True
  | .arr xs => PlainLiterals xs
  | .obj ms => (ms.map Prod.fst).Nodup ∧ PlainMembers ms
  | _ => False
def PlainLiterals : List Json → Prop
  | [] => True
  | x :: xs => PlainLiteral x ∧ PlainLiterals xs
def PlainMembers : Members → Prop
  | [] => True
  | (_, x) :: ms => PlainLiteral x ∧ PlainMembers ms
end

/-- The names of types. -/
def typeNames : List Text := ["null", "boolean", "object", "array", "number", "string", "integer"].map String.toList

/-- A value of a form. -/
def HasForm : Form → Json → Prop
  | .int, j => ∃ i, j = .int i
  | .nat, j => ∃ n : Nat, j = .int n
  | .text, j => ∃ s, j = .str s
  | .bool, j => ∃ b, j = .bool b
  | .types, j => (∃ n ∈ typeNames, j = .str n) ∨ ∃ ns, j = .arr ns ∧ ns ≠ [] ∧ ∀ x ∈ ns, ∃ n ∈ typeNames, x = .str n
  | .literal, j => PlainLiteral j
  | .literals, j => ∃ xs, j = .arr xs ∧ ∀ x ∈ xs, PlainLiteral x
  | .texts, j => ∃ xs, j = .arr xs ∧ ∀ x ∈ xs, ∃ s, x = .str s
  | .textsByName, j => ∃ ms, j = .obj ms ∧ ∀ k x, (k, x) ∈ ms → ∃ xs, x = .arr xs ∧ ∀ y ∈ xs, ∃ s, y = .str s
  | .schema, j => IsSchema j
  | .tupleOrSchema, j => IsSchema j ∨ ∃ xs, j = .arr xs ∧ ∀ x ∈ xs, IsSchema x
  | .schemas, j => ∃ xs, j = .arr xs ∧ ∀ x ∈ xs, IsSchema x
  | .schemasByName, j => ∃ ms, j = .obj ms ∧ (ms.map Prod.fst).Nodup ∧ ∀ k x, (k, x) ∈ ms → IsSchema x

/-- The keywords and their forms. A bound that is a fraction is not covered. -/
def forms : List (String × Form) :=
  [("type", .types), ("const", .literal), ("enum", .literals), ("minimum", .int), ("maximum", .int), ("exclusiveMinimum", .int),
    ("exclusiveMaximum", .int), ("multipleOf", .int), ("minLength", .nat), ("maxLength", .nat), ("pattern", .text),
    ("items", .tupleOrSchema), ("additionalItems", .schema), ("prefixItems", .schemas), ("contains", .schema), ("minContains", .nat),
    ("maxContains", .nat), ("minItems", .nat), ("maxItems", .nat), ("uniqueItems", .bool), ("properties", .schemasByName),
    ("patternProperties", .schemasByName), ("additionalProperties", .schema), ("required", .texts), ("minProperties", .nat),
    ("maxProperties", .nat), ("propertyNames", .schema), ("dependentRequired", .textsByName), ("dependentSchemas", .schemasByName),
    ("oneOf", .schemas), ("anyOf", .schemas), ("allOf", .schemas), ("not", .schema), ("if", .schema), ("then", .schema),
    ("else", .schema), ("definitions", .schemasByName), ("$defs", .schemasByName)]

/-- Keywords that are not covered. -/
def uncovered : List String :=
  ["x-taplo", "format", "dependencies", "unevaluatedItems", "unevaluatedProperties", "$dynamicRef", "$recursiveRef"]

/-- The keywords that are applied to the value itself. -/
def applicators : List String := ["oneOf", "anyOf", "allOf", "not", "if", "then", "else"]

/-- The keywords that say something about a value. -/
def assertions : List String :=
  ["type", "const", "enum", "minimum", "maximum", "exclusiveMinimum", "exclusiveMaximum", "multipleOf", "minLength", "maxLength",
    "pattern", "items", "additionalItems", "prefixItems", "contains", "minContains", "maxContains", "minItems", "maxItems",
    "uniqueItems", "properties", "patternProperties", "additionalProperties", "required", "minProperties", "maxProperties",
    "propertyNames", "dependentRequired", "dependentSchemas"]

/-- The object has the keyword. -/
def Has (o : Members) (name : String) : Prop := kw o name ≠ none

/-- The object lists the type. -/
def HasTypeName (o : Members) (n : String) : Prop :=
  kw o "type" = some (.str n.toList) ∨ ∃ ns, kw o "type" = some (.arr ns) ∧ .str n.toList ∈ ns

/-- The object has `type`, `const` or `enum`. -/
def Asserts (o : Members) : Prop := Has o "type" ∨ Has o "const" ∨ Has o "enum"

/-- The object has `oneOf`, `anyOf` or `allOf`. -/
def Applies (o : Members) : Prop := Has o "oneOf" ∨ Has o "anyOf" ∨ Has o "allOf"

/-- The schema objects, without references, for which the validator follows JSON Schema. Each condition excludes a combination in
which it does not (`Tombi.Spec.Validate.Supported`; each has a theorem of its own). -/
structure Covered (strict : Bool) (o : Members) : Prop where
  /-- without `type`, `const` and `enum`: only one of `oneOf`, `anyOf` and `allOf`, … -/
  single : ¬ Asserts o → (Has o "oneOf" → ¬ Has o "anyOf" ∧ ¬ Has o "allOf") ∧ (Has o "anyOf" → ¬ Has o "allOf")
  /-- … and nothing else that says something about the value -/
  bare : ¬ Asserts o → Applies o → ∀ name ∈ assertions, ¬ Has o name
  conditional : Has o "if" → Applies o ∨ Has o "type" ∧ ∀ n, HasTypeName o n → n = "array" ∨ n = "object"
  oneOf : Has o "oneOf" → ¬ Has o "not" ∧ ¬ Has o "if"
  anyOf : kw o "anyOf" ≠ some (.arr [])
  number : HasTypeName o "number" → ¬ HasTypeName o "integer" → ¬ Applies o
  floatMultiple : Has o "multipleOf" → Asserts o → Has o "type" ∧ ¬ HasTypeName o "number"
  multiple : ∀ n, kw o "multipleOf" = some (.int n) → 0 < n
  small : ∀ name ∈ ["minimum", "maximum", "exclusiveMinimum", "exclusiveMaximum"], ∀ n, kw o name = some (.int n) → Small n
  null : HasTypeName o "null" → ¬ Has o "const" ∧ ¬ Has o "enum" ∧ ¬ Applies o ∧ ∃ n, n ≠ "null" ∧ HasTypeName o n
  strict : strict = true → Has o "patternProperties" → Has o "additionalProperties"

/-- A reference to a definition of the file whose name needs no escapes, with only annotations beside it. -/
structure CoveredRef (root : Json) (o : Members) (r : Text) : Prop where
  siblings : ∀ name ∈ assertions ++ applicators, ¬ Has o name
  definition : ∃ name ∈ ["definitions", "$defs"], ∃ k : Text, '/' ∉ k ∧ '~' ∉ k ∧ r = ("#/" ++ name ++ "/").toList ++ k ∧
    ∃ o' ds s, root = .obj o' ∧ kw o' name = some (.obj ds) ∧ (k, s) ∈ ds

/-- A file of well-formed and covered schemas. -/
structure CoveredFile (d : Option Dialect) (strict : Bool) (root : Json) : Prop where
  schema : ∀ j, Inside root j → IsSchema j
  nodup : ∀ o, Inside root (.obj o) → (o.map Prod.fst).Nodup
  form : ∀ o name f j, Inside root (.obj o) → (name, f) ∈ forms → kw o name = some j → HasForm f j
  uncovered : ∀ o, Inside root (.obj o) → ∀ name ∈ uncovered, ¬ Has o name
  /-- a tuple is written in the way of the dialect -/
  tuple : ∀ o, Inside root (.obj o) → (Older d → ¬ Has o "prefixItems") ∧ (¬ Older d → ∀ ps, kw o "items" ≠ some (.arr ps))
  /-- no keyword is newer than the dialect -/
  known : d = some .draft07 → ∀ o, Inside root (.obj o) → ∀ name ∈ ["minContains", "maxContains", "dependentRequired",
    "dependentSchemas"], ¬ Has o name
  obj : ∀ o, Inside root (.obj o) → (∀ r, kw o "$ref" ≠ some (.str r)) → Covered strict o
  ref : ∀ o r, Inside root (.obj o) → kw o "$ref" = some (.str r) → CoveredRef root o r
  /-- behind a reference, `const` and `enum` come with `type` -/
  referred : ∀ o r o', Inside root (.obj o) → kw o "$ref" = some (.str r) → target root r = some (.obj o') →
    (∀ r', kw o' "$ref" ≠ some (.str r')) → Asserts o' → Has o' "type"

end Tombi.Spec.SchemaFile
