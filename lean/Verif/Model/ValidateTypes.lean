/-!
# Values, schemas and outcomes of the schema validator

The data the validator (crates/tombi-validator) works on.  Schemas are a graph: every
sub-schema position holds an id, `Env.entry` gives the schema behind an id.  An id stands for
one resolved entry of the schema store (an `Arc<SchemaView>` together with its semantic
schema), so that a recursive `$ref` is a cycle of ids.
-/

namespace Tombi.Validate

/-- Keys and string values, as characters. -/
abbrev Key := List Char

/-- A TOML value as the validator sees it (crates/tombi-document-tree/src/value.rs).
Simplified: floats and the four date-time kinds are left out. -/
inductive Value where
  | bool (b : Bool)
  | int (i : Int)
  | str (s : Key)
  | arr (xs : List Value)
  | tbl (kvs : List (Key × Value))

/-- `SchemaType` (crates/tombi-schema-store/src/schema/semantic_schema.rs, the names of the
JSON Schema `type` keyword). -/
inductive Ty where
  | null
  | bool
  | obj
  | arr
  | num
  | str
  | int
deriving DecidableEq, Repr

/-- A JSON literal of `const` or `enum`; `none` is JSON `null`.  Simplified: no fractional
numbers, and no `null` inside an array or object. -/
abbrev Lit := Option Value

/-- What applies to the elements after a tuple prefix: 2020-12 `items` next to `prefixItems`,
or `additionalItems` next to an array `items` in older drafts
(array_schema.rs lines 77-137). -/
inductive Rest where
  | absent
  | allowed (b : Bool)
  | schema (s : Nat)

/-- The element keywords of an array schema (array_schema.rs lines 77-137). -/
inductive Items where
  | absent
  | all (s : Nat)
  | tuple (ps : List Nat) (rest : Rest)

/-- `additionalProperties` (table_schema.rs, the `additional_properties` and
`additional_property_schema` fields). -/
inductive Additional where
  | absent
  | allowed (b : Bool)
  | schema (s : Nat)

/-- One schema object: the keywords that the typed views read from the JSON object
(integer_schema.rs 24-68, string_schema.rs, array_schema.rs 46-225, table_schema.rs,
`adjacent_applicators` in schema.rs 338-394).  Simplified: `format`, `unevaluated*`,
`dependencies` (the older spelling of the two `dependent*` keywords) and the siblings of `$ref`
are left out; numbers are integers. -/
structure Node where
  types : Option (List Ty) := none
  const : Option Lit := none
  enum : Option (List Lit) := none
  minimum : Option Int := none
  maximum : Option Int := none
  exclusiveMinimum : Option Int := none
  exclusiveMaximum : Option Int := none
  multipleOf : Option Int := none
  minLength : Option Nat := none
  maxLength : Option Nat := none
  pattern : Option Nat := none
  items : Items := .absent
  contains : Option Nat := none
  minContains : Option Nat := none
  maxContains : Option Nat := none
  minItems : Option Nat := none
  maxItems : Option Nat := none
  uniqueItems : Bool := false
  properties : List (Key × Nat) := []
  patternProperties : Option (List (Nat × Nat)) := none
  additional : Additional := .absent
  required : List Key := []
  minProperties : Option Nat := none
  maxProperties : Option Nat := none
  propertyNames : Option Nat := none
  dependentRequired : List (Key × List Key) := []
  dependentSchemas : List (Key × Nat) := []
  oneOf : Option (List Nat) := none
  anyOf : Option (List Nat) := none
  allOf : Option (List Nat) := none
  not : Option Nat := none
  ifS : Option Nat := none
  thenS : Option Nat := none
  elseS : Option Nat := none
  deprecated : Bool := false

/-- A schema: `true`, `false` or an object (`referable_from_schema_value`, schema.rs 251-273). -/
inductive Schema where
  | always (b : Bool)
  | obj (n : Node)

/-- One resolved entry.  `byRef` says that the entry was written as `{"$ref": …}`; its semantic
schema is then the composite of the local object and the target
(`combine_ref_semantics`, referable_schema.rs 658-671). -/
structure Entry where
  byRef : Bool := false
  schema : Schema

/-- The schema graph and the external functions the validator calls.
`regex p` is the compiled regular expression number `p` (`none`: does not compile),
`graphemes` is `UnicodeSegmentation::graphemes(_, true).count()`, and `floatMultiple` is
`is_multiple_of_with_tolerance` (validate.rs 489-501) on two integers converted to `f64`. -/
structure Env where
  entry : Nat → Entry
  regex : Nat → Option (Key → Bool)
  graphemes : Key → Nat
  floatMultiple : Int → Int → Bool

/-- Diagnostic severity after lint rules and comment directives (tombi-severity-level). -/
inductive Level where
  | off
  | warn
  | error
deriving DecidableEq, Repr

/-- The rules a diagnostic can come from (diagnostic.rs, `DiagnosticKind`). -/
inductive Rule where
  | typeMismatch
  | nothing
  | constValue
  | enumValue
  | maximum
  | minimum
  | exclusiveMaximum
  | exclusiveMinimum
  | multipleOf
  | maxLength
  | minLength
  | pattern
  | additionalItems
  | contains
  | maxContains
  | maxItems
  | minItems
  | uniqueItems
  | keyPattern
  | keyNotAllowed
  | strictAdditionalKeys
  | keyRequired
  | maxProperties
  | minProperties
  | dependentRequired
  | keyEmpty
  | deprecated
  | oneOfNoMatch
  | oneOfMultipleMatch
  | notSchemaMatch
  | unusedNoqa
  | commentDirective
deriving DecidableEq, Repr

/-- One step of the path of a value (`Accessor`). -/
inductive Step where
  | key (k : Key)
  | index (i : Nat)
deriving DecidableEq, Repr

abbrev Path := List Step

/-- A reported diagnostic.  Simplified: the text and the range are the path. -/
structure Diag where
  path : Path
  rule : Rule
  level : Level
deriving DecidableEq, Repr

/-- Everything about a run that is not schema or value: the severity of every rule at every
path (configuration, schema overrides, comment directives), which `noqa`-style directives would
be reported as unused, diagnostics about the directives themselves, the keys that count as
evaluated (`collect_evaluated_properties_from_table_schema`), and the match evidence, which only
ranks error messages (match_evidence.rs). -/
structure Ctx where
  level : Path → Rule → Level
  unused : Path → Rule → Bool
  lint : Path → List Diag
  evaluated : Nat → Value → Key → Bool
  evidence : Path → Nat → Value → Nat
  mergeEvidence : Nat → Nat → Nat

/-- `Result<Valid, Invalid>` (valid.rs 1-30, invalid.rs 1-9).  Simplified: the evaluated
locations carried by both are an input of the model (`Ctx.evaluated`). -/
inductive Outcome where
  | ok
  | err (failed : Bool) (evidence : Nat) (diags : List Diag)
deriving DecidableEq, Repr

end Tombi.Validate
