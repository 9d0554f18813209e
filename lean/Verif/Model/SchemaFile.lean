import Verif.Model.Offers
import Verif.Model.Validate
/-! From the JSON of a schema file to the schemas of the validator: `DocumentSchema::new_from_object`, `Referable::new` and the
constructors of the typed views. Path abbreviation: `S` is crates/tombi-schema-store/src/schema. -/
namespace Tombi.SchemaFile
open Tombi.Offer (J Text typeAssertion asSize)
open Tombi.Validate (Key Value Lit Rest Items Additional Node Schema Entry Env Ctx Outcome)

/-- A JSON number that is not whole, `mantissa / 10 ^ places` (the program rounds it to an `f64`). -/
structure Dec where
  mantissa : Int
  places : Nat
deriving DecidableEq

/-- `tombi_json::ValueNode`, without ranges. -/
abbrev Json := J Dec

/-- The members of a `tombi_json::ObjectNode`. -/
abbrev Members := List (Text × Json)

/-- `crates/tombi-schema-store/src/json_schema_dialect.rs:5-11`. -/
inductive Dialect where
  | draft07
  | draft2019
  | draft2020
deriving DecidableEq

/-- `json_schema_dialect.rs:13-37` (`try_from`). Simplified: of the URIs with this host and path those without user, port and query. -/
def dialectOfUri (uri : Text) : Option Dialect :=
  let paths := [("json-schema.org/draft-07/schema", Dialect.draft07), ("json-schema.org/draft/2019-09/schema", Dialect.draft2019),
    ("json-schema.org/draft/2020-12/schema", Dialect.draft2020)]
  paths.findSome? fun (path, d) =>
    if uri ∈ ["http://", "https://"].flatMap (fun scheme => [(scheme ++ path).toList, (scheme ++ path ++ "#").toList])
    then some d else none

/-- `S/document_schema.rs:86-89`, and `:46` for a file that is no object. -/
def dialectOf : Json → Option Dialect
  | .obj o => match o.lookup "$schema".toList with
    | some (.str uri) => dialectOfUri uri
    | _ => none
  | _ => none

/-- `supports_keyword(dialect, "prefixItems")` (`crates/tombi-schema-store/src/keyword_support.rs:63-69`). -/
def usesPrefixItems (d : Option Dialect) : Bool := d == none || d == some .draft2020

/-! ### positions -/

/-- One step of a position in the file. -/
inductive Step where
  | key (k : Text)
  | index (i : Nat)
deriving DecidableEq

abbrev Pointer := List Step

/-- `ObjectNode::get` and `ArrayNode::get`. -/
def child : Json → Step → Option Json
  | .obj o, .key k => o.lookup k
  | .arr xs, .index i => xs[i]?
  | _, _ => none

/-- The value at a position. -/
def valueAt : Json → Pointer → Option Json
  | j, [] => some j
  | j, s :: p => (child j s).bind fun c => valueAt c p

/-- The keywords whose value is a schema. -/
def schemaKeywords : List Text :=
  ["items", "additionalItems", "contains", "additionalProperties", "propertyNames", "not", "if", "then", "else"].map String.toList

/-- The keywords whose value is an array of schemas. -/
def listKeywords : List Text := ["items", "prefixItems", "oneOf", "anyOf", "allOf"].map String.toList

/-- The keywords whose value is an object of schemas. -/
def mapKeywords : List Text :=
  ["properties", "patternProperties", "dependentSchemas", "definitions", "$defs"].map String.toList

mutual
/-- The positions of all schemas that are built from a schema: the recursion of `Referable::new` (`S/referable_schema.rs:135-272`),
and `definitions` and `$defs` (`S/document_schema.rs:159-190`). Simplified: also `definitions` and `$defs` of inner schemas, which
are not read, have positions. -/
def places : Json → List Pointer
  | .obj o => [] :: placesIn o
  | _ => [[]]
/-- Below the members of a schema object. -/
def placesIn : Members → List Pointer
  | [] => []
  | (k, j) :: o => (placesOf k j).map (.key k :: ·) ++ placesIn o
/-- Below the value of the keyword `k`. -/
def placesOf (k : Text) : Json → List Pointer
  | .arr xs => if k ∈ listKeywords then placesItems 0 xs else []
  | .obj ms => if k ∈ mapKeywords then placesMap ms else if k ∈ schemaKeywords then [] :: placesIn ms else []
  | .bool _ => if k ∈ schemaKeywords then [[]] else []
  | _ => []
/-- Below an array of schemas. -/
def placesItems (i : Nat) : List Json → List Pointer
  | [] => []
  | x :: xs => (places x).map (.index i :: ·) ++ placesItems (i + 1) xs
/-- Below an object of schemas. -/
def placesMap : Members → List Pointer
  | [] => []
  | (k, j) :: ms => (places j).map (.key k :: ·) ++ placesMap ms
end

/-- The number of the schema at a position. -/
def idOf (root : Json) (p : Pointer) : Nat := (places root).idxOf p

/-! ### the keywords of a schema object -/

/-- `S/referable_schema.rs:145-150`: `x-taplo.hidden`. -/
def hidden (o : Members) : Bool :=
  match o.lookup "x-taplo".toList with
  | some (.obj x) => match x.lookup "hidden".toList with
    | some (.bool b) => b
    | _ => false
  | _ => false

/-- `referable_from_schema_value` (`S/../schema.rs:251-273`) is some schema. -/
def isSchema : Json → Bool
  | .obj o => !hidden o
  | .bool _ => true
  | _ => false

/-- `as_i64`. -/
def asInt : Json → Option Int
  | .int i => some i
  | _ => none

/-- `as_str`. -/
def asText : Json → Option Text
  | .str s => some s
  | _ => none

/-- `as_array().map(|a| a.items.iter().filter_map(as_str).collect())`. -/
def asTexts : Json → Option (List Text)
  | .arr xs => some (xs.filterMap asText)
  | _ => none

mutual
/-- `Value::from(&ValueNode)`: a literal of `const` or `enum`. Simplified: one with a fraction or an inner `null` in it is treated like
`null`, as no value of the model is equal to it. -/
def literal : Json → Lit
  | .bool b => some (.bool b)
  | .int i => some (.int i)
  | .str s => some (.str s)
  | .arr xs => (literals xs).map .arr
  | .obj ms => (literalMembers ms).map .tbl
  | .null => none
  | .float _ => none
def literals : List Json → Option (List Value)
  | [] => some []
  | x :: xs => (literal x).bind fun v => (literals xs).map (v :: ·)
def literalMembers : Members → Option (List (Key × Value))
  | [] => some []
  | (k, x) :: ms => (literal x).bind fun v => (literalMembers ms).map ((k, v) :: ·)
end

/-- The schema below a keyword, `object.get(name).and_then(schema_item_from_schema_value)`. -/
def sub (root : Json) (p : Pointer) (o : Members) (name : String) : Option Nat :=
  match o.lookup name.toList with
  | some j => if isSchema j then some (idOf root (p ++ [.key name.toList])) else none
  | none => none

/-- `items.iter().filter_map(schema)`; `i` is the index of the first item. -/
def schemaItems (root : Json) (p : Pointer) (i : Nat) : List Json → List Nat
  | [] => []
  | x :: xs => if isSchema x then idOf root (p ++ [.index i]) :: schemaItems root p (i + 1) xs
    else schemaItems root p (i + 1) xs

/-- `for (key, value) in object { if let Some(schema) = … { insert(key, schema) } }`. -/
def schemaMembers (root : Json) (p : Pointer) : Members → List (Text × Nat)
  | [] => []
  | (k, x) :: ms => if isSchema x then (k, idOf root (p ++ [.key k])) :: schemaMembers root p ms else schemaMembers root p ms

/-- The schemas of a keyword with an object of schemas. -/
def subMap (root : Json) (p : Pointer) (o : Members) (name : String) : Option (List (Text × Nat)) :=
  match o.lookup name.toList with
  | some (.obj ms) => some (schemaMembers root (p ++ [.key name.toList]) ms)
  | _ => none

/-- `OneOfSchema::new` (`S/one_of_schema.rs:25-63`), `AnyOfSchema::new` and `AllOfSchema::new`, if the keyword is there
(`adjacent_applicators`, `S/../schema.rs:338-394`). -/
def subList (root : Json) (p : Pointer) (o : Members) (name : String) : Option (List Nat) :=
  match o.lookup name.toList with
  | some (.arr xs) => some (schemaItems root (p ++ [.key name.toList]) 0 xs)
  | some _ => some []
  | none => none

/-- `S/array_schema.rs:91-105` (`prefix_items`). -/
def prefixItems (root : Json) (p : Pointer) (o : Members) : Option (List Nat) :=
  match o.lookup "prefixItems".toList with
  | some (.arr xs) => some (schemaItems root (p ++ [.key "prefixItems".toList]) 0 xs)
  | some _ => none
  | none => match o.lookup "items".toList with
    | some (.arr xs) => some (schemaItems root (p ++ [.key "items".toList]) 0 xs)
    | _ => none

/-- `S/array_schema.rs:56-60` (`has_prefix_items`). -/
def hasPrefixItems (o : Members) : Bool :=
  (o.lookup "prefixItems".toList).isSome || match o.lookup "items".toList with
    | some (.arr _) => true
    | _ => false

/-- `S/array_schema.rs:77-90` (`items`). -/
def itemsSchema (d : Option Dialect) (root : Json) (p : Pointer) (o : Members) : Option Nat :=
  match o.lookup "items".toList with
  | some (.bool _) => if usesPrefixItems d && hasPrefixItems o then none else sub root p o "items"
  | _ => sub root p o "items"

/-- `S/array_schema.rs:106-118` (`additional_items`). -/
def additionalItems (d : Option Dialect) (o : Members) : Option Bool :=
  if usesPrefixItems d then match o.lookup "items".toList with
    | some (.bool b) => some b
    | _ => none
  else match o.lookup "additionalItems".toList with
    | some (.bool b) => some b
    | some (.obj _) => some true
    | _ => none

/-- `S/array_schema.rs:119-134` (`additional_items_schema`). -/
def additionalItemsSchema (d : Option Dialect) (root : Json) (p : Pointer) (o : Members) : Option Nat :=
  if usesPrefixItems d then none
  else match o.lookup "additionalItems".toList with
    | some (.obj _) => sub root p o "additionalItems"
    | _ => none

/-- The four fields together, in the order in which the validator looks at them
(`crates/tombi-validator/src/validate/array.rs:163-297`). -/
def readItems (d : Option Dialect) (root : Json) (p : Pointer) (o : Members) : Items :=
  match prefixItems root p o with
  | some ps => .tuple ps (match (additionalItemsSchema d root p o).or (itemsSchema d root p o) with
    | some s => .schema s
    | none => match additionalItems d o with
      | some b => .allowed b
      | none => .absent)
  | none => match itemsSchema d root p o with
    | some s => .all s
    | none => .absent

/-- `S/table_schema.rs:114-134` (`additional_properties` and `additional_property_schema`). -/
def readAdditional (root : Json) (p : Pointer) (o : Members) : Additional :=
  match o.lookup "additionalProperties".toList with
  | some (.bool b) => .allowed b
  | some (.obj _) => match sub root p o "additionalProperties" with
    | some s => .schema s
    | none => .allowed true
  | _ => .absent

/-- `S/table_schema.rs:259-275` (`dependent_required`). -/
def dependentRequired : Members → List (Key × List Key)
  | [] => []
  | (k, .arr xs) :: ms => (k, xs.filterMap asText) :: dependentRequired ms
  | _ :: ms => dependentRequired ms

/-- A member that is `true` (`as_bool`). -/
def isTrue (o : Members) (name : String) : Bool :=
  match o.lookup name.toList with
  | some (.bool b) => b
  | _ => false

/-- The typed views of the schema object at position `p`: `IntegerSchema::new` (`S/integer_schema.rs:25-68`), `StringSchema::new`
(`S/string_schema.rs:29-90`), `ArraySchema::new` (`S/array_schema.rs:48-217`), `TableSchema::new` (`S/table_schema.rs:67-348`), and
the parts of `SemanticSchemaObject::new` that the validator uses (`S/semantic_schema.rs:806-860`). `deprecated` is that of the
references that lead here (`apply_ref_annotations`, `S/referable_schema.rs:593-656`) or of the object (`S/deprecation.rs:20-34`).
The number of a regular expression is that of its schema: twice for `pattern`, and twice and one for the key of a schema in
`patternProperties`. -/
def readNode (d : Option Dialect) (root : Json) (p : Pointer) (o : Members) (deprecated : Bool) : Node where
  types := typeAssertion (o.lookup "type".toList)
  const := (o.lookup "const".toList).map literal
  enum := match o.lookup "enum".toList with
    | some (.arr xs) => some (xs.map literal)
    | _ => none
  minimum := (o.lookup "minimum".toList).bind asInt
  maximum := (o.lookup "maximum".toList).bind asInt
  exclusiveMinimum := (o.lookup "exclusiveMinimum".toList).bind asInt
  exclusiveMaximum := (o.lookup "exclusiveMaximum".toList).bind asInt
  multipleOf := (o.lookup "multipleOf".toList).bind asInt
  minLength := (o.lookup "minLength".toList).bind asSize
  maxLength := (o.lookup "maxLength".toList).bind asSize
  pattern := ((o.lookup "pattern".toList).bind asText).map fun _ => 2 * idOf root p
  items := readItems d root p o
  contains := sub root p o "contains"
  minContains := (o.lookup "minContains".toList).bind asSize
  maxContains := (o.lookup "maxContains".toList).bind asSize
  minItems := (o.lookup "minItems".toList).bind asSize
  maxItems := (o.lookup "maxItems".toList).bind asSize
  uniqueItems := isTrue o "uniqueItems"
  properties := (subMap root p o "properties").getD []
  patternProperties := (subMap root p o "patternProperties").map (·.map fun (_, s) => (2 * s + 1, s))
  additional := readAdditional root p o
  required := ((o.lookup "required".toList).bind asTexts).getD []
  minProperties := (o.lookup "minProperties".toList).bind asSize
  maxProperties := (o.lookup "maxProperties".toList).bind asSize
  propertyNames := sub root p o "propertyNames"
  dependentRequired := match o.lookup "dependentRequired".toList with
    | some (.obj ms) => dependentRequired ms
    | _ => []
  dependentSchemas := (subMap root p o "dependentSchemas").getD []
  oneOf := subList root p o "oneOf"
  anyOf := subList root p o "anyOf"
  allOf := subList root p o "allOf"
  not := sub root p o "not"
  ifS := sub root p o "if"
  thenS := (sub root p o "if").bind fun _ => sub root p o "then"
  elseS := (sub root p o "if").bind fun _ => sub root p o "else"
  deprecated := deprecated || isTrue o "deprecated"

/-! ### references -/

/-- `object.get("$ref").and_then(|v| v.as_str())` (`S/referable_schema.rs:152`). -/
def refOf (o : Members) : Option Text := (o.lookup "$ref".toList).bind asText

/-- The entries of the map of definitions that come from `definitions` or from `$defs` (`S/document_schema.rs:159-190`), and the
look-up in it (`resolve_from_schema_map`, `S/referable_schema.rs:689-695`): the key is not decoded. -/
def definedIn (root : Json) (name : String) (reference : Text) : Option Pointer :=
  match root with
  | .obj o => match o.lookup name.toList with
    | some (.obj ds) => ds.findSome? fun (k, j) =>
        if isSchema j && (("#/" ++ name ++ "/").toList ++ k == reference) then some [.key name.toList, .key k] else none
    | _ => none
  | _ => none

/-- The map of definitions. Simplified: references to other positions of the file, to anchors and to other files are not resolved. -/
def definition (root : Json) (reference : Text) : Option Pointer :=
  (definedIn root "definitions" reference).or (definedIn root "$defs" reference)

/-- `resolve_with_dynamic_scope` (`S/referable_schema.rs:312-545`) for references to definitions: the position of the schema at the
end, and whether a reference on the way is deprecated. The program has no bound for the number of references that follow each other. -/
def resolve (root : Json) : Nat → Pointer → Option (Pointer × Bool)
  | 0, _ => none
  | hops + 1, p => match valueAt root p with
    | some (.obj o) => match refOf o with
      | some reference => ((definition root reference).bind (resolve root hops)).map fun (q, dep) =>
          (q, dep || isTrue o "deprecated")
      | none => some (p, false)
    | some _ => some (p, false)
    | none => none

/-- The schema at a position that is no reference. -/
def schemaAt (d : Option Dialect) (root : Json) (p : Pointer) (deprecated : Bool) : Schema :=
  match valueAt root p with
  | some (.obj o) => .obj (readNode d root p o deprecated)
  | some (.bool b) => .always b
  | _ => .always true

/-- `Referable::new` (`S/referable_schema.rs:135-272`) and its resolution. Simplified: a reference that is not resolved is a schema
that allows everything; the program reports an error. -/
def entryAt (d : Option Dialect) (root : Json) (hops : Nat) (p : Pointer) : Entry :=
  match valueAt root p with
  | some (.obj o) => match refOf o with
    | some _ => match resolve root hops p with
      | some (q, dep) => ⟨true, schemaAt d root q dep⟩
      | none => ⟨true, .always true⟩
    | none => ⟨false, schemaAt d root p false⟩
  | _ => ⟨false, schemaAt d root p false⟩

/-- What the validator uses from other crates: `Regex::new` with `is_match`, the number of graphemes of a text, and
`is_multiple_of_with_tolerance`. -/
structure Libraries where
  compile : Text → Option (Key → Bool)
  graphemes : Key → Nat
  floatMultiple : Int → Int → Bool

/-- The text of the regular expression with this number. -/
def patternText (root : Json) (r : Nat) : Option Text :=
  match (places root)[r / 2]? with
  | none => none
  | some p => if r % 2 = 0 then match valueAt root p with
      | some (.obj o) => (o.lookup "pattern".toList).bind asText
      | _ => none
    else match p.getLast? with
      | some (.key k) => some k
      | _ => none

/-- `DocumentSchema::new` (`S/document_schema.rs:35-81`): the schemas of a file. -/
def fileEnv (L : Libraries) (root : Json) (hops : Nat) : Env where
  entry id := match (places root)[id]? with
    | some p => entryAt (dialectOf root) root hops p
    | none => ⟨false, .always true⟩
  regex r := (patternText root r).bind L.compile
  graphemes := L.graphemes
  floatMultiple := L.floatMultiple

/-- A document is validated against the schema of a file. -/
def validateFile (L : Libraries) (root : Json) (hops : Nat) (C : Ctx) (fuel : Nat) (strict : Bool) (v : Value) : Outcome :=
  Validate.validate (fileEnv L root hops) C fuel strict v (idOf root [])

end Tombi.SchemaFile
