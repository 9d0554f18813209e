import Verif.Model.Serialize
import Verif.Model.ValidateTypes
/-! The values that completion offers where a schema allows only finitely many: `SemanticSchema` of
`crates/tombi-schema-store/src/schema/semantic_schema.rs` (below: `semantic_schema.rs`) and the text that is inserted. -/
namespace Tombi.Offer
open Tombi.Validate (Ty)

abbrev Text := List Char

/-- `tombi-json-value/src/lib.rs:16-31` (`Value`) and `number.rs:4-10` (`Number`): a whole number in the range of `i64` is an integer
(`from_f64`). Floats are an uninterpreted type. -/
inductive J (F : Type) where
  | null
  | bool (b : Bool)
  | int (i : Int)
  | float (f : F)
  | str (s : Text)
  | arr (xs : List (J F))
  | obj (ms : List (Text × J F))

/-- What is used of `f64`: the conversion of an `i64`, comparisons, `semantic_schema.rs:746-751` (the divisor, and whether a number
is a multiple of it), `Display` (with `number.rs:74-80`). -/
structure Floats (F : Type) where
  ofInt : Int → F
  le : F → F → Bool
  lt : F → F → Bool
  multiple : F → F → Bool
  text : F → Text

variable {F : Type}

/-! ### equality -/

mutual
/-- The same constructors all the way down. -/
def J.beq [DecidableEq F] : J F → J F → Bool
  | .null, .null => true
  | .bool a, .bool b => a == b
  | .int a, .int b => a == b
  | .float a, .float b => decide (a = b)
  | .str a, .str b => a == b
  | .arr xs, .arr ys => J.beqs xs ys
  | .obj xs, .obj ys => J.beqms xs ys
  | _, _ => false
def J.beqs [DecidableEq F] : List (J F) → List (J F) → Bool
  | [], [] => true
  | x :: xs, y :: ys => J.beq x y && J.beqs xs ys
  | _, _ => false
def J.beqms [DecidableEq F] : List (Text × J F) → List (Text × J F) → Bool
  | [], [] => true
  | (k, x) :: xs, (l, y) :: ys => k == l && J.beq x y && J.beqms xs ys
  | _, _ => false
end

/-- Put a member before those with a larger key. -/
def putMember (k : Text) (v : J F) : List (Text × J F) → List (Text × J F)
  | [] => [(k, v)]
  | (l, w) :: ms => if k < l then (k, v) :: (l, w) :: ms else (l, w) :: putMember k v ms

mutual
/-- Members in the order of their keys. -/
def J.sorted : J F → J F
  | .arr xs => .arr (J.sorteds xs)
  | .obj ms => .obj (J.sortedms ms)
  | x => x
def J.sorteds : List (J F) → List (J F)
  | [] => []
  | x :: xs => x.sorted :: J.sorteds xs
def J.sortedms : List (Text × J F) → List (Text × J F)
  | [] => []
  | (k, v) :: ms => putMember k v.sorted (J.sortedms ms)
end

/-- `PartialEq` of `Value` (`lib.rs:16`, `map.rs:15-23`): derived; objects are `IndexMap`s, which are equal when they have the same
entries in any order. Here: equal after sorting, which is the same, as an object has no key twice. -/
def J.eq [DecidableEq F] (a b : J F) : Bool := J.beq a.sorted b.sorted

/-! ### schemas -/

/-- `semantic_schema.rs:52-63` (`SchemaType::from_str`). -/
def tyOfName (n : Text) : Option Ty :=
  if n = "null".toList then some .null
  else if n = "boolean".toList then some .bool
  else if n = "object".toList then some .obj
  else if n = "array".toList then some .arr
  else if n = "number".toList then some .num
  else if n = "string".toList then some .str
  else if n = "integer".toList then some .int
  else none

/-- `semantic_schema.rs:763-773` (`literal_has_type`). -/
def hasType : J F → Ty → Bool
  | .null, .null => true
  | .bool _, .bool => true
  | .obj _, .obj => true
  | .arr _, .arr => true
  | .int _, .num => true
  | .float _, .num => true
  | .str _, .str => true
  | .int _, .int => true
  | _, _ => false

/-- The parts of `SemanticSchemaObject` (`semantic_schema.rs:775-786`) that literals are tested for: `type`, `const`, `enum`, numeric
bounds as floats (`as_f64`) and lengths. -/
structure Local (F : Type) where
  types : Option (List Ty)
  const : Option (J F)
  enum : Option (List (J F))
  minimum : Option F
  maximum : Option F
  exclusiveMinimum : Option F
  exclusiveMaximum : Option F
  multipleOf : Option F
  minLength : Option Nat
  maxLength : Option Nat

/-- `semantic_schema.rs:79-84` (`SemanticCompositeKind`). -/
inductive Mix where
  | oneOf
  | anyOf
  | allOf
deriving DecidableEq

/-- `semantic_schema.rs:71-91` (`SemanticSchema`); of the applicators (`:1122-1131`) those that are used for literals. -/
inductive Sem (F : Type) where
  | boolean (b : Bool)
  | object (l : Local F) (allOf anyOf oneOf : List (Sem F)) (not : Option (Sem F))
  | composite (kind : Mix) (schemas : List (Sem F))

/-- The value of a member, and the schemas in it. -/
structure Part (F : Type) where
  value : J F
  schema : Option (Sem F)
  items : List (Sem F)

/-- `ObjectNode::get`. -/
def get (name : String) (ps : List (Text × Part F)) : Option (Part F) := (ps.find? (·.1 == name.toList)).map (·.2)

/-- `semantic_schema.rs:812-819`: a type, if it is the name of one. -/
def nameTy : J F → Option Ty
  | .str n => tyOfName n
  | _ => none

/-- `semantic_schema.rs:805-828` (`parse_type_assertion`). -/
def typeAssertion (v : Option (J F)) : Option (List Ty) :=
  let allowed := match v with
    | some (.str n) => some (tyOfName n).toList
    | some (.arr xs) => some (xs.filterMap nameTy)
    | _ => none
  allowed.bind fun ts => if ts.isEmpty then none else some ts

/-- `Number::as_f64` (`number.rs:63-68`). -/
def asFloat (fl : Floats F) : J F → Option F
  | .int i => some (fl.ofInt i)
  | .float f => some f
  | _ => none

/-- `semantic_schema.rs:942-948` (`usize_keyword`). -/
def asSize : J F → Option Nat
  | .int i => if 0 ≤ i then some i.toNat else none
  | _ => none

/-- `semantic_schema.rs:836-853` (`enum`). -/
def asItems : J F → Option (List (J F))
  | .arr xs => some xs
  | _ => none

/-- `semantic_schema.rs:788-803` (`SemanticSchemaObject::new`), with `GenericAssertions::new`, `NumericConstraints::new`,
`StringConstraints::new` and `SemanticApplicators::new` (`:1133-1145`, `schema_array_keyword` `:1147-1160`). -/
def build (fl : Floats F) (ps : List (Text × Part F)) : Sem F :=
  let value := fun name => (get name ps).map (·.value)
  let number := fun name => (value name).bind (asFloat fl)
  let schemas := fun name => match get name ps with
    | some p => p.items
    | none => []
  .object
    { types := typeAssertion (value "type")
      const := value "const"
      enum := (value "enum").bind asItems
      minimum := number "minimum"
      maximum := number "maximum"
      exclusiveMinimum := number "exclusiveMinimum"
      exclusiveMaximum := number "exclusiveMaximum"
      multipleOf := number "multipleOf"
      minLength := (value "minLength").bind asSize
      maxLength := (value "maxLength").bind asSize }
    (schemas "allOf") (schemas "anyOf") (schemas "oneOf") ((get "not" ps).bind (·.schema))

mutual
/-- `semantic_schema.rs:94-104` (`from_value_node`, `from_object_node`). -/
def sem (fl : Floats F) : J F → Option (Sem F)
  | .bool b => some (.boolean b)
  | .obj ms => some (build fl (parts fl ms))
  | _ => none
/-- The schemas of an array (`semantic_schema.rs:1152-1159`). -/
def semItems (fl : Floats F) : J F → List (Sem F)
  | .arr xs => sems fl xs
  | _ => []
/-- `filter_map` (`semantic_schema.rs:1156-1158`). -/
def sems (fl : Floats F) : List (J F) → List (Sem F)
  | [] => []
  | x :: xs => (sem fl x).toList ++ sems fl xs
/-- The members of an object. -/
def parts (fl : Floats F) : List (Text × J F) → List (Text × Part F)
  | [] => []
  | (k, v) :: ms => (k, ⟨v, sem fl v, semItems fl v⟩) :: parts fl ms
end

/-! ### the test of a literal -/

/-- One test of a literal: passed when the keyword is not there. -/
def Passes {A : Type} (o : Option A) (test : A → Bool) : Bool := match o with
  | some a => test a
  | none => true

/-- `semantic_schema.rs:688-761` (`accepts_local_literal`). -/
def Local.accepts [DecidableEq F] (fl : Floats F) (l : Local F) (x : J F) : Bool :=
  Passes l.types (·.any (hasType x)) && Passes l.const (J.eq · x) && Passes l.enum (·.any (J.eq · x)) &&
  match x with
  | .str s => Passes l.minLength (fun n => decide (n ≤ s.length)) && Passes l.maxLength (fun n => decide (s.length ≤ n))
  | x => Passes (asFloat fl x) fun a => Passes l.minimum (fl.le · a) && Passes l.maximum (fl.le a ·) &&
      Passes l.exclusiveMinimum (fl.lt · a) && Passes l.exclusiveMaximum (fl.lt a ·) && Passes l.multipleOf (fl.multiple · a)

mutual
/-- `semantic_schema.rs:583-641` (`accepts_literal`). -/
def accepts [DecidableEq F] (fl : Floats F) (x : J F) : Sem F → Bool
  | .boolean b => b
  | .object l allOf anyOf oneOf not =>
    l.accepts fl x && acceptsAll fl x allOf && (anyOf.isEmpty || acceptsAny fl x anyOf) &&
      (oneOf.isEmpty || acceptsCount fl x oneOf == 1) && acceptsNot fl x not
  | .composite .oneOf ss => acceptsCount fl x ss == 1
  | .composite .anyOf ss => acceptsAny fl x ss
  | .composite .allOf ss => acceptsAll fl x ss
/-- `.iter().all(…)`. -/
def acceptsAll [DecidableEq F] (fl : Floats F) (x : J F) : List (Sem F) → Bool
  | [] => true
  | s :: ss => accepts fl x s && acceptsAll fl x ss
/-- `.iter().any(…)`. -/
def acceptsAny [DecidableEq F] (fl : Floats F) (x : J F) : List (Sem F) → Bool
  | [] => false
  | s :: ss => accepts fl x s || acceptsAny fl x ss
/-- `.iter().filter(…).count()`. -/
def acceptsCount [DecidableEq F] (fl : Floats F) (x : J F) : List (Sem F) → Nat
  | [] => 0
  | s :: ss => (if accepts fl x s then 1 else 0) + acceptsCount fl x ss
/-- `.is_none_or(|schema| !schema.accepts_literal(value))`. -/
def acceptsNot [DecidableEq F] (fl : Floats F) (x : J F) : Option (Sem F) → Bool
  | none => true
  | some s => !accepts fl x s
end

/-! ### candidates -/

/-- `.collect::<Option<Vec<_>>>()`. -/
def allSome {A : Type} : List (Option A) → Option (List A)
  | [] => some []
  | none :: _ => none
  | some a :: as => (allSome as).map (a :: ·)

/-- `slice::contains` with `PartialEq`. -/
def holds [DecidableEq F] (xs : List (J F)) (x : J F) : Bool := xs.any (J.eq · x)

/-- `.fold(Vec::new(), …)` that leaves out what is there (`semantic_schema.rs:566-576`, `:651-662`). -/
def distinct [DecidableEq F] (xs : List (J F)) : List (J F) :=
  xs.foldl (fun out x => if holds out x then out else out ++ [x]) []

/-- `semantic_schema.rs:496-529` (`exact_one_of_literal_candidates`): what is in exactly one of the domains. -/
def exactlyOne [DecidableEq F] (domains : List (List (J F))) : List (J F) :=
  domains.flatten.foldl (fun out x => if holds out x then out
    else if domains.countP (fun d => holds d x) == 1 then out ++ [x] else out) []

/-- The candidates before the test (`semantic_schema.rs:541-580`); `one`, `all` and `any` are the candidates of the members. -/
def domain [DecidableEq F] (l : Local F) (all any one : List (Option (List (J F)))) : Option (List (J F)) :=
  match (if one.isEmpty then none else (allSome one).map exactlyOne) with
  | some cs => some cs
  | none => match l.const with
    | some c => some [c]
    | none => match l.enum with
      | some cs => some cs
      | none => match all.findSome? id with
        | some cs => some cs
        | none => if any.isEmpty then none else (allSome any).map fun ds => distinct ds.flatten

mutual
/-- `semantic_schema.rs:531-581` (`finite_literal_candidates`) and `:644-685`. -/
def finite [DecidableEq F] (fl : Floats F) : Sem F → Option (List (J F))
  | .boolean _ => none
  | .object l allOf anyOf oneOf not =>
    (domain l (finites fl allOf) (finites fl anyOf) (finites fl oneOf)).map
      (·.filter fun x => accepts fl x (.object l allOf anyOf oneOf not))
  | .composite .allOf ss => ((finites fl ss).findSome? id).map (·.filter fun x => acceptsAll fl x ss)
  | .composite .anyOf ss => (allSome (finites fl ss)).map fun ds => (distinct ds.flatten).filter fun x => acceptsAny fl x ss
  | .composite .oneOf ss => (allSome (finites fl ss)).map fun ds => (distinct ds.flatten).filter fun x => acceptsCount fl x ss == 1
/-- The candidates of each schema. -/
def finites [DecidableEq F] (fl : Floats F) : List (Sem F) → List (Option (List (J F)))
  | [] => []
  | s :: ss => finite fl s :: finites fl ss
end

/-! ### the text -/

/-- `s.replace('"', "\\\"")` (`tombi-json-value/src/lib.rs:286`). -/
def quoteText (s : Text) : Text := s.flatMap fun c => if c = '"' then ['\\', '"'] else [c]

/-- `tombi-lsp/src/completion.rs:760-778` (`tombi_json_value_to_completion_enum_item`): the text that is inserted, with `Display` of
`Value` (`lib.rs:280-313`). -/
def insertText (fl : Floats F) : J F → Option Text
  | .str s => some (['"'] ++ quoteText s ++ ['"'])
  | .int i => some (Serializing.showInt i)
  | .float f => some (fl.text f)
  | .bool true => some "true".toList
  | .bool false => some "false".toList
  | _ => none

/-- `schema_completion.rs:78-98`: what is offered for a schema of finitely many values. Simplified: the check for a date-time format
before it is left out. -/
def offers [DecidableEq F] (fl : Floats F) (schema : J F) : Option (List Text) :=
  ((sem fl schema).bind (finite fl)).map (·.filterMap (insertText fl))

end Tombi.Offer
