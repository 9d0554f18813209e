import Verif.Model.ValidateTypes

/-!
# The schema validator

Model of crates/tombi-validator/src/validate.rs and validate/*.rs, and of the schema-side
functions they use (crates/tombi-schema-store/src/schema/semantic_schema.rs,
referable_schema.rs).  Path abbreviations in the comments: `V` is
crates/tombi-validator/src, `S` is crates/tombi-schema-store/src/schema.

The recursion through the schema graph is open: every function takes the recursive call `rec`,
and `run` ties the knot with fuel.  The program has no fuel; the theorems show that the result
does not depend on it once it exceeds the depth of the schema.
-/

namespace Tombi.Validate

/-! ## Outcomes -/

/-- `Invalid.assertion_failed`, false for `Ok` (V/validate.rs 456-461, `is_assertion_success`
negated). -/
def Outcome.failed : Outcome → Bool
  | .ok => false
  | .err f _ _ => f

/-- The diagnostics of a result. -/
def Outcome.diags : Outcome → List Diag
  | .ok => []
  | .err _ _ ds => ds

/-- `merge_validation_results`, V/validate.rs 543-565. -/
def merge (C : Ctx) : Outcome → Outcome → Outcome
  | .ok, .ok => .ok
  | .err f e ds, .ok => .err f e ds
  | .ok, .err f e ds => .err f e ds
  | .err f e ds, .err f' e' ds' => .err (f || f') (C.mergeEvidence e e') (ds ++ ds')

/-- `Invalid::combine`, V/invalid.rs 27-44: keep the error with the better match evidence.
The score of an evidence is the number standing for it; the default evidence is 0. -/
def combine : Outcome → Outcome → Outcome
  | .err f e ds, .err f' e' ds' =>
    if (!f && ds.isEmpty && e == 0) || decide (e < e') then .err f' e' ds'
    else if e == e' then .err (f || f') e (ds ++ ds')
    else .err f e ds
  | o, .ok => o
  | .ok, o => o

/-- `push_diagnostic_with_level`, V/diagnostic.rs 255-273. -/
def push (C : Ctx) (p : Path) (r : Rule) : List Diag :=
  match C.level p r with
  | .off => []
  | l => [⟨p, r, l⟩]

/-- `handle_unused_noqa`, V/validate.rs 366-418: at most one warning. -/
def unusedNoqa (C : Ctx) (p : Path) (r : Rule) : List Diag :=
  if C.unused p r then [⟨p, .unusedNoqa, .warn⟩] else []

/-- What one keyword adds to a running result: did an assertion fail, which diagnostics. -/
structure Part where
  failed : Bool
  diags : List Diag

/-- One keyword check, the repeated
`if violated { assertion_failed = true; push } else if disabled { unused noqa }`
(for example V/validate/integer.rs 226-259). -/
def check (C : Ctx) (p : Path) (r : Rule) (violated : Bool) : Part :=
  if violated then ⟨true, push C p r⟩ else ⟨false, unusedNoqa C p r⟩

/-- `assertion_failed |= …; total_diagnostics.extend(…)` for the result of a sub-schema. -/
def Outcome.part (o : Outcome) : Part := ⟨o.failed, o.diags⟩

/-- All parts together. -/
def total (ps : List Part) : Part := ⟨ps.any Part.failed, ps.flatMap Part.diags⟩

/-- `Ok` iff there is no diagnostic and no failed assertion
(for example V/validate/integer.rs 410-421). -/
def finish (ev : Nat) (t : Part) : Outcome :=
  if t.diags.isEmpty && !t.failed then .ok else .err t.failed ev t.diags

/-- `with_lint_diagnostics`, V/validate.rs 420-442. -/
def withLint (C : Ctx) (p : Path) : Outcome → Outcome
  | .ok => if (C.lint p).isEmpty then .ok else .err false 0 (C.lint p)
  | .err f e ds => .err f e (C.lint p ++ ds)

/-- `handle_type_mismatch`, V/validate.rs 310-341. -/
def typeMismatch (C : Ctx) (p : Path) (ev : Nat) : Outcome := .err true ev (push C p .typeMismatch)

/-- `handle_nothing_schema`, V/validate.rs 353-364: always an error diagnostic, so always a
failed assertion (`From<Vec<Diagnostic>>`, V/invalid.rs 52-64). -/
def nothing (p : Path) : Outcome := .err true 0 [⟨p, .nothing, .error⟩]

/-- `handle_deprecated` and `handle_deprecated_value`, V/validate.rs 218-308. -/
def deprecatedDiags (C : Ctx) (p : Path) (n : Node) : List Diag :=
  if n.deprecated then push C p .deprecated else unusedNoqa C p .deprecated

/-- `if diagnostics.is_empty() { handle_deprecated }`. -/
def withDeprecated (C : Ctx) (p : Path) (n : Node) (t : Part) : Part :=
  if t.diags.isEmpty then ⟨t.failed, deprecatedDiags C p n⟩ else t

/-! ## Values and literals -/

/-- `SchemaType::from_value_type`. -/
def tyOf : Value → Ty
  | .bool _ => .bool
  | .int _ => .int
  | .str _ => .str
  | .arr _ => .arr
  | .tbl _ => .obj

mutual
  /-- `PartialEq` of JSON values (crates/tombi-json-value/src/lib.rs 16): derived, with objects
  compared as `IndexMap`s (same length, every entry found in the other map). -/
  def jsonEq : Value → Value → Bool
    | .bool a, .bool b => a == b
    | .int a, .int b => a == b
    | .str a, .str b => a == b
    | .arr xs, .arr ys => jsonEqList xs ys
    | .tbl xs, .tbl ys => xs.length == ys.length && jsonEqEntries xs ys
    | _, _ => false
  def jsonEqList : List Value → List Value → Bool
    | [], [] => true
    | x :: xs, y :: ys => jsonEq x y && jsonEqList xs ys
    | _, _ => false
  def jsonEqEntries : List (Key × Value) → List (Key × Value) → Bool
    | [], _ => true
    | (k, v) :: xs, ys =>
      (match ys.lookup k with
        | some w => jsonEq v w
        | none => false) && jsonEqEntries xs ys
end

/-- `literal_has_type`, S/semantic_schema.rs 765-776 (every number of the model is an `i64`). -/
def litHasType (l : Lit) (t : Ty) : Bool :=
  match l, t with
  | none, .null => true
  | some (.bool _), .bool => true
  | some (.tbl _), .obj => true
  | some (.arr _), .arr => true
  | some (.int _), .num => true
  | some (.int _), .int => true
  | some (.str _), .str => true
  | _, _ => false

/-- The kinds of typed views (`SchemaView`, without the date-time kinds). -/
inductive Kind where
  | bool
  | int
  | num
  | str
  | arr
  | tbl
deriving DecidableEq, Repr

/-- The instance type a view is made for. -/
def Kind.ty : Kind → Ty
  | .bool => .bool
  | .int => .int
  | .num => .num
  | .str => .str
  | .arr => .arr
  | .tbl => .obj

/-- `matches_instance`, V/validate.rs 123-180: an integer also fits a number view. -/
def Kind.fits (k : Kind) (v : Value) : Bool :=
  match k, v with
  | .bool, .bool _ => true
  | .int, .int _ => true
  | .num, .int _ => true
  | .str, .str _ => true
  | .arr, .arr _ => true
  | .tbl, .tbl _ => true
  | _, _ => false

/-! ## The schema side -/

/-- `has_type_assertion() || has_direct_literal_assertion()`, S/referable_schema.rs 190-192. -/
def Node.typed (n : Node) : Bool := n.types.isSome || n.const.isSome || n.enum.isSome

/-- The type list has `number` but not `integer` (S/semantic_schema.rs 319-329, 375-383). -/
def Node.numberOnly (n : Node) : Bool :=
  match n.types with
  | some ts => ts.contains .num && !ts.contains .int
  | none => false

/-- `accepts_instance_type` of one schema object, S/semantic_schema.rs 153-192; `sub` is the
recursive call on the members of `allOf`, `anyOf` and `oneOf`. -/
def acceptsNode (sub : Nat → Ty → Bool) (n : Node) (t : Ty) : Bool :=
  (match n.types with
    | none => true
    | some ts => ts.any fun a => a == t || (t == .int && a == .num)) &&
  (match n.const with
    | none => true
    | some l => litHasType l t) &&
  (match n.enum with
    | none => true
    | some ls => ls.any fun l => litHasType l t) &&
  (n.allOf.getD []).all (fun m => sub m t) &&
  ((n.anyOf.getD []).isEmpty || (n.anyOf.getD []).any fun m => sub m t) &&
  ((n.oneOf.getD []).isEmpty || (n.oneOf.getD []).any fun m => sub m t)

/-- `accepts_instance_type` of a member of an applicator, S/semantic_schema.rs 153-202.  The
member's semantic schema is the object as written, so a member that is a `$ref` accepts every
type.  Fuel 0 answers `true`, which only makes the validator look closer. -/
def acceptsMember (E : Env) : Nat → Nat → Ty → Bool
  | 0, _, _ => true
  | f + 1, id, t =>
    if (E.entry id).byRef then true
    else match (E.entry id).schema with
      | .always b => b
      | .obj n => acceptsNode (acceptsMember E f) n t

/-- `accepts_instance_type` of the schema of a view. -/
def accepts (E : Env) (f : Nat) (n : Node) (t : Ty) : Bool := acceptsNode (acceptsMember E f) n t

/-- `has_direct_constraints_for_type` of an object, S/semantic_schema.rs 204-258. -/
def directConstraints (n : Node) (t : Ty) : Bool :=
  n.const.isSome || n.enum.isSome ||
  match t with
  | .null => false
  | .bool => false
  | .int => n.multipleOf.isSome || n.minimum.isSome || n.maximum.isSome ||
      n.exclusiveMinimum.isSome || n.exclusiveMaximum.isSome
  | .num => n.multipleOf.isSome || n.minimum.isSome || n.maximum.isSome ||
      n.exclusiveMinimum.isSome || n.exclusiveMaximum.isSome
  | .str => n.minLength.isSome || n.maxLength.isSome || n.pattern.isSome
  | .arr => (match n.items with
      | .absent => false
      | .all _ => true
      | .tuple ps r => !ps.isEmpty || (match r with
        | .absent => false
        | _ => true)) || n.contains.isSome || n.minItems.isSome || n.maxItems.isSome ||
      n.uniqueItems || n.minContains.isSome || n.maxContains.isSome
  | .obj => !n.properties.isEmpty || !(n.patternProperties.getD []).isEmpty ||
      (match n.additional with
        | .absent => false
        | _ => true) || n.propertyNames.isSome || !n.required.isEmpty ||
      !n.dependentRequired.isEmpty || !n.dependentSchemas.isEmpty || n.minProperties.isSome ||
      n.maxProperties.isSome

/-- The kinds `completion_projection` tries, in order (S/semantic_schema.rs 367-383). -/
def kinds (n : Node) : List Kind :=
  if n.numberOnly then [.bool, .num, .str, .arr, .tbl]
  else [.bool, .int, .num, .str, .arr, .tbl]

/-- The typed views of a schema with a type or literal assertion, S/semantic_schema.rs 360-417:
none is the `Null` or `Nothing` view, one is that view, several are an `AnyOf` view. -/
def views (E : Env) (f : Nat) (n : Node) : List Kind :=
  (kinds n).filter fun k => accepts E f n k.ty

/-- The view `schema_view_for_type` makes for a value, S/semantic_schema.rs 312-332. -/
def kindFor (n : Node) : Value → Kind
  | .bool _ => .bool
  | .int _ => if n.numberOnly then .num else .int
  | .str _ => .str
  | .arr _ => .arr
  | .tbl _ => .tbl

/-! ## Keyword checks of one value -/

/-- The `f64` nearest to an integer (ties to even), as an integer: `value as f64`. -/
def roundF64 (i : Int) : Int :=
  let a := i.natAbs
  if a < 2 ^ 53 then i
  else
    let s := a.log2 - 52
    let q := a / 2 ^ s
    let r := a % 2 ^ s
    let up := decide (2 ^ s < 2 * r) || (decide (2 ^ s = 2 * r) && decide (q % 2 = 1))
    let m := (if up then q + 1 else q) * 2 ^ s
    if i < 0 then -(m : Int) else (m : Int)

/-- `value % multiple_of != 0` on `i64` (V/validate/integer.rs 366-367); `none` is a panic:
division by zero, or overflow for `i64::MIN % -1`. -/
def notMultiple (i m : Int) : Option Bool :=
  if m = 0 then none
  else if i = -(2 ^ 63) ∧ m = -1 then none
  else some (Int.tmod i m != 0)

/-- The literal as the view reads it: `as_bool`, `as_i64`, `as_f64`, `as_str`, `as_array`,
`as_object` in the `new` functions of the view schemas (for example integer_schema.rs 44-56). -/
def litFor (k : Kind) (l : Lit) : Option Value :=
  match k, l with
  | .bool, some (.bool b) => some (.bool b)
  | .int, some (.int i) => some (.int i)
  | .num, some (.int i) => some (.int (roundF64 i))
  | .str, some (.str s) => some (.str s)
  | .arr, some (.arr xs) => some (.arr xs)
  | .tbl, some (.tbl kvs) => some (.tbl kvs)
  | _, _ => none

/-- The value as the view compares it: an integer under a number view is an `f64`
(V/validate/integer.rs 457). -/
def valueFor (k : Kind) (v : Value) : Value :=
  match k, v with
  | .num, .int i => .int (roundF64 i)
  | _, v => v

/-- `const` is present and differs. -/
def constViolated (k : Kind) (n : Node) (v : Value) : Bool :=
  match n.const with
  | none => false
  | some l => match litFor k l with
    | none => false
    | some w => !jsonEq (valueFor k v) w

/-- `enum` is present and has no equal member.  The views keep the members of their own type
(array views keep all, which compares the same). -/
def enumViolated (k : Kind) (n : Node) (v : Value) : Bool :=
  match n.enum with
  | none => false
  | some ls => !(ls.filterMap (litFor k)).any fun w => jsonEq (valueFor k v) w

/-- `if let Some(limit) = … && violated(limit)`, the guard of one keyword. -/
def violates {α : Type} (o : Option α) (f : α → Bool) : Bool :=
  match o with
  | some m => f m
  | none => false

/-- V/validate/integer.rs 157-397 (integer view) and 459-613 (number view, `g = roundF64`). -/
def numberParts (C : Ctx) (p : Path) (n : Node) (k : Kind) (g : Int → Int)
    (multiple : Int → Int → Bool) (i : Int) : List Part :=
  [check C p .constValue (constViolated k n (.int i)),
    check C p .enumValue (enumViolated k n (.int i)),
    check C p .maximum (violates n.maximum fun m => decide (g m < g i)),
    check C p .minimum (violates n.minimum fun m => decide (g i < g m)),
    check C p .exclusiveMaximum (violates n.exclusiveMaximum fun m => decide (g m ≤ g i)),
    check C p .exclusiveMinimum (violates n.exclusiveMinimum fun m => decide (g i ≤ g m)),
    check C p .multipleOf (violates n.multipleOf fun m => !multiple i m)]

/-- V/validate/boolean.rs, `const` and `enum`. -/
def boolParts (C : Ctx) (p : Path) (n : Node) (b : Bool) : List Part :=
  [check C p .constValue (constViolated .bool n (.bool b)),
    check C p .enumValue (enumViolated .bool n (.bool b))]

/-- `validate_raw_string`, V/validate/string.rs 390-640, without `format`; a `pattern` that
does not compile is ignored (lines 599-603). -/
def stringParts (E : Env) (C : Ctx) (p : Path) (n : Node) (s : Key) : List Part :=
  [check C p .constValue (constViolated .str n (.str s)),
    check C p .enumValue (enumViolated .str n (.str s)),
    check C p .maxLength (violates n.maxLength fun m => decide (m < E.graphemes s)),
    check C p .minLength (violates n.minLength fun m => decide (E.graphemes s < m)),
    check C p .pattern (violates n.pattern fun q => violates (E.regex q) fun m => !m s)]

/-- `validate_key_empty_rule`, V/validate/string.rs 288-319: never a failed assertion. -/
def keyEmpty (C : Ctx) (p : Path) (s : Key) : Outcome :=
  if s.isEmpty then .err false 0 (push C p .keyEmpty) else .ok

/-! ## Applicators -/

/-- The two ways to validate a value against an entry: `value.validate(…)`, and
`validate_resolved_schema(…)`, which members of `oneOf` and `anyOf` go through. -/
inductive Route where
  | direct
  | resolved
deriving DecidableEq, Repr

/-- The recursive call: route, strict mode, visited entries, whether the value is a key, path,
value, entry.  `none` is the `None` of `validate_resolved_schema`. -/
abbrev Rec := Route → Bool → List Nat → Bool → Path → Value → Nat → Option Outcome

/-- The position of a call: what stays the same while the keywords of one schema are checked. -/
structure Pos where
  strict : Bool
  visits : List Nat
  isKey : Bool
  path : Path
  value : Value

/-- `value.validate(accessors, Some(schema), context)` on the same value. -/
def direct (rec : Rec) (q : Pos) (id : Nat) : Outcome :=
  (rec .direct q.strict q.visits q.isKey q.path q.value id).getD .ok

/-- `validate_resolved_schema` on the same value. -/
def resolved (rec : Rec) (q : Pos) (id : Nat) : Option Outcome :=
  rec .resolved q.strict q.visits q.isKey q.path q.value id

/-- `validate_not`, V/validate/not_schema.rs 11-89. -/
def notOutcome (rec : Rec) (C : Ctx) (q : Pos) (n : Node) : Outcome :=
  match n.not with
  | none => .ok
  | some m =>
    if (direct rec q m).failed then
      (if C.unused q.path .notSchemaMatch
        then .err false 0 [⟨q.path, .unusedNoqa, .warn⟩] else .ok)
    else .err true 0 (push C q.path .notSchemaMatch)

/-- `merge_if_result`, V/validate/if_then_else.rs 21-34. -/
def mergeIf (C : Ctx) (branch ifResult : Outcome) : Outcome :=
  match ifResult with
  | .ok => merge C .ok branch
  | .err false e ds => merge C (.err false e ds) branch
  | .err true _ _ => branch

/-- `validate_if_then_else`, V/validate/if_then_else.rs 10-121. -/
def ifOutcome (rec : Rec) (C : Ctx) (q : Pos) (n : Node) : Outcome :=
  match n.ifS with
  | none => .ok
  | some i =>
    if (direct rec q i).failed then
      (match n.elseS with
        | some e => direct rec q e
        | none => .ok)
    else
      (match n.thenS with
        | some t => mergeIf C (direct rec q t) (direct rec q i)
        | none => mergeIf C .ok (direct rec q i))

/-- The adjacent `not` and `if` that `validate_one_of` and `validate_any_of` check first,
V/validate/one_of.rs 33-68, V/validate/any_of.rs 32-67. -/
def adjacentPart (rec : Rec) (C : Ctx) (q : Pos) (n : Node) : Part :=
  total [(notOutcome rec C q n).part, (ifOutcome rec C q n).part]

/-- The end of `validate_one_of`, V/validate/one_of.rs 92-226, from the results of the members
(those that did not answer `None`) and the part of the adjacent keywords. -/
def oneOfResult (C : Ctx) (p : Path) (n : Node) (adj : Part) (noMembers : Bool)
    (results : List Outcome) : Outcome :=
  if noMembers then .err true 0 (adj.diags ++ [⟨p, .oneOfNoMatch, .error⟩])
  else
    let valid := results.filter fun o => !o.failed
    match valid with
    | [.ok] =>
      if adj.diags.isEmpty && !adj.failed then .ok else .err adj.failed 0 adj.diags
    | [.err f e ds] => .err f e (adj.diags ++ ds)
    | _ :: _ :: _ => .err true 0 (adj.diags ++ push C p .oneOfMultipleMatch)
    | [] =>
      match results.foldl combine (.err false 0 []) with
      | .ok => .ok
      | .err f e ds =>
        .err f e (adj.diags ++ (if ds.isEmpty then deprecatedDiags C p n else ds))

/-- `validate_one_of`, V/validate/one_of.rs 16-230.  Simplified: the members are always
collected (`resolve_and_collect_schemas_with_errors` neither re-entrant nor locked). -/
def oneOfOutcome (rec : Rec) (C : Ctx) (q : Pos) (n : Node) (ms : List Nat) : Outcome :=
  oneOfResult C q.path n (adjacentPart rec C q n) ms.isEmpty (ms.filterMap (resolved rec q))

/-- The end of `validate_any_of`, V/validate/any_of.rs 96-178; `dep` are the diagnostics of
`validate_deprecated`. -/
def anyOfResult (adj : Part) (dep : List Diag) (results : List Outcome) : Outcome :=
  let matched := results.filter fun o => !o.failed
  if !matched.isEmpty then
    let ds := matched.flatMap Outcome.diags ++ dep ++ adj.diags
    if ds.isEmpty && !adj.failed then .ok else .err adj.failed 0 ds
  else
    match (results.filter fun o => o.failed).foldl combine (.err false 0 []) with
    | .ok => .ok
    | .err f e ds =>
      if !f && adj.diags.isEmpty then .ok else .err f e (adj.diags ++ ds)

/-- `validate_any_of`, V/validate/any_of.rs 12-182 (same simplification as `oneOfOutcome`). -/
def anyOfOutcome (rec : Rec) (C : Ctx) (q : Pos) (n : Node) (ms : List Nat) : Outcome :=
  anyOfResult (adjacentPart rec C q n) (deprecatedDiags C q.path n)
    (ms.filterMap (resolved rec q))

/-- `validate_all_of`, V/validate/all_of.rs 15-137 (same simplification). -/
def allOfOutcome (rec : Rec) (C : Ctx) (q : Pos) (id : Nat) (n : Node) (ms : List Nat) :
    Outcome :=
  let t := withDeprecated C q.path n (total (ms.map fun m => (direct rec q m).part))
  finish (C.evidence q.path id q.value)
    (total [t, (notOutcome rec C q n).part, (ifOutcome rec C q n).part])

/-- `validate_adjacent_applicators`, V/validate.rs 582-666. -/
def adjacent (rec : Rec) (C : Ctx) (q : Pos) (id : Nat) (n : Node) : Outcome :=
  let r := merge C .ok (match n.oneOf with
    | some ms => oneOfOutcome rec C q n ms
    | none => .ok)
  let r := merge C r (match n.anyOf with
    | some ms => anyOfOutcome rec C q n ms
    | none => .ok)
  let r := merge C r (match n.allOf with
    | some ms => allOfOutcome rec C q id n ms
    | none => .ok)
  merge C r (notOutcome rec C q n)

/-! ## Arrays and tables -/

/-- `value.validate(new_accessors, …)` on an element or entry. -/
def child (rec : Rec) (q : Pos) (s : Step) (v : Value) (id : Nat) : Outcome :=
  (rec .direct q.strict q.visits false (q.path ++ [s]) v id).getD .ok

/-- V/validate/array.rs 166-336: `prefixItems`, the overflow and `items`, for one element. -/
def itemPart (rec : Rec) (C : Ctx) (q : Pos) (n : Node) (x : Value) (i : Nat) : Part :=
  match n.items with
  | .absent => ⟨false, []⟩
  | .all s => (child rec q (.index i) x s).part
  | .tuple ps rest =>
    match ps[i]? with
    | some s => (child rec q (.index i) x s).part
    | none => match rest with
      | .schema s => (child rec q (.index i) x s).part
      | .allowed false => ⟨true, push C q.path .additionalItems⟩
      | _ => ⟨false, []⟩

/-- The counting loop of `contains`, V/validate/array.rs 369-387, with its early exit. -/
def containsCount (full : Bool) (least : Nat) : List Bool → Nat → Nat
  | [], c => c
  | b :: bs, c =>
    if b then
      if !full && decide (least ≤ c + 1) then c + 1 else containsCount full least bs (c + 1)
    else containsCount full least bs c

/-- `contains`, `minContains`, `maxContains`, V/validate/array.rs 362-440. -/
def containsParts (rec : Rec) (C : Ctx) (q : Pos) (n : Node) (xs : List Value) : List Part :=
  match n.contains with
  | none => []
  | some s =>
    let least := n.minContains.getD 1
    let oks := xs.zipIdx.map fun (x, i) => !(child rec q (.index i) x s).failed
    let count := containsCount n.maxContains.isSome least oks 0
    [if decide (count < least) then ⟨true, push C q.path .contains⟩ else ⟨false, []⟩,
      match n.maxContains with
      | some m => if decide (m < count) then ⟨true, push C q.path .maxContains⟩ else ⟨false, []⟩
      | none => ⟨false, []⟩]

/-- The positions `get_duplicated_ranges` reports, V/validate/array.rs 800-824. -/
def duplicates (xs : List Value) : List Nat :=
  xs.zipIdx.filterMap fun (x, i) =>
    if xs.zipIdx.any fun (y, j) => j != i && jsonEq y x then some i else none

/-- `uniqueItems`, V/validate/array.rs 661-692. -/
def uniquePart (C : Ctx) (p : Path) (n : Node) (xs : List Value) : Part :=
  if n.uniqueItems && !(duplicates xs).isEmpty then
    ⟨true, (duplicates xs).flatMap fun _ => push C p .uniqueItems⟩
  else ⟨false, unusedNoqa C p .uniqueItems⟩

/-- `validate_array`, V/validate/array.rs 127-733, before the adjacent applicators. -/
def arrayBase (rec : Rec) (C : Ctx) (q : Pos) (id : Nat) (n : Node) (xs : List Value) : Outcome :=
  finish (C.evidence q.path id q.value) (withDeprecated C q.path n (total
    ([(ifOutcome rec C q n).part] ++
      (xs.zipIdx.map fun (x, i) => itemPart rec C q n x i) ++
      containsParts rec C q n xs ++
      [check C q.path .constValue (constViolated .arr n q.value),
        check C q.path .enumValue (enumViolated .arr n q.value),
        check C q.path .maxItems (violates n.maxItems fun m => decide (m < xs.length)),
        check C q.path .minItems (violates n.minItems fun m => decide (xs.length < m)),
        uniquePart C q.path n xs])))

/-- `allows_additional_properties`, S/table_schema.rs 359-364. -/
def allowsAdditional (n : Node) (strict : Bool) : Bool :=
  match n.additional with
  | .absent => !strict
  | .allowed b => b
  | .schema _ => true

/-- `additionalProperties: false`. -/
def Additional.forbidden : Additional → Bool
  | .allowed false => true
  | _ => false

/-- No `additionalProperties`. -/
def Additional.missing : Additional → Bool
  | .absent => true
  | _ => false

/-- `allows_any_additional_properties`, S/table_schema.rs 366-372. -/
def allowsAny (n : Node) (strict : Bool) : Bool :=
  allowsAdditional n strict || n.patternProperties.isSome

/-- The schemas of the `patternProperties` whose pattern matches the key; patterns that do not
compile are skipped (V/validate/table.rs 234-248). -/
def patternSchemas (E : Env) (n : Node) (k : Key) : List Nat :=
  (n.patternProperties.getD []).filterMap fun (r, s) =>
    match E.regex r with
    | some m => if m k then some s else none
    | none => none

/-- `current_schema.schema_view.deprecation()` of the schema of `additionalProperties`,
V/validate/table.rs 362-373. -/
def schemaDeprecated (E : Env) (C : Ctx) (p : Path) (s : Nat) : List Diag :=
  match (E.entry s).schema with
  | .obj m => deprecatedDiags C p m
  | .always _ => []

/-- The entry is not covered by `properties` or `patternProperties`: what
V/validate/table.rs 347-511 does after trying `additionalProperties`. -/
def additionalParts (rec : Rec) (E : Env) (C : Ctx) (q : Pos) (id : Nat) (n : Node) (k : Key) (v : Value) :
    List Part :=
  (match n.additional with
    | .schema s => [⟨false, schemaDeprecated E C (q.path ++ [.key k]) s⟩,
      (child rec q (.key k) v s).part]
    | _ => []) ++
  (if C.evaluated id q.value k && !n.additional.forbidden then []
  else if q.strict && n.additional.missing && n.patternProperties.isNone then
    [⟨false, [⟨q.path, .strictAdditionalKeys, .warn⟩]⟩]
  else if !allowsAny n q.strict then [⟨true, push C q.path .keyNotAllowed⟩]
  else [⟨false, unusedNoqa C q.path .keyNotAllowed⟩])

/-- One entry of a table, V/validate/table.rs 161-513. -/
def entryParts (rec : Rec) (E : Env) (C : Ctx) (q : Pos) (id : Nat) (n : Node)
    (kv : Key × Value) : List Part :=
  let declared := (match n.properties.lookup kv.1 with
    | some s => [s]
    | none => []) ++ patternSchemas E n kv.1
  let matched := !declared.isEmpty
  declared.map (fun s => (child rec q (.key kv.1) kv.2 s).part) ++
  (if n.patternProperties.isSome then
    [check C q.path .keyPattern (!matched && !allowsAdditional n q.strict)] else []) ++
  (if matched then [] else additionalParts rec E C q id n kv.1 kv.2)

/-- `keys.contains(&key)`. -/
def hasKey (kvs : List (Key × Value)) (k : Key) : Bool := (kvs.map Prod.fst).contains k

/-- `required`, `maxProperties`, `minProperties`, `dependentRequired`,
V/validate/table.rs 517-654, 727-753. -/
def keysParts (C : Ctx) (p : Path) (n : Node) (kvs : List (Key × Value)) : List Part :=
  (n.required.map fun k => check C p .keyRequired (!hasKey kvs k)) ++
  [check C p .maxProperties (violates n.maxProperties fun m => decide (m < kvs.length)),
    check C p .minProperties (violates n.minProperties fun m => decide (kvs.length < m))] ++
  (n.dependentRequired.flatMap fun (k, rs) =>
    if hasKey kvs k then
      rs.map fun r => if hasKey kvs r then ⟨false, []⟩ else ⟨true, push C p .dependentRequired⟩
    else [])

/-- `dependentSchemas`, V/validate/table.rs 755-805: the same table, never strict. -/
def dependentParts (rec : Rec) (q : Pos) (n : Node) (kvs : List (Key × Value)) : List Part :=
  n.dependentSchemas.map fun (k, s) =>
    if hasKey kvs k then ((rec .direct false q.visits false q.path q.value s).getD .ok).part
    else ⟨false, []⟩

/-- The key loop of V/validate/table.rs 911-931: `propertyNames`, or only the rule against empty
keys.  `keyCall` is `key.validate` with the schema of `propertyNames`. -/
def keyParts (keyCall : Key → Nat → Outcome) (C : Ctx) (p : Path) (n : Node)
    (kvs : List (Key × Value)) : List Part :=
  kvs.map fun (k, _) =>
    match n.propertyNames with
    | some s => (keyCall k s).part
    | none => (keyEmpty C p k).part

/-- `validate_table`, V/validate/table.rs 136-978, before the adjacent applicators. -/
def tableBase (rec : Rec) (keyCall : Key → Nat → Outcome) (E : Env) (C : Ctx) (q : Pos) (id : Nat)
    (n : Node) (kvs : List (Key × Value)) : Outcome :=
  finish (C.evidence q.path id q.value) (total
    [withDeprecated C q.path n (total
      (kvs.flatMap (entryParts rec E C q id n) ++
        keysParts C q.path n kvs ++
        dependentParts rec q n kvs ++
        [check C q.path .constValue (constViolated .tbl n q.value),
          check C q.path .enumValue (enumViolated .tbl n q.value)] ++
        keyParts keyCall C q.path n kvs)),
      (ifOutcome rec C q n).part])

/-- `filter_table_strict_additional_diagnostics`, V/validate.rs 568-580. -/
def filterStrict : Outcome → Outcome
  | .ok => .ok
  | .err f e ds =>
    let ds' := ds.filter fun d => d.rule != .strictAdditionalKeys
    if ds'.isEmpty && !f then .ok else .err f e ds'

/-! ## Views -/

/-- A value against the typed view of a schema object: `validate_integer_schema`,
`validate_float_schema_for_integer` (V/validate/integer.rs 142-670), V/validate/boolean.rs,
`validate_string` (V/validate/string.rs 321-388), `validate_array`, `validate_table`; each is
its own keywords merged with the adjacent applicators. -/
def typedView (rec : Rec) (keyCall : Key → Nat → Outcome) (E : Env) (C : Ctx) (q : Pos) (id : Nat)
    (n : Node) (k : Kind) : Outcome :=
  let scalar (ps : List Part) : Outcome :=
    merge C (finish (C.evidence q.path id q.value) (withDeprecated C q.path n (total ps)))
      (adjacent rec C q id n)
  match k, q.value with
  | .bool, .bool b => scalar (boolParts C q.path n b)
  | .int, .int i => scalar (numberParts C q.path n .int (fun x => x)
      (fun x m => !((notMultiple x m).getD true)) i)
  | .num, .int i => scalar (numberParts C q.path n .num roundF64 E.floatMultiple i)
  | .str, .str s =>
    merge C (if q.isKey && n.minLength != some 0 then keyEmpty C q.path s else .ok)
      (scalar (stringParts E C q.path n s))
  | .arr, .arr xs => merge C (arrayBase rec C q id n xs) (adjacent rec C q id n)
  | .tbl, .tbl kvs =>
    merge C (tableBase rec keyCall E C q id n kvs) (filterStrict (adjacent rec C q id n))
  | _, _ => typeMismatch C q.path (C.evidence q.path id q.value)

/-- The `AnyOf` view over several typed views (S/semantic_schema.rs 409-416) under
`validate_any_of`. -/
def anyOfViews (rec : Rec) (keyCall : Key → Nat → Outcome) (E : Env) (C : Ctx) (q : Pos) (id : Nat)
    (n : Node) (ks : List Kind) : Outcome :=
  anyOfResult ⟨false, []⟩ [] (ks.map fun k =>
    if k.fits q.value then withLint C q.path (typedView rec keyCall E C q id n k)
    else typeMismatch C q.path (C.evidence q.path id q.value))

/-- `validate_mismatched_schema`, V/validate.rs 668-711.  The semantic schema of a `$ref` is a
composite, which has a type assertion if the target has one, but never a direct literal
assertion (S/semantic_schema.rs 130-147). -/
def mismatched (rec : Rec) (C : Ctx) (q : Pos) (id : Nat) (byRef : Bool) (n : Node) : Outcome :=
  if byRef && n.types.isNone then adjacent rec C q id n
  else typeMismatch C q.path (C.evidence q.path id q.value)

/-- `OneOf`, `AnyOf` and `AllOf` views add the rule against empty keys when the value is a key
(V/validate/string.rs 132-193). -/
def withKey (C : Ctx) (q : Pos) (o : Outcome) : Outcome :=
  match q.isKey, q.value with
  | true, .str s => merge C o (keyEmpty C q.path s)
  | _, _ => o

/-- `value.validate` on a schema object: projection to the type of the value
(`project_current_schema_for_value`, V/validate.rs 113-203) and the dispatch of the `validate`
functions (for example V/validate/integer.rs 18-140).  Simplified: a `$ref` to a schema without
type, literal and applicators is its target's typed view instead of an `AllOf` of that and the
trivial local one. -/
def objectDirect (rec : Rec) (keyCall : Key → Nat → Outcome) (E : Env) (C : Ctx) (f : Nat) (q : Pos)
    (id : Nat) (byRef : Bool) (n : Node) : Outcome :=
  let projected := accepts E f n (tyOf q.value)
  let typedFor := typedView rec keyCall E C q id n (kindFor n q.value)
  if n.typed then
    match views E f n with
    | [] => if projected then typedFor else nothing q.path
    | [k] =>
      if k.fits q.value then typedView rec keyCall E C q id n k
      else if projected then typedFor
      else mismatched rec C q id byRef n
    | ks =>
      if !byRef && projected then typedFor
      else withKey C q (anyOfViews rec keyCall E C q id n ks)
  else
    let project := !byRef && directConstraints n (tyOf q.value) && projected
    match n.oneOf, n.anyOf, n.allOf with
    | some ms, _, _ => if project then typedFor else withKey C q (oneOfOutcome rec C q n ms)
    | none, some ms, _ => if project then typedFor else withKey C q (anyOfOutcome rec C q n ms)
    | none, none, some ms => if project then typedFor else withKey C q (allOfOutcome rec C q id n ms)
    | none, none, none => typedFor

/-- `validate_resolved_schema` on a schema object, V/validate.rs 713-853; the cycle guard is in
`step`. -/
def objectResolved (rec : Rec) (keyCall : Key → Nat → Outcome) (E : Env) (C : Ctx) (f : Nat)
    (q : Pos) (id : Nat) (byRef : Bool) (n : Node) : Option Outcome :=
  if n.typed then
    match views E f n with
    | [] => if accepts E f n .null then none else some (nothing q.path)
    | [k] =>
      if k.fits q.value then
        some (withLint C q.path (objectDirect rec keyCall E C f q id byRef n))
      else some (mismatched rec C q id byRef n)
    | ks => some (anyOfViews rec keyCall E C q id n ks)
  else
    match n.oneOf, n.anyOf, n.allOf with
    | some ms, _, _ => some (oneOfOutcome rec C q n ms)
    | none, some ms, _ => some (anyOfOutcome rec C q n ms)
    | none, none, some ms => some (allOfOutcome rec C q id n ms)
    | none, none, none => some (withLint C q.path (objectDirect rec keyCall E C f q id byRef n))

/-- `key.validate` with the schema of `propertyNames`, whose view was replaced by its string view
when it has one (`schema_item_from_schema_value_for_type`, S/../schema.rs 292-317).  The recursive
`keyCall` is never reached: a key is a string. -/
def keyCallOf (rec : Rec) (E : Env) (C : Ctx) (f : Nat) (q : Pos) (k : Key) (id : Nat) : Outcome :=
  let kq : Pos := { q with isKey := true, value := .str k }
  match (E.entry id).schema with
  | .always _ => direct rec kq id
  | .obj n =>
    if !(E.entry id).byRef && accepts E f n .str then
      withLint C q.path (typedView rec (fun _ _ => .ok) E C kq id n .str)
    else direct rec kq id

/-- One level of the validator. -/
def step (E : Env) (C : Ctx) (f : Nat) (rec : Rec) : Rec := fun route strict visits isKey path v id =>
  let e := E.entry id
  match route with
  | .direct =>
    let q : Pos := ⟨strict, visits, isKey, path, v⟩
    some (withLint C path (match e.schema with
      | .always true => .ok
      | .always false => nothing path
      | .obj n => objectDirect rec (keyCallOf rec E C f q) E C f q id e.byRef n))
  | .resolved =>
    if visits.contains id then none
    else
      let q : Pos := ⟨strict, id :: visits, isKey, path, v⟩
      match e.schema with
      | .always true => some .ok
      | .always false => some (nothing path)
      | .obj n => objectResolved rec (keyCallOf rec E C f q) E C f q id e.byRef n

/-- The validator with fuel.  Fuel 0 is never reached in a run the theorems speak about. -/
def run (E : Env) (C : Ctx) : Nat → Rec
  | 0 => fun _ _ _ _ _ _ _ => none
  | f + 1 => step E C f (run E C f)

/-- `value.validate(accessors, Some(schema), context)`, the `Validate` implementation of
crates/tombi-validator/src/validate/value.rs, for a value at any path of the document. -/
def validateAt (E : Env) (C : Ctx) (fuel : Nat) (strict : Bool) (p : Path) (v : Value) (id : Nat) :
    Outcome :=
  (run E C fuel .direct strict [] false p v id).getD .ok

/-- `validate`, V/validate.rs 46-83: the result for a document against the schema `root`. -/
def validate (E : Env) (C : Ctx) (fuel : Nat) (strict : Bool) (v : Value) (root : Nat) : Outcome :=
  validateAt E C fuel strict [] v root

end Tombi.Validate
