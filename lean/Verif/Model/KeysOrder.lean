import Verif.Model.DocumentTree
import Verif.Model.TomlText
import Verif.Model.VersionSort

/-!
Model of `crates/tombi-ast-editor/src/rule/table_keys_order.rs` (and of `get_header_accessors` in `crates/tombi-ast`):
how the formatter reorders key-values, inline table entries and sections.

The JSON schemas and the configuration are parameters (`SchemaWorld`): resolving a schema, validating a value against it,
the configured overrides. Futures are evaluated at once.
-/
namespace Tombi

/-- `tombi-accessor/src/accessor.rs:6-9` (`Accessor`). -/
inductive Accessor where
  | key (k : List Char)
  | index (i : Nat)
  deriving DecidableEq, Repr

/-- `accessor.rs:13-15` (`is_key`). -/
def Accessor.isKey : Accessor → Bool
  | .key _ => true
  | .index _ => false

/-- `accessor.rs:26-28` (`is_index`). -/
def Accessor.isIndex : Accessor → Bool
  | .key _ => false
  | .index _ => true

/-- `accessor.rs:80-88` (`partial_cmp`). `none`: the `unwrap` of the callers panics. -/
def Accessor.partialCmp : Accessor → Accessor → Option Ordering
  | .key a, .key b => some (VersionSort.cmpText a b)
  | .index i, .index j => some (compare i j)
  | _, _ => none

/-- `accessor.rs:39-46` (`Display`). -/
def Accessor.display : Accessor → List Char
  | .key k => TomlText.toKeyString k
  | .index i => '[' :: (toString i).toList ++ [']']

/-! ### Accessors of headers -/

/-- `tombi-ast/src/lib.rs:112-126`, `:144-161`: the accessors of the keys after the first ones, `done`; `arrays` are the
headers of the earlier arrays of tables, `lastIndex` says whether the last key gets an index like the others. -/
def headerAccessors (arrays : List (List DKey)) (lastIndex : Bool) (done : List DKey) : List DKey → List Accessor
  | [] => []
  | k :: rest =>
    let name := done ++ [k]
    let index := if rest.isEmpty && !lastIndex then [] else
      match arrays.count name with
      | 0 => []
      | n + 1 => [Accessor.index n]
    .key k :: index ++ headerAccessors arrays lastIndex name rest

/-- `tombi-ast/src/lib.rs:101-181` (`get_header_accessors`); `prev` are the earlier sections, the nearest first. -/
def AstSection.headerAccessors {σ : Type} (prev : List (AstSection σ)) (s : AstSection σ) : Option (List Accessor) :=
  match s.header with
  | none => none
  | some header =>
    let arrays := parentArrayKeys prev header
    if s.isArray then some (Tombi.headerAccessors arrays false [] header ++ [.index (arrays.count header)])
    else some (Tombi.headerAccessors arrays true [] header)

/-! ### Orders -/

/-- `tombi-x-keyword` (`TableKeysOrder`). -/
inductive KeysOrder where
  | ascending | descending | schema | versionSort
  deriving DecidableEq, Repr

/-- `tombi-x-keyword` (`TableKeysOrderGroupKind`). -/
inductive GroupKind where
  | keys | patternKeys | additionalKeys
  deriving DecidableEq, Repr

/-- `XTombiTableKeysOrder`. -/
inductive XKeysOrder where
  | all (order : KeysOrder)
  | groups (groups : List (GroupKind × KeysOrder))
  deriving Repr

/-- The parts of a `TableSchema` this code looks at. `properties`: `table_schema.accessors()`; `patterns`: the compiled
`pattern_properties`; `property`: `resolve_property_schema`; `additional`: the resolved `additional_property_schema`. An
error of these (which is only logged) is `none`. -/
structure TableView (S : Type) where
  keysOrder : Option XKeysOrder
  properties : List Accessor
  patterns : List (List Char → Bool)
  property : Accessor → Option S
  additional : Option S

/-- `SchemaView`, for this code. `combined`: `OneOf`, `AnyOf`, `AllOf` with the result of `resolve_and_collect_schemas`;
`array`: with the resolved schema of the items. -/
inductive SchemaView (S : Type) where
  | combined (schemas : Option (List S)) (keysOrder : Option KeysOrder)
  | table (t : TableView S)
  | array (items : Option S)
  | other

/-- `table_keys_order.rs:207-213`. -/
def SchemaView.asTable {S : Type} : SchemaView S → Option (TableView S)
  | .table t => some t
  | _ => none

/-- `table_keys_order.rs:332-343`. -/
def SchemaView.asItems {S : Type} : SchemaView S → Option S
  | .array items => items
  | _ => none

/-- `TableOrderOverride`. -/
structure OrderOverride where
  disabled : Bool
  order : Option KeysOrder

/-- What the code asks the schema store, the validator and the configuration. -/
structure SchemaWorld (S σ : Type) where
  /-- The schema, resolved at a place. -/
  view : S → List Accessor → SchemaView S
  /-- `value.validate(accessors, schema).is_ok()`. -/
  valid : DValue σ → List Accessor → S → Bool
  /-- `schema_table_keys_order_enabled`. -/
  enabled : Option S → Bool
  /-- `schema_context.table_order_override(schema, accessors)`. -/
  schemaOverride : Option S → List Accessor → Option OrderOverride
  /-- `table_order_overrides.and_then(|overrides| overrides.find(accessors))`. -/
  directiveOverride : List Accessor → Option OrderOverride

/-- Insertion before the first element that is not smaller. -/
def insertSorted {α : Type} (le : α → α → Bool) (a : α) : List α → List α
  | [] => [a]
  | b :: rest => if le a b then a :: b :: rest else b :: insertSorted le a rest

/-- `slice::sort_by` is a stable sort; so is this one. For a total preorder there is only one result. -/
def stableSort {α : Type} (le : α → α → Bool) : List α → List α
  | [] => []
  | a :: rest => insertSorted le a (stableSort le rest)

/-- Is the result of a comparison function not `Greater`? -/
def isLe (o : Option Ordering) : Bool := o != some .gt

/-- The comparison of `table_keys_order.rs:408-413`, `:426-435`; `none` is a panic. -/
def KeysOrder.cmp : KeysOrder → Accessor → Accessor → Option Ordering
  | .ascending, a, b => a.partialCmp b
  | .descending, a, b => b.partialCmp a
  | .schema, _, _ => some .eq
  | .versionSort, .key a, .key b => some (VersionSort.versionSort a b)
  | .versionSort, _, _ => none

/-- `table_keys_order.rs:414-425`: the groups whose keys the schema lists, in the order of the schema, then the others. -/
def schemaSort {α : Type} : List Accessor → List (Accessor × α) → List (Accessor × α)
  | [], targets => targets
  | a :: rest, targets => targets.filter (fun t => t.1 == a) ++ schemaSort rest (targets.filter fun t => t.1 != a)

/-- `table_keys_order.rs:402-438` (`sort_targets`); `properties` are the accessors of the table schema, if there is one. -/
def sortTargets {α : Type} (targets : List (Accessor × α)) (order : KeysOrder) (properties : Option (List Accessor)) :
    List (Accessor × α) :=
  match order, properties with
  | .schema, none => targets
  | .schema, some properties => schemaSort properties targets
  | order, _ => stableSort (fun a b => isLe (order.cmp a.1 b.1)) targets

/-- `table_keys_order.rs:440-457` (`get_table_keys_order`). -/
def tableKeysOrder {S : Type} (order : Option KeysOrder) (table : Option (TableView S)) (enabled : Bool) :
    Option XKeysOrder :=
  match order, table with
  | some order, _ => some (.all order)
  | none, some table => if enabled then table.keysOrder else none
  | none, none => none

/-- `table_keys_order.rs:496-508`, `:518-527`: the kind of a key. -/
def keyKind {S : Type} (table : TableView S) (a : Accessor) : GroupKind :=
  if table.properties.contains a then .keys
  else match a with
    | .key k => if table.patterns.any (fun p => p k) then .patternKeys else .additionalKeys
    | .index _ => .additionalKeys

/-- `table_keys_order.rs:483-494`: the order for additional keys that no group mentions. -/
def fallbackOrder (groups : List (GroupKind × KeysOrder)) : Option KeysOrder :=
  if groups.any fun g => g.1 == .additionalKeys then none
  else match groups.head? with
    | some (_, .schema) => none
    | some (_, order) => some order
    | none => none

/-- `table_keys_order.rs:474-482`, `:529-535`: is a key of this kind moved? -/
def isSpecified (groups : List (GroupKind × KeysOrder)) (kind : GroupKind) : Bool :=
  groups.any (fun g => g.1 == kind) || (kind == .additionalKeys && (fallbackOrder groups).isSome)

/-- `table_keys_order.rs:554-575`: the keys of each group, in the order of the groups. A kind that is named twice has no
keys left the second time. -/
def sortGroups {α : Type} (properties : List Accessor) (kindOf : Accessor → GroupKind) :
    List (GroupKind × KeysOrder) → List (Accessor × α) → List (Accessor × α)
  | [], _ => []
  | (kind, order) :: rest, targets =>
    sortTargets (targets.filter fun t => kindOf t.1 == kind) order (some properties) ++
      sortGroups properties kindOf rest (targets.filter fun t => kindOf t.1 != kind)

/-- `table_keys_order.rs:554-589`: all the keys that are moved, in their new order. -/
def sortSpecified {S α : Type} (table : TableView S) (groups : List (GroupKind × KeysOrder))
    (targets : List (Accessor × α)) : List (Accessor × α) :=
  let sorted := sortGroups table.properties (keyKind table) groups targets
  match fallbackOrder groups with
  | none => sorted
  | some order =>
    let additional := sortTargets (targets.filter fun t => keyKind table t.1 == .additionalKeys) order (some table.properties)
    match order with
    | .descending => sorted ++ additional
    | _ => additional ++ sorted

/-- `table_keys_order.rs:591-608`: the slots are filled, those of moved keys from `specified`, the others from
`unspecified`. -/
def fillSlots {α : Type} : List Bool → List α → List α → List α
  | [], specified, unspecified => specified ++ unspecified
  | true :: slots, s :: specified, unspecified => s :: fillSlots slots specified unspecified
  | true :: slots, [], unspecified => fillSlots slots [] unspecified
  | false :: slots, specified, u :: unspecified => u :: fillSlots slots specified unspecified
  | false :: slots, specified, [] => fillSlots slots specified []

/-- `table_keys_order.rs:459-616` (`sort_table_targets`). -/
def sortTableTargets {S α : Type} (targets : List (Accessor × α)) (table : Option (TableView S)) (order : XKeysOrder) :
    List (Accessor × α) :=
  match order, table with
  | .all order, table => sortTargets targets order (table.map (·.properties))
  | .groups groups, some table =>
    let specified := fun (t : Accessor × α) => isSpecified groups (keyKind table t.1)
    fillSlots (targets.map specified) (sortSpecified table groups (targets.filter specified))
      (targets.filter fun t => !specified t)
  | .groups _, none => targets

/-- An item with its accessors. -/
abbrev Target (T : Type) := List Accessor × T

/-- `IndexMap::entry(a).or_insert_with(Vec::new).push(t)`. -/
def pushGroup {α : Type} (a : Accessor) (t : α) : List (Accessor × List α) → List (Accessor × List α)
  | [] => [(a, [t])]
  | (b, ts) :: rest => if b = a then (b, ts ++ [t]) :: rest else (b, ts) :: pushGroup a t rest

/-- `table_keys_order.rs:184-195`: the items that have accessors, grouped by their first accessor. -/
def groupTargets {T : Type} (groups : List (Accessor × List (Target T))) :
    List (Target T) → List (Accessor × List (Target T))
  | [] => groups
  | ([], _) :: rest => groupTargets groups rest
  | (a :: as, t) :: rest => groupTargets (pushGroup a (as, t) groups) rest

/-- `table_keys_order.rs:192-194`: the items that have no accessors. -/
def emptyTargets {T : Type} (targets : List (Target T)) : List T :=
  targets.filterMap fun t => if t.1.isEmpty then some t.2 else none

/-- The results of all calls, appended, or none if one of them gave none (the `?` after each call). -/
def collect {α : Type} : List (Option (List α)) → Option (List α)
  | [] => some []
  | none :: _ => none
  | some xs :: rest => (collect rest).map (xs ++ ·)

/-- `table_keys_order.rs:203-238`: the groups of a table in their new order. -/
def orderedGroups {S σ T : Type} (w : SchemaWorld S σ) (accessors : List Accessor) (schema : Option S)
    (table : Option (TableView S)) (order : Option KeysOrder) (groups : List (Accessor × List (Target T))) :
    List (Accessor × List (Target T)) :=
  let directive := w.directiveOverride accessors
  let override := w.schemaOverride schema accessors
  let disabled := (directive.map (·.disabled)).getD false || (override.map (·.disabled)).getD false
  let overrideOrder := ((directive.bind (·.order)).or order).or (override.bind (·.order))
  let overrideEnabled := (override.map (!·.disabled)).getD false
  match tableKeysOrder overrideOrder table (overrideEnabled || w.enabled schema) with
  | none => groups
  | some tableOrder => if disabled then groups else sortTableTargets groups table tableOrder

/-- `table_keys_order.rs:240-323`: value and schema for the recursive call on a group. The last alternative passes on the
value of the table itself. -/
def groupContext {S σ : Type} (value : DValue σ) (entries : DEntries σ) (table : Option (TableView S)) (a : Accessor) :
    DValue σ × Option S :=
  match dget entries a.display, table with
  | some v, some table => match table.property a, table.additional with
    | some s, _ => (v, some s)
    | none, some s => (v, some s)
    | none, none => (value, none)
  | _, _ => (value, none)

/-- `table_keys_order.rs:101-399` (`get_sorted_accessors`). `fuel` bounds the depth of the recursion; `none` when it is
used up (a cycle of combined schemas), as well as when the code gives none. -/
def getSorted {S σ T : Type} (w : SchemaWorld S σ) : Nat → DValue σ → List Accessor → List (Target T) → Option S →
    Option KeysOrder → Option (List T)
  | 0, _, _, _, _, _ => none
  | fuel + 1, value, accessors, targets, schema, order =>
    match schema.map (w.view · accessors) with
    | some (.combined schemas keysOrder) =>
      -- `:114-181`
      match (schemas.getD []).find? (w.valid value accessors) with
      | none => none
      | some s =>
        getSorted w fuel value accessors targets (some s)
          (if order.isSome then order else if w.enabled (some s) then keysOrder else none)
    | view =>
      let results := emptyTargets targets
      let groups := groupTargets [] targets
      match value with
      | .table kind entries =>
        if groups.all (·.1.isKey) then
          let table := view.bind SchemaView.asTable
          (collect ((orderedGroups w accessors schema table order groups).map fun g =>
            let c := groupContext (.table kind entries) entries table g.1
            getSorted w fuel c.1 (accessors ++ [g.1]) g.2 c.2 order)).map (results ++ ·)
        else some (results ++ groups.flatMap fun g => g.2.map (·.2))
      | .array _ values =>
        if groups.all (·.1.isIndex) then
          let items := view.bind SchemaView.asItems
          -- `:332-387`: the groups are paired with the elements, whatever their index
          (collect ((values.zip groups).zipIdx.map fun p =>
            getSorted w fuel p.1.1 (accessors ++ [.index p.2]) p.1.2.2 items order)).map (results ++ ·)
        else some (results ++ groups.flatMap fun g => g.2.map (·.2))
      | _ => some (results ++ groups.flatMap fun g => g.2.map (·.2))

/-! ### Sections -/

/-- `tombi-document-tree/src/value/table.rs:1047-1055`: the tables of the sections; `prev` are the earlier sections, the
nearest first. -/
def sectionTrees {σ : Type} (prev : List (AstSection σ)) : List (AstSection σ) → List (DTable σ)
  | [] => []
  | s :: rest => (s.tree prev).1 :: sectionTrees (s :: prev) rest

/-- `table.rs:1039-1070`: the tree of sections; errors are not looked at. -/
def sectionsTree {σ : Type} (sections : List (AstSection σ)) : DTable σ :=
  match sectionTrees [] sections with
  | [] => ⟨.table, []⟩
  | t :: rest => rest.foldl (fun acc other => (acc.merge other).1) t

/-- `root_table_keys_order.rs:92-101`: the accessors of the sections. -/
def sectionAccessors {σ : Type} (prev : List (AstSection σ)) : List (AstSection σ) → List (List Accessor)
  | [] => []
  | s :: rest => (s.headerAccessors prev).getD [] :: sectionAccessors (s :: prev) rest

/-- `root_table_keys_order.rs:81-110`: the new order of the sections, each given by its old position. -/
def sortSections {S σ : Type} (w : SchemaWorld S σ) (fuel : Nat) (sections : List (AstSection σ)) (schema : Option S)
    (order : Option KeysOrder) : Option (List Nat) :=
  getSorted w fuel (sectionsTree sections).value [] (sectionAccessors [] sections).zipIdx schema order

end Tombi
