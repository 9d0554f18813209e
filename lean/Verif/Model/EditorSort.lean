import Verif.Model.Editor
import Verif.Model.ArrayOrder
/-!
Model of the whole editor of the syntax tree, `crates/tombi-ast-editor/src`, with sorting: which schema applies to which
part of the document (`edit.rs`), and how groups of key-values, inline tables, arrays and sections are put in a new order.
Without a schema, too, key-values and sections with the same first key are put together.

The JSON schemas, the validator, the settings and the comment directives are parameters (`EditWorld`). The syntax tree is
given as a `Doc`, which is what the printer reads from it: the changes that the code makes to a group of an array or of an
inline table are those of `ValueGroup.edit`; a group of key-values of a table (or the sections) is replaced by the same
nodes in another order. Nested changes do not interfere, since each of them is made to the children of another node.
-/
namespace Tombi.Editing
open SyntaxKind
open Tombi.Formatter (Node Body Section Doc Comma Env Text docOf formatDoc childrenOf)
open Tombi.Reading (Scalar keyOr keyValuesOf convert headComments)

/-! ### what is not modelled -/

/-- How an edit can go wrong: the `unreachable!` of `edit.rs:132-134`, or a recursion that does not end. -/
inductive EditFailure where
  | unreachable | endless
  deriving DecidableEq, Repr

/-- The result of an edit. -/
abbrev Run := Except EditFailure

/-- `ArrayOrderOverride`, and what a comment directive says on the order of an array. -/
structure ArrayOverride where
  disabled : Bool
  order : Option ValuesOrder

/-- `XTombiArrayValuesOrder`; `groups oneOf orders` are the orders of the groups. -/
inductive XValuesOrder where
  | all (order : ValuesOrder)
  | groups (oneOf : Bool) (orders : List ValuesOrder)

/-- What the editor asks the schema store, the validator, the settings and the comment directives. -/
structure EditWorld (S : Type) where
  /-- The part that `getSorted` uses; its `directiveOverride` is not used. -/
  schemas : SchemaWorld S Scalar
  /-- `schema_context.get_subschema(accessors, schema)`, if it is `Some(Ok(_))`. -/
  sub : List Accessor → Option S → Option S
  /-- `edit.rs:158-196`: the schema of the first pattern property that matches and can be resolved. -/
  patternProperty : S → List Accessor → List Char → Option S
  /-- `array_schema.values_order`. -/
  valuesOrder : S → List Accessor → Option XValuesOrder
  /-- `schema_context.array_order_override(schema, accessors)`. -/
  arrayOverride : Option S → List Accessor → Option ArrayOverride
  /-- `schema_array_values_order_enabled`. -/
  arrayEnabled : Option S → Bool
  /-- `array_values_order.rs:211-229`: none if the schema is not the one of the groups, else the resolved schemas. -/
  groupSchemas : Bool → Option S → List Accessor → Option (Option (List S))
  /-- `SortableValues::try_new`: the key a value is sorted by, none where the code has an error for it. -/
  sortKey : Option S → List Accessor → Node → DValue Scalar → Option SortKey
  /-- What the comment directives in comments say on the order of the keys of a table. -/
  tableDirective : List Text → Option OrderOverride
  /-- What the comment directives in comments say on the order of the values of an array. -/
  arrayDirective : List Text → Option ArrayOverride

variable {S : Type}

/-- For `get_sorted_accessors` with the overrides of `root_table_keys_order.rs` (`tombi-schema-store`, `OrderOverrides::find`:
the first one for exactly these accessors). -/
def EditWorld.sorting (w : EditWorld S) (overrides : List (List Accessor × OrderOverride)) : SchemaWorld S Scalar :=
  { w.schemas with directiveOverride := fun acc => (overrides.find? fun o => o.1 == acc).map (·.2) }

/-! ### which schema -/

/-- What a combined schema (`AllOf`, `AnyOf`, `OneOf`) leads to. -/
inductive Choice (S : Type) where
  | stop | follow (s : S) | here

/-- `edit.rs:59-98`, `edit/array.rs:152-181`: the first of the schemas that accepts the value. -/
def choose (w : EditWorld S) (t : DValue Scalar) (acc : List Accessor) (schema : Option S) : Choice S :=
  match schema.map (w.schemas.view · acc) with
  | some (.combined none _) => .stop
  | some (.combined (some ss) _) => match ss.find? (w.schemas.valid t acc) with
    | some s => .follow s
    | none => .here
  | _ => .here

/-- `edit.rs:127-251`: the schema one step down; `a` is the last accessor. -/
def childSchema (w : EditWorld S) (acc : List Accessor) (a : Accessor) (schema : Option S) : Run (Option S) :=
  match schema with
  | none => .ok none
  | some s => match w.schemas.view s acc, a with
    | .table _, .index _ => .error .unreachable
    | .table table, .key k => .ok (((table.property a).or (w.patternProperty s acc k)).or table.additional)
    | .array items, _ => .ok items
    | _, _ => .ok none

/-- `edit.rs:100-125`: one step down in the tree. -/
def stepDown : DValue Scalar → Accessor → Option (DValue Scalar)
  | .table _ es, .key k => dget es k
  | .array _ ts, .index i => ts[i]?
  | _, _ => none

/-- `edit.rs:29-264` (`edit_recursive`): the value, the accessors and the schema that `edit_fn` is called with. `fuel` bounds
the depth of the recursion. -/
def followSchema (w : EditWorld S) : Nat → DValue Scalar → List Accessor → List Accessor → Option S →
    Run (Option (DValue Scalar × List Accessor × Option S))
  | 0, _, _, _, _ => .error .endless
  | fuel + 1, t, keys, acc, schema =>
    match w.sub acc schema with
    | some s => followSchema w fuel t keys acc (some s)
    | none => match choose w t acc schema with
      | .stop => .ok none
      | .follow s => followSchema w fuel t keys acc (some s)
      | .here => match keys with
        | [] => .ok (some (t, acc, schema))
        | a :: as => match stepDown t a with
          | none => .ok none
          | some t' => match childSchema w acc a schema with
            | .error e => .error e
            | .ok schema' => followSchema w fuel t' as (acc ++ [a]) schema'

/-- `edit/array.rs:130-206` (`resolve_array_item_edit_context`). -/
def itemSchema (w : EditWorld S) : Nat → DValue Scalar → List Accessor → Option S → Run (Option S)
  | 0, _, _, _ => .error .endless
  | fuel + 1, t, acc, schema =>
    match w.sub acc schema with
    | some s => itemSchema w fuel t acc (some s)
    | none => match choose w t acc schema with
      | .follow s => itemSchema w fuel t acc (some s)
      | _ => .ok ((schema.map (w.schemas.view · acc)).bind SchemaView.asItems)

/-! ### groups -/

/-- An item of a group with its comma. -/
abbrev GroupItem := Node × Option Comma

/-- A dangling comment group or a group of items of a `Body`. -/
inductive Chunk where
  | dangling (blank : Nat) (comments : List Text)
  | group (first : Option Nat) (items : List GroupItem)

/-- An item before chunks: `first = none` says that an item belongs to the group before it. -/
def consItem (first : Option Nat) (x : GroupItem) : List Chunk → List Chunk
  | .group none items :: rest => .group first (x :: items) :: rest
  | chunks => .group first [x] :: chunks

/-- `dangling_comment_group_or` (`tombi-ast/src/support/comment.rs`): the groups of a body. -/
def chunksOf : Body → List Chunk
  | .nil => []
  | .dangling n cs rest => .dangling n cs :: chunksOf rest
  | .item first n c rest => consItem first (n, c) (chunksOf rest)

/-- Items in a body. -/
def itemsBefore : List GroupItem → Body → Body
  | [], rest => rest
  | x :: items, rest => .item none x.1 x.2 (itemsBefore items rest)

/-- The body with given groups. -/
def bodyOf : List Chunk → Body
  | [] => .nil
  | .dangling n cs :: rest => .dangling n cs (bodyOf rest)
  | .group _ [] :: rest => bodyOf rest
  | .group first (x :: items) :: rest => .item first x.1 x.2 (itemsBefore items (bodyOf rest))

/-- Is there a group of items? -/
def hasGroup (chunks : List Chunk) : Bool := chunks.any fun
  | .group _ _ => true
  | .dangling _ _ => false

/-- Every group is changed; `f` gets whether it is the last one, and the number of items before it. -/
def mapGroups (f : Bool → Nat → List GroupItem → List GroupItem) (start : Nat) : List Chunk → List Chunk
  | [] => []
  | .dangling n cs :: rest => .dangling n cs :: mapGroups f start rest
  | .group first items :: rest =>
    .group first (f (!hasGroup rest) start items) :: mapGroups f (start + items.length) rest

/-- The children of a group: `VALUE_WITH_COMMA_GROUP`, `KEY_VALUE_WITH_COMMA_GROUP`. -/
def groupChildren (i : Nat) : List GroupItem → List (GroupChild Text)
  | [] => []
  | x :: rest =>
    .value i :: ((x.2.map fun c => GroupChild.comma (some i) ⟨c.leading, c.trailing⟩).toList ++ groupChildren (i + 1) rest)

/-- A group with the trailing comments of its items. -/
def groupOf (items : List GroupItem) : ValueGroup Text :=
  ⟨groupChildren 0 items, fun i => (items[i]?).bind fun x => x.1.trailing⟩

/-- What the printer reads from a group after the changes. -/
def readGroup (items : List GroupItem) (g : ValueGroup Text) : List GroupItem :=
  (withComma none g.children).filterMap fun v => (items[v.1]?).map fun x =>
    (if (g.trailing v.1).isSome then x.1 else dropTrailing x.1, v.2.map fun c => ⟨c.2.leading, c.2.trailing⟩)

/-- `edit/array.rs:34-112`, `edit/inline_table.rs:24-81` for one group. -/
def editGroup (lastGroup hasComma : Bool)
    (sort : List (Nat × Option (CommaRef Text)) → Option (List (Nat × Option (CommaRef Text)))) (items : List GroupItem) :
    List GroupItem :=
  readGroup items ((groupOf items).edit lastGroup hasComma sort)

/-- The same, for a group of an array of which only the first `n` values are in the tree (`edit/array.rs:45-47`, `zip`). -/
def editValues (lastGroup hasComma : Bool) (n : Nat)
    (sort : List (Nat × Option (CommaRef Text)) → Option (List (Nat × Option (CommaRef Text)))) (items : List GroupItem) :
    List GroupItem :=
  editGroup (lastGroup && decide (items.length ≤ n)) hasComma sort (items.take n) ++ items.drop n

/-! ### orders -/

/-- The keys of a key-value (`tombi-ast/src/impls/key_value.rs:19-21`). -/
def itemAccessors (v : TomlVersion) (x : GroupItem) : List Accessor :=
  match x.1 with
  | .pair _ ks _ _ => ks.map fun k => .key (keyOr v k)
  | _ => []

/-- `inline_table_keys_order.rs:16-76`: the new order of a group of key-values of an inline table, by positions. -/
def inlineOrder (w : EditWorld S) (fuel : Nat) (v : TomlVersion) (t : DValue Scalar) (acc : List Accessor) (schema : Option S)
    (directive : Option OrderOverride) (items : List GroupItem) : Option (List Nat) :=
  if (directive.map (·.disabled)).getD false then none
  else getSorted (w.sorting []) fuel t acc (items.map (itemAccessors v)).zipIdx schema (directive.bind (·.order))

/-- `table_keys_order.rs:19-81`: the new order of a group of key-values of a table. -/
def tableOrder (w : EditWorld S) (fuel : Nat) (v : TomlVersion) (t : DValue Scalar) (acc : List Accessor) (schema : Option S)
    (directive : Option OrderOverride) (items : List GroupItem) : Option (List Nat) :=
  if ((w.schemas.schemaOverride schema acc).map (·.disabled)).getD false then none
  else inlineOrder w fuel v t acc schema directive items

/-- Items at given positions. -/
def pick {α : Type} (xs : List α) (order : Option (List Nat)) : List α :=
  match order with
  | none => xs
  | some rs => rs.filterMap (xs[·]?)

/-- `array_values_order.rs:34-117`, `:186-271`: the new order of a group of an array; `values` are the nodes and their values
in the tree, `item` is the schema of the items. -/
def arrayOrder (w : EditWorld S) (acc : List Accessor) (schema item : Option S) (directive : Option ArrayOverride)
    (values : List (Node × DValue Scalar)) (vs : List (Nat × Option (CommaRef Text))) :
    Option (List (Nat × Option (CommaRef Text))) :=
  let override := w.arrayOverride item acc
  let key := fun (s : Option S) (i : Nat) => (values[i]?).bind fun x => w.sortKey s acc x.1 x.2
  if vs.isEmpty || (directive.map (·.disabled)).getD false || (override.map (·.disabled)).getD false then none
  else
    let order : Option XValuesOrder := match (directive.bind (·.order)).or (override.bind (·.order)) with
      | some order => some (.all order)
      | none => if override.isSome || w.arrayEnabled item then schema.bind (w.valuesOrder · acc) else none
    match order with
    | none => none
    | some (.all order) => sortAll (key item) order vs
    | some (.groups oneOf orders) => match w.groupSchemas oneOf item acc with
      | none => none
      | some none => some vs
      | some (some ss) => some (sortByGroups ((orders.zip ss).map fun os =>
          (os.1, fun i => ((values[i]?).map fun x => w.schemas.valid x.2 [] os.2).getD false, key (some os.2))) vs)

/-! ### values -/

mutual
/-- `edit/value.rs:5-37` and `edit/key_value.rs:8-58`: a value, or a key-value, with the value `t` of the document tree; `cs`
are the comments of the key-value that it is the value of. -/
def sortNode (w : EditWorld S) (fuel : Nat) (v : TomlVersion) (cs : List Text) (acc : List Accessor) (schema : Option S)
    (t : DValue Scalar) : Node → Run Node
  | .lit l k x tr => .ok (.lit l k x tr)
  | .array l s b tr =>
    match arrayValues t with
    | none => .ok (.array l s b tr)
    | some ts => match itemSchema w fuel t acc schema with
      | .error e => .error e
      | .ok item => match sortItems w fuel v acc item 0 ts b with
        | .error e => .error e
        | .ok b' =>
          let directive := w.arrayDirective (cs ++ s.toList ++ headComments b)
          .ok (.array l s (bodyOf (mapGroups (fun last start items =>
            editValues last (b.lastComma false) (ts.length - start)
              (arrayOrder w acc schema item directive ((items.map (·.1)).zip (ts.drop start))) items) 0 (chunksOf b'))) tr)
  | .table l s b tr =>
    if t.isInlineTable then match sortEntries w fuel v acc schema t b with
      | .error e => .error e
      | .ok b' =>
        let directive := w.tableDirective (cs ++ s.toList ++ headComments b)
        .ok (.table l s (bodyOf (mapGroups (fun last _ items =>
          editGroup last (b.lastComma false)
            (fun vs => (inlineOrder w fuel v t acc schema directive items).map fun rs => pick vs (some rs)) items)
          0 (chunksOf b'))) tr)
    else .ok (.table l s b tr)
  | .pair l ks src n =>
    match followSchema w fuel t (ks.map fun k => .key (keyOr v k)) acc schema with
    | .error e => .error e
    | .ok none => .ok (.pair l ks src n)
    | .ok (some (t', acc', schema')) => match sortNode w fuel v (l ++ n.trailing.toList) acc' schema' t' n with
      | .error e => .error e
      | .ok n' => .ok (.pair l ks src n')
/-- `edit/array.rs:40-74`: what is in the items of an array; `i` is the index of the first one. -/
def sortItems (w : EditWorld S) (fuel : Nat) (v : TomlVersion) (acc : List Accessor) (item : Option S) (i : Nat)
    (ts : List (DValue Scalar)) : Body → Run Body
  | .nil => .ok .nil
  | .dangling n cs rest => match sortItems w fuel v acc item i ts rest with
    | .error e => .error e
    | .ok rest' => .ok (.dangling n cs rest')
  | .item f n c rest => match ts with
    | [] => .ok (.item f n c rest)
    | t :: ts => match sortNode w fuel v [] (acc ++ [.index i]) item t n with
      | .error e => .error e
      | .ok n' => match sortItems w fuel v acc item (i + 1) ts rest with
        | .error e => .error e
        | .ok rest' => .ok (.item f n' c rest')
/-- `edit/inline_table.rs:28-49`, `edit/table.rs:44-62`, `edit/root.rs:81-94`: what is in the key-values of a table. -/
def sortEntries (w : EditWorld S) (fuel : Nat) (v : TomlVersion) (acc : List Accessor) (schema : Option S) (t : DValue Scalar) :
    Body → Run Body
  | .nil => .ok .nil
  | .dangling n cs rest => match sortEntries w fuel v acc schema t rest with
    | .error e => .error e
    | .ok rest' => .ok (.dangling n cs rest')
  | .item f n c rest => match sortNode w fuel v [] acc schema t n with
    | .error e => .error e
    | .ok n' => match sortEntries w fuel v acc schema t rest with
      | .error e => .error e
      | .ok rest' => .ok (.item f n' c rest')
end

/-! ### tables -/

/-- `table_keys_order.rs:83-99`: each group of key-values of a table in its new order. -/
def orderTable (order : List GroupItem → Option (List Nat)) (b : Body) : Body :=
  bodyOf (mapGroups (fun _ _ items => pick items (order items)) 0 (chunksOf b))

/-- The comments of a section with directives (`tombi-ast/src/impls/table.rs:11-23`). -/
def sectionComments (s : Section) : List Text := s.leading ++ s.trailing.toList ++ headComments s.body

/-- `edit/table.rs:13-90` and `edit/array_of_table.rs`; `prev` are the earlier sections, the nearest first. -/
def sortSection (w : EditWorld S) (fuel : Nat) (v : TomlVersion) (schema : Option S) (root : DValue Scalar)
    (prev : List (AstSection Scalar)) (s : Section) : Run Section :=
  match (astSection v s).headerAccessors prev with
  | none => .ok s
  | some header => match followSchema w fuel root header [] schema with
    | .error e => .error e
    | .ok none => .ok s
    | .ok (some (t, acc, schema')) => match sortEntries w fuel v acc schema' t s.body with
      | .error e => .error e
      | .ok b => .ok { s with body := orderTable (tableOrder w fuel v t acc schema' (w.tableDirective (sectionComments s))) b }

/-- `edit/root.rs:96-112`: the sections, one after the other. -/
def sortEach (w : EditWorld S) (fuel : Nat) (v : TomlVersion) (schema : Option S) (root : DValue Scalar)
    (prev : List (AstSection Scalar)) : List Section → Run (List Section)
  | [] => .ok []
  | s :: ss => match sortSection w fuel v schema root prev s with
    | .error e => .error e
    | .ok s' => match sortEach w fuel v schema root (astSection v s :: prev) ss with
      | .error e => .error e
      | .ok ss' => .ok (s' :: ss')

/-- `tombi-document-tree/src/value/table.rs:1038-1070`: the tree of the key-values of a group; errors are not looked at. -/
def groupTree (v : TomlVersion) (items : List GroupItem) : DValue Scalar :=
  match (keyValuesOf v (itemsBefore items .nil)).map fun kv => kv.tree.1 with
  | [] => .table .table []
  | t :: rest => (rest.foldl (fun acc other => (acc.merge other).1) t).value

/-- `edit/root.rs:128-137`: the comment directives of the sections. -/
def sectionOverrides (w : EditWorld S) (v : TomlVersion) (prev : List (AstSection Scalar)) :
    List Section → List (List Accessor × OrderOverride)
  | [] => []
  | s :: ss =>
    (match (astSection v s).headerAccessors prev, w.tableDirective (sectionComments s) with
      | some header, some o => if o.disabled || o.order.isSome then [(header, o)] else []
      | _, _ => []) ++ sectionOverrides w v (astSection v s :: prev) ss

/-- `root_table_keys_order.rs:64-110`: the new order of the sections, by positions. -/
def sectionOrder (w : EditWorld S) (fuel : Nat) (v : TomlVersion) (schema : Option S) (directive : Option OrderOverride)
    (ss : List Section) : Option (List Nat) :=
  let override := w.schemas.schemaOverride schema []
  let order := (directive.bind (·.order)).or (override.bind (·.order))
  if order.isNone && !((override.map (!·.disabled)).getD false || w.schemas.enabled schema) then none
  else sortSections (w.sorting (sectionOverrides w v [] ss)) fuel (ss.map (astSection v)) schema order

/-- `root_table_keys_order.rs:112-119`: the sections are put one behind the other, where the first one was. -/
def placeSections (old : List Section) : List Section → List Section
  | [] => []
  | s :: rest => { s with blank := (old.head?.map (·.blank)).getD 0 } :: rest.map fun s => { s with blank := 0 }

/-- `root_table_keys_order.rs:13-121`; `before` are the sections before all changes. -/
def orderRoot (w : EditWorld S) (fuel : Nat) (v : TomlVersion) (schema : Option S) (directive : Option OrderOverride)
    (before : List Section) (d : Doc) : Doc :=
  if (directive.map (·.disabled)).getD false then d
  else
    ⟨orderTable (fun items => tableOrder w fuel v (groupTree v items) [] schema directive items) d.body,
     match sectionOrder w fuel v schema directive before with
     | none => d.sections
     | some rs => placeSections d.sections (pick d.sections (some rs))⟩

/-- `Editor::edit` (`editor.rs:33-97`) and `edit/root.rs:16-160`: a document whose tree has errors is left as it is. `schema`
is the schema of the document (`editor.rs:47-58`, `edit/root.rs:67-79`). -/
def sortTree (w : EditWorld S) (fuel : Nat) (v : TomlVersion) (schema : Option S) (root : Green) : Run Doc :=
  let d := docOf root
  let r := convert v d
  if r.2.isEmpty then match sortEntries w fuel v [] schema r.1.value d.body with
    | .error e => .error e
    | .ok b => match sortEach w fuel v schema r.1.value [] d.sections with
      | .error e => .error e
      | .ok ss => .ok (orderRoot w fuel v schema (w.tableDirective (headComments d.body)) d.sections
          (moveTop (topBreaks (childrenOf root)) ⟨b, ss⟩))
  else .ok d

/-- `Formatter::format` (`tombi-formatter/src/formatter.rs:52-171`): `none` when there are syntax errors. The version is the
one of the settings; the directive `format.disabled` is left out. -/
def formatSorted (w : EditWorld S) (fuel : Nat) (schema : Option S) (E : Env) (source : Text) : Run (Option Text) :=
  match parse E.G source with
  | .error _ => .ok none
  | .ok p =>
    if p.errors.isEmpty then match sortTree w fuel E.version schema p.tree with
      | .error e => .error e
      | .ok d => .ok (some (formatDoc E d))
    else .ok none

/-! ### without a schema -/

/-- There is no schema, and there are no comment directives that set an order. `schema_table_keys_order_enabled(None)` is
true (`schema_context.rs`, `BoolDefaultTrue`), and without a schema there are no overrides. -/
def noSchema : EditWorld Empty where
  schemas := ⟨nofun, nofun, fun _ => true, fun _ _ => none, fun _ => none⟩
  sub _ _ := none
  patternProperty := nofun
  valuesOrder := nofun
  arrayOverride _ _ := none
  arrayEnabled _ := true
  groupSchemas _ _ _ := none
  sortKey _ _ _ _ := none
  tableDirective _ := none
  arrayDirective _ := none

mutual
/-- The number of keys in a value or a key-value. -/
def nodeLength : Node → Nat
  | .lit _ _ _ _ => 0
  | .array _ _ b _ => bodyLength b
  | .table _ _ b _ => bodyLength b
  | .pair _ ks _ n => ks.length + nodeLength n
/-- The number of keys in the items of an array or a table. -/
def bodyLength : Body → Nat
  | .nil => 0
  | .dangling _ _ rest => bodyLength rest
  | .item _ n _ rest => nodeLength n + bodyLength rest
end

/-- No path of keys in a document is as long. -/
def docFuel (d : Doc) : Nat :=
  2 * (bodyLength d.body + (d.sections.map fun s => s.header.length + bodyLength s.body).sum) + 2

/-- The editor without a schema. -/
def regroupTree (v : TomlVersion) (root : Green) : Run Doc := sortTree noSchema (docFuel (docOf root)) v none root

/-- `Formatter::format` (`tombi-formatter/src/formatter.rs:52-171`) without a schema and without comment directives that
set an order: `none` when there are syntax errors. The version is the one of the settings; the directive
`format.disabled` is left out. -/
def formatToml (E : Env) (source : Text) : Option Text :=
  match parse E.G source with
  | .error _ => none
  | .ok p =>
    if p.errors.isEmpty then match regroupTree E.version p.tree with
      | .error _ => none
      | .ok d => some (formatDoc E d)
    else none

end Tombi.Editing
