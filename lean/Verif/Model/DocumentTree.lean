/-!
Model of `crates/tombi-document-tree`: how the items of a document are merged into one tree, and which conflicts are
reported.

Simplifications: ranges and comment directives are left out (they influence neither the shape of the tree nor which
errors are reported); keys are already decoded (C13 to C18 treat the decoding; a key that cannot be decoded is reported,
so no document with one is accepted); the values of literals are an arbitrary type `σ`.
-/
namespace Tombi

/-- A decoded key (`key.rs:14-19`; keys are equal when their texts are, `:53-57`). -/
abbrev DKey := List Char

/-- `value/table.rs:11-55` (`TableKind`), without `has_comment`. -/
inductive TableKind where
  | root | table | parentTable | inlineTable | parentKey | keyValue
  deriving DecidableEq, Repr

/-- `value/array.rs:7-38` (`ArrayKind`). -/
inductive ArrayKind where
  | arrayOfTable | parentArrayOfTable | array
  deriving DecidableEq, Repr

/-- `value.rs:27-39` (`Value`), `table.rs:58-66` (`Table`), `array.rs:41-49` (`Array`). The `IndexMap` of a table is a list
in insertion order. -/
inductive DValue (σ : Type) where
  | scalar (s : σ)
  | array (kind : ArrayKind) (values : List (DValue σ))
  | table (kind : TableKind) (entries : List (DKey × DValue σ))
  | incomplete
  deriving Repr

/-- `error.rs` (`Error`), the errors of this model; `literal` is any error of a literal, `panic` the `unreachable!` in
`array.rs:139`. -/
inductive DError where
  | conflictTable | conflictArray | duplicateKey (key : DKey) | incompleteNode | literal | panic
  deriving DecidableEq, Repr

/-- The key-values of a table. -/
abbrev DEntries (σ : Type) := List (DKey × DValue σ)

/-- `IndexMap::get`. -/
def dget {σ : Type} (e : DEntries σ) (k : DKey) : Option (DValue σ) :=
  match e with
  | [] => none
  | (k', v) :: rest => if k' = k then some v else dget rest k

/-- Writing through `entry.get_mut()` of an occupied entry. -/
def dset {σ : Type} (e : DEntries σ) (k : DKey) (v : DValue σ) : DEntries σ :=
  match e with
  | [] => []
  | (k', v') :: rest => if k' = k then (k', v) :: rest else (k', v') :: dset rest k v

/-- `matches!(table.kind(), TableKind::InlineTable { .. })` on a table value. -/
def DValue.isInlineTable {σ : Type} : DValue σ → Bool
  | .table .inlineTable _ => true
  | _ => false

/-- `table.rs:253-261`: the condition on two values of the same key. -/
def inlineClash {σ : Type} : DValue σ → DValue σ → Bool
  | .table k1 _, _ => k1 == .inlineTable
  | _, v2 => v2.isInlineTable

/-- `table.rs:249-281`: is there a conflict? -/
def tableConflict {σ : Type} (k1 : TableKind) (e1 : DEntries σ) (k2 : TableKind) (e2 : DEntries σ) : Bool :=
  match k1, k2 with
  | .keyValue, .keyValue => e1.any fun kv => match dget e2 kv.1 with
    | some v2 => inlineClash kv.2 v2
    | none => false
  | .table, .table | .table, .inlineTable | .inlineTable, .table | .inlineTable, .inlineTable | .keyValue, .table
  | .keyValue, .inlineTable => true
  | .inlineTable, .parentTable | .inlineTable, .parentKey | .inlineTable, .keyValue => true
  | .parentTable, .parentKey => true
  | .parentKey, .table | .parentKey, .inlineTable => true
  | _, _ => false

/-- `table.rs:249-281`: the kind of the table afterwards. -/
def kindAfter (k1 k2 : TableKind) : TableKind :=
  match k1, k2 with
  | .parentTable, .table | .parentKey, .table => .table
  | .parentTable, .inlineTable | .parentKey, .inlineTable => .inlineTable
  | _, _ => k1

mutual
/-- `table.rs:295-325`: the loop over the key-values of the other table. -/
def mergeEntries {σ : Type} (e1 : DEntries σ) : DEntries σ → DEntries σ × List DError
  | [] => (e1, [])
  | (k, v2) :: rest =>
    match dget e1 k with
    | some v1 =>
      let r := mergeValue k v1 v2
      let r' := mergeEntries (dset e1 k r.1) rest
      (r'.1, r.2 ++ r'.2)
    | none => mergeEntries (e1 ++ [(k, v2)]) rest

/-- `table.rs:299-319` and `:340-359`: both tables have the key. Contains `Table::merge` (`table.rs:243-332`), for two
tables. -/
def mergeValue {σ : Type} (key : DKey) (v1 : DValue σ) : DValue σ → DValue σ × List DError
  | .table k2 e2 =>
    match v1 with
    | .table k1 e1 =>
      if tableConflict k1 e1 k2 e2 then (.table (kindAfter k1 k2) e1, [.conflictTable])
      else
        let r := mergeEntries e1 e2
        (.table (kindAfter k1 k2) r.1, r.2)
    | v1 => (v1, [.duplicateKey key])
  | .array a2 vs2 =>
    match v1 with
    | .array a1 vs1 =>
      -- `table.rs:463-465` (`can_merge_arrays`)
      if a1 ≠ .array ∧ a2 ≠ .array then
        if a2 = .parentArrayOfTable then
          let r := mergeLast vs1 vs2
          (.array a1 r.1, r.2)
        else (.array a1 (vs1 ++ vs2), [])
      else (v1, [.duplicateKey key])
    | v1 => (v1, [.duplicateKey key])
  | .scalar _ => (v1, [.duplicateKey key])
  | .incomplete => (v1, [.duplicateKey key])

/-- `array.rs:137-148`: the last element of the second array is merged into the last element of the first one. -/
def mergeLast {σ : Type} (vs1 : List (DValue σ)) : List (DValue σ) → List (DValue σ) × List DError
  | [] => (vs1, [.panic])
  | [v2] =>
    match v2, vs1.getLast? with
    | .table k2 e2, some (.table k1 e1) =>
      let r := mergeValue [] (.table k1 e1) (.table k2 e2)
      (vs1.dropLast ++ [r.1], r.2)
    | .table k2 e2, _ => (vs1 ++ [.table k2 e2], [])
    | _, _ => (vs1, [.panic])
  | _ :: v :: rest => mergeLast vs1 (v :: rest)
end

/-- `table.rs:334-371` (`insert`). -/
def insertEntry {σ : Type} (e : DEntries σ) (k : DKey) (v : DValue σ) : Except (List DError) (DEntries σ) :=
  match dget e k with
  | some v1 =>
    let r := mergeValue k v1 v
    if r.2.isEmpty then .ok (dset e k r.1) else .error r.2
  | none => .ok (e ++ [(k, v)])

/-- `table.rs:58-66` (`Table`): a table that is not yet a value. -/
structure DTable (σ : Type) where
  kind : TableKind
  entries : DEntries σ
  deriving Repr

/-- `Value::Table`. -/
def DTable.value {σ : Type} (t : DTable σ) : DValue σ := .table t.kind t.entries

/-- `table.rs:243-332` (`merge`). -/
def DTable.merge {σ : Type} (t other : DTable σ) : DTable σ × List DError :=
  if tableConflict t.kind t.entries other.kind other.entries then
    (⟨kindAfter t.kind other.kind, t.entries⟩, [.conflictTable])
  else
    let r := mergeEntries t.entries other.entries
    (⟨kindAfter t.kind other.kind, r.1⟩, r.2)

mutual
/-- A value in the syntax tree (`tombi_ast::Value`); `bad` is a literal whose conversion fails. -/
inductive AstValue (σ : Type) where
  | scalar (s : σ)
  | bad
  | array (items : List (AstItem σ))
  | inlineTable (kvs : List (AstKeyValue σ))
/-- An element of an array in the syntax tree (`tombi_ast::ValueOrKeyValue`). -/
inductive AstItem (σ : Type) where
  | value (v : AstValue σ)
  | keyValue (kv : AstKeyValue σ)
/-- A key-value in the syntax tree (`tombi_ast::KeyValue`); keys and value are missing in unfinished input. -/
inductive AstKeyValue (σ : Type) where
  | mk (keys : Option (List DKey)) (value : Option (AstValue σ))
end

/-- `table.rs:855-900`: the table of a key-value, from its keys and its value. `none` for the keys is `:803-811`. -/
def keyValueTable {σ : Type} (keys : List DKey) (value : DValue σ) : DTable σ × List DError :=
  match keys.reverse with
  | [] => (⟨.keyValue, []⟩, [])
  | last :: parents =>
    match insertEntry [] last value with
    | .error errs => (⟨.keyValue, []⟩, errs)
    | .ok e =>
      -- `:880-895`
      parents.foldl (fun (acc : DTable σ × List DError) key =>
        match insertEntry [] key acc.1.value with
        | .ok e => (⟨.parentKey, e⟩, acc.2)
        | .error errs => (acc.1, acc.2 ++ errs)) (⟨.keyValue, e⟩, [])

mutual
/-- `value.rs:227-291`, `array.rs:272-433`, `table.rs:904-1036`: the value of a literal, an array, an inline table. -/
def AstValue.tree {σ : Type} : AstValue σ → DValue σ × List DError
  | .scalar s => (.scalar s, [])
  | .bad => (.incomplete, [.literal])
  | .array items =>
    let r := arrayTrees items
    (.array .array r.1, r.2)
  | .inlineTable kvs =>
    let r := mergeKeyValues ⟨.table, []⟩ kvs
    (.table .inlineTable r.1.entries, r.2)
/-- `array.rs:353-426`. -/
def arrayTrees {σ : Type} : List (AstItem σ) → List (DValue σ) × List DError
  | [] => ([], [])
  | item :: rest =>
    let r := item.tree
    let r' := arrayTrees rest
    (r.1 :: r'.1, r.2 ++ r'.2)
/-- `array.rs:355-425`. -/
def AstItem.tree {σ : Type} : AstItem σ → DValue σ × List DError
  | .value v => v.tree
  | .keyValue kv =>
    let r := kv.tree
    (r.1.value, r.2)
/-- `table.rs:779-902`. -/
def AstKeyValue.tree {σ : Type} : AstKeyValue σ → DTable σ × List DError
  | .mk none _ => (⟨.keyValue, []⟩, [.incompleteNode])
  | .mk (some keys) none =>
    let r := keyValueTable keys .incomplete
    (r.1, .incompleteNode :: r.2)
  | .mk (some keys) (some value) =>
    let v := value.tree
    let r := keyValueTable keys v.1
    (r.1, v.2 ++ r.2)
/-- `table.rs:973-1021`, `:574-583`, `:703-712`, `root.rs:70-79`: key-values are converted and merged into a table. -/
def mergeKeyValues {σ : Type} (t : DTable σ) : List (AstKeyValue σ) → DTable σ × List DError
  | [] => (t, [])
  | kv :: rest =>
    let r := kv.tree
    let m := t.merge r.1
    let r' := mergeKeyValues m.1 rest
    (r'.1, r.2 ++ m.2 ++ r'.2)
end

/-- A section of the syntax tree: `tombi_ast::Table` or `tombi_ast::ArrayOfTable`. -/
structure AstSection (σ : Type) where
  isArray : Bool
  header : Option (List DKey)
  kvs : List (AstKeyValue σ)

/-- `tombi_ast::Root`. -/
structure AstRoot (σ : Type) where
  kvs : List (AstKeyValue σ)
  sections : List (AstSection σ)

/-- `tombi-ast/src/impls/table.rs:151-177` and `array_of_table.rs:151-176`: the headers of earlier arrays of tables that
begin the header `header`; `prev` are the earlier sections, the nearest first. With `table.rs:1081-1103`. -/
def parentArrayKeys {σ : Type} (prev : List (AstSection σ)) (header : List DKey) : List (List DKey) :=
  let arrays := prev.filterMap fun s => if s.isArray then s.header else none
  let near := arrays.takeWhile fun keys => match header.head?, keys.head? with
    | some a, some b => a == b
    | _, _ => false
  near.filter fun keys => keys.isPrefixOf header

/-- `table.rs:1105-1117` (`insert_table`). -/
def insertTable {σ : Type} (t : DTable σ) (key : DKey) : DTable σ × List DError :=
  match insertEntry [] key t.value with
  | .ok e => (⟨.parentTable, e⟩, [])
  | .error errs => (⟨.parentTable, []⟩, errs)

/-- `table.rs:1119-1135` (`insert_array_of_tables`). -/
def insertArrayOfTables {σ : Type} (t : DTable σ) (key : DKey) (kind : ArrayKind) : DTable σ × List DError :=
  match insertEntry [] key (.array kind [t.value]) with
  | .ok e => (⟨.parentTable, e⟩, [])
  | .error errs => (⟨.parentTable, []⟩, errs)

/-- `table.rs:606-619`, `:742-754`: the loop over the keys of the header, the last first. -/
def nestHeader {σ : Type} (arrays : List (List DKey)) : List DKey → Bool → DTable σ → DTable σ × List DError
  | [], _, t => (t, [])
  | key :: rest, isArray, t =>
    let r := if isArray then insertArrayOfTables t key .parentArrayOfTable else insertTable t key
    let r' := nestHeader arrays rest (arrays.contains rest.reverse) r.1
    (r'.1, r.2 ++ r'.2)

/-- `table.rs:500-626`, `:628-761`: the table of a section; `prev` are the earlier sections, the nearest first. -/
def AstSection.tree {σ : Type} (prev : List (AstSection σ)) (s : AstSection σ) : DTable σ × List DError :=
  match s.header with
  | none => (⟨.table, []⟩, [.incompleteNode])
  | some header =>
    let body := mergeKeyValues ⟨.table, []⟩ s.kvs
    let arrays := parentArrayKeys prev header
    if s.isArray then
      match header.reverse with
      | [] => body
      | key :: rest =>
        -- `:734-739`
        let r := insertArrayOfTables body.1 key .arrayOfTable
        let r' := nestHeader arrays rest (arrays.contains rest.reverse) r.1
        (r'.1, body.2 ++ r.2 ++ r'.2)
    else
      let r := nestHeader arrays header.reverse false body.1
      (r.1, body.2 ++ r.2)

/-- `root.rs:95-113`: the loop over the sections; `prev` are the earlier sections, the nearest first. -/
def mergeSections {σ : Type} (prev : List (AstSection σ)) (t : DTable σ) : List (AstSection σ) → DTable σ × List DError
  | [] => (t, [])
  | s :: rest =>
    let r := s.tree prev
    let m := t.merge r.1
    let r' := mergeSections (s :: prev) m.1 rest
    (r'.1, r.2 ++ m.2 ++ r'.2)

/-- `root.rs:36-117`: the document tree and the errors. -/
def AstRoot.tree {σ : Type} (root : AstRoot σ) : DTable σ × List DError :=
  let r := mergeKeyValues ⟨.root, []⟩ root.kvs
  let r' := mergeSections [] r.1 root.sections
  (r'.1, r.2 ++ r'.2)

end Tombi
