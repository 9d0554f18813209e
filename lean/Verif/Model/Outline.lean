import Verif.Model.DocumentTree
import Verif.Model.Text
/-!
The outline of a document in the editor: `crates/tombi-lsp/src/handler/document_symbol.rs`, and the ranges of the document tree
(`symbol_range` in `crates/tombi-document-tree/src/value/{table,array}.rs`) that it shows. The functions are those of
`Model/DocumentTree.lean`, here with ranges.
-/
namespace Tombi.Outline
open Tombi (Range Position DKey TableKind ArrayKind DValue DError DEntries)

/-- A decoded key with its range (`key.rs:14-19`). -/
structure RKey where
  text : DKey
  range : Range
  deriving DecidableEq, Repr

/-- `value.rs:27-39` (`Value`), `table.rs:58-66` (`Table`), `array.rs:41-49` (`Array`); the range is `symbol_range`. -/
inductive RValue (σ : Type) where
  | scalar (range : Range) (s : σ)
  | array (kind : ArrayKind) (range : Range) (values : List (RValue σ))
  | table (kind : TableKind) (range : Range) (entries : List (RKey × RValue σ))
  | incomplete (range : Range)

/-- `value.rs:60-74` (`symbol_range`). -/
def RValue.range {σ : Type} : RValue σ → Range
  | .scalar r _ => r
  | .array _ r _ => r
  | .table _ r _ => r
  | .incomplete r => r

abbrev REntries (σ : Type) := List (RKey × RValue σ)

mutual
/-- The value without ranges: that of `Model/DocumentTree.lean`. -/
def RValue.erase {σ : Type} : RValue σ → DValue σ
  | .scalar _ s => .scalar s
  | .array k _ vs => .array k (eraseAll vs)
  | .table k _ es => .table k (eraseEntries es)
  | .incomplete _ => .incomplete
/-- The values without ranges. -/
def eraseAll {σ : Type} : List (RValue σ) → List (DValue σ)
  | [] => []
  | v :: vs => v.erase :: eraseAll vs
/-- The key-values without ranges. -/
def eraseEntries {σ : Type} : List (RKey × RValue σ) → List (DKey × DValue σ)
  | [] => []
  | (k, v) :: es => (k.text, v.erase) :: eraseEntries es
end

/-- `IndexMap::get`. -/
def rget {σ : Type} (e : REntries σ) (k : DKey) : Option (RValue σ) :=
  match e with
  | [] => none
  | (k', v) :: rest => if k'.text = k then some v else rget rest k

/-- Writing through `entry.get_mut()` of an occupied entry; the key in the map stays. -/
def rset {σ : Type} (e : REntries σ) (k : DKey) (v : RValue σ) : REntries σ :=
  match e with
  | [] => []
  | (k', v') :: rest => if k'.text = k then (k', v) :: rest else (k', v') :: rset rest k v

/-- `array.rs:119-125` (`push`, `extend`): the range of an array to which values are added. -/
def pushRanges {σ : Type} (r : Range) (vs : List (RValue σ)) : Range := vs.foldl (fun r v => r.add v.range) r

mutual
/-- `table.rs:295-325`: the loop over the key-values of the other table. -/
def rmergeEntries {σ : Type} (e1 : REntries σ) : REntries σ → REntries σ × List DError
  | [] => (e1, [])
  | (k, v2) :: rest =>
    match rget e1 k.text with
    | some v1 =>
      let r := rmergeValue k.text v1 v2
      let r' := rmergeEntries (rset e1 k.text r.1) rest
      (r'.1, r.2 ++ r'.2)
    | none => rmergeEntries (e1 ++ [(k, v2)]) rest

/-- `table.rs:299-319` and `:340-359`: both tables have the key. Contains `Table::merge` (`table.rs:243-332`), for two tables: the range
grows in `:292`; and `Array::merge` (`array.rs:131-165`). -/
def rmergeValue {σ : Type} (key : DKey) (v1 : RValue σ) : RValue σ → RValue σ × List DError
  | .table k2 r2 e2 =>
    match v1 with
    | .table k1 r1 e1 =>
      if tableConflict k1 (eraseEntries e1) k2 (eraseEntries e2) then (.table (kindAfter k1 k2) r1 e1, [.conflictTable])
      else
        let r := rmergeEntries e1 e2
        (.table (kindAfter k1 k2) (r1.add r2) r.1, r.2)
    | v1 => (v1, [.duplicateKey key])
  | .array a2 _ vs2 =>
    match v1 with
    | .array a1 r1 vs1 =>
      if a1 ≠ .array ∧ a2 ≠ .array then
        if a2 = .parentArrayOfTable then
          let r := rmergeLast r1 vs1 vs2
          (.array a1 r.1.1 r.1.2, r.2)
        else (.array a1 (pushRanges r1 vs2) (vs1 ++ vs2), [])
      else (v1, [.duplicateKey key])
    | v1 => (v1, [.duplicateKey key])
  | .scalar _ _ => (v1, [.duplicateKey key])
  | .incomplete _ => (v1, [.duplicateKey key])

/-- `array.rs:137-148`: the last element of the second array is merged into the last element of the first one, whose range does not
grow; only `push` lets it grow. -/
def rmergeLast {σ : Type} (r1 : Range) (vs1 : List (RValue σ)) : List (RValue σ) → (Range × List (RValue σ)) × List DError
  | [] => ((r1, vs1), [.panic])
  | [v2] =>
    match v2, vs1.getLast? with
    | .table k2 r2 e2, some (.table k1 r e1) =>
      let m := rmergeValue [] (.table k1 r e1) (.table k2 r2 e2)
      ((r1, vs1.dropLast ++ [m.1]), m.2)
    | .table k2 r2 e2, _ => ((r1.add r2, vs1 ++ [.table k2 r2 e2]), [])
    | _, _ => ((r1, vs1), [.panic])
  | _ :: v :: rest => rmergeLast r1 vs1 (v :: rest)
end

/-- `table.rs:334-371` (`insert`). -/
def rinsertEntry {σ : Type} (e : REntries σ) (k : RKey) (v : RValue σ) : Except (List DError) (REntries σ) :=
  match rget e k.text with
  | some v1 =>
    let r := rmergeValue k.text v1 v
    if r.2.isEmpty then .ok (rset e k.text r.1) else .error r.2
  | none => .ok (e ++ [(k, v)])

/-- `table.rs:58-66` (`Table`): a table that is not yet a value. -/
structure RTable (σ : Type) where
  kind : TableKind
  range : Range
  entries : REntries σ

/-- `Value::Table`. -/
def RTable.value {σ : Type} (t : RTable σ) : RValue σ := .table t.kind t.range t.entries

/-- The table without ranges. -/
def RTable.erase {σ : Type} (t : RTable σ) : DTable σ := ⟨t.kind, eraseEntries t.entries⟩

/-- `table.rs:243-332` (`merge`). -/
def RTable.merge {σ : Type} (t other : RTable σ) : RTable σ × List DError :=
  if tableConflict t.kind (eraseEntries t.entries) other.kind (eraseEntries other.entries) then
    (⟨kindAfter t.kind other.kind, t.range, t.entries⟩, [.conflictTable])
  else
    let r := rmergeEntries t.entries other.entries
    (⟨kindAfter t.kind other.kind, t.range.add other.range, r.1⟩, r.2)

mutual
/-- A value in the syntax tree (`tombi_ast::Value`) with the range that becomes its `symbol_range`: the literal, from bracket to bracket
(`array.rs:57-63`), from brace to brace (`table.rs:132-137`). -/
inductive RAstValue (σ : Type) where
  | scalar (range : Range) (s : σ)
  | bad (range : Range)
  | array (range : Range) (items : List (RAstItem σ))
  | inlineTable (range : Range) (kvs : List (RAstKeyValue σ))
/-- An element of an array in the syntax tree (`tombi_ast::ValueOrKeyValue`). -/
inductive RAstItem (σ : Type) where
  | value (v : RAstValue σ)
  | keyValue (kv : RAstKeyValue σ)
/-- A key-value in the syntax tree (`tombi_ast::KeyValue`) with its range. -/
inductive RAstKeyValue (σ : Type) where
  | mk (range : Range) (keys : Option (List RKey)) (value : Option (RAstValue σ))
end

/-- `table.rs:855-900`: the table of a key-value, from its keys and its value; `range` is that of the key-value (`:153-155`). -/
def rkeyValueTable {σ : Type} (range : Range) (keys : List RKey) (value : RValue σ) : RTable σ × List DError :=
  match keys.reverse with
  | [] => (⟨.keyValue, range, []⟩, [])
  | last :: parents =>
    match rinsertEntry [] last value with
    | .error errs => (⟨.keyValue, range, []⟩, errs)
    | .ok e =>
      -- `:857`, `:179`
      parents.foldl (fun (acc : RTable σ × List DError) key =>
        match rinsertEntry [] key acc.1.value with
        | .ok e => (⟨.parentKey, Range.new key.range.start acc.1.range.stop, e⟩, acc.2)
        | .error errs => (acc.1, acc.2 ++ errs)) (⟨.keyValue, last.range.add value.range, e⟩, [])

mutual
/-- `value.rs:227-291`, `array.rs:272-433`, `table.rs:904-1036`. -/
def RAstValue.tree {σ : Type} : RAstValue σ → RValue σ × List DError
  | .scalar r s => (.scalar r s, [])
  | .bad r => (.incomplete r, [.literal])
  | .array r items =>
    let t := rarrayTrees items
    (.array .array (pushRanges r t.1) t.1, t.2)
  | .inlineTable r kvs =>
    let t := rmergeKeyValues ⟨.table, r, []⟩ kvs
    (.table .inlineTable t.1.range t.1.entries, t.2)
/-- `array.rs:353-426`. -/
def rarrayTrees {σ : Type} : List (RAstItem σ) → List (RValue σ) × List DError
  | [] => ([], [])
  | item :: rest =>
    let r := item.tree
    let r' := rarrayTrees rest
    (r.1 :: r'.1, r.2 ++ r'.2)
/-- `array.rs:355-425`. -/
def RAstItem.tree {σ : Type} : RAstItem σ → RValue σ × List DError
  | .value v => v.tree
  | .keyValue kv =>
    let r := kv.tree
    (r.1.value, r.2)
/-- `table.rs:779-902`. -/
def RAstKeyValue.tree {σ : Type} : RAstKeyValue σ → RTable σ × List DError
  | .mk range none _ => (⟨.keyValue, range, []⟩, [.incompleteNode])
  | .mk range (some keys) none =>
    let r := rkeyValueTable range keys (.incomplete ⟨range.stop, range.stop⟩)
    (r.1, .incompleteNode :: r.2)
  | .mk range (some keys) (some value) =>
    let v := value.tree
    let r := rkeyValueTable range keys v.1
    (r.1, v.2 ++ r.2)
/-- `table.rs:973-1021`, `:574-583`, `:703-712`, `root.rs:70-79`. -/
def rmergeKeyValues {σ : Type} (t : RTable σ) : List (RAstKeyValue σ) → RTable σ × List DError
  | [] => (t, [])
  | kv :: rest =>
    let r := kv.tree
    let m := t.merge r.1
    let r' := rmergeKeyValues m.1 rest
    (r'.1, r.2 ++ m.2 ++ r'.2)
end

/-- A section of the syntax tree: `tombi_ast::Table` or `tombi_ast::ArrayOfTable`; the range is from the bracket of the header to the end
(`table.rs:98-103`, `:115-120`). -/
structure RAstSection (σ : Type) where
  isArray : Bool
  range : Range
  header : Option (List RKey)
  kvs : List (RAstKeyValue σ)

/-- `tombi_ast::Root`. -/
structure RAstRoot (σ : Type) where
  range : Range
  kvs : List (RAstKeyValue σ)
  sections : List (RAstSection σ)

/-- As `parentArrayKeys` of `Model/DocumentTree.lean`. -/
def rparentArrayKeys {σ : Type} (prev : List (RAstSection σ)) (header : List DKey) : List (List DKey) :=
  let arrays := prev.filterMap fun s => if s.isArray then s.header.map (·.map RKey.text) else none
  let near := arrays.takeWhile fun keys => match header.head?, keys.head? with
    | some a, some b => a == b
    | _, _ => false
  near.filter fun keys => keys.isPrefixOf header

/-- `table.rs:1105-1117` (`insert_table`), `:160-168` (`new_parent_table`). -/
def rinsertTable {σ : Type} (t : RTable σ) (key : RKey) : RTable σ × List DError :=
  match rinsertEntry [] key t.value with
  | .ok e => (⟨.parentTable, t.range, e⟩, [])
  | .error errs => (⟨.parentTable, t.range, []⟩, errs)

/-- `table.rs:1119-1135` (`insert_array_of_tables`), `array.rs:72-95`. -/
def rinsertArrayOfTables {σ : Type} (t : RTable σ) (key : RKey) (kind : ArrayKind) : RTable σ × List DError :=
  match rinsertEntry [] key (.array kind (pushRanges t.range [t.value]) [t.value]) with
  | .ok e => (⟨.parentTable, t.range, e⟩, [])
  | .error errs => (⟨.parentTable, t.range, []⟩, errs)

/-- `table.rs:606-619`, `:742-754`: the loop over the keys of the header, the last first. -/
def rnestHeader {σ : Type} (arrays : List (List DKey)) : List RKey → Bool → RTable σ → RTable σ × List DError
  | [], _, t => (t, [])
  | key :: rest, isArray, t =>
    let r := if isArray then rinsertArrayOfTables t key .parentArrayOfTable else rinsertTable t key
    let r' := rnestHeader arrays rest (arrays.contains (rest.reverse.map RKey.text)) r.1
    (r'.1, r.2 ++ r'.2)

/-- `table.rs:500-626`, `:628-761`: the table of a section; `prev` are the earlier sections, the nearest first. -/
def RAstSection.tree {σ : Type} (prev : List (RAstSection σ)) (s : RAstSection σ) : RTable σ × List DError :=
  match s.header with
  | none => (⟨.table, s.range, []⟩, [.incompleteNode])
  | some header =>
    let body := rmergeKeyValues ⟨.table, s.range, []⟩ s.kvs
    let arrays := rparentArrayKeys prev (header.map RKey.text)
    if s.isArray then
      match header.reverse with
      | [] => body
      | key :: rest =>
        let r := rinsertArrayOfTables body.1 key .arrayOfTable
        let r' := rnestHeader arrays rest (arrays.contains (rest.reverse.map RKey.text)) r.1
        (r'.1, body.2 ++ r.2 ++ r'.2)
    else
      let r := rnestHeader arrays header.reverse false body.1
      (r.1, body.2 ++ r.2)

/-- `root.rs:95-113`: the loop over the sections; `prev` are the earlier sections, the nearest first. -/
def rmergeSections {σ : Type} (prev : List (RAstSection σ)) (t : RTable σ) : List (RAstSection σ) → RTable σ × List DError
  | [] => (t, [])
  | s :: rest =>
    let r := s.tree prev
    let m := t.merge r.1
    let r' := rmergeSections (s :: prev) m.1 rest
    (r'.1, r.2 ++ m.2 ++ r'.2)

/-- `root.rs:36-117`: the document tree and the errors. -/
def RAstRoot.tree {σ : Type} (root : RAstRoot σ) : RTable σ × List DError :=
  let r := rmergeKeyValues ⟨.root, root.range, []⟩ root.kvs
  let r' := rmergeSections [] r.1 root.sections
  (r'.1, r.2 ++ r'.2)

/-! ### The symbols -/

/-- `lsp_types::SymbolKind`, those in use. -/
inductive SymbolKind where
  | boolean | number | string | array | object
  deriving DecidableEq, Repr

/-- `lsp_types::DocumentSymbol`: the fields that are set. `selection_range` is `range` (`document_symbol.rs:69`); no children and an empty
list of children are the same here. The range is that before `into_lsp` (C52). -/
inductive Symbol where
  | mk (name : List Char) (kind : SymbolKind) (range : Range) (children : List Symbol)

/-- `document_symbol.rs:57-67`: the range of a symbol. -/
def symbolRange {σ : Type} (parentKey : Option Range) (v : RValue σ) : Range :=
  match parentKey with
  | some r => r.add v.range
  | none => v.range

/-- `document_symbol.rs:55-59`. -/
def symbolName (name : List Char) : List Char := if name.isEmpty then ['"', '"'] else name

mutual
/-- `document_symbol.rs:46-169` (`symbols_for_value`). `kindOf` tells booleans, numbers and the others apart; `Key::to_string` is the decoded key (`key.rs:103-107`). -/
def symbolsFor {σ : Type} (kindOf : σ → SymbolKind) (name : List Char) (parentKey : Option Range) :
    RValue σ → List Symbol
  | .scalar r s => [.mk (symbolName name) (kindOf s) (symbolRange parentKey (.scalar r s)) []]
  | .array k r vs => [.mk (symbolName name) .array (symbolRange parentKey (.array k r vs)) (elementSymbols kindOf 0 vs)]
  | .table k r es => [.mk (symbolName name) .object (symbolRange parentKey (.table k r es)) (entrySymbols kindOf es)]
  | .incomplete _ => []
/-- `document_symbol.rs:121-130`: the elements of an array. -/
def elementSymbols {σ : Type} (kindOf : σ → SymbolKind) (index : Nat) : List (RValue σ) → List Symbol
  | [] => []
  | v :: vs =>
    symbolsFor kindOf ('[' :: (toString index).toList ++ [']']) (some v.range) v ++ elementSymbols kindOf (index + 1) vs
/-- `document_symbol.rs:145-154`: the key-values of a table. -/
def entrySymbols {σ : Type} (kindOf : σ → SymbolKind) : List (RKey × RValue σ) → List Symbol
  | [] => []
  | (k, v) :: es => symbolsFor kindOf k.text (some k.range) v ++ entrySymbols kindOf es
end

/-- `document_symbol.rs:34-45` (`create_symbols`): the key-values of the document, without the ranges of their keys. -/
def createSymbols {σ : Type} (kindOf : σ → SymbolKind) (tree : RTable σ) : List Symbol :=
  tree.entries.flatMap fun kv => symbolsFor kindOf kv.1.text none kv.2

end Tombi.Outline
