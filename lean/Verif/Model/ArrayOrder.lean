import Verif.Model.KeysOrder

/-!
Model of `crates/tombi-ast-editor/src/rule/{array_values_order,array_comma_trailing_comment,inline_table_keys_order,
inline_table_comma_trailing_comment}.rs`, `edit/{array,inline_table}.rs` and the part of `editor.rs` that applies the
changes: how the formatter sorts the values of an array (the key-values of an inline table) and moves commas and comments.

The children of one group of values (`VALUE_WITH_COMMA_GROUP`, `KEY_VALUE_WITH_COMMA_GROUP`) are modelled: values, commas,
and the rest (blanks and line breaks). A value is given by its position in the group; the inside of a value is not looked
at, except for its trailing comment. `C` is the type of comments.
-/
namespace Tombi

/-- A `COMMA` node: `tombi-ast/src/generated/ast_node.rs` (`Comma`), with its comments. -/
structure CommaNode (C : Type) where
  leading : List C
  trailing : Option C
  deriving DecidableEq, Repr

/-- `comma.leading_comments().next().is_none() && comma.trailing_comment().is_none()`. -/
def CommaNode.bare {C : Type} (c : CommaNode C) : Bool := c.leading.isEmpty && c.trailing.isNone

/-- `node.rs:5-7` (`make_comma`). -/
def makeComma {C : Type} : CommaNode C := ⟨[], none⟩

/-- `node.rs:16-21` (`make_comma_with_trailing_comment`). -/
def makeCommaWithTrailingComment {C : Type} (t : C) : CommaNode C := ⟨[], some t⟩

/-- A child of a group. `comma (some i) c` is the comma node that followed the value `i` in the source, `comma none c` is
a new one. -/
inductive GroupChild (C : Type) where
  | value (i : Nat)
  | comma (old : Option Nat) (c : CommaNode C)
  | other
  deriving DecidableEq, Repr

/-- Is it the value `i`? -/
def GroupChild.isValue {C : Type} (i : Nat) : GroupChild C → Bool
  | .value j => j == i
  | _ => false

/-- A comma node with what identifies it. -/
abbrev CommaRef (C : Type) := Option Nat × CommaNode C

/-- `tombi-ast/src/support/iter.rs:17-46` (`WithCommaIter`); `pending` is the value that waits for a comma. -/
def withComma {C : Type} (pending : Option Nat) : List (GroupChild C) → List (Nat × Option (CommaRef C))
  | [] => match pending with
    | some i => [(i, none)]
    | none => []
  | .value j :: rest => match pending with
    | some i => (i, none) :: withComma (some j) rest
    | none => withComma (some j) rest
  | .comma old c :: rest => match pending with
    | some i => (i, some (old, c)) :: withComma none rest
    | none => withComma none rest
  | .other :: rest => withComma pending rest

/-- A group of values: its children, and the trailing comments of the values. -/
structure ValueGroup (C : Type) where
  children : List (GroupChild C)
  trailing : Nat → Option C

/-- `change.rs` (`Change`), the changes this code makes. `remove i` removes the trailing comment of the value `i`. -/
inductive GroupChange (C : Type) where
  | remove (i : Nat)
  | append (i : Nat) (new : GroupChild C)
  | replaceRange (first last : Nat) (new : List (GroupChild C))

/-- Inserting right after the value `i`. -/
def insertAfter {C : Type} (i : Nat) (new : GroupChild C) : List (GroupChild C) → List (GroupChild C)
  | [] => []
  | c :: rest => if c.isValue i then c :: new :: rest else c :: insertAfter i new rest

/-- `tombi-rg-tree/src/cursor.rs:1024-1032` (`attach_child`): the child leaves its old place. A new comma has none. -/
def detachChild {C : Type} (child : GroupChild C) (children : List (GroupChild C)) : List (GroupChild C) :=
  match child with
  | .value i => children.filter fun c => !c.isValue i
  | .comma (some i) _ => children.filter fun c => match c with
    | .comma (some j) _ => j != i
    | _ => true
  | _ => children

/-- `cursor.rs:1014-1016`: children are attached one after the other, from an index on. -/
def attachAll {C : Type} (index : Nat) : List (GroupChild C) → List (GroupChild C) → List (GroupChild C)
  | children, [] => children
  | children, child :: rest => attachAll (index + 1) ((detachChild child children).insertIdx index child) rest

/-- `editor.rs:64-93`, `cursor.rs:1007-1017` (`splice_children`). Removing a comment that is gone does nothing. -/
def ValueGroup.apply {C : Type} (g : ValueGroup C) : GroupChange C → ValueGroup C
  | .remove i => ⟨g.children, fun j => if j = i then none else g.trailing j⟩
  | .append i new => ⟨insertAfter i new g.children, g.trailing⟩
  | .replaceRange first last new =>
    let start := g.children.findIdx (·.isValue first)
    let stop := g.children.findIdx (·.isValue last)
    ⟨attachAll start (g.children.take start ++ g.children.drop (stop + 1)) new, g.trailing⟩

/-- `array_comma_trailing_comment.rs:9-54`, `inline_table_comma_trailing_comment.rs:9-54`. -/
def commaTrailingComment {C : Type} (i : Nat) (trailing : Option C) (comma : Option (CommaNode C)) (append : Bool) :
    List (GroupChange C) :=
  match comma, trailing with
  | some comma, some t =>
    if comma.bare then [.remove i, .append i (.comma none (makeCommaWithTrailingComment t))] else []
  | some _, none => []
  | none, some t => if append then [.remove i, .append i (.comma none (makeCommaWithTrailingComment t))] else []
  | none, none => if append then [.append i (.comma none makeComma)] else []

/-- `edit/array.rs:45-58`, `edit/inline_table.rs:33-39`: the first changes, for every value of the group. `lastGroup`: is
the last value of the array in this group? `hasComma`: is there a comma after the last value of the array? -/
def commaChanges {C : Type} (trailing : Nat → Option C) (lastGroup hasComma : Bool) :
    List (Nat × Option (CommaRef C)) → List (GroupChange C)
  | [] => []
  | (i, comma) :: rest =>
    commaTrailingComment i (trailing i) (comma.map (·.2)) (hasComma || !(lastGroup && rest.isEmpty)) ++
      commaChanges trailing lastGroup hasComma rest

/-- `array_values_order.rs:94-97`. -/
def isLastComma {C : Type} (values : List (Nat × Option (CommaRef C))) : Bool :=
  (values.getLast?.map (·.2.isSome)).getD false

/-- `array_values_order.rs:136-143`: the last comma is dropped, if there was none before and it has no comments. -/
def dropLastComma {C : Type} : List (Nat × Option (CommaRef C)) → List (Nat × Option (CommaRef C))
  | [] => []
  | [(i, some (old, c))] => [(i, if c.bare then none else some (old, c))]
  | [(i, none)] => [(i, none)]
  | v :: w :: rest => v :: dropLastComma (w :: rest)

/-- `array_values_order.rs:145-152`. -/
def sortedChanges {C : Type} (trailing : Nat → Option C) (lastComma : Bool) :
    List (Nat × Option (CommaRef C)) → List (GroupChange C)
  | [] => []
  | (i, comma) :: rest =>
    commaTrailingComment i (trailing i) (comma.map (·.2)) (lastComma || !rest.isEmpty) ++ sortedChanges trailing lastComma rest

/-- `array_values_order.rs:154-177`. The test for the last comma does nothing after `dropLastComma`. -/
def newChildren {C : Type} (values : List (Nat × Option (CommaRef C))) : List (GroupChild C) :=
  values.flatMap fun v => match v.2 with
    | some (old, c) => [.value v.1, .comma old c]
    | none => [.value v.1]

/-- `array_values_order.rs:94-182`, `inline_table_keys_order.rs:42-116`: the changes that put the values in the order
`sorted`. -/
def orderChanges {C : Type} (trailing : Nat → Option C) (values sorted : List (Nat × Option (CommaRef C))) :
    List (GroupChange C) :=
  match values.head?, values.getLast? with
  | some first, some last =>
    let lastComma := isLastComma values
    let sorted := if lastComma then sorted else dropLastComma sorted
    .replaceRange first.1 last.1 (newChildren sorted) :: sortedChanges trailing lastComma sorted
  | _, _ => []

/-- `edit/array.rs:34-112`, `edit/inline_table.rs:24-81`, for one group: all changes are computed first (`sort` gives the
new order, or none if the values are left in place), then applied. -/
def ValueGroup.edit {C : Type} (lastGroup hasComma : Bool)
    (sort : List (Nat × Option (CommaRef C)) → Option (List (Nat × Option (CommaRef C)))) (g : ValueGroup C) : ValueGroup C :=
  let values := withComma none g.children
  let changes := commaChanges g.trailing lastGroup hasComma values ++
    match sort values with
    | some sorted => orderChanges g.trailing values sorted
    | none => []
  changes.foldl ValueGroup.apply g

/-! ### The order of the values of an array -/

/-- `array_values_order.rs:343-362` (`SortableType`, `SortableValues`): the key a value is sorted by. -/
inductive SortKey where
  | boolean (b : Bool)
  | integer (n : Int)
  | string (s : List Char)
  | offsetDateTime (s : List Char)
  | localDateTime (s : List Char)
  | localDate (s : List Char)
  | localTime (s : List Char)
  deriving DecidableEq, Repr

/-- Of the same type? -/
def SortKey.sameType : SortKey → SortKey → Bool
  | .boolean _, .boolean _ | .integer _, .integer _ | .string _, .string _ | .offsetDateTime _, .offsetDateTime _
  | .localDateTime _, .localDateTime _ | .localDate _, .localDate _ | .localTime _, .localTime _ => true
  | _, _ => false

/-- The order of `bool`, `i64` and `String`; keys of different types are not compared. -/
def SortKey.cmp : SortKey → SortKey → Ordering
  | .boolean a, .boolean b => compare a.toNat b.toNat
  | .integer a, .integer b => compare a b
  | .string a, .string b | .offsetDateTime a, .offsetDateTime b | .localDateTime a, .localDateTime b
  | .localDate a, .localDate b | .localTime a, .localTime b => VersionSort.cmpText a b
  | _, _ => .eq

/-- `array_values_order.rs:693-709` (`sorted_version`): only strings are compared as versions. -/
def SortKey.cmpVersion : SortKey → SortKey → Ordering
  | .string a, .string b => VersionSort.versionSort a b
  | a, b => a.cmp b

/-- `tombi-x-keyword` (`ArrayValuesOrder`). -/
inductive ValuesOrder where
  | ascending | descending | versionSort
  deriving DecidableEq, Repr

/-- `array_values_order.rs:508-632` (`SortableValues::try_new`) and `array_values_order/*.rs`: the values with their keys,
if all have one and all are of one type. A missing comma is made. `key` gives the key of a value, none where the code has
an error for it. -/
def sortableValues {C : Type} (key : Nat → Option SortKey) (values : List (Nat × Option (CommaRef C))) :
    Option (List (SortKey × Nat × CommaRef C)) :=
  match values with
  | [] => none
  | v :: _ =>
    match key v.1 with
    | none => none
    | some k0 =>
      if values.all fun w => match key w.1 with
        | some k => k0.sameType k
        | none => false
      then some (values.filterMap fun w => (key w.1).map fun k => (k, w.1, w.2.getD (none, makeComma)))
      else none

/-- `array_values_order.rs:273-297` (`sort_array_values`), `:634-709`. -/
def sortValues {C : Type} (values : List (SortKey × Nat × CommaRef C)) (order : ValuesOrder) : List (Nat × Option (CommaRef C)) :=
  let sorted : List (SortKey × Nat × CommaRef C) := match order with
    | .ascending => stableSort (fun a b => isLe (some (a.1.cmp b.1))) values
    | .descending => (stableSort (fun a b => isLe (some (a.1.cmp b.1))) values).reverse
    | .versionSort => stableSort (fun a b => isLe (some (a.1.cmpVersion b.1))) values
  sorted.map fun v => (v.2.1, some v.2.2)

/-- `array_values_order.rs:186-209` (`get_sorted_values_order_all`). -/
def sortAll {C : Type} (key : Nat → Option SortKey) (order : ValuesOrder) (values : List (Nat × Option (CommaRef C))) :
    Option (List (Nat × Option (CommaRef C))) :=
  (sortableValues key values).map fun vs => sortValues vs order

/-- `array_values_order.rs:211-271` (`get_sorted_values_order_groups`): the values valid for the first schema, in the order
of the first group, then those of the other values that are valid for the second one, and so on, then the rest. The key of a
value depends on the schema, too. -/
def sortByGroups {C : Type} : List (ValuesOrder × (Nat → Bool) × (Nat → Option SortKey)) →
    List (Nat × Option (CommaRef C)) → List (Nat × Option (CommaRef C))
  | [], values => values
  | (order, valid, key) :: rest, values =>
    let group := values.filter fun v => valid v.1
    (match sortableValues key group with
      | some vs => sortValues vs order
      | none => group) ++ sortByGroups rest (values.filter fun v => !valid v.1)

end Tombi
