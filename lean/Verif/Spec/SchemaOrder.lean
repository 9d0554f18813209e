import Verif.Model.EditorSort
import Verif.Spec.KeysOrder

/-!
Words for statements about the order of keys in a formatted document: which schema is for which place, and what it means
that the key-values of a table are in the order that its schema says.
-/
namespace Tombi.Spec
open Tombi.Editing (EditWorld)
open Tombi.Formatter (Body Section Doc)
open Tombi.Reading (keyOr)

variable {S : Type}

/-- The schema of what is at a key or an index of a value with the schema `s`: for a key of a table, the schema of the
property, else that of the first pattern for the key, else that for all other keys; below an array, that of its items. -/
def schemaBelow (w : EditWorld S) (s : S) (a : Accessor) : Option S :=
  match w.schemas.view s [], a with
  | .table t, .key k => match t.property (.key k), w.patternProperty s [] k with
    | some s', _ => some s'
    | none, some s' => some s'
    | none, none => t.additional
  | .array items, _ => items
  | _, _ => none

/-- The schema at a path, from the schema at its start. -/
def schemaAt (w : EditWorld S) : Option S → List Accessor → Option S
  | s, [] => s
  | none, _ => none
  | some s, a :: path => schemaAt w (schemaBelow w s a) path

/-- The first key of a key-value. -/
def firstKey (v : TomlVersion) : Formatter.Node → Option Accessor
  | .pair _ (k :: _) _ _ => some (.key (keyOr v k))
  | _ => none

/-- The first keys of the key-values up to the next group, and those of each group after that. -/
def startKeys (v : TomlVersion) : Body → List Accessor × List (List Accessor)
  | .nil => ([], [])
  | .dangling _ _ rest => ([], (startKeys v rest).1 :: (startKeys v rest).2)
  | .item none n _ rest => ((firstKey v n).toList ++ (startKeys v rest).1, (startKeys v rest).2)
  | .item (some _) n _ rest => ([], ((firstKey v n).toList ++ (startKeys v rest).1) :: (startKeys v rest).2)

/-- The first keys of the key-values of each group: an item with `first` starts a group, and so does what follows comments that
stand alone. -/
def groupKeys (v : TomlVersion) (b : Body) : List (List Accessor) := (startKeys v b).1 :: (startKeys v b).2

/-- In each group of key-values, of two key-values with different first keys the one with the smaller key comes first. -/
def KeysInOrder (le : Accessor → Accessor → Prop) (v : TomlVersion) (b : Body) : Prop :=
  ∀ keys ∈ groupKeys v b, keys.Pairwise fun a b => a = b ∨ le a b

/-- Two keys are in the order of `groups`: they are of the same kind (keys of the schema, keys for a pattern, other keys), which
has an order, and are in this order; or the kind of the first one comes before that of the second one; or one of them has no
order. -/
def GroupsLe (t : TableView S) (groups : List (GroupKind × KeysOrder)) (a b : Accessor) : Prop :=
  kindOrder groups (keyKind t a) = none ∨ kindOrder groups (keyKind t b) = none ∨
  (keyKind t a = keyKind t b ∧ ∃ o, kindOrder groups (keyKind t a) = some o ∧ OrderLe t.properties o a b) ∨
  kindRank groups (keyKind t a) < kindRank groups (keyKind t b)

/-- The order that the schema of a table says. -/
def schemaLe (t : TableView S) : Option (Accessor → Accessor → Prop) :=
  match t.keysOrder with
  | some (.all o) => some (OrderLe t.properties o)
  | some (.groups groups) => some (GroupsLe t groups)
  | none => none

/-- The key-values of a table are in the order that its schema says, if it says one. -/
def TableInOrder (w : EditWorld S) (v : TomlVersion) (schema : Option S) (b : Body) : Prop :=
  ∀ s t le, schema = some s → w.schemas.view s [] = .table t → schemaLe t = some le → KeysInOrder le v b

mutual
/-- All inline tables in a value with a given schema are in order. -/
def ValueInOrder (w : EditWorld S) (v : TomlVersion) (schema : Option S) : Formatter.Node → Prop
  | .lit _ _ _ _ => True
  | .array _ _ b _ => ItemsInOrder w v (schemaAt w schema [.index 0]) b
  | .table _ _ b _ => TableInOrder w v schema b ∧ ItemsInOrder w v schema b
  | .pair _ ks _ n => ValueInOrder w v (schemaAt w schema (ks.map fun k => .key (keyOr v k))) n
/-- All inline tables in the elements of an array, or in the values of key-values, are in order. -/
def ItemsInOrder (w : EditWorld S) (v : TomlVersion) (schema : Option S) : Body → Prop
  | .nil => True
  | .dangling _ _ rest => ItemsInOrder w v schema rest
  | .item _ n _ rest => ValueInOrder w v schema n ∧ ItemsInOrder w v schema rest
end

/-- A table and all inline tables in it are in order. -/
def AllInOrder (w : EditWorld S) (v : TomlVersion) (schema : Option S) (b : Body) : Prop :=
  TableInOrder w v schema b ∧ ItemsInOrder w v schema b

/-- A section of a formatted document is one of the sections of the source, and it is in order for the schema at its place. -/
def SectionInOrder (w : EditWorld S) (v : TomlVersion) (schema : Option S) (source : List Section) (s' : Section) : Prop :=
  ∃ before s after path, source = before ++ s :: after ∧ s'.header = s.header ∧ s'.isArray = s.isArray ∧
    path.map stepOf = sectionPath (openedBy [] (before.map (Editing.astSection v))) (Editing.astSection v s) ∧
    AllInOrder w v (schemaAt w schema path) s'.body

/-- Schemas without `oneOf`, `anyOf` and `allOf`, whose parts do not depend on the place. -/
structure PlainSteps (w : EditWorld S) : Prop where
  sub : ∀ acc schema, w.sub acc schema = none
  single : ∀ s acc schemas o, w.schemas.view s acc ≠ .combined schemas o
  view : ∀ s acc, w.schemas.view s acc = w.schemas.view s []
  pattern : ∀ s acc k, w.patternProperty s acc k = w.patternProperty s [] k

/-- Also, orders are not set by comments or by the settings, and they are not turned off. -/
structure PlainSchemas (w : EditWorld S) : Prop extends PlainSteps w where
  enabled : ∀ s, w.schemas.enabled (some s) = true
  override : ∀ s acc, w.schemas.schemaOverride s acc = none
  directive : ∀ cs, w.tableDirective cs = none

/-- The order of the keys of a table with a schema (or none), at a place, with comments that say `directive`. If comments or the
settings turn sorting off, there is none. Else it is the order that the comments say; if they say none, the one that the settings
say for the place; if they say none, the one of the schema, unless sorting by schemas is turned off for it and the settings do not
turn it on for the place. The order of the schema is none without a schema. -/
def orderFor (w : EditWorld S) (schema : Option S) (place : List Accessor) (directive : Option OrderOverride) :
    Option (Accessor → Accessor → Prop) :=
  let table := (schema.map (w.schemas.view · [])).bind SchemaView.asTable
  let settings := w.schemas.schemaOverride schema place
  if directive.any (·.disabled) || settings.any (·.disabled) then none
  else match (directive.bind (·.order)).or (settings.bind (·.order)) with
    | some .schema => table.map fun t => OrderLe t.properties .schema
    | some o => some (OrderLe [] o)
    | none => if settings.isSome || w.schemas.enabled schema then table.bind schemaLe else none

/-- The key-values of a table are in the order for it. -/
def TableObeys (w : EditWorld S) (v : TomlVersion) (schema : Option S) (place : List Accessor) (directive : Option OrderOverride)
    (b : Body) : Prop :=
  ∀ le, orderFor w schema place directive = some le → KeysInOrder le v b

/-- A section of a formatted document is one of the sections of the source, and its key-values are in the order for its place,
its schema and its comments. -/
def SectionObeys (w : EditWorld S) (v : TomlVersion) (schema : Option S) (source : List Section) (s' : Section) : Prop :=
  ∃ before s after path, source = before ++ s :: after ∧ s'.header.map (keyOr v) = s.header.map (keyOr v) ∧ s'.isArray = s.isArray ∧
    path.map stepOf = sectionPath (openedBy [] (before.map (Editing.astSection v))) (Editing.astSection v s) ∧
    TableObeys w v (schemaAt w schema path) path (w.tableDirective (s.leading ++ s.trailing.toList ++ Reading.headComments s.body))
      s'.body

end Tombi.Spec
