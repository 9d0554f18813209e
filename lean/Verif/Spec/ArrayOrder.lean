import Verif.Model.ArrayOrder
import Verif.Spec.KeysOrder

/-!
Words for statements about sorting the values of an array: which values a group has, and which comments go with a value.
-/
namespace Tombi.Spec

/-- A value of an array: its trailing comment, and the comma after it. -/
structure ArrayItem (C : Type) where
  trailing : Option C
  comma : Option (CommaNode C)
  deriving DecidableEq, Repr

/-- The comments that go with a value, in their order: `value # trailing`, `# leading`, `, # trailing`. -/
def attached {C : Type} (trailing : Option C) (comma : Option (CommaNode C)) : List C :=
  trailing.toList ++ (comma.map fun c => c.leading ++ c.trailing.toList).getD []

/-- The values (and their commas) of a group in the source, from the position `i` on. -/
def sourceChildren {C : Type} (i : Nat) : List (ArrayItem C) → List (GroupChild C)
  | [] => []
  | item :: rest => .value i :: ((item.comma.map fun c => GroupChild.comma (some i) c).toList ++ sourceChildren (i + 1) rest)

/-- Anything but a blank or a line break. -/
def notOther {C : Type} : GroupChild C → Bool
  | .other => false
  | _ => true

/-- The group has the given values. Blanks and line breaks may be anywhere. -/
structure IsGroup {C : Type} (g : ValueGroup C) (items : List (ArrayItem C)) : Prop where
  children : g.children.filter notOther = sourceChildren 0 items
  trailing : ∀ i, g.trailing i = (items[i]?).bind (·.trailing)

/-- What the formatter prints for a group: the values in their order, each with its comments. -/
def printed {C : Type} (g : ValueGroup C) : List (Nat × List C) :=
  (withComma none g.children).map fun v => (v.1, attached (g.trailing v.1) (v.2.map (·.2)))

/-- The values that are followed by a comma. -/
def printedCommas {C : Type} (g : ValueGroup C) : List Bool := (withComma none g.children).map (·.2.isSome)

/-- `sorted` has the values of the group, each once and each with its comma; a missing comma may have been made. -/
structure Reordered {C : Type} (items : List (ArrayItem C)) (sorted : List (Nat × Option (CommaRef C))) : Prop where
  perm : (sorted.map (·.1)).Perm (List.range items.length)
  commas : ∀ v ∈ sorted, ∀ item, items[v.1]? = some item →
    v.2 = item.comma.map (fun c => (some v.1, c)) ∨ item.comma = none ∧ v.2 = some (none, makeComma)

/-- Sorting loses no comment of the value that comes last, `l`, and gives it no comment of another value. -/
def LastKept {C : Type} (items : List (ArrayItem C)) (lastGroup : Bool) (l : Nat) : Prop :=
  -- there is a comma after the last value of the source
  (∃ item, items.getLast? = some item ∧ item.comma.isSome = true) ∨
  -- the last value stays the last one
  l + 1 = items.length ∨
  -- the comma after it has comments
  (∃ item c, items[l]? = some item ∧ item.comma = some c ∧ c.bare = false) ∨
  -- it has no comment, and a comma made for the last value of the source has none
  ((∀ item, items[l]? = some item → item.trailing = none) ∧ (lastGroup = true ∨ ∀ item, items.getLast? = some item → item.trailing = none))

/-- One sort key is not after another one: `false` before `true`, smaller integers before larger ones, texts by their
code points. -/
def KeyLe : SortKey → SortKey → Prop
  | .boolean a, .boolean b => a = true → b = true
  | .integer a, .integer b => a ≤ b
  | .string a, .string b | .offsetDateTime a, .offsetDateTime b | .localDateTime a, .localDateTime b
  | .localDate a, .localDate b | .localTime a, .localTime b => textLe a b
  | _, _ => False

/-- Two sort keys are in order. -/
def InOrder : ValuesOrder → SortKey → SortKey → Prop
  | .ascending, a, b => KeyLe a b
  | .descending, a, b => KeyLe b a
  | .versionSort, .string a, .string b => VersionSort.versionSort a b ≠ .gt
  | .versionSort, a, b => KeyLe a b

/-- The first schema a value is valid for. -/
def groupRank (groups : List (ValuesOrder × (Nat → Bool) × (Nat → Option SortKey))) (i : Nat) : Nat :=
  groups.findIdx fun g => g.2.1 i

/-- All have a key, and all keys are of one type. -/
def Sortable (key : Nat → Option SortKey) (ids : List Nat) : Prop :=
  ∃ k0 : SortKey, ∀ i ∈ ids, ∃ k, key i = some k ∧ k0.sameType k = true

end Tombi.Spec
