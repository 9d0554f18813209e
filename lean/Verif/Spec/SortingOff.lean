import Verif.Model.EditorSort

/-!
Words for the statement that items move only inside of their own table or array, and not where sorting is turned off.
-/
namespace Tombi.Spec
open Tombi.Editing (EditWorld sectionComments)
open Tombi.Formatter (Node Body Section Doc Text)
open Tombi.Reading (headComments)

variable {S : Type}

/-- A value or a key-value without the comments before and behind it. -/
def plain : Node → Node
  | .lit _ k t _ => .lit [] k t none
  | .array _ s b _ => .array [] s b none
  | .table _ s b _ => .table [] s b none
  | .pair _ ks src n => .pair [] ks src (plain n)

/-- The items of an array or a table, in their order. -/
def plainItems : Body → List Node
  | .nil => []
  | .dangling _ _ rest => plainItems rest
  | .item _ n _ rest => plain n :: plainItems rest

/-- Comments turn the sorting of the keys of a table off. -/
def CommentOff (w : EditWorld S) (cs : List Text) : Prop := ∃ o, w.tableDirective cs = some o ∧ o.disabled = true

/-- Comments, or the settings, turn the sorting of the keys of a table off (the settings are not for inline tables). -/
def TableOff (w : EditWorld S) (cs : List Text) : Prop :=
  CommentOff w cs ∨ ∀ schema acc, ∃ o, w.schemas.schemaOverride schema acc = some o ∧ o.disabled = true

/-- Comments, or the settings, turn the sorting of the values of an array off. -/
def ArrayOff (w : EditWorld S) (cs : List Text) : Prop :=
  (∃ o, w.arrayDirective cs = some o ∧ o.disabled = true) ∨
    ∀ schema acc, ∃ o, w.arrayOverride schema acc = some o ∧ o.disabled = true

/-- The items `b'` are those of `ns` in any order, or in the same order if `off`. -/
def Moved (off : Prop) (ns : List Node) (b' : Body) : Prop := (plainItems b').Perm ns ∧ (off → plainItems b' = ns)

mutual
/-- `n'` is `n` after sorting: the items of each array and inline table in it are the same, each after sorting, and in the same
order where sorting is turned off. `cs` are the comments of the key-value that `n` is the value of; comments at the brackets and
at the top of the array or inline table count too. -/
def SortedNode (w : EditWorld S) (cs : List Text) : Node → Node → Prop
  | .lit l k t tr, n' => n' = .lit l k t tr
  | .array l s b tr, n' => ∃ b' ns, n' = .array l s b' tr ∧ SortedItems w b ns ∧ Moved (ArrayOff w (cs ++ s.toList ++ headComments b)) ns b'
  | .table l s b tr, n' => ∃ b' ns, n' = .table l s b' tr ∧ SortedItems w b ns ∧ Moved (CommentOff w (cs ++ s.toList ++ headComments b)) ns b'
  | .pair l ks src n, n' => ∃ n1, n' = .pair l ks src n1 ∧ SortedNode w (l ++ n.trailing.toList) n n1
/-- The items of an array or a table, each after sorting. -/
def SortedItems (w : EditWorld S) : Body → List Node → Prop
  | .nil, ns => ns = []
  | .dangling _ _ rest, ns => SortedItems w rest ns
  | .item _ n _ rest, ns => ∃ n' ns', ns = plain n' :: ns' ∧ SortedNode w [] n n' ∧ SortedItems w rest ns'
end

/-- A table after sorting. -/
def SortedBody (w : EditWorld S) (off : Prop) (b b' : Body) : Prop := ∃ ns, SortedItems w b ns ∧ Moved off ns b'

/-- `s'` is the section `s` after sorting. -/
def SortedSection (w : EditWorld S) (s s' : Section) : Prop :=
  s'.header = s.header ∧ s'.isArray = s.isArray ∧ SortedBody w (TableOff w (sectionComments s)) s.body s'.body

end Tombi.Spec
