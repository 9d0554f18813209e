import Verif.Model.TomlText
/-!
Model of `crates/tombi-linter/src/rule/{tables_out_of_order,dotted_keys_out_of_order,missing_comma,
trailing_comma}.rs`. The tree is given as the lists the rules iterate over; severities and comment directives
that switch a rule off are not modelled.
-/
namespace Tombi.LintOrder
open TomlText

/-- `tombi-ast/src/generated/ast_node.rs` (`Key`): a key with the source text of its token. -/
inductive Key where
  | bare (text : List Char)
  | basic (text : List Char)
  | literal (text : List Char)
  deriving DecidableEq, Repr

/-- `tables_out_of_order.rs:126-148` (`extract_key_parts`), one key: the source text without its quotes;
`none` is a panic. -/
def keyPart : Key → Option (List Char)
  | .bare text => some text
  | .basic text => inner 1 text
  | .literal text => inner 1 text

/-- `tombi-ast/src/impls/key.rs:27-40` (`try_to_raw_text`) followed by `.ok()`; a panic is `none` too. -/
def keyRawText (v : TomlVersion) : Key → Option (List Char)
  | .bare text => match tryFromBareKey text with
    | .ok s => some s
    | .error _ => none
  | .basic text => match tryFromBasicString text v with
    | some (.ok s) => some s
    | _ => none
  | .literal text => match tryFromLiteralString text with
    | some (.ok s) => some s
    | _ => none

/-- `entry(key).or_default().push(x)` of a hash map, as a list of entries in the order of their insertion. -/
def pushGroup {κ β : Type} [DecidableEq κ] : List (κ × List β) → κ → β → List (κ × List β)
  | [], k, x => [(k, [x])]
  | (k', xs) :: groups, k, x => if k' = k then (k', xs ++ [x]) :: groups else (k', xs) :: pushGroup groups k x

/-- `tables_out_of_order.rs:83-90`: the groups by first key, of `(position, first key, range)`. -/
def groupAll {κ ρ : Type} [DecidableEq κ] (positions : List (Nat × κ × ρ)) : List (κ × List (Nat × ρ)) :=
  positions.foldl (fun groups x => pushGroup groups x.2.1 (x.1, x.2.2)) []

/-- `enumerate`: the positions, from `n` on, of the items that have a first key. -/
def positionsFrom {κ ρ : Type} : Nat → List (Option κ × ρ) → List (Nat × κ × ρ)
  | _, [] => []
  | n, (some k, r) :: items => (n, k, r) :: positionsFrom (n + 1) items
  | n, (none, _) :: items => positionsFrom (n + 1) items

/-- `Iterator::min` and `Iterator::max` of the positions of a group. -/
def minPos : List Nat → Nat
  | [] => 0
  | [n] => n
  | n :: ns => min n (minPos ns)

def maxPos : List Nat → Nat
  | [] => 0
  | n :: ns => max n (maxPos ns)

/-- `tables_out_of_order.rs:93-107`: the ranges reported for one group. -/
def tableGroup {κ ρ : Type} [DecidableEq κ] (positions : List (Nat × κ × ρ)) (group : κ × List (Nat × ρ)) : List ρ :=
  if group.2.length > 1 then
    let lo := minPos (group.2.map (·.1))
    let hi := maxPos (group.2.map (·.1))
    if positions.any fun x => decide (x.1 > lo) && decide (x.1 < hi) && decide (x.2.1 ≠ group.1) then
      group.2.map (·.2)
    else []
  else []

/-- `tables_out_of_order.rs:46-121`: the reported ranges for the items of the root, each with the first part of
its header if it is a table or array of tables with one; `order` is the order in which the hash map is
iterated. -/
def tablesOutOfOrder {κ ρ : Type} [DecidableEq κ] (order : List (κ × List (Nat × ρ)) → List (κ × List (Nat × ρ)))
    (items : List (Option κ × ρ)) : List ρ :=
  let positions := positionsFrom 0 items
  ((order (groupAll positions)).map (tableGroup positions)).flatten

/-- `windows(2)` with `window[0].0 + 1 != window[1].0`. -/
def hasGap : List Nat → Bool
  | a :: b :: ns => decide (a + 1 ≠ b) || hasGap (b :: ns)
  | _ => false

/-- `dotted_keys_out_of_order.rs:95-104`: the ranges reported for one group. -/
def dottedGroup {κ ρ : Type} (group : κ × List (Nat × ρ)) : List ρ :=
  if hasGap (group.2.map (·.1)) then group.2.map (·.2) else []

/-- `dotted_keys_out_of_order.rs:74-115`: the reported ranges for key-values, each with the text of its first
key unless this cannot be decoded. -/
def dottedKeysOutOfOrder {κ ρ : Type} [DecidableEq κ]
    (order : List (κ × List (Nat × ρ)) → List (κ × List (Nat × ρ))) (items : List (Option κ × ρ)) : List ρ :=
  ((order (groupAll (positionsFrom 0 items))).map dottedGroup).flatten

/-- `tables_out_of_order.rs` on headers: the first key is compared by its source text. -/
def lintTables {ρ : Type} (order : List (List Char × List (Nat × ρ)) → List (List Char × List (Nat × ρ)))
    (items : List (Option Key × ρ)) : List ρ :=
  tablesOutOfOrder order (items.map fun x => (x.1.bind keyPart, x.2))

/-- `dotted_keys_out_of_order.rs` on key-values: the first key is compared by its value. -/
def lintDottedKeys {ρ : Type} (v : TomlVersion)
    (order : List (List Char × List (Nat × ρ)) → List (List Char × List (Nat × ρ)))
    (items : List (Option Key × ρ)) : List ρ :=
  dottedKeysOutOfOrder order (items.map fun x => (x.1.bind (keyRawText v), x.2))

/-- `missing_comma.rs:10-28`, `:32-53`: the reported positions for the values of an array or the key-values of
an inline table, each with its end and whether a comma follows. -/
def missingCommas {π : Type} : List (π × Bool) → List π
  | (e, comma) :: x :: rest => (if comma then [] else [e]) ++ missingCommas (x :: rest)
  | _ => []

/-- `trailing_comma.rs:8-33`: the reported ranges for the key-values of a root or table, each with the range of
the comma after it, if there is one. -/
def trailingCommas {ρ : Type} (items : List (Option ρ)) : List ρ := items.filterMap id

end Tombi.LintOrder
