import Verif.Model.Outline
import Verif.Model.TomlText
/-!
The refactorings of the editor: `crates/tombi-lsp/src/code_action.rs`, on the document tree with ranges (`Model/Outline.lean`).

Simplifications: `range` and `symbol_range` of a value are the same here; they differ where comments belong to the node of the value, and
then neither is used on that side. Places inside arrays (`Accessor::Index`) are left out. Ranges are those before `into_lsp` (C52).
-/
namespace Tombi.Refactor
open Tombi (Range Position DKey TableKind)
open Tombi.Outline

/-- `crates/tombi-schema-store/src/lib.rs` (`AccessorKeyKind`). -/
inductive KeyKind where
  | header | dotted | keyValue
  deriving DecidableEq, Repr

/-- `crates/tombi-lsp/src/completion.rs:884-902`: the keys of one key-value above the cursor with their contexts. -/
def level (keys : List RKey) : List (RKey × KeyKind) :=
  (keys.reverse.zipIdx.map fun ki => (ki.1, if ki.2 = 0 then KeyKind.keyValue else KeyKind.dotted)).reverse

/-- `completion.rs:869-944` (`get_completion_keys_with_context`): the keys of the key-values above the cursor, the outermost first; of each
one, the keys up to the cursor. `header` are the keys of the section. -/
def cursor (header : List RKey) (kvs : List (List RKey)) : List (RKey × KeyKind) :=
  header.map (·, .header) ++ kvs.flatMap level

/-- `crates/tombi-document-tree/src/lib.rs:105-133` (`dig_accessors`), for keys. -/
def dig {σ : Type} (entries : REntries σ) : List DKey → Option (RValue σ)
  | [] => none
  | [k] => rget entries k
  | k :: ks =>
    match rget entries k with
    | some (.table _ _ es) => dig es ks
    | _ => none

/-- `lsp_types::TextEdit`. -/
structure Edit where
  range : Range
  text : List Char
  deriving DecidableEq, Repr

/-- `code_action.rs:28-98` (`dot_keys_to_inline_table_code_action`): the edits, if the action is offered. -/
def dottedToInline {σ : Type} (tree : RTable σ) (keys : List (RKey × KeyKind)) : Option (List Edit) :=
  match keys.reverse with
  | _ :: parent :: _ =>
    match dig tree.entries (keys.dropLast.map (·.1.text)) with
    | some (.table kind _ [(key, value)]) =>
      if (parent.2 = .dotted ∨ parent.2 = .keyValue) ∧ kind ≠ .inlineTable then
        some [⟨⟨parent.1.range.start, value.range.start⟩,
                TomlText.toKeyString parent.1.text ++ " = { ".toList ++ key.text ++ (if kind = .keyValue then " = ".toList else ['.'])⟩,
              ⟨⟨value.range.stop, value.range.stop⟩, " }".toList⟩]
      else none
    | _ => none
  | _ => none

/-- `code_action.rs:100-167` (`inline_table_to_dot_keys_code_action`). `hasComment` tells whether there are comments in the inline table of
that range (`table.rs:126-131`, `code_action.rs:122-125`). -/
def inlineToDotted {σ : Type} (hasComment : Range → Bool) (tree : RTable σ) (keys : List (RKey × KeyKind)) : Option (List Edit) :=
  match keys.reverse with
  | _ :: parent :: _ =>
    match dig tree.entries (keys.dropLast.map (·.1.text)) with
    | some (.table kind range [(key, value)]) =>
      if kind = .inlineTable ∧ hasComment range = false then
        some [⟨Range.new parent.1.range.stop key.range.start, ['.']⟩, ⟨Range.new value.range.stop range.stop, []⟩]
      else none
    | _ => none
  | _ => none

end Tombi.Refactor
