import Verif.Model.ReadDocument
import Verif.Model.KeysOrder
/-!
Model of the editor of the syntax tree, `crates/tombi-ast-editor/src`, which runs between the parser and the printer of
the formatter: the part that always runs, also without a schema. It moves comments behind commas, adds missing commas
(`rule/array_comma_trailing_comment.rs`, `rule/inline_table_comma_trailing_comment.rs`) and moves the comments with
document directives to the top (`edit/root.rs:31-65`).

The editor changes a mutable syntax tree; its effect is stated here on `Doc`, which is what the printer reads from the
tree. This is what the editor does when nothing is sorted or regrouped; `Verif/Model/EditorSort.lean` is the whole editor. In the case of `Some(comma)` the old comma
stays in the tree behind the new one; `WithCommaIter` (`tombi-ast/src/support/iter.rs:23-46`) skips it, so that the printer
does not see it (`Verif/Model/ArrayOrder.lean` keeps it).
-/
namespace Tombi.Editing
open SyntaxKind
open Tombi.Formatter (Node Body Section Doc Comma Env Text docOf formatDoc childrenOf kindOf blankOf)
open Tombi.Format (schemaDirective documentDirective)
open Tombi.Reading (Scalar keyOr keyValuesOf convert)

/-- `edit.rs:100-125` and `:253-261` (`edit_recursive`) without a schema: the value that the accessors lead to. -/
def follow {σ : Type} : DValue σ → List Accessor → Option (DValue σ)
  | t, [] => some t
  | .table _ es, .key k :: as => (dget es k).bind fun t => follow t as
  | .array _ ts, .index i :: as => ts[i]?.bind fun t => follow t as
  | _, _ :: _ => none

/-- `Change::Remove` of the trailing comment. -/
def dropTrailing : Node → Node
  | .lit l k t _ => .lit l k t none
  | .array l s b _ => .array l s b none
  | .table l s b _ => .table l s b none
  | .pair l ks src n => .pair l ks src (dropTrailing n)

/-- `rule/array_comma_trailing_comment.rs:9-54` and `rule/inline_table_comma_trailing_comment.rs:9-54`: an item and its
comma afterwards; `append` is `should_append_missing_comma`. -/
def commaRule (append : Bool) (n : Node) : Option Comma → Node × Option Comma
  | some c =>
    if n.trailing.isSome && c.leading.isEmpty && c.trailing.isNone then (dropTrailing n, some ⟨[], n.trailing⟩)
    else (n, some c)
  | none => if append then (dropTrailing n, some ⟨[], n.trailing⟩) else (n, none)

/-- `edit/value.rs:20` and `edit/array.rs:25-27`: the values of an array. -/
def arrayValues {σ : Type} : DValue σ → Option (List (DValue σ))
  | .array _ ts => some ts
  | _ => none

mutual
/-- `edit/value.rs:5-37` and `edit/key_value.rs:8-58`: a value, or a key-value, with the value `t` of the document tree. -/
def editNode (v : TomlVersion) (t : DValue Scalar) : Node → Node
  | .lit l k x tr => .lit l k x tr
  | .array l s b tr =>
    match arrayValues t with
    | some ts => .array l s (editItems v (b.lastComma false) ts b) tr
    | none => .array l s b tr
  | .table l s b tr =>
    if t.isInlineTable then .table l s (editEntries v (b.lastComma false) t b) tr else .table l s b tr
  | .pair l ks src n =>
    match follow t (ks.map fun k => .key (keyOr v k)) with
    | some t' => .pair l ks src (editNode v t' n)
    | none => .pair l ks src n
/-- `edit/array.rs:36-74`: the items of an array with the values `ts` of the tree; `last` says that the last item has a
comma. (An array without syntax errors holds no key-values.) -/
def editItems (v : TomlVersion) (last : Bool) (ts : List (DValue Scalar)) : Body → Body
  | .nil => .nil
  | .dangling n cs rest => .dangling n cs (editItems v last ts rest)
  | .item f n c rest =>
    match ts with
    | [] => .item f n c rest
    | t :: ts =>
      .item f (commaRule (last || rest.hasItem) (editNode v t n) c).1 (commaRule (last || rest.hasItem) (editNode v t n) c).2
        (editItems v last ts rest)
/-- `edit/inline_table.rs:23-49`: the key-values of an inline table. -/
def editEntries (v : TomlVersion) (last : Bool) (t : DValue Scalar) : Body → Body
  | .nil => .nil
  | .dangling n cs rest => .dangling n cs (editEntries v last t rest)
  | .item f n c rest =>
    .item f (commaRule (last || rest.hasItem) (editNode v t n) c).1 (commaRule (last || rest.hasItem) (editNode v t n) c).2
      (editEntries v last t rest)
end

/-- `edit/root.rs:81-94`, `edit/table.rs:41-62` and `edit/array_of_table.rs`: the key-values of a table, whose commas stay as
they are. -/
def editTable (v : TomlVersion) (t : DValue Scalar) : Body → Body
  | .nil => .nil
  | .dangling n cs rest => .dangling n cs (editTable v t rest)
  | .item f n c rest => .item f (editNode v t n) c (editTable v t rest)

/-- A section with the values of keys and literals. -/
def astSection (v : TomlVersion) (s : Section) : AstSection Scalar :=
  ⟨s.isArray, some (s.header.map (keyOr v)), keyValuesOf v s.body⟩

/-- `edit/root.rs:96-112`, `edit/table.rs:24-27` and `:78-86`: the sections; `prev` are the earlier ones, the nearest first. -/
def editSections (v : TomlVersion) (root : DValue Scalar) (prev : List (AstSection Scalar)) : List Section → List Section
  | [] => []
  | s :: ss =>
    (match ((astSection v s).headerAccessors prev).bind (follow root) with
      | some t => { s with body := editTable v t s.body }
      | none => s) :: editSections v root (astSection v s :: prev) ss

/-- The commas of a document (`edit/root.rs:81-112`). -/
def editCommas (v : TomlVersion) (root : DValue Scalar) (d : Doc) : Doc :=
  ⟨editTable v root d.body, editSections v root [] d.sections⟩

/-- Is it a comment that `DocumentCommentDirectives::from_comments` (`tombi-ast/src/comment_directive.rs:8-26`) finds? -/
def isDirective (c : Text) : Bool := (schemaDirective c).isSome || (documentDirective c).isSome

/-- `Change::Remove` of the leading comments. -/
def dropLeading : Node → Node
  | .lit _ k t tr => .lit [] k t tr
  | .array _ s b tr => .array [] s b tr
  | .table _ s b tr => .table [] s b tr
  | .pair _ ks src n => .pair [] ks src n

/-- `edit/root.rs:31-65`: comments with document directives before the first item become a group at the top; `breaks` is
the number of line breaks at the start of the document, two more are written. -/
def moveTop (breaks : Nat) (d : Doc) : Doc :=
  match d.body, d.sections with
  | .item _ n c rest, ss =>
    if n.leading.any isDirective then
      ⟨.dangling 0 n.leading (.item (some (blankOf (breaks + 2))) (dropLeading n) c rest), ss⟩
    else d
  | .nil, s :: ss =>
    if s.leading.any isDirective then
      ⟨.dangling 0 s.leading .nil, { s with leading := [], blank := blankOf (breaks + 2) } :: ss⟩
    else d
  | _, _ => d

/-- The line breaks at the start of a document. -/
def topBreaks (cs : List Green) : Nat :=
  ((cs.takeWhile fun g => kindOf g == WHITESPACE || kindOf g == LINE_BREAK).filter fun g => kindOf g == LINE_BREAK).length

/-- `Editor::edit` (`editor.rs:33-97`): a document whose tree has errors is left as it is. -/
def editTree (v : TomlVersion) (root : Green) : Doc :=
  let r := convert v (docOf root)
  if r.2.isEmpty then moveTop (topBreaks (childrenOf root)) (editCommas v r.1.value (docOf root)) else docOf root

/-- `Formatter::format` (`tombi-formatter/src/formatter.rs:52-171`) when the editor moves only commas and comments: this is
`formatToml` of `Model/EditorSort.lean`, the whole formatter, for documents where nothing has to be regrouped
(`formatToml_gathered`). -/
def formatGrouped (E : Env) (source : Text) : Option Text :=
  match parse E.G source with
  | .ok p => if p.errors.isEmpty then some (formatDoc E (editTree E.version p.tree)) else none
  | .error _ => none

end Tombi.Editing
