import Verif.Model.Formatter
/-!
Model of the accessors of `crates/tombi-ast/src` through which the formatter reads a syntax tree: from a tree to the
`Doc` of `Verif/Model/Formatter.lean`.

Simplification: where the formatter calls `unwrap()` on a part that the tree lacks, which is a panic, the item is left
out. `Verif/Props/Formatter.lean` only speaks of trees of documents without syntax errors.
-/
namespace Tombi.Formatter
open SyntaxKind
open Tombi.Format (AstKey)

/-- `SyntaxElement::kind`. -/
def kindOf : Green → SyntaxKind
  | .token k _ => k
  | .node k _ => k

/-- `children_with_tokens` of a node. -/
def childrenOf : Green → List Green
  | .token _ _ => []
  | .node _ cs => cs

mutual
/-- `SyntaxNode::text`. -/
def greenText : Green → Text
  | .token _ t => t
  | .node _ cs => greenTexts cs
/-- The texts of a list of elements. -/
def greenTexts : List Green → Text
  | [] => []
  | g :: gs => greenText g ++ greenTexts gs
end

mutual
/-- `SyntaxNode::last_token`: the last child, then its last child, and so on. -/
def lastToken : Green → Option (SyntaxKind × Text)
  | .token k t => some (k, t)
  | .node _ cs => lastTokens cs
/-- The last token of the last element. -/
def lastTokens : List Green → Option (SyntaxKind × Text)
  | [] => none
  | [g] => lastToken g
  | _ :: gs => lastTokens gs
end

/-- `AstNode::trailing_comment` (`tombi-ast/src/lib.rs:31-36`). -/
def trailingOf (cs : List Green) : Option Text :=
  match lastTokens cs with
  | some (COMMENT, t) => some t
  | _ => none

/-- The test of `leading_comments` (`support/comment.rs:53`). -/
def isLeadingKind (g : Green) : Bool := kindOf g == COMMENT || kindOf g == LINE_BREAK || kindOf g == WHITESPACE

/-- `Comment::cast` on an element. -/
def commentText? : Green → Option Text
  | .token COMMENT t => some t
  | _ => none

/-- `support/comment.rs:48-60` (`leading_comments`). -/
def leadingOf (cs : List Green) : List Text := (cs.takeWhile isLeadingKind).filterMap commentText?

/-- `support/comment.rs:62-84` (`trailing_comment`), after the element of kind `end`. -/
def commentAfter : List Green → Option Text
  | .token COMMENT t :: _ => some t
  | .token WHITESPACE _ :: .token COMMENT t :: _ => some t
  | _ => none

/-- `support/comment.rs:62-84` (`trailing_comment`). -/
def trailingAfter (end_ : SyntaxKind) (cs : List Green) : Option Text :=
  commentAfter ((cs.dropWhile fun g => kindOf g != end_ && kindOf g != EOF).drop 1)

/-- `DanglingCommentGroup::comments` (`node/dangling_comment_group.rs:10-14`). -/
def danglingComments (cs : List Green) : List Text := cs.filterMap commentText?

/-- `Comma::cast` with its comments. -/
def commaOf : Green → Comma
  | g => ⟨leadingOf (childrenOf g), trailingOf (childrenOf g)⟩

/-- `support/node.rs:14-24` (`token`): the text of the token of a literal. -/
def tokenText (kind : SyntaxKind) (cs : List Green) : Option Text :=
  cs.findSome? fun g => match g with
    | .token k t => if k = kind then some t else none
    | .node _ _ => none

/-- `Value::can_cast` (`tombi-ast/src/generated/ast_node.rs`). -/
def isValueKind : SyntaxKind → Bool
  | ARRAY | BASIC_STRING | BOOLEAN | FLOAT | INLINE_TABLE | INTEGER_BIN | INTEGER_DEC | INTEGER_HEX | INTEGER_OCT
  | LITERAL_STRING | LOCAL_DATE | LOCAL_DATE_TIME | LOCAL_TIME | MULTI_LINE_BASIC_STRING | MULTI_LINE_LITERAL_STRING
  | OFFSET_DATE_TIME => true
  | _ => false

/-- The kinds of the items of a group. -/
def isItemKind (k : SyntaxKind) : Bool := isValueKind k || k == KEY_VALUE

/-- `Key::cast` (`tombi-ast/src/generated/ast_node.rs:850-867`) with the texts that `format/key.rs:17-29` reads. -/
def keyOf : Green → Option AstKey
  | .node BARE_KEY cs => some (.bare (greenTexts cs))
  | .node BASIC_STRING cs => (tokenText BASIC_STRING cs).map .basic
  | .node LITERAL_STRING cs => (tokenText LITERAL_STRING cs).map .literal
  | _ => none

/-- `Keys` child of a node (`header()`, `keys()`): its children. -/
def keysNode (cs : List Green) : Option (List Green) :=
  cs.findSome? fun g => match g with
    | .node KEYS ks => some ks
    | _ => none

/-- `WithCommaIter` (`support/iter.rs:17-47`): the comma that belongs to an item, with what follows the item. -/
def commaAfter : List Green → Option Comma
  | [] => none
  | .node k cs :: gs =>
    if isItemKind k then none
    else if k = COMMA then some ⟨leadingOf cs, trailingOf cs⟩
    else commaAfter gs
  | .token _ _ :: gs => commaAfter gs

/-- The number of line breaks that `blank_lines_before` (`format.rs:70-87`) counts, after one more element. -/
def nextBreaks (breaks : Nat) (g : Green) : Nat :=
  match g with
  | .token WHITESPACE _ => breaks
  | .token LINE_BREAK _ => breaks + 1
  | _ => 0

/-- The end of `blank_lines_before` (`format.rs:84-86`). -/
def blankOf (breaks : Nat) : Nat := min (breaks - 1) 255

mutual
/-- `Value::cast` and `KeyValue::cast`, with the accessors that the formatter uses. -/
def nodeOf : Green → Option Node
  | .token _ _ => none
  | .node k cs =>
    match k with
    | ARRAY => some (.array (leadingOf cs) (trailingAfter BRACKET_START cs)
        (bodyOf BRACKET_START VALUE_WITH_COMMA_GROUP false 0 cs) (trailingOf cs))
    | INLINE_TABLE => some (.table (leadingOf cs) (trailingAfter BRACE_START cs)
        (bodyOf BRACE_START KEY_VALUE_WITH_COMMA_GROUP false 0 cs) (trailingOf cs))
    | KEY_VALUE =>
      match keysNode cs, valueOf cs with
      | some ks, some v => some (.pair (leadingOf cs) (ks.filterMap keyOf) (greenTexts ks) v)
      | _, _ => none
    | k => if isValueKind k then (tokenText k cs).map fun t => .lit (leadingOf cs) k t (trailingOf cs) else none
/-- `KeyValue::value` (`support/node.rs:4-6`): the first child that is a value. -/
def valueOf : List Green → Option Node
  | [] => none
  | g :: gs => if isValueKind (kindOf g) then nodeOf g else valueOf gs
/-- `dangling_comment_groups` and `value_with_comma_groups` (or `key_value_with_comma_groups`) of an array or an
inline table (`impls/array.rs:46-68`, `impls/inline_table.rs`, `support/comment.rs:8-46`): the dangling comment
groups and the groups of kind `group` after the token of kind `start`. `inside` says that this token has passed,
`breaks` counts the line breaks just before. -/
def bodyOf (start group : SyntaxKind) (inside : Bool) (breaks : Nat) : List Green → Body
  | [] => .nil
  | g :: gs =>
    if !inside then bodyOf start group (kindOf g == start) (nextBreaks breaks g) gs
    else match g with
      | .token _ _ => bodyOf start group true (nextBreaks breaks g) gs
      | .node k cs =>
        if k = DANGLING_COMMENT_GROUP then
          .dangling (blankOf breaks) (danglingComments cs) (bodyOf start group true 0 gs)
        else if k = group then groupOf (some (blankOf breaks)) cs (bodyOf start group true 0 gs)
        else bodyOf start group true 0 gs
/-- `values_with_comma`, `key_values_with_comma` (`node/*_group.rs`, `support/iter.rs:17-47`): the items of a group,
followed by `k`. -/
def groupOf (first : Option Nat) : List Green → Body → Body
  | [], k => k
  | g :: gs, k =>
    match nodeOf g with
    | some n => .item first n (commaAfter gs) (groupOf none gs k)
    | none => groupOf first gs k
end

/-- `key_value_groups` of the root (`impls/root.rs:92-98`): the groups among the children, `breaks` as in `bodyOf`. -/
def rootBody (breaks : Nat) : List Green → Body
  | [] => .nil
  | g :: gs =>
    match g with
    | .token _ _ => rootBody (nextBreaks breaks g) gs
    | .node k cs =>
      if k = DANGLING_COMMENT_GROUP then .dangling (blankOf breaks) (danglingComments cs) (rootBody 0 gs)
      else if k = KEY_VALUE_GROUP then groupOf (some (blankOf breaks)) cs (rootBody 0 gs)
      else rootBody 0 gs

/-- `key_value_groups` of a table or an array of tables (`impls/table.rs:61-81`, `impls/array_of_table.rs:57-76`):
the groups after the first line break that follows the token of kind `end_`. A dangling comment group that comes
before any line break is read by `Table` but not by `ArrayOfTable`. -/
def sectionBody (end_ : SyntaxKind) (cs : List Green) : Body :=
  let after := cs.dropWhile fun g => kindOf g != end_
  rootBody 0 (after.dropWhile fun g =>
    kindOf g != LINE_BREAK && !(end_ == BRACKET_END && kindOf g == DANGLING_COMMENT_GROUP))

/-- `TableOrArrayOfTable::cast`, with the accessors that the formatter uses. -/
def sectionOf (breaks : Nat) : Green → Option Section
  | .node TABLE cs => (keysNode cs).map fun ks =>
    ⟨false, blankOf breaks, leadingOf cs, ks.filterMap keyOf, trailingAfter BRACKET_END cs, sectionBody BRACKET_END cs⟩
  | .node ARRAY_OF_TABLE cs => (keysNode cs).map fun ks =>
    ⟨true, blankOf breaks, leadingOf cs, ks.filterMap keyOf, trailingAfter DOUBLE_BRACKET_END cs,
      sectionBody DOUBLE_BRACKET_END cs⟩
  | _ => none

/-- `Root::table_or_array_of_tables` (`impls/root.rs:111-116`). -/
def sectionsOf (breaks : Nat) : List Green → List Section
  | [] => []
  | g :: gs =>
    match sectionOf breaks g with
    | some s => s :: sectionsOf (nextBreaks breaks g) gs
    | none => sectionsOf (nextBreaks breaks g) gs

/-- `Root::cast` with the accessors that the formatter uses. -/
def docOf (root : Green) : Doc := ⟨rootBody 0 (childrenOf root), sectionsOf 0 (childrenOf root)⟩

/-- `Formatter::format` (`formatter.rs:52-171`) without schema and without the editor of the syntax tree
(`tombi-ast-editor`, see `Verif/Model/KeysOrder.lean` and `ArrayOrder.lean`): `none` when there are syntax errors. -/
def formatSource (E : Env) (source : Text) : Option Text :=
  match parse E.G source with
  | .ok p => if p.errors.isEmpty then some (formatDoc E (docOf p.tree)) else none
  | .error _ => none

end Tombi.Formatter
