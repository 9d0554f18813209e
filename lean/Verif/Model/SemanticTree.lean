import Verif.Model.AstDoc
import Verif.Spec.SemanticTokens
/-!
Model of the traversal that finds the elements to highlight (`crates/tombi-lsp/src/semantic_tokens/{root,table,
array_or_table,key_value,key,value,array,inline_table,comment}.rs`), through the accessors of `Verif/Model/AstDoc.lean`.

Each function is given the text before the element it visits, so that it returns the elements as parts of the text.
The comments with a document or schema directive (`root.rs:8-29`) are treated like the other comments here. Where the code
calls `unwrap()` on the token of a literal that the tree lacks, which is a panic, nothing is returned.
-/
namespace Tombi.SemanticTokens
open Tombi SyntaxKind
open Tombi.Formatter (kindOf childrenOf greenText greenTexts lastTokens isLeadingKind isValueKind isItemKind)

/-- `semantic_tokens/comment.rs:5-13`: a comment; its directive is `tombi:` after white space. -/
def commentMark (pre text : List Char) : Mark :=
  let content := Format.trimStart (text.drop 1)
  match Format.stripPrefix Format.valuePrefix content with
  | some rest => .comment pre (text.take (text.length - content.length)) Format.valuePrefix rest
  | none => .part ⟨pre, text, .comment⟩

/-- a comment token -/
def commentMark? (pre : List Char) : Green → List Mark
  | .token COMMENT t => [commentMark pre t]
  | _ => []

/-- `support/comment.rs:48-60` (`leading_comments`). -/
def leadingMarks (pre : List Char) : List Green → List Mark
  | [] => []
  | g :: gs => if isLeadingKind g then commentMark? pre g ++ leadingMarks (pre ++ greenText g) gs else []

/-- `tombi-ast/src/lib.rs:31-36` (`AstNode::trailing_comment`): the last token of the node, if it is a comment. -/
def trailingMarks (pre : List Char) (cs : List Green) : List Mark :=
  match lastTokens cs with
  | some (COMMENT, t) => [commentMark (pre ++ (greenTexts cs).take ((greenTexts cs).length - t.length)) t]
  | _ => []

/-- `support/comment.rs:62-84` (`trailing_comment`), after the end. -/
def afterMarks (pre : List Char) : List Green → List Mark
  | .token COMMENT t :: _ => [commentMark pre t]
  | .token WHITESPACE w :: .token COMMENT t :: _ => [commentMark (pre ++ w) t]
  | _ => []

/-- `support/comment.rs:62-84` (`trailing_comment`). -/
def trailingAfterMarks (end_ : SyntaxKind) (pre : List Char) : List Green → List Mark
  | [] => []
  | g :: gs =>
    if kindOf g = end_ ∨ kindOf g = EOF then afterMarks (pre ++ greenText g) gs
    else trailingAfterMarks end_ (pre ++ greenText g) gs

/-- `DanglingCommentGroup::comments` (`node/dangling_comment_group.rs:10-14`). -/
def danglingMarks (pre : List Char) : List Green → List Mark
  | [] => []
  | g :: gs => commentMark? pre g ++ danglingMarks (pre ++ greenText g) gs

/-- `support/node.rs:14-24` (`token`): the first token of a kind, shown with a type. -/
def tokenMarks (kind : SyntaxKind) (t : TokenType) (pre : List Char) : List Green → List Mark
  | [] => []
  | .token k w :: gs => if k = kind then [.part ⟨pre, w, t⟩] else tokenMarks kind t (pre ++ w) gs
  | .node k cs :: gs => tokenMarks kind t (pre ++ greenText (.node k cs)) gs

/-- `Keys::keys`: the keys of a `KEYS` node, shown with a type (`key.rs:13-17`, `table.rs:15-19`). -/
def keyMarks (t : TokenType) (pre : List Char) : List Green → List Mark
  | [] => []
  | g :: gs =>
    (if (Formatter.keyOf g).isSome then [.part ⟨pre, greenText g, t⟩] else []) ++ keyMarks t (pre ++ greenText g) gs

/-- the keys of the first `KEYS` child (`header()`, `keys()`) -/
def keysMarks (t : TokenType) (pre : List Char) : List Green → List Mark
  | [] => []
  | .node KEYS ks :: _ => keyMarks t pre ks
  | g :: gs => keysMarks t (pre ++ greenText g) gs

/-- `value.rs:11-52`: the type of a literal. -/
def literalType : SyntaxKind → TokenType
  | INTEGER_BIN | INTEGER_OCT | INTEGER_DEC | INTEGER_HEX | FLOAT => .number
  | BOOLEAN => .boolean
  | OFFSET_DATE_TIME => .offsetDateTime
  | LOCAL_DATE_TIME => .localDateTime
  | LOCAL_DATE => .localDate
  | LOCAL_TIME => .localTime
  | _ => .string

/-- a node that is an item of a group -/
def isItemNode : Green → Bool
  | .node k _ => isItemKind k
  | .token _ _ => false

/-- the comments of the comma that belongs to an item (`support/iter.rs:17-47`, `array.rs:36-44`) -/
def commaMarks (pre : List Char) : List Green → List Mark
  | [] => []
  | .node k cs :: gs =>
    if isItemKind k then []
    else if k = COMMA then leadingMarks pre cs ++ trailingMarks pre cs
    else commaMarks (pre ++ greenText (.node k cs)) gs
  | .token _ w :: gs => commaMarks (pre ++ w) gs

mutual
/-- `value.rs:5-57`, `key_value.rs:7-24`: a value or a key-value; nothing for other elements. -/
def itemMarks (pre : List Char) : Green → List Mark
  | .token _ _ => []
  | .node k cs =>
    match k with
    | ARRAY => leadingMarks pre cs ++ trailingAfterMarks BRACKET_START pre cs
        ++ bodyMarks BRACKET_START VALUE_WITH_COMMA_GROUP false pre cs ++ trailingMarks pre cs
    | INLINE_TABLE => leadingMarks pre cs ++ trailingAfterMarks BRACE_START pre cs
        ++ bodyMarks BRACE_START KEY_VALUE_WITH_COMMA_GROUP false pre cs ++ trailingMarks pre cs
    | KEY_VALUE => leadingMarks pre cs ++ keysMarks .key pre cs ++ tokenMarks EQUAL .operator pre cs ++ valueMarks pre cs
    | k => if isValueKind k then leadingMarks pre cs ++ tokenMarks k (literalType k) pre cs ++ trailingMarks pre cs else []
/-- `KeyValue::value`: the first child that is a value. -/
def valueMarks (pre : List Char) : List Green → List Mark
  | [] => []
  | g :: gs => if isValueKind (kindOf g) then itemMarks pre g else valueMarks (pre ++ greenText g) gs
/-- `array.rs:11-47`, `inline_table.rs:11-42`: the dangling comments and the groups after the token of kind `start`. -/
def bodyMarks (start group : SyntaxKind) (inside : Bool) (pre : List Char) : List Green → List Mark
  | [] => []
  | g :: gs =>
    if !inside then bodyMarks start group (kindOf g == start) (pre ++ greenText g) gs
    else match g with
      | .token _ w => bodyMarks start group true (pre ++ w) gs
      | .node k cs =>
        (if k = DANGLING_COMMENT_GROUP then danglingMarks pre cs
          else if k = group then groupMarks pre cs else [])
          ++ bodyMarks start group true (pre ++ greenText (.node k cs)) gs
/-- the items of a group, each with the comments of its comma -/
def groupMarks (pre : List Char) : List Green → List Mark
  | [] => []
  | g :: gs =>
    itemMarks pre g ++ (if isItemNode g then commaMarks (pre ++ greenText g) gs else [])
      ++ groupMarks (pre ++ greenText g) gs
end

/-- `root.rs:10-40`, `table.rs:31-49`: the dangling comments and the groups of key-values among the elements. -/
def groupsMarks (pre : List Char) : List Green → List Mark
  | [] => []
  | .token _ w :: gs => groupsMarks (pre ++ w) gs
  | .node k cs :: gs =>
    (if k = DANGLING_COMMENT_GROUP then danglingMarks pre cs else if k = KEY_VALUE_GROUP then groupMarks pre cs else [])
      ++ groupsMarks (pre ++ greenText (.node k cs)) gs

/-- the groups of a table, after the first line break that follows the header; `after` says that the header has passed
(`impls/table.rs:59-80`, `impls/array_of_table.rs:60-78`) -/
def sectionBodyMarks (end_ : SyntaxKind) (after : Bool) (pre : List Char) : List Green → List Mark
  | [] => []
  | g :: gs =>
    if after && (kindOf g == LINE_BREAK || kindOf g == DANGLING_COMMENT_GROUP) then groupsMarks pre (g :: gs)
    else sectionBodyMarks end_ (after || kindOf g == end_) (pre ++ greenText g) gs

/-- `table.rs:5-51`, `array_or_table.rs:5-51`. -/
def sectionMarks (start end_ : SyntaxKind) (pre : List Char) (cs : List Green) : List Mark :=
  leadingMarks pre cs ++ tokenMarks start .operator pre cs ++ keysMarks .table pre cs ++ tokenMarks end_ .operator pre cs
    ++ trailingAfterMarks end_ pre cs ++ sectionBodyMarks end_ false pre cs

/-- `root.rs:42-44`: the tables and arrays of tables. -/
def sectionsMarks (pre : List Char) : List Green → List Mark
  | [] => []
  | .node TABLE cs :: gs =>
    sectionMarks BRACKET_START BRACKET_END pre cs ++ sectionsMarks (pre ++ greenTexts cs) gs
  | .node ARRAY_OF_TABLE cs :: gs =>
    sectionMarks DOUBLE_BRACKET_START DOUBLE_BRACKET_END pre cs ++ sectionsMarks (pre ++ greenTexts cs) gs
  | g :: gs => sectionsMarks (pre ++ greenText g) gs

/-- `root.rs:5-46` (`append_semantic_tokens` of `Root`). -/
def documentMarks (root : Green) : List Mark := groupsMarks [] (childrenOf root) ++ sectionsMarks [] (childrenOf root)

end Tombi.SemanticTokens
