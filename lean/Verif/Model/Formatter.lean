import Verif.Model.Format
/-!
Model of the formatter of whole documents: `crates/tombi-formatter/src/formatter.rs`,
`formatter/definitions.rs`, `types/*.rs` and `format/{root,table,array_of_table,key_value,key,comment,value}.rs`,
`format/value/*.rs`, on top of the leaves of `Verif/Model/Format.lean`.

The formatter reads the syntax tree through the accessors of `tombi-ast`. Its input here is `Doc`: what these
accessors return (`Verif/Model/AstDoc.lean` computes it from the tree). A list of groups is written flat: an item
says whether it starts a new group, and after how many blank lines.

The formatter appends to a buffer. The model appends `Piece`s: one piece per written word, tagged with what it is;
`textOf` is the text that the pieces stand for. `write_str` on a `String` never fails, so the `Result`s are left
out.

Other simplifications. `indent_depth` (a `u8`) is restored after every item and is passed down as a number: this
is the same as long as it stays below 256. `skip_indent` is consumed by every item and is passed down as well.
A panic in a leaf (`Format.formatBasicString` and so on, excluded by C33 and C56) leaves the text unchanged.
-/
namespace Tombi.Formatter
open SyntaxKind
open Tombi.Format (QuoteStyle AstKey)

abbrev Text := List Char

/-! ### documents, as the accessors show them -/

/-- `tombi_ast::Comma` (`tombi-ast/src/lib.rs:27-36`): the comments before and after the comma. -/
structure Comma where
  leading : List Text
  trailing : Option Text
  deriving DecidableEq, Repr

mutual
/-- `tombi_ast::{Value, KeyValue}`. `leading` and `trailing` are `AstNode::leading_comments` and
`trailing_comment` (`tombi-ast/src/lib.rs:27-36`); `start` is `bracket_start_trailing_comment` or
`brace_start_trailing_comment`; `source` is the text of the keys. -/
inductive Node where
  | lit (leading : List Text) (kind : SyntaxKind) (text : Text) (trailing : Option Text)
  | array (leading : List Text) (start : Option Text) (body : Body) (trailing : Option Text)
  | table (leading : List Text) (start : Option Text) (body : Body) (trailing : Option Text)
  | pair (leading : List Text) (keys : List AstKey) (source : Text) (value : Node)
/-- The dangling comment groups and the groups of items (`DanglingCommentGroupOr`) of an array, an inline table, a
table or the root, with `blank_lines_before` of each group; `first` of an item is the number of blank lines before
its group when it is the first of its group. -/
inductive Body where
  | nil
  | dangling (blank : Nat) (comments : List Text) (rest : Body)
  | item (first : Option Nat) (node : Node) (comma : Option Comma) (rest : Body)
end

/-- `tombi_ast::TableOrArrayOfTable`; `blank` is `blank_lines_before`. -/
structure Section where
  isArray : Bool
  blank : Nat
  leading : List Text
  header : List AstKey
  trailing : Option Text
  body : Body

/-- `tombi_ast::Root`. -/
structure Doc where
  body : Body
  sections : List Section

/-! ### settings -/

/-- `tombi-config/src/types/indent_style.rs` (`IndentStyle`). -/
inductive IndentStyle where
  | space | tab
  deriving DecidableEq, Repr

/-- `formatter/definitions.rs:12-34` (`FormatDefinitions`); strings of spaces are given by their length. -/
structure Definitions where
  lineWidth : Option Nat
  groupBlankLinesLimit : Nat
  tableBlankLines : Nat
  indentStyle : IndentStyle
  indentSubTables : Bool
  indentTableKeyValues : Bool
  indentWidth : Nat
  keyQuoteStyle : QuoteStyle
  stringQuoteStyle : QuoteStyle
  trailingCommentAlignment : Bool
  trailingCommentSpace : Nat
  keyValueEqualAlignment : Bool
  keyValueEqualSpace : Nat
  dateTimeDelimiter : Option Text
  arrayBracketSpace : Nat
  arrayCommaSpace : Nat
  commentPreserve : Bool
  inlineTableBraceSpace : Nat
  inlineTableCommaSpace : Nat

/-- The state of the formatter that an item does not change (`formatter.rs:16-27`): its settings, and
`renderComment strip text`, the text that `format_comment` (`format/comment.rs:125-194`) writes. -/
structure Env where
  defs : Definitions
  version : TomlVersion
  G : Segmenter
  lineEnding : Text
  skipComment : Bool
  singleLine : Bool
  renderComment : Bool → Text → Text

/-! ### the buffer -/

/-- A written word. -/
inductive Piece where
  | blank (text : Text)
  | newline
  | token (kind : SyntaxKind) (text : Text)
  | comment (text : Text)
  deriving DecidableEq, Repr

/-- The text of a piece. -/
def Piece.text (lineEnding : Text) : Piece → Text
  | .blank t => t
  | .newline => lineEnding
  | .token _ t => t
  | .comment t => t

/-- The text of the buffer. -/
def textOf (lineEnding : Text) (ps : List Piece) : Text := (ps.map (Piece.text lineEnding)).flatten

/-- `buf.split("\n").last()` (`formatter.rs:427-434`). -/
def lastLine (text : Text) : Text := (text.reverse.takeWhile (· ≠ '\n')).reverse

/-- `.graphemes(true).count()`. -/
def Env.width (E : Env) (text : Text) : Nat := (E.G.graphemes text).length

/-- `formatter.rs:427-434` (`current_line_width`). -/
def Env.lineWidth (E : Env) (pre : List Piece) : Nat := E.width (lastLine (textOf E.lineEnding pre))

/-- A run of spaces. -/
def spaces (n : Nat) : Piece := .blank (List.replicate n ' ')

/-- `formatter.rs:388-393` (`indent`): the product is a `u8`. -/
def Env.indent (E : Env) (depth : Nat) : Piece :=
  match E.defs.indentStyle with
  | .space => spaces (E.defs.indentWidth * depth % 256)
  | .tab => .blank (List.replicate depth '\t')

/-- `formatter.rs:396-404` (`write_indent`). -/
def Env.writeIndent (E : Env) (depth : Nat) (skip : Bool) : List Piece := if skip then [] else [E.indent depth]

/-- `formatter.rs:383-385` (`write_blank_lines`). -/
def blankLines (n : Nat) : List Piece := List.replicate (n + 1) .newline

/-- `format/comment.rs:60-70`, `:74-84`: between two groups. -/
def Env.separator (E : Env) (blank : Nat) : List Piece :=
  let n := min blank E.defs.groupBlankLinesLimit
  if n = 0 then [.newline] else blankLines n

/-- What comes before an item: a line break within a group, a separator between two groups. -/
def Env.before (E : Env) (written : Bool) : Option Nat → List Piece
  | none => [.newline]
  | some blank => if written then E.separator blank else []

/-! ### comments -/

/-- `format/comment.rs:94-111` (`Vec<LeadingComment>`): the comments after the first, which are not stripped. -/
def Env.leadingRest (E : Env) (depth : Nat) : List Text → List Piece
  | [] => []
  | c :: cs => E.indent depth :: .comment (E.renderComment false c) :: .newline :: E.leadingRest depth cs

/-- `format/comment.rs:94-111` (`Vec<LeadingComment>`). -/
def Env.leading (E : Env) (depth : Nat) (skip : Bool) (comments : List Text) : List Piece :=
  if E.skipComment then []
  else match comments with
    | [] => []
    | c :: cs =>
      E.writeIndent depth skip ++ .comment (E.renderComment true c) :: .newline :: E.leadingRest depth cs

/-- What `skip_indent` is after the leading comments: the first of them consumes it. -/
def Env.skipAfter (E : Env) (skip : Bool) (comments : List Text) : Bool :=
  skip && (E.skipComment || comments.isEmpty)

/-- `format.rs:49-57` (`write_trailing_comment_alignment_space`), with the guard around its calls. -/
def Env.alignSpace (E : Env) (pre : List Piece) : Option Nat → List Piece
  | none => []
  | some w => [spaces (w - E.lineWidth pre)]

/-- `format/comment.rs:113-123` (`TrailingComment`). -/
def Env.trailingComment (E : Env) (c : Text) : List Piece :=
  if E.skipComment then [] else [spaces E.defs.trailingCommentSpace, .comment (E.renderComment true c)]

/-- `format/value.rs:150-155` and the like: the trailing comment of an item, aligned. -/
def Env.trailing (E : Env) (pre : List Piece) (align : Option Nat) : Option Text → List Piece
  | none => []
  | some c => E.alignSpace pre align ++ E.trailingComment c

/-- `format/comment.rs:13-19`: the comments of a dangling group after the first. -/
def Env.danglingRest (E : Env) (depth : Nat) : List Text → List Piece
  | [] => []
  | c :: cs => .newline :: E.indent depth :: .comment (E.renderComment false c) :: E.danglingRest depth cs

/-- `format/comment.rs:7-22` (`DanglingCommentGroup`). -/
def Env.danglingGroup (E : Env) (depth : Nat) (comments : List Text) : List Piece :=
  if E.skipComment then []
  else match comments with
    | [] => []
    | c :: cs => E.indent depth :: .comment (E.renderComment true c) :: E.danglingRest depth cs

/-! ### keys and literals -/

/-- `format/key.rs:17-29`: one key. -/
def Env.keyText (E : Env) (k : AstKey) : Text :=
  (Format.formatKey E.defs.keyQuoteStyle k).getD (match k with | .bare t => t | .basic t => t | .literal t => t)

/-- The kind of the token of a key. -/
def keyKind : AstKey → SyntaxKind
  | .bare _ => BARE_KEY
  | .basic _ => BASIC_STRING
  | .literal _ => LITERAL_STRING

/-- The kind of the token written for a key: changing the quotes changes the kind. -/
def writtenKind (text : Text) (old : SyntaxKind) : SyntaxKind :=
  match old, text with
  | BASIC_STRING, '\'' :: _ => LITERAL_STRING
  | LITERAL_STRING, '"' :: _ => BASIC_STRING
  | k, _ => k

/-- One key as a piece. -/
def Env.key (E : Env) (k : AstKey) : Piece := .token (writtenKind (E.keyText k) (keyKind k)) (E.keyText k)

/-- `format/key.rs:15-29`: the keys joined by dots. -/
def Env.keyList (E : Env) : List AstKey → List Piece
  | [] => []
  | [k] => [E.key k]
  | k :: ks => E.key k :: .token DOT ['.'] :: E.keyList ks

/-- `str::lines` (`types/alignment_width.rs:22`): the text between the line feeds, without a final carriage return;
no last empty line. -/
def lines (text : Text) : List Text :=
  match text with
  | [] => []
  | c :: cs =>
    if c = '\n' then [] :: lines cs
    else match lines cs with
      | [] => [[c]]
      | l :: ls => (if c = '\r' ∧ l = [] ∧ cs.head? = some '\n' then [] else c :: l) :: ls

/-- `types/alignment_width.rs:19-27` (`AlignmentWidth::new`); the panic on an empty text reads as zero. -/
def Env.alignmentWidth (E : Env) (text : Text) : Nat := ((lines text).map E.width).foldr max 0

/-- `format/key.rs:12-39`: the keys, padded to `width`. -/
def Env.keys (E : Env) (ks : List AstKey) (width : Option Nat) : List Piece :=
  match width with
  | none => E.keyList ks
  | some w => E.keyList ks ++ [spaces (w - E.alignmentWidth (textOf E.lineEnding (E.keyList ks)))]

/-- `format/value/string.rs`, `date_time.rs` and `format/value.rs:139-149`: the text of a literal. -/
def Env.literalText (E : Env) (kind : SyntaxKind) (text : Text) : Text :=
  match kind with
  | BASIC_STRING => (Format.formatBasicString text E.defs.stringQuoteStyle).getD text
  | LITERAL_STRING => (Format.formatLiteralString text E.defs.stringQuoteStyle).getD text
  | OFFSET_DATE_TIME | LOCAL_DATE_TIME => (Format.formatDateTime E.defs.dateTimeDelimiter text).getD text
  | _ => text

/-- A literal as a piece. -/
def Env.literal (E : Env) (kind : SyntaxKind) (text : Text) : Piece :=
  .token (writtenKind (E.literalText kind text) kind) (E.literalText kind text)

/-! ### does a value take several lines? -/

/-- `AstNode::trailing_comment` (`tombi-ast/src/lib.rs:31-36`): the last token of the node, if it is a comment. -/
def Node.trailing : Node → Option Text
  | .lit _ _ _ t => t
  | .array _ _ _ t => t
  | .table _ _ _ t => t
  | .pair _ _ _ v => v.trailing

/-- `AstNode::leading_comments`. -/
def Node.leading : Node → List Text
  | .lit l _ _ _ => l
  | .array l _ _ _ => l
  | .table l _ _ _ => l
  | .pair l _ _ _ => l

/-- Comments around a comma. -/
def commaHasComment : Option Comma → Bool
  | none => false
  | some c => !c.leading.isEmpty || c.trailing.isSome

mutual
/-- `tombi-ast/src/support/comment.rs:105-112` (`contains_comment`), on a node. -/
def Node.hasComment : Node → Bool
  | .lit l _ _ t => !l.isEmpty || t.isSome
  | .array l s b t => !l.isEmpty || s.isSome || b.hasComment || t.isSome
  | .table l s b t => !l.isEmpty || s.isSome || b.hasComment || t.isSome
  | .pair l _ _ v => !l.isEmpty || v.hasComment
/-- `tombi-ast/src/support/comment.rs:105-112` (`contains_comment`), on the groups between the brackets. -/
def Body.hasComment : Body → Bool
  | .nil => false
  | .dangling _ cs rest => !cs.isEmpty || rest.hasComment
  | .item _ n c rest => n.hasComment || commaHasComment c || rest.hasComment
end

/-- `tombi-ast/src/impls/array.rs:112-125` and `inline_table.rs:102-115` (`has_last_value_trailing_comma`,
`has_last_key_value_trailing_comma`): the last item has a comma. -/
def Body.lastComma : Body → Bool → Bool
  | .nil, b => b
  | .dangling _ _ rest, b => rest.lastComma b
  | .item _ _ c rest, _ => rest.lastComma c.isSome

/-- `tombi-ast/src/impls/inline_table.rs:155-174` (`has_direct_inner_comments`), the part on the groups. -/
def Body.hasDirectComment : Body → Bool
  | .nil => false
  | .dangling _ _ _ => true
  | .item _ n c rest =>
    !n.leading.isEmpty || n.trailing.isSome || commaHasComment c || rest.hasDirectComment

mutual
/-- `tombi-ast/src/impls/array.rs:138-151` and `inline_table.rs:128-141`: a value that takes several lines. -/
def Node.multiline (v : TomlVersion) : Node → Bool
  | .lit _ k t _ => (k == MULTI_LINE_BASIC_STRING || k == MULTI_LINE_LITERAL_STRING) && t.contains '\n'
  | .array _ s b _ => b.lastComma false || b.multiline v || (s.isSome || b.hasComment)
  | .table _ s b _ =>
    if v = .V1_0_0 then s.isSome || b.hasDirectComment
    else b.lastComma false || b.multiline v || (s.isSome || b.hasComment)
  | .pair _ _ _ n => n.multiline v
/-- `tombi-ast/src/impls/array.rs:128-157` and `inline_table.rs:118-147` (`has_multiline_values`). A dangling
comment group before the first item is not in the list there; the group is a comment, so that `should_be_multiline`
(`array.rs:105-109`, `inline_table.rs:91-99`) is the same. -/
def Body.multiline (v : TomlVersion) : Body → Bool
  | .nil => false
  | .dangling _ _ _ => true
  | .item _ n _ rest => n.multiline v || rest.multiline v
end

/-- `tombi-ast/src/impls/array.rs:105-109` (`should_be_multiline`). -/
def Env.arrayMultiline (E : Env) (start : Option Text) (b : Body) : Bool :=
  b.lastComma false || b.multiline E.version || (start.isSome || b.hasComment)

/-- `tombi-ast/src/impls/inline_table.rs:91-99` (`should_be_multiline`). -/
def Env.tableMultiline (E : Env) (start : Option Text) (b : Body) : Bool :=
  if E.version = .V1_0_0 then start.isSome || b.hasDirectComment
  else b.lastComma false || b.multiline E.version || (start.isSome || b.hasComment)

/-- Whether there is an item. -/
def Body.hasItem : Body → Bool
  | .nil => false
  | .dangling _ _ rest => rest.hasItem
  | .item .. => true

/-- `formatter.rs:358-370` (`key_value_equal_alignment_width`) over all items. -/
def Env.equalWidths (E : Env) : Body → Option Nat
  | .nil => none
  | .dangling _ _ rest => E.equalWidths rest
  | .item _ n _ rest =>
    match n with
    | .pair _ _ source _ => some (max (E.alignmentWidth source) ((E.equalWidths rest).getD 0))
    | _ => E.equalWidths rest

/-- `formatter.rs:358-370` (`key_value_equal_alignment_width`) for an inline table
(`format/value/inline_table.rs:112-113`). -/
def Env.equalWidth (E : Env) (b : Body) : Option Nat :=
  if E.defs.keyValueEqualAlignment then E.equalWidths b else none

/-! ### values -/

/-- `format/value/array.rs:198-219` and `inline_table.rs:214-235`: the comma after an item of a multi-line value;
`hasTrailing` says that the item ends with a comment. -/
def Env.comma (E : Env) (pre : List Piece) (depth : Nat) (align : Option Nat) (hasTrailing : Bool) :
    Option Comma → List Piece
  | none => []
  | some c =>
    let before :=
      if !c.leading.isEmpty then .newline :: E.leading depth false c.leading ++ [E.indent depth]
      else if hasTrailing then [.newline, E.indent depth]
      else []
    let here := before ++ [.token COMMA [',']]
    here ++ E.trailing (pre ++ here) align c.trailing

/-- `format/value/array.rs:69-75` and `inline_table.rs:76-82`: the width of the trailing comment. The space is
counted twice. -/
def Env.trailingWidth (E : Env) : Option Text → Nat
  | none => 0
  | some c => E.defs.trailingCommentSpace + E.width (textOf E.lineEnding (E.trailingComment c))

mutual
/-- `Format for WithAlignmentHint<&Value>` (`format/value.rs:22-123` with `format/value/*.rs`) and
`WithAlignmentHint<&KeyValue>` (`format/key_value.rs:15-47`): what an item writes after `pre`, at indent depth `d`;
`skip` is `skip_indent`, `eqw` and `al` are the two alignment widths. -/
def fmt (E : Env) (pre : List Piece) (d : Nat) (skip : Bool) (eqw al : Option Nat) : Node → List Piece
  | .lit l k t tr =>
    let here := E.leading d skip l ++ E.writeIndent d (E.skipAfter skip l) ++ [E.literal k t]
    here ++ E.trailing (pre ++ here) al tr
  | .array l s b tr =>
    let long := tooLong E pre d skip (E.lineWidth pre + 2 + E.defs.arrayBracketSpace * 2) true
      E.defs.arrayCommaSpace (E.trailingWidth tr) b
    let head := E.leading d skip l ++ E.writeIndent d (E.skipAfter skip l) ++ [.token BRACKET_START ['[']]
    let here :=
      if !E.singleLine && (E.arrayMultiline s b || long) then
        let open_ := head ++ E.trailing (pre ++ head) al s ++ [.newline]
        open_ ++ fmtGroups E (pre ++ open_) (d + 1) false none al b
          ++ [.newline, E.indent d, .token BRACKET_END [']']]
      else if b.hasItem then
        let open_ := head ++ [spaces E.defs.arrayBracketSpace]
        open_ ++ fmtItems E (pre ++ open_) d true al E.defs.arrayCommaSpace b
          ++ [spaces E.defs.arrayBracketSpace, .token BRACKET_END [']']]
      else head ++ [.token BRACKET_END [']']]
    here ++ E.trailing (pre ++ here) al tr
  | .table l s b tr =>
    let long := E.version ≠ .V1_0_0 &&
      tooLong E pre d skip (E.lineWidth pre + 2 + E.defs.inlineTableBraceSpace * 2) true
        E.defs.inlineTableCommaSpace (E.trailingWidth tr) b
    let head := E.leading d skip l ++ E.writeIndent d (E.skipAfter skip l) ++ [.token BRACE_START ['{']]
    let here :=
      if !E.singleLine && (E.tableMultiline s b || long) then
        let open_ := head ++ E.trailing (pre ++ head) al s ++ [.newline]
        open_ ++ fmtGroups E (pre ++ open_) (d + 1) false (E.equalWidth b) al b
          ++ [.newline, E.indent d, .token BRACE_END ['}']]
      else if b.hasItem then
        let open_ := head ++ [spaces E.defs.inlineTableBraceSpace]
        open_ ++ fmtItems E (pre ++ open_) d true al E.defs.inlineTableCommaSpace b
          ++ [spaces E.defs.inlineTableBraceSpace, .token BRACE_END ['}']]
      else head ++ [.token BRACE_END ['}']]
    here ++ E.trailing (pre ++ here) al tr
  | .pair l ks _ v =>
    let here := E.leading d skip l ++ E.writeIndent d (E.skipAfter skip l) ++ E.keys ks eqw
      ++ [spaces E.defs.keyValueEqualSpace, .token EQUAL ['='], spaces E.defs.keyValueEqualSpace]
    here ++ fmt E (pre ++ here) d true none al v
/-- `Format for Vec<DanglingCommentGroupOr<T>>` (`format/comment.rs:50-92`) with the groups of an array
(`format/value/array.rs:178-224`) or an inline table (`inline_table.rs:190-239`); `written` is
`has_written_group`. -/
def fmtGroups (E : Env) (pre : List Piece) (d : Nat) (written : Bool) (eqw al : Option Nat) : Body → List Piece
  | .nil => []
  | .dangling blank cs rest =>
    if E.skipComment then fmtGroups E pre d written eqw al rest
    else
      let here := (if written then E.separator blank else []) ++ E.danglingGroup d cs
      here ++ fmtGroups E (pre ++ here) d true eqw al rest
  | .item first n c rest =>
    let sep := E.before written first
    let here := sep ++ fmt E (pre ++ sep) d false eqw al n
    let here := here ++ E.comma (pre ++ here) d al n.trailing.isSome c
    here ++ fmtGroups E (pre ++ here) d true eqw al rest
/-- `format/value/array.rs:153-163` and `inline_table.rs:165-175`: the items of a single-line value. -/
def fmtItems (E : Env) (pre : List Piece) (d : Nat) (first : Bool) (al : Option Nat) (commaSpace : Nat) :
    Body → List Piece
  | .nil => []
  | .dangling _ _ rest => fmtItems E pre d first al commaSpace rest
  | .item _ n _ rest =>
    let here := if first then [] else [.token COMMA [','], spaces commaSpace]
    let here := here ++ fmt E (pre ++ here) d true none al n
    here ++ fmtItems E (pre ++ here) d false al commaSpace rest
/-- `exceeds_line_width` (`format/value/array.rs:29-79`, `inline_table.rs:30-86`): `length` is the length so far,
`first` says that no item came before, `tail` is the width of the trailing comment. A nested call sees the same
buffer, as `format_to_string` restores it. -/
def tooLong (E : Env) (pre : List Piece) (d : Nat) (skip : Bool) (length : Nat) (first : Bool) (commaSpace tail : Nat) :
    Body → Bool
  | .nil => match E.defs.lineWidth with
    | none => false
    | some w => decide (w < length + tail)
  | .dangling _ _ rest => tooLong E pre d skip length first commaSpace tail rest
  | .item _ n _ rest =>
    nestedTooLong E pre d skip n ||
      tooLong E pre d skip
        (length + (if first then 0 else 1 + commaSpace) + E.width (textOf E.lineEnding (fmt E [] d skip none none n)))
        false commaSpace tail rest
/-- `format/value/array.rs:45-54` and `inline_table.rs:49-60`: a nested value takes several lines. -/
def nestedTooLong (E : Env) (pre : List Piece) (d : Nat) (skip : Bool) : Node → Bool
  | .lit .. => false
  | .array _ s b tr =>
    E.arrayMultiline s b ||
      tooLong E pre d skip (E.lineWidth pre + 2 + E.defs.arrayBracketSpace * 2) true E.defs.arrayCommaSpace
        (E.trailingWidth tr) b
  | .table _ s b tr =>
    E.tableMultiline s b ||
      (E.version ≠ .V1_0_0 &&
        tooLong E pre d skip (E.lineWidth pre + 2 + E.defs.inlineTableBraceSpace * 2) true
          E.defs.inlineTableCommaSpace (E.trailingWidth tr) b)
  | .pair _ _ _ v => nestedTooLong E pre d skip v
end

/-! ### groups of key-values -/

/-- The items that continue the group at the head. -/
def Body.continued : Body → List Node
  | .item none n _ rest => n :: rest.continued
  | _ => []

/-- `formatter.rs:358-370` (`key_value_equal_alignment_width`) for a group. -/
def Env.groupEqualWidth (E : Env) (group : List Node) : Option Nat :=
  if E.defs.keyValueEqualAlignment then
    (group.filterMap fun n => match n with
      | .pair _ _ source _ => some (E.alignmentWidth source)
      | _ => none).foldr (fun w acc => some (max w (acc.getD 0))) none
  else none

/-- `formatter.rs:271-294` (`trailing_comment_alignment_width`) for a group. -/
def Env.groupAlignWidth (E : Env) (d : Nat) (eqw : Option Nat) (group : List Node) : Option Nat :=
  if E.defs.trailingCommentAlignment then
    (group.map fun n => E.alignmentWidth
      (textOf E.lineEnding (fmt { E with skipComment := true } [] d false eqw none n))).foldr
      (fun w acc => some (max w (acc.getD 0))) none
  else none

/-- `format/key_value.rs:49-60`: the first item of a group computes the width for the group. -/
def Env.nextEqualWidth (E : Env) (eqw : Option Nat) (first : Option Nat) (group : List Node) : Option Nat :=
  match first with
  | none => eqw
  | some _ => E.groupEqualWidth group

/-- `format/key_value.rs:49-60`: the first item of a group computes the width for the group. -/
def Env.nextAlignWidth (E : Env) (d : Nat) (eqw al : Option Nat) (first : Option Nat) (group : List Node) : Option Nat :=
  match first with
  | none => al
  | some _ => E.groupAlignWidth d eqw group

/-- `format/key_value.rs:72-109`: the comma after a key-value pair of a table, which is kept only when there are
comments that need it. -/
def Env.tableComma (E : Env) (pre : List Piece) (d : Nat) (al : Option Nat) (hasTrailing : Bool) :
    Option Comma → List Piece
  | none => []
  | some c =>
    match c.trailing with
    | some t =>
      if c.leading.isEmpty && !hasTrailing then E.alignSpace pre al ++ E.trailingComment t
      else
        let here := .newline :: (if c.leading.isEmpty then [] else E.leading d false c.leading)
          ++ [E.indent d, .token COMMA [',']]
        here ++ E.alignSpace (pre ++ here) al ++ E.trailingComment t
    | none =>
      if c.leading.isEmpty then []
      else .newline :: E.leading d false c.leading ++ [E.indent d, .token COMMA [',']]

/-- `Format for Vec<DanglingCommentGroupOr<KeyValueGroup>>` (`format/comment.rs:50-92`) with `KeyValueGroup`
(`format/key_value.rs:49-114`); `eqw` and `al` are the widths of the current group. -/
def fmtPairs (E : Env) (pre : List Piece) (d : Nat) (written : Bool) (eqw al : Option Nat) : Body → List Piece
  | .nil => []
  | .dangling blank cs rest =>
    if E.skipComment then fmtPairs E pre d written eqw al rest
    else
      let here := (if written then E.separator blank else []) ++ E.danglingGroup d cs
      here ++ fmtPairs E (pre ++ here) d true eqw al rest
  | .item first n c rest =>
    let eqw := E.nextEqualWidth eqw first (n :: rest.continued)
    let al := E.nextAlignWidth d eqw al first (n :: rest.continued)
    let sep := E.before written first
    let here := sep ++ fmt E (pre ++ sep) d false eqw al n
    let here := here ++ E.tableComma (pre ++ here) d al n.trailing.isSome c
    here ++ fmtPairs E (pre ++ here) d true eqw al rest

/-- `groups.is_empty()`. -/
def Body.isEmpty : Body → Bool
  | .nil => true
  | _ => false

/-! ### tables -/

/-- `tombi-ast/src/impls/key.rs:33-47` (`try_to_raw_text`); a panic or an error is `none`. -/
def rawKey? (v : TomlVersion) : AstKey → Option Text
  | .bare t => (TomlText.tryFromBareKey t).toOption
  | .basic t => (TomlText.tryFromBasicString t v).bind (·.toOption)
  | .literal t => (TomlText.tryFromLiteralString t).bind (·.toOption)

/-- `tombi-ast/src/impls/key.rs:28-31` (`to_raw_text`). -/
def rawKey (v : TomlVersion) (k : AstKey) : Text :=
  (rawKey? v k).getD (match k with | .bare t => t | .basic t => t | .literal t => t)

/-- `tombi-ast/src/impls/key.rs:80-95` (`starts_with`): compared as in the latest version of TOML. -/
def startsWith : List AstKey → List AstKey → Bool
  | _, [] => true
  | [], _ :: _ => false
  | a :: as, b :: bs =>
    (match rawKey? .V1_1_0 a, rawKey? .V1_1_0 b with
      | some x, some y => x == y
      | _, _ => false) && startsWith as bs

/-- `tombi-ast/src/impls/key.rs:97-99` (`same_as`). -/
def sameAs (a b : List AstKey) : Bool := a.length == b.length && startsWith a b

/-- The test of `take_while` in `parent_table_or_array_of_table_keys` (`tombi-ast/src/impls/table.rs:131-145`). -/
def sameFirst (v : TomlVersion) : List AstKey → List AstKey → Bool
  | a :: _, b :: _ =>
    (match rawKey? v a, rawKey? v b with
      | some x, some y => x == y
      | _, _ => false)
  | _, _ => false

/-- `parent_table_or_array_of_table_keys` (`tombi-ast/src/impls/table.rs:124-152`, `array_of_table.rs`) with
`filter_map_unique_keys` (`format.rs:59-68`): the number of headers above `header`, the preceding headers being given
from the nearest on. -/
def parentCount (v : TomlVersion) (preceding : List (List AstKey)) (header : List AstKey) : Nat :=
  (((preceding.takeWhile (sameFirst v header)).filter (startsWith header ·)).filter
    (fun ks => ks.length < header.length)).map (·.map (rawKey v)) |>.eraseDups.length

/-- `Format for Table` and `ArrayOfTable` (`format/table.rs:8-63`, `format/array_of_table.rs:8-63`). -/
def fmtSection (E : Env) (pre : List Piece) (preceding : List (List AstKey)) (s : Section) : List Piece :=
  let d := if E.defs.indentSubTables then parentCount E.version preceding s.header else 0
  let here := E.leading d false s.leading ++ [E.indent d]
    ++ (if s.isArray then [.token DOUBLE_BRACKET_START ['[', '[']] else [.token BRACKET_START ['[']])
    ++ E.keys s.header none
    ++ (if s.isArray then [.token DOUBLE_BRACKET_END [']', ']']] else [.token BRACKET_END [']']])
    ++ E.trailing [] none s.trailing
  let d' := if E.defs.indentTableKeyValues then d + 1 else d
  if s.body.isEmpty then here
  else
    let here := here ++ [.newline]
    here ++ fmtPairs E (pre ++ here) d' false none none s.body

/-- `table.key_values().count()`. -/
def Body.itemCount : Body → Nat
  | .nil => 0
  | .dangling _ _ rest => rest.itemCount
  | .item _ _ _ rest => rest.itemCount + 1

/-- `table.dangling_comment_groups().next().is_some()`: the first group is a dangling comment group. -/
def Body.startsDangling : Body → Bool
  | .dangling .. => true
  | _ => false

/-- `format/root.rs:60-82` and `:97-129`: whether blank lines are written between two headers. -/
def blankBetween (prev s : Section) : Bool :=
  let common := decide (prev.body.itemCount > 0) || !startsWith s.header prev.header || prev.body.startsDangling
  if s.isArray && prev.isArray then common || sameAs prev.header s.header
  else common || !s.leading.isEmpty

/-- `Format for Vec<TableOrArrayOfTable>` (`format/root.rs:47-144`): the sections after the first one, `prev`;
`preceding` are the headers before, from the nearest on. -/
def fmtSections (E : Env) (pre : List Piece) (preceding : List (List AstKey)) (prev : Section) :
    List Section → List Piece
  | [] => []
  | s :: ss =>
    let sep := .newline :: (if blankBetween prev s then List.replicate E.defs.tableBlankLines .newline else [])
    let here := sep ++ fmtSection E (pre ++ sep) preceding s
    here ++ fmtSections E (pre ++ here) (s.header :: preceding) s ss

/-- Whether all groups are dangling comment groups (`key_value_groups_is_empty` of `format/root.rs:15`: the groups
from the first item on). -/
def Body.noItem (b : Body) : Bool := !b.hasItem

/-- `format/root.rs:29-41`: between the key-value pairs of the root and the first header. -/
def Env.rootSeparator (E : Env) (b : Body) (s : Section) : List Piece :=
  if b.isEmpty then []
  else blankLines (if b.noItem then min s.blank E.defs.groupBlankLinesLimit else E.defs.tableBlankLines)

/-- `Format for Root` (`format/root.rs:8-45`). -/
def fmtDoc (E : Env) (doc : Doc) : List Piece :=
  let here := fmtPairs E [] 0 false none none doc.body
  match doc.sections with
  | [] => here
  | s :: ss =>
    let here := here ++ E.rootSeparator doc.body s
    let here := here ++ fmtSection E here [] s
    here ++ fmtSections E here [s.header] s ss

/-- `formatter.rs:160-170`: the end of `Formatter::format`. -/
def formatDoc (E : Env) (doc : Doc) : Text :=
  let buf := textOf E.lineEnding (fmtDoc E doc)
  if buf.isEmpty then buf else buf ++ E.lineEnding

end Tombi.Formatter
