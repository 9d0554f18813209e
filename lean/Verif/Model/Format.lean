import Verif.Model.TomlText
import Verif.Model.Tree
/-!
Model of the leaves of the formatter (`crates/tombi-formatter/src/format.rs`, `format/comment.rs`,
`format/key.rs`, `format/value/string.rs`, `format/value/date_time.rs`): quote styles, comment texts, keys and
date-time delimiters. A result `none` is a panic.
-/
namespace Tombi.Format
open TomlText

/-- `tombi-config/src/types/string_quote_style.rs` (`StringQuoteStyle`). -/
inductive QuoteStyle where
  | double
  | single
  | preserve
  deriving DecidableEq, Repr

/-- `format.rs:26-33` (`requote_string`). -/
def requoteString (text : List Char) (quote : Char) : Option (List Char) :=
  if text.contains '\\' || text.contains quote then some text
  else (inner 1 text).map fun s => quote :: (s ++ [quote])

/-- `format.rs:35-40` (`format_basic_string_quote_style`), used by `format/value/string.rs:13-36`. -/
def formatBasicString (text : List Char) : QuoteStyle → Option (List Char)
  | .double => some text
  | .preserve => some text
  | .single => requoteString text '\''

/-- `format.rs:42-47` (`format_literal_string_quote_style`). -/
def formatLiteralString (text : List Char) : QuoteStyle → Option (List Char)
  | .single => some text
  | .preserve => some text
  | .double => requoteString text '"'

/-- `tombi_ast::Key`: the kind of a key and the text of its token. -/
inductive AstKey where
  | bare (text : List Char)
  | basic (text : List Char)
  | literal (text : List Char)
  deriving DecidableEq, Repr

/-- `format/key.rs:17-29`: one key. -/
def formatKey (style : QuoteStyle) : AstKey → Option (List Char)
  | .bare text => some text
  | .basic text => formatBasicString text style
  | .literal text => formatLiteralString text style

/-- `.join(".")` (`format/key.rs:30`). -/
def joinDots : List (List Char) → List Char
  | [] => []
  | [k] => k
  | k :: ks => k ++ '.' :: joinDots ks

/-- `format/key.rs:12-39`: the keys of a key-value pair or header. `pad` is the number of spaces of
`:32-36`; how it is computed (from grapheme counts) is not modelled. -/
def formatKeys (style : QuoteStyle) (pad : Nat) (keys : List AstKey) : Option (List Char) :=
  (keys.mapM (formatKey style)).map fun ks => joinDots ks ++ List.replicate pad ' '

/-- `format/value/date_time.rs:21-25`: the text of a date-time; `String::replace_range(10..11, delimiter)`
panics when one of the two is not a character boundary. The delimiter is `formatter/definitions.rs:116-125`. -/
def formatDateTime (delimiter : Option (List Char)) (text : List Char) : Option (List Char) :=
  match delimiter with
  | none => some text
  | some d =>
    match byteTake 10 text, byteDrop 11 text with
    | some a, some b => some (a ++ d ++ b)
    | _, _ => none

/-! ### comments -/

/-- `"#:schema "`; the prefixes are given as lists of characters -/
def schemaPrefix : List Char := ['#', ':', 's', 'c', 'h', 'e', 'm', 'a', ' ']
/-- `"#:tombi "` -/
def documentPrefix : List Char := ['#', ':', 't', 'o', 'm', 'b', 'i', ' ']
/-- `"tombi:"` -/
def valuePrefix : List Char := ['t', 'o', 'm', 'b', 'i', ':']

/-- `str::strip_prefix`. -/
def stripPrefix : List Char → List Char → Option (List Char)
  | [], s => some s
  | _ :: _, [] => none
  | p :: ps, c :: cs => if p = c then stripPrefix ps cs else none

/-- `str::trim_start`. -/
def trimStart (s : List Char) : List Char := s.dropWhile charIsWhitespace

/-- `str::trim`. -/
def trim (s : List Char) : List Char := ((trimStart s).reverse.dropWhile charIsWhitespace).reverse

/-- `u8::is_ascii_whitespace`: space, tab, line feed, form feed, carriage return. -/
def isAsciiWhitespace (c : Char) : Bool :=
  c == ' ' || c == '\t' || c == '\n' || c == '\x0c' || c == '\r'

/-- `str::trim_ascii_end`. -/
def trimAsciiEnd (s : List Char) : List Char := (s.reverse.dropWhile isAsciiWhitespace).reverse

/-- the content of `Comment::get_document_schema_directive` before it is read as a URI or path
(`tombi-ast/src/impls/comment.rs:12-20`). -/
def schemaDirective (comment : List Char) : Option (List Char) :=
  (stripPrefix schemaPrefix comment).map fun uri => trim (uri.dropWhile (· == ' '))

/-- the content of `Comment::get_tombi_document_directive` (`tombi-ast/src/impls/comment.rs:86-113`). -/
def documentDirective (comment : List Char) : Option (List Char) := stripPrefix documentPrefix comment

/-- the content of `Comment::get_tombi_value_directive` (`tombi-ast/src/impls/comment.rs:119-149`): the text
after `tombi:`; the outer `none` is the panic of `[1..]`. -/
def valueDirective (comment : List Char) : Option (Option (List Char)) :=
  (byteDrop 1 comment).map fun t => stripPrefix valuePrefix (trimStart t)

/-- `formatter.rs:173-184` (`format_tombi_comment_directive_content`). `fmt` is the parser followed by the
formatter in its single-line mode: `none` when the content has syntax errors. -/
def directiveContent (fmt : List Char → Option (List Char)) (content : List Char) : List Char :=
  match fmt content with
  | none => trim content
  | some formatted => formatted

/-- a blank of `format/comment.rs:178` and `:182` -/
def isBlank (c : Char) : Bool := c == ' ' || c == '\t'

/-- `format/comment.rs:176-190`: after the prefix, with `c` the next character and `iter` what follows. -/
def commentText (strip : Bool) (c : Char) (iter : List Char) : List Char :=
  if !isBlank c then ' ' :: c :: iter
  else if strip then ' ' :: iter.dropWhile isBlank
  else ' ' :: iter

/-- `format/comment.rs:164-173`: the loop over repeated `#`, with `c` the next character. -/
def commentHashes (strip : Bool) (c : Char) : List Char → List Char
  | [] => if c = '#' then ['#'] else commentText strip c []
  | d :: ds => if c = '#' then '#' :: commentHashes strip d ds else commentText strip c (d :: ds)

/-- `format/comment.rs:155-190`: a comment that is no directive, after its first character. -/
def plainComment (strip : Bool) : List Char → List Char
  | [] => []
  | c :: iter =>
    if c = '!' then
      match iter with
      | [] => ['!']
      | d :: ds => '!' :: commentText strip d ds
    else if c = '#' then commentHashes strip c iter
    else commentText strip c iter

/-- `format/comment.rs:150-152`: the first character, then the rest; `none` is the panic of `unwrap`. -/
def formatPlain (strip : Bool) (comment : List Char) : Option (List Char) :=
  match trimAsciiEnd comment with
  | [] => none
  | h :: t => some (h :: plainComment strip t)

/-- `format/comment.rs:127-191` (`format_comment`). `preserve` says that the comment style is `Preserve`. -/
def formatComment (preserve : Bool) (fmt : List Char → Option (List Char)) (strip : Bool)
    (comment : List Char) : Option (List Char) :=
  if preserve then some comment
  else
    match stripPrefix schemaPrefix comment with
    | some uri => some (schemaPrefix ++ trim uri)
    | none =>
      match stripPrefix documentPrefix comment with
      | some content => some (documentPrefix ++ directiveContent fmt content)
      | none =>
        match valueDirective comment with
        | none => none
        | some (some content) => some (('#' :: ' ' :: (valuePrefix ++ [' '])) ++ directiveContent fmt content)
        | some none => formatPlain strip comment

end Tombi.Format
