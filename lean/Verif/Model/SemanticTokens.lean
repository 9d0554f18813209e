import Verif.Model.TextOps
import Verif.Model.Format
/-!
Model of the semantic tokens of the language server: the builder that writes the highlighted elements as differences
(`crates/tombi-lsp/src/semantic_tokens/builder.rs`), the token types and the legend (`semantic_tokens/token_type.rs`),
and the directives of comments (`semantic_tokens/comment.rs`, `tombi-ast/src/impls/comment.rs`). The traversal that
finds the elements of a document is not modelled: the builder is given the elements in the order of the traversal.
-/
namespace Tombi.SemanticTokens
open Tombi

/-- `token_type.rs:33-51` (`TokenType`). -/
inductive TokenType where
  | string | number | operator | comment | keyword
  | table | key | boolean | offsetDateTime | localDateTime | localDate | localTime
  deriving DecidableEq, Repr

/-- `token_type as u32` (`builder.rs:35`): the place of the variant in `token_type.rs:33-51`. -/
def TokenType.index : TokenType → Nat
  | .string => 0 | .number => 1 | .operator => 2 | .comment => 3 | .keyword => 4
  | .table => 5 | .key => 6 | .boolean => 7 | .offsetDateTime => 8 | .localDateTime => 9 | .localDate => 10
  | .localTime => 11

/-- `token_type.rs:26-29` (`SUPPORTED_TOKEN_TYPES`), the legend of `handler/initialize.rs:163-166`. The standard types
have their names from `lsp_types`. -/
def legend : List String :=
  ["string", "number", "operator", "comment", "keyword", "table", "key", "boolean", "offsetDateTime", "localDateTime",
   "localDate", "localTime"]

/-- `lsp_types::SemanticToken`, without `token_modifiers_bitset`, which is always 0. -/
structure SemanticToken where
  deltaLine : Nat
  deltaStart : Nat
  length : Nat
  tokenType : Nat
  deriving DecidableEq, Repr

/-- `builder.rs:8-13` (`SemanticTokensBuilder`), with the fields that change. -/
structure Builder where
  tokens : List SemanticToken
  last : Range
  deriving DecidableEq, Repr

/-- `builder.rs:16-23` (`new`). -/
def Builder.new : Builder := ⟨[], Range.zero⟩

/-- `builder.rs:92-106` (`delta_line_and_start`); `none` is the overflow of a subtraction of `u32`. -/
def deltaLineAndStart (G : Segmenter) (start stop : Position) (ix : LineIndex) : Option (Nat × Nat) :=
  let a := start.intoLsp G ix
  let b := stop.intoLsp G ix
  (offsetCheckedSub b.line a.line).bind fun line =>
    (if line = 0 then offsetCheckedSub b.character a.character else some b.character).map fun start => (line, start)

/-- `builder.rs:123-146`: what the line `line` adds to the length of a token of several lines. `size_hint().1` of the
graphemes is the number of bytes of the text. -/
def lineLength (G : Segmenter) (range : Range) (ix : LineIndex) (line : Nat) : Nat :=
  ((ix.lineText line).map fun text =>
    (((G.graphemes text).drop (if line = range.start.line then range.start.column else 0)).take
      (if line = range.stop.line then range.stop.column else utf8Len text)).foldl
        (fun acc g => acc + ix.encoding.measure g) 0).getD 0

/-- `builder.rs:108-149` (`token_length`); `none` is the overflow of the subtraction of the columns. -/
def tokenLength (G : Segmenter) (range : Range) (ix : LineIndex) : Option Nat :=
  if range.start.line = range.stop.line then
    match ix.lineText range.start.line with
    | none => some 0
    | some text =>
      (offsetCheckedSub range.stop.column range.start.column).map fun n =>
        (((G.graphemes text).drop range.start.column).take n).foldl (fun acc g => acc + ix.encoding.measure g) 0
  else
    some ((List.range' range.start.line (range.stop.line + 1 - range.start.line)).foldl
      (fun acc line => acc + lineLength G range ix line) 0)

/-- `builder.rs:25-41` (`add_token`). -/
def Builder.addToken (G : Segmenter) (ix : LineIndex) (b : Builder) (t : TokenType) (range : Range) : Option Builder :=
  (deltaLineAndStart G b.last.start range.start ix).bind fun d =>
    (tokenLength G range ix).map fun n => ⟨b.tokens ++ [⟨d.1, d.2, n, t.index⟩], range⟩

/-- `builder.rs:43-85` (`add_comment_directive`). -/
def Builder.addCommentDirective (G : Segmenter) (ix : LineIndex) (b : Builder) (comment directive : Range) :
    Option Builder :=
  let d := directive.intoLsp G ix
  (deltaLineAndStart G b.last.start comment.start ix).bind fun delta =>
    let c := comment.intoLsp G ix
    (offsetCheckedSub d.start.character c.start.character).bind fun prefixLen =>
      (offsetCheckedSub d.stop.character d.start.character).bind fun directiveLen =>
        (offsetCheckedSub c.stop.character d.stop.character).map fun contentLen =>
          ⟨b.tokens ++ [⟨delta.1, delta.2, prefixLen, TokenType.comment.index⟩,
            ⟨0, prefixLen, directiveLen, TokenType.keyword.index⟩,
            ⟨0, directiveLen, contentLen, TokenType.comment.index⟩], comment⟩

/-- What the traversal gives to the builder: an element with its type, or a comment with the range of its directive. -/
inductive Element where
  | token (t : TokenType) (range : Range)
  | directive (comment directive : Range)
  deriving DecidableEq, Repr

/-- one call of the traversal -/
def Builder.add (G : Segmenter) (ix : LineIndex) (b : Builder) : Element → Option Builder
  | .token t r => b.addToken G ix t r
  | .directive c d => b.addCommentDirective G ix c d

/-- the calls of the traversal, in order -/
def Builder.addAll (G : Segmenter) (ix : LineIndex) : Builder → List Element → Option Builder
  | b, [] => some b
  | b, e :: es => (b.add G ix e).bind fun b' => Builder.addAll G ix b' es

/-- `handler/semantic_tokens_full.rs:24-32`, for the elements of a document; `build` is `builder.rs:87-89`. -/
def semanticTokens (G : Segmenter) (ix : LineIndex) (es : List Element) : Option (List SemanticToken) :=
  (Builder.new.addAll G ix es).map Builder.tokens

/-! ### directives of comments -/

/-- `tombi-ast/src/impls/comment.rs:119-149` (`get_tombi_value_directive`), the range of the directive. The outer `none`
is the panic of `[1..]`. -/
def valueDirectiveRange (text : List Char) (range : Range) : Option (Option Range) :=
  (byteDrop 1 text).map fun t =>
    let content := Format.trimStart t
    (Format.stripPrefix Format.valuePrefix content).map fun _ =>
      let prefixLen := utf8Len text - utf8Len content
      Range.new ⟨range.start.line, range.start.column + prefixLen⟩ ⟨range.start.line, range.start.column + prefixLen + 6⟩

/-- `comment.rs:86-100` (`get_tombi_document_directive`), the range of the directive. -/
def documentDirectiveRange (text : List Char) (range : Range) : Option Range :=
  (Format.stripPrefix Format.documentPrefix text).map fun _ =>
    Range.new ⟨range.start.line, range.start.column + 1⟩ ⟨range.start.line, range.start.column + 7⟩

/-- `comment.rs:12-30` (`get_document_schema_directive`), the range of the directive. -/
def schemaDirectiveRange (text : List Char) (range : Range) : Option Range :=
  (Format.stripPrefix Format.schemaPrefix text).map fun _ => Range.new ⟨range.start.line, 1⟩ ⟨range.stop.line, 8⟩

/-- `semantic_tokens/comment.rs:5-13`: a comment of the document. -/
def commentElement (text : List Char) (range : Range) : Option Element :=
  (valueDirectiveRange text range).map fun d =>
    match d with
    | some directive => .directive range directive
    | none => .token .comment range

/-- `semantic_tokens/root.rs:8-29`: a comment before the first item. `schema` is the range of the schema directive of the
document, if it has one. -/
def headElement (schema : Option Range) (text : List Char) (range : Range) : Option Element :=
  match schema.filter fun s => range.contains s.start with
  | some s => some (.directive range s)
  | none =>
    match documentDirectiveRange text range with
    | some d => some (.directive range d)
    | none => commentElement text range

end Tombi.SemanticTokens
