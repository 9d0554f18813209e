import Verif.Model.AstDoc
/-!
Specification for the formatter of whole documents: the words of a document in reading order, and what it means that a
comment takes the rest of its line.
-/
namespace Tombi.Formatter
open SyntaxKind
open Tombi.Format (AstKey)

/-- What a reader sees of a document, apart from layout and commas: the tokens and the comments. Of a run of comments on
lines of their own, the first one is marked. -/
inductive Word where
  | key (k : AstKey)
  | literal (kind : SyntaxKind) (text : Text)
  | mark (kind : SyntaxKind)
  | comment (first : Bool) (text : Text)
  deriving DecidableEq, Repr

/-- A run of comments on lines of their own. -/
def commentWords : List Text → List Word
  | [] => []
  | c :: cs => .comment true c :: cs.map (.comment false)

/-- A comment at the end of a line. -/
def trailingWords : Option Text → List Word
  | none => []
  | some c => [.comment true c]

/-- Dotted keys. -/
def keyWords : List AstKey → List Word
  | [] => []
  | [k] => [.key k]
  | k :: ks => .key k :: .mark DOT :: keyWords ks

/-- The comments around a comma. -/
def commaWords : Option Comma → List Word
  | none => []
  | some c => commentWords c.leading ++ trailingWords c.trailing

mutual
/-- The words of a value or of a key-value pair. -/
def Node.words : Node → List Word
  | .lit l k t tr => commentWords l ++ .literal k t :: trailingWords tr
  | .array l s b tr =>
    commentWords l ++ .mark BRACKET_START :: trailingWords s ++ b.words ++ .mark BRACKET_END :: trailingWords tr
  | .table l s b tr =>
    commentWords l ++ .mark BRACE_START :: trailingWords s ++ b.words ++ .mark BRACE_END :: trailingWords tr
  | .pair l ks _ v => commentWords l ++ keyWords ks ++ .mark EQUAL :: v.words
/-- The words between two brackets, or of the key-value pairs of a table. -/
def Body.words : Body → List Word
  | .nil => []
  | .dangling _ cs rest => commentWords cs ++ rest.words
  | .item _ n c rest => n.words ++ commaWords c ++ rest.words
end

/-- The words of a table or an array of tables. -/
def Section.words (s : Section) : List Word :=
  commentWords s.leading ++ .mark (if s.isArray then DOUBLE_BRACKET_START else BRACKET_START) :: keyWords s.header ++
    .mark (if s.isArray then DOUBLE_BRACKET_END else BRACKET_END) :: trailingWords s.trailing ++ s.body.words

/-- The words of a document. -/
def Doc.words (d : Doc) : List Word := d.body.words ++ (d.sections.map Section.words).flatten

/-- The text of a punctuation mark. -/
def markText : SyntaxKind → Text
  | DOT => ['.']
  | EQUAL => ['=']
  | BRACKET_START => ['[']
  | BRACKET_END => [']']
  | BRACE_START => ['{']
  | BRACE_END => ['}']
  | DOUBLE_BRACKET_START => ['[', '[']
  | DOUBLE_BRACKET_END => [']', ']']
  | _ => []

/-- A word as the kind and the text of a token. -/
def Word.leaf : Word → SyntaxKind × Text
  | .key (.bare t) => (BARE_KEY, t)
  | .key (.basic t) => (BASIC_STRING, t)
  | .key (.literal t) => (LITERAL_STRING, t)
  | .literal k t => (k, t)
  | .mark k => (k, markText k)
  | .comment _ t => (COMMENT, t)

mutual
/-- The tokens of a syntax tree in order, apart from layout and commas. -/
def treeWords : Green → List (SyntaxKind × Text)
  | .token k t => if k = WHITESPACE ∨ k = LINE_BREAK ∨ k = COMMA then [] else [(k, t)]
  | .node _ cs => treeWordsL cs
/-- The tokens of several trees. -/
def treeWordsL : List Green → List (SyntaxKind × Text)
  | [] => []
  | g :: gs => treeWords g ++ treeWordsL gs
end

/-- How a word is to be written: keys and literals in the configured style (C33, C56), marks as they are, comments as
`renderComment` says (C34). -/
def Env.write (E : Env) : Word → Piece
  | .key k => E.key k
  | .literal k t => E.literal k t
  | .mark k => .token k (markText k)
  | .comment first t => .comment (E.renderComment first t)

/-- Is the piece neither layout nor a comma? -/
def Piece.isWord : Piece → Bool
  | .blank _ => false
  | .newline => false
  | .token k _ => k != COMMA
  | .comment _ => true

/-- No comment is followed by anything but the end of its line. -/
def CommentsEndLines (ps : List Piece) : Prop :=
  ∀ (i : Nat) (t : Text) (p : Piece), ps[i]? = some (.comment t) → ps[i + 1]? = some p → p = .newline

end Tombi.Formatter
