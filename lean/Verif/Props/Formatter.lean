import Verif.Proofs.FormatterDoc
import Verif.Proofs.DocRead
/-!
C65: formatting keeps every word, and no comment swallows what follows. C66: formatting twice.
-/
namespace Tombi.Formatter
open SyntaxKind
open Tombi.Format (AstKey)

/-- The default settings (`tombi-config/src/types/*.rs`). -/
def defaultDefinitions : Definitions where
  lineWidth := none
  groupBlankLinesLimit := 1
  tableBlankLines := 1
  indentStyle := .space
  indentSubTables := false
  indentTableKeyValues := false
  indentWidth := 2
  keyQuoteStyle := .double
  stringQuoteStyle := .double
  trailingCommentAlignment := false
  trailingCommentSpace := 2
  keyValueEqualAlignment := false
  keyValueEqualSpace := 1
  dateTimeDelimiter := some ['T']
  arrayBracketSpace := 0
  arrayCommaSpace := 1
  commentPreserve := false
  inlineTableBraceSpace := 1
  inlineTableCommaSpace := 1

/-- A formatter with the given settings, for documents without comment directives. -/
def plainEnv (defs : Definitions) : Env where
  defs := defs
  version := .V1_0_0
  G := charSegmenter
  lineEnding := ['\n']
  skipComment := false
  singleLine := false
  renderComment := fun strip t => (Format.formatPlain strip t).getD t

/-! ### C65 -/

/-- **C65**, comments: whatever the document and the settings, a comment that is written is followed by the end of its
line, so that it never takes in what was behind it. (`singleLine` is only set for the formatting of comment
directives.) -/
theorem C65_comments_end_lines (E : Env) (h : E.singleLine = false) (doc : Doc) : CommentsEndLines (fmtDoc E doc) :=
  closed_iff.mp (fmtDoc_closed E h doc)

/-- **C65**, words: when a source without syntax errors is formatted, the words of the output are the tokens of its
syntax tree, in the same order, none lost, none added, each in its configured style; only layout and commas may differ.
(By C07 the tree has the whole text of the source.) Missing: the editor of the syntax tree, which may sort keys and
values before the tree is printed, and the sources that are not `Parseable` (`C08_parse_total_false`). -/
theorem C65_words_partial (E : Env) (hs : E.singleLine = false) (hc : E.skipComment = false) (src : Text)
    (h : Parseable E.G src) (p : Parsed) (hp : parse E.G src = .ok p) (he : p.errors = []) :
    ∃ (out : List Piece) (ws : List Word),
      formatSource E src = some (if textOf E.lineEnding out = [] then [] else textOf E.lineEnding out ++ E.lineEnding) ∧
      out.filter Piece.isWord = ws.map E.write ∧ ws.map Word.leaf = treeWords p.tree ∧ CommentsEndLines out := by
  refine ⟨fmtDoc E (docOf p.tree), _, ?_, fmtDoc_words E hs hc _ (docOf_noComma p.tree), (doc_read h hp he).1,
    C65_comments_end_lines E hs _⟩
  simp only [formatSource, hp, he, formatDoc, List.isEmpty_iff]
  by_cases ht : textOf E.lineEnding (fmtDoc E (docOf p.tree)) = [] <;> simp [ht]

/-- a document with comments in all places -/
def sampleSource : List Char :=
  "# a\n\n# b\nk . l=[ #c\n1, # d\n# e\n]\n[t] # f\nx={y='z'}\n".toList

/-- Concrete case for C65. -/
example : formatSource (plainEnv defaultDefinitions) sampleSource =
    some "# a\n\n# b\nk.l = [  # c\n  1,  # d\n  # e\n]\n\n[t]  # f\nx = { y = \"z\" }\n".toList := by
  decide +kernel

/-- The hypotheses of `C65_words_partial` hold of it. -/
example : Parseable charSegmenter sampleSource ∧ (parse charSegmenter sampleSource).toOption.map (·.errors) = some [] :=
  ⟨parseable_of_check (by decide +kernel), by decide +kernel⟩

/-! ### C66 -/

/-- **C66 is false** when the equal signs are aligned: the width is measured on the keys as they were written, blanks
included, so that formatting takes two rounds. -/
theorem C66_alignment_false :
    formatSource (plainEnv { defaultDefinitions with keyValueEqualAlignment := true }) "a . b = 1\n".toList =
      some "a.b   = 1\n".toList ∧
    formatSource (plainEnv { defaultDefinitions with keyValueEqualAlignment := true }) "a.b   = 1\n".toList =
      some "a.b = 1\n".toList := by
  constructor <;> decide +kernel

/-- **C66 is false** without blank lines between tables: the first round moves a dangling comment to the table below it,
the second round removes the blank line that is left above the comment. -/
theorem C66_table_blank_lines_false :
    formatSource (plainEnv { defaultDefinitions with tableBlankLines := 0 }) "a = 1\n\n# c\n\n[t]\n".toList =
      some "a = 1\n\n# c\n[t]\n".toList ∧
    formatSource (plainEnv { defaultDefinitions with tableBlankLines := 0 }) "a = 1\n\n# c\n[t]\n".toList =
      some "a = 1\n# c\n[t]\n".toList := by
  constructor <;> decide +kernel

end Tombi.Formatter
