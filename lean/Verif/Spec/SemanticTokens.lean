import Verif.Spec.TextOps
import Verif.Model.SemanticTokens
/-!
Specification of the semantic tokens: what an editor shows for them, by the definition of the language server protocol,
and the elements of a document as parts of its text.
-/
namespace Tombi.SemanticTokens
open Tombi Tombi.Spec

/-- A highlighted part of the document, in the units of the editor. -/
structure Shown where
  line : Nat
  character : Nat
  length : Nat
  name : Option String
  deriving DecidableEq, Repr

/-- How an editor reads the tokens: `deltaLine` is relative to the previous token, and so is `deltaStart` if the token is
in the same line; the type is an index into the legend. `line` and `character` are those of the previous token. -/
def decode (legend : List String) : Nat → Nat → List SemanticToken → List Shown
  | _, _, [] => []
  | line, character, t :: ts =>
    let line' := line + t.deltaLine
    let character' := if t.deltaLine = 0 then character + t.deltaStart else t.deltaStart
    ⟨line', character', t.length, legend[t.tokenType]?⟩ :: decode legend line' character' ts

/-- the name of a type in the editor -/
def TokenType.name : TokenType → String
  | .string => "string" | .number => "number" | .operator => "operator" | .comment => "comment"
  | .keyword => "keyword" | .table => "table" | .key => "key" | .boolean => "boolean"
  | .offsetDateTime => "offsetDateTime" | .localDateTime => "localDateTime" | .localDate => "localDate"
  | .localTime => "localTime"

/-- a text without its line terminators -/
def unbroken : List Char → List Char
  | [] => []
  | [c] => if c = '\n' then [] else [c]
  | c :: d :: cs =>
    if c = '\n' then unbroken (d :: cs)
    else if c = '\r' ∧ d = '\n' then unbroken (d :: cs)
    else c :: unbroken (d :: cs)

/-- A part of a document to highlight: the text before it, its text and its type. -/
structure Part where
  pre : List Char
  body : List Char
  type : TokenType

/-- How the editor has to show a part: at the line and the code units at which it begins, as long as its text in code units,
line terminators not counted, with the name of its type. -/
def Part.shown (e : EncodingKind) (p : Part) : Shown :=
  ⟨p.pre.count '\n', codeUnits e (lastLine p.pre), codeUnits e (unbroken p.body), some p.type.name⟩

/-- An element of a document: a part of it, or a comment after `pre` that consists of `open_`, a directive `word`, and
`rest`. -/
inductive Mark where
  | part (p : Part)
  | comment (pre open_ word rest : List Char)

/-- the text before an element -/
def Mark.pre : Mark → List Char
  | .part p => p.pre
  | .comment pre _ _ _ => pre

/-- the parts of an element that are highlighted: the directive of a comment is a keyword -/
def Mark.parts : Mark → List Part
  | .part p => [p]
  | .comment pre o w r => [⟨pre, o, .comment⟩, ⟨pre ++ o, w, .keyword⟩, ⟨pre ++ o ++ w, r, .comment⟩]

/-- the element with the internal ranges of its text -/
def Mark.element (G : Segmenter) : Mark → Element
  | .part p => .token p.type ⟨graphemePos G p.pre, graphemePos G (p.pre ++ p.body)⟩
  | .comment pre o w r => .directive ⟨graphemePos G pre, graphemePos G (pre ++ o ++ w ++ r)⟩
      ⟨graphemePos G (pre ++ o), graphemePos G (pre ++ o ++ w)⟩

/-- The text `a` ends at a grapheme boundary of the document `src`. -/
def Cut (G : Segmenter) (src a : List Char) : Prop := ∃ b, src = a ++ b ∧ Boundary G a b

/-- The element is in the document `src`, between graphemes, and a comment is in one line. -/
def Mark.In (G : Segmenter) (src : List Char) : Mark → Prop
  | .part p => Cut G src p.pre ∧ Cut G src (p.pre ++ p.body)
  | .comment pre o w r => Cut G src pre ∧ Cut G src (pre ++ o) ∧ Cut G src (pre ++ o ++ w) ∧ Cut G src (pre ++ o ++ w ++ r)
      ∧ '\n' ∉ o ++ w ++ r

/-- The elements are in the order of the text: none begins before the previous one, which begins after `before`, and what
follows a comment with a directive begins in a later line. -/
def InOrder : List Char → Bool → List Mark → Prop
  | _, _, [] => True
  | before, directive, m :: ms =>
    (∃ u, m.pre = before ++ u ∧ (directive = true → '\n' ∈ u))
      ∧ InOrder m.pre (match m with | .comment .. => true | .part _ => false) ms

end Tombi.SemanticTokens
