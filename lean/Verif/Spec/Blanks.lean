import Verif.Model.Tree
/-!
Specification for blanks (spaces and tabs between tokens): a syntax tree without its blanks, and the tokens of a document
apart from blanks.
-/
namespace Tombi
open SyntaxKind

/-- a blank -/
def isBlank : Green → Bool
  | .token k _ => k.isTrivia
  | .node _ _ => false

mutual
/-- a tree without its blanks -/
def strip : Green → Green
  | .token k w => .token k w
  | .node k cs => .node k (stripL cs)
/-- the children without blanks -/
def stripL : List Green → List Green
  | [] => []
  | g :: gs => if isBlank g then stripL gs else strip g :: stripL gs
end

/-- Does a token of kind `k` touch the next one so that both may be one mark: `[[` or `]]`? -/
def doubled (k : SyntaxKind) : List Token → Bool
  | [] => false
  | u :: _ => u.kind == k && (k == BRACKET_START || k == BRACKET_END)

/-- The tokens apart from blanks: kind, text, and whether the token is a bracket that touches another one of its kind. -/
def signs (source : List Char) : List Token → List (SyntaxKind × List Char × Bool)
  | [] => []
  | t :: ts =>
    if t.kind = WHITESPACE then signs source ts
    else (t.kind, (byteSlice t.span.start t.span.stop source).getD [], doubled t.kind ts) :: signs source ts

end Tombi
