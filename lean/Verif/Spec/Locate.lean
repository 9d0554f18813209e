import Verif.Model.Locate
import Verif.Spec.TextOps
import Verif.Spec.Tree
/-! Specification: where the tokens of a tree are, and which of them a position touches. -/
namespace Tombi.Locate

mutual
/-- The tokens of a tree from left to right. -/
def tokensOf : Green → List (SyntaxKind × List Char)
  | .token kind text => [(kind, text)]
  | .node _ children => tokensOfs children
def tokensOfs : List Green → List (SyntaxKind × List Char)
  | [] => []
  | c :: cs => tokensOf c ++ tokensOfs cs
end

/-- A token with the positions of its start and its end. -/
structure Placed where
  kind : SyntaxKind
  text : List Char
  start : Position
  stop : Position
  deriving DecidableEq

/-- The tokens with their positions, if the first starts at `start` and each starts where the one before ends. -/
def placed (G : Segmenter) (start : Position) : List (SyntaxKind × List Char) → List Placed
  | [] => []
  | (kind, text) :: rest =>
    ⟨kind, text, start, start.addText G text⟩ :: placed G (start.addText G text) rest

/-- Where the last token ends. -/
def endOf (G : Segmenter) (start : Position) (tokens : List (SyntaxKind × List Char)) : Position :=
  tokens.foldl (fun p t => p.addText G t.2) start

/-- A position touches a token: the token has a text, and the position is not before its start and not after its end. -/
def Touches (p : Position) (t : Placed) : Prop := t.text ≠ [] ∧ t.start.le p = true ∧ p.le t.stop = true

instance (p : Position) : DecidablePred (Touches p) := fun t => by unfold Touches; infer_instance

/-- The tokens with the number of characters before them. -/
def offsets (start : Nat) : List (SyntaxKind × List Char) → List (Nat × SyntaxKind × List Char)
  | [] => []
  | (kind, text) :: rest => (start, kind, text) :: offsets (start + text.length) rest

/-- The tokens that have a text and start at or before, and end at or after the `n`-th character. -/
def around (n : Nat) (tokens : List (SyntaxKind × List Char)) : List (SyntaxKind × List Char) :=
  ((offsets 0 tokens).filter fun t => t.2.2 ≠ [] ∧ t.1 ≤ n ∧ n ≤ t.1 + t.2.2.length).map (·.2)

/-- The element at a place of a tree. -/
def elementAt : Green → List Nat → Option Green
  | g, [] => some g
  | .token _ _, _ :: _ => none
  | .node _ children, i :: path => match children[i]? with
    | some c => elementAt c path
    | none => none

/-- The text of tokens. -/
def textOf (tokens : List (SyntaxKind × List Char)) : List Char := (tokens.map (·.2)).flatten

/-- No token ends inside a grapheme. -/
def CutsGraphemes (G : Segmenter) (tokens : List (SyntaxKind × List Char)) : Prop :=
  ∀ a b, tokens = a ++ b → Spec.Boundary G (textOf a) (textOf b)

/-- The node `n` contains the token at `path`, and is described rightly. -/
def Encloses (root : Green) (path : List Nat) (n : NodeRef) : Prop :=
  (∃ i rest, path = n.path ++ i :: rest)
    ∧ ∃ children, elementAt root n.path = some (.node n.kind children) ∧ n.length = utf8Len (Green.node n.kind children).text

/-- The node `n` is the node `m` or lies in it. -/
def Within (n m : NodeRef) : Prop := ∃ rest, n.path = m.path ++ rest

end Tombi.Locate
