import Verif.Model.Tree
/-! Specification vocabulary for syntax trees and event streams. -/
namespace Tombi

mutual
/-- the text of a tree: the texts of its tokens, left to right -/
def Green.text : Green → List Char
  | .token _ w => w
  | .node _ cs => Green.texts cs
def Green.texts : List Green → List Char
  | [] => []
  | g :: gs => g.text ++ Green.texts gs
end

mutual
/-- the number of nodes on the longest path from the root to a leaf -/
def Green.height : Green → Nat
  | .token _ _ => 0
  | .node _ cs => Green.heights cs + 1
def Green.heights : List Green → Nat
  | [] => 0
  | g :: gs => max g.height (Green.heights gs)
end

mutual
/-- the largest number of arrays and inline tables on a path from the root to a leaf -/
def Green.nesting : Green → Nat
  | .token _ _ => 0
  | .node k cs => Green.nestings cs + (if k = .ARRAY ∨ k = .INLINE_TABLE then 1 else 0)
def Green.nestings : List Green → Nat
  | [] => 0
  | g :: gs => max g.nesting (Green.nestings gs)
end

/-- the kind of a tree's root -/
def Green.kind : Green → SyntaxKind
  | .token k _ => k
  | .node k _ => k

/-- A well-nested event stream: every opened node is closed, in stack order. -/
inductive WellNested : List Event → Prop where
  | nil : WellNested []
  | token {es : List Event} (k : SyntaxKind) (n : Nat) : WellNested es → WellNested (.token k n :: es)
  | error {es : List Event} (e : PError) : WellNested es → WellNested (.error e :: es)
  | node {body es : List Event} (k : SyntaxKind) : k ≠ .TOMBSTONE → WellNested body → WellNested es →
      WellNested (.start k :: (body ++ .finish :: es))

/-- the text of `t` in `source` is `w` -/
def TextIs (source : List Char) (t : Token) (w : List Char) : Prop :=
  byteSlice t.span.start t.span.stop source = some w

/-- a float token whose text has a dot, such as `1.5` -/
def DottedFloat (source : List Char) (t : Token) : Prop :=
  t.kind = .FLOAT ∧ ∃ w, TextIs source t w ∧ '.' ∈ w

/-- No float with a dot is separated by blanks (`ws`) from the start of the document, nor from another
float with a dot. -/
def FloatsAttached (source : List Char) (tokens : List Token) : Prop :=
  ∀ pre ws f post, tokens = pre ++ ws ++ f :: post → ws ≠ [] →
    (∀ t ∈ ws, t.kind.isTrivia = true) → DottedFloat source f →
    pre ≠ [] ∧ ∀ pre' g, pre = pre' ++ [g] → ¬ DottedFloat source g

end Tombi
