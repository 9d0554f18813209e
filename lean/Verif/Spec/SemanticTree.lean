import Verif.Model.SemanticTree
/-! Specification: the order of the elements of a document, and the shape of the syntax trees it is proved for. -/
namespace Tombi.SemanticTokens
open Tombi SyntaxKind
open Tombi.Formatter (kindOf childrenOf greenText greenTexts lastTokens isValueKind)

/-- the text of an element -/
def Mark.text : Mark → List Char
  | .part p => p.body
  | .comment _ o w r => o ++ w ++ r

/-- The elements are in the text `b`, after `a`, in the order of the text and without overlaps: none begins before the end of
the previous one. The text before each begins with the text up to the end of the previous one. -/
def Sorted (a b : List Char) : List Mark → Prop
  | [] => a <+: b
  | m :: ms => a <+: m.pre ∧ Sorted (m.pre ++ m.text) b ms

/-- a text that is not empty and does not begin with a line terminator -/
def Visible (t : List Char) : Prop := ∃ c cs, t = c :: cs ∧ c ≠ '\n' ∧ c ≠ '\r'

/-- a text that is empty or begins with a line terminator -/
def LineEnd (v : List Char) : Prop := v = [] ∨ (∃ w, v = '\n' :: w) ∨ ∃ w, v = '\r' :: '\n' :: w

/-- a comment with a directive reaches to the end of its line -/
def Mark.EndsLine (src : List Char) : Mark → Prop
  | .part _ => True
  | .comment pre o w r => ∃ v, src = pre ++ (o ++ w ++ r) ++ v ∧ LineEnd v

/-- a token of a kind -/
def isToken (k : SyntaxKind) : Green → Bool
  | .token k' _ => k' == k
  | .node _ _ => false

/-- the node with the keys -/
def isKeys : Green → Bool
  | .node KEYS _ => true
  | _ => false

/-- If the last token is a comment, then it is a child of the node itself, and the last one. -/
def CommentLast (cs : List Green) : Prop :=
  ∀ t, lastTokens cs = some (COMMENT, t) → ∃ xs, cs = xs ++ [.token COMMENT t]

/-- What the children of a node of each kind look like: a key-value has its keys, the equals sign and its value in this order,
a header its bracket, its keys and its bracket, a value its token or its two brackets, and the comment at the end of a
value or a comma is not inside one of the values in it. -/
def NodeShape (k : SyntaxKind) (cs : List Green) : Prop :=
  match k with
  | KEY_VALUE => cs.findIdx isKeys < cs.findIdx (isToken EQUAL)
      ∧ cs.findIdx (isToken EQUAL) < cs.findIdx (fun g => isValueKind (kindOf g))
  | TABLE => cs.findIdx (isToken BRACKET_START) < cs.findIdx isKeys
      ∧ cs.findIdx isKeys < cs.findIdx (isToken BRACKET_END) ∧ cs.findIdx (isToken BRACKET_END) < cs.length
  | ARRAY_OF_TABLE => cs.findIdx (isToken DOUBLE_BRACKET_START) < cs.findIdx isKeys
      ∧ cs.findIdx isKeys < cs.findIdx (isToken DOUBLE_BRACKET_END) ∧ cs.findIdx (isToken DOUBLE_BRACKET_END) < cs.length
  | ARRAY => cs.findIdx (isToken BRACKET_START) < cs.findIdx (isToken BRACKET_END)
      ∧ cs.findIdx (isToken BRACKET_END) < cs.length ∧ CommentLast cs
  | INLINE_TABLE => cs.findIdx (isToken BRACE_START) < cs.findIdx (isToken BRACE_END)
      ∧ cs.findIdx (isToken BRACE_END) < cs.length ∧ CommentLast cs
  | COMMA => cs.findIdx (isToken COMMA) < cs.length ∧ CommentLast cs
  | k => isValueKind k = true → cs.findIdx (isToken k) < cs.length ∧ CommentLast cs

mutual
/-- All nodes of the tree have their shape, and brackets and signs are tokens. -/
def Shaped : Green → Prop
  | .token k _ => k ≠ EOF
  | .node k cs => NodeShape k cs
      ∧ k ∉ [BRACKET_START, BRACE_START, BRACKET_END, DOUBLE_BRACKET_END, COMMENT, WHITESPACE, LINE_BREAK, EOF] ∧ ShapedAll cs
/-- the trees of a list -/
def ShapedAll : List Green → Prop
  | [] => True
  | g :: gs => Shaped g ∧ ShapedAll gs
end

/-- a table or an array of tables -/
def isSection : Green → Bool
  | .node TABLE _ => true
  | .node ARRAY_OF_TABLE _ => true
  | _ => false

/-- In a document, no key-values and no comments outside of tables follow a table. -/
def RootShape (root : Green) : Prop :=
  Shaped root ∧ ∃ a b, childrenOf root = a ++ b ∧ (∀ g ∈ a, isSection g = false)
    ∧ ∀ g ∈ b, kindOf g ≠ DANGLING_COMMENT_GROUP ∧ kindOf g ≠ KEY_VALUE_GROUP

end Tombi.SemanticTokens
