import Verif.Spec.SemanticTree
/-! Specification: the elements that are highlighted are elements of the document, with the types of their kinds. -/
namespace Tombi.SemanticTokens
open Tombi SyntaxKind
open Tombi.Formatter (kindOf greenText greenTexts)

/-- The subtree `h` of the tree `g` begins after the text `p`, when `g` begins after `pre`. -/
inductive Occurs : List Char → Green → List Char → Green → Prop
  | here (pre : List Char) (g : Green) : Occurs pre g pre g
  | child {pre : List Char} {k : SyntaxKind} {xs ys : List Green} {g : Green} {p : List Char} {h : Green} :
      Occurs (pre ++ greenTexts xs) g p h → Occurs pre (.node k (xs ++ g :: ys)) p h

/-- The part is a key in the keys of a node of one of the kinds. -/
def HasKey (kinds : List SyntaxKind) (pre : List Char) (root : Green) (p : Part) : Prop :=
  ∃ q k xs ys ks as bs g, k ∈ kinds ∧ Occurs pre root q (.node k (xs ++ .node KEYS ks :: ys)) ∧ ks = as ++ g :: bs
    ∧ p.pre = q ++ greenTexts xs ++ greenTexts as ∧ p.body = greenText g ∧ kindOf g ∈ [BARE_KEY, BASIC_STRING, LITERAL_STRING]

/-- The part is a token of one of the kinds. -/
def HasToken (kinds : List SyntaxKind) (pre : List Char) (root : Green) (p : Part) : Prop :=
  ∃ k ∈ kinds, Occurs pre root p.pre (.token k p.body)

/-- The element is in the tree, at its place, and is shown with the type that its kind has. -/
def Fits (pre : List Char) (root : Green) : Mark → Prop
  | .comment p o w r => Occurs pre root p (.token COMMENT (o ++ w ++ r))
  | .part p => match p.type with
    | .comment => HasToken [COMMENT] pre root p
    | .keyword => False
    | .operator => HasToken [EQUAL, BRACKET_START, BRACKET_END, DOUBLE_BRACKET_START, DOUBLE_BRACKET_END] pre root p
    | .key => HasKey [KEY_VALUE] pre root p
    | .table => HasKey [TABLE, ARRAY_OF_TABLE] pre root p
    | .string => HasToken [BASIC_STRING, LITERAL_STRING, MULTI_LINE_BASIC_STRING, MULTI_LINE_LITERAL_STRING] pre root p
    | .number => HasToken [INTEGER_BIN, INTEGER_OCT, INTEGER_DEC, INTEGER_HEX, FLOAT] pre root p
    | .boolean => HasToken [BOOLEAN] pre root p
    | .offsetDateTime => HasToken [OFFSET_DATE_TIME] pre root p
    | .localDateTime => HasToken [LOCAL_DATE_TIME] pre root p
    | .localDate => HasToken [LOCAL_DATE] pre root p
    | .localTime => HasToken [LOCAL_TIME] pre root p

end Tombi.SemanticTokens
