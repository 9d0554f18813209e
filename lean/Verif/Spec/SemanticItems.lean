import Verif.Spec.SemanticKinds
/-! Specification: the items of a document, and the elements of each that have to be highlighted. -/
namespace Tombi.SemanticTokens
open Tombi SyntaxKind
open Tombi.Formatter (kindOf childrenOf greenText greenTexts isLeadingKind isValueKind)

/-- a node -/
def isNode : Green → Bool
  | .node _ _ => true
  | .token _ _ => false

/-- `i` is a child of a node of kind `group` among the trees, after the first token of kind `start`. -/
def ChildAfter (start group : SyntaxKind) (pre : List Char) (cs : List Green) (p : List Char) (i : Green) : Prop :=
  ∃ xs w us as bs ys, cs = xs ++ .token start w :: us ++ .node group (as ++ i :: bs) :: ys
    ∧ p = pre ++ greenTexts (xs ++ .token start w :: us) ++ greenTexts as

/-- The key-value or value `h` after the text `p` is in the key-value or value `g` after `pre`: in its value, or between its
brackets. -/
inductive Inner : List Char → Green → List Char → Green → Prop
  | here (pre : List Char) (g : Green) : Inner pre g pre g
  | value {pre xs v ys p h} : (∀ x ∈ xs, isValueKind (kindOf x) = false) → isValueKind (kindOf v) = true →
      Inner (pre ++ greenTexts xs) v p h → Inner pre (.node KEY_VALUE (xs ++ v :: ys)) p h
  | array {pre cs q i p h} : ChildAfter BRACKET_START VALUE_WITH_COMMA_GROUP pre cs q i → Inner q i p h →
      Inner pre (.node ARRAY cs) p h
  | table {pre cs q i p h} : ChildAfter BRACE_START KEY_VALUE_WITH_COMMA_GROUP pre cs q i → Inner q i p h →
      Inner pre (.node INLINE_TABLE cs) p h

/-- `i` is a child of a group of key-values among the trees. -/
def GroupChild (pre : List Char) (cs : List Green) (p : List Char) (i : Green) : Prop :=
  ∃ xs as bs ys, cs = xs ++ .node KEY_VALUE_GROUP (as ++ i :: bs) :: ys ∧ p = pre ++ greenTexts xs ++ greenTexts as

/-- A table or an array of tables with this content is a child of the document, after the text `p`; its kind and the kind of
its closing bracket. -/
def SectionAt (root : Green) (k end_ : SyntaxKind) (p : List Char) (cs : List Green) : Prop :=
  (k = TABLE ∧ end_ = BRACKET_END ∨ k = ARRAY_OF_TABLE ∧ end_ = DOUBLE_BRACKET_END)
    ∧ ∃ xs ys, childrenOf root = xs ++ .node k cs :: ys ∧ p = greenTexts xs

/-- The key-value or value `h` is in the document, after the text `p`: below a key-value at the root or in the lines after
the header of a table. -/
inductive DocumentItem (root : Green) : List Char → Green → Prop
  | root {q i p h} : GroupChild [] (childrenOf root) q i → Inner q i p h → DocumentItem root p h
  | table {k end_ r cs us w vs b zs q i p h} : SectionAt root k end_ r cs →
      cs = us ++ .token end_ w :: vs ++ .token LINE_BREAK b :: zs →
      GroupChild (r ++ greenTexts (us ++ .token end_ w :: vs ++ [.token LINE_BREAK b])) zs q i → Inner q i p h → DocumentItem root p h

/-- the kind of value has one token, shown with this type -/
def LiteralType : SyntaxKind → TokenType → Prop
  | BASIC_STRING, t | LITERAL_STRING, t | MULTI_LINE_BASIC_STRING, t | MULTI_LINE_LITERAL_STRING, t => t = .string
  | INTEGER_BIN, t | INTEGER_OCT, t | INTEGER_DEC, t | INTEGER_HEX, t | FLOAT, t => t = .number
  | BOOLEAN, t => t = .boolean
  | OFFSET_DATE_TIME, t => t = .offsetDateTime
  | LOCAL_DATE_TIME, t => t = .localDateTime
  | LOCAL_DATE, t => t = .localDate
  | LOCAL_TIME, t => t = .localTime
  | _, _ => False

/-- The part has to be shown, as part of the key-value or value `h` after the text `p`: the keys, the equals sign, the
literal. -/
inductive Expected : List Char → Green → Part → Prop
  | key {p xs as g bs ys} : (∀ x ∈ xs, isKeys x = false) → (Formatter.keyOf g).isSome →
      Expected p (.node KEY_VALUE (xs ++ .node KEYS (as ++ g :: bs) :: ys)) ⟨p ++ greenTexts xs ++ greenTexts as, greenText g, .key⟩
  | equal {p xs w ys} : (∀ x ∈ xs, isToken EQUAL x = false) →
      Expected p (.node KEY_VALUE (xs ++ .token EQUAL w :: ys)) ⟨p ++ greenTexts xs, w, .operator⟩
  | literal {p k t xs w ys} : LiteralType k t → (∀ x ∈ xs, isToken k x = false) →
      Expected p (.node k (xs ++ .token k w :: ys)) ⟨p ++ greenTexts xs, w, t⟩

/-- the kinds of an array and of an inline table, of their opening brackets, and of the groups of their items -/
def Brackets (k start group : SyntaxKind) : Prop :=
  k = ARRAY ∧ start = BRACKET_START ∧ group = VALUE_WITH_COMMA_GROUP
    ∨ k = INLINE_TABLE ∧ start = BRACE_START ∧ group = KEY_VALUE_WITH_COMMA_GROUP

/-- an optional white space -/
def Blank (ws : List Green) : Prop := ws = [] ∨ ∃ v, ws = [.token WHITESPACE v]

/-- The text `t` after `p` is a comment of the key-value or value: before it in lines of its own, at its end, after its opening
bracket, between its brackets in lines of its own, or before or after the comma of one of its items. -/
inductive ExpectedComment : List Char → Green → List Char → List Char → Prop
  | leading {p k xs t ys} : isValueKind k = true ∨ k = KEY_VALUE → (∀ x ∈ xs, isLeadingKind x = true) →
      ExpectedComment p (.node k (xs ++ .token COMMENT t :: ys)) (p ++ greenTexts xs) t
  | trailing {p k xs t} : isValueKind k = true →
      ExpectedComment p (.node k (xs ++ [.token COMMENT t])) (p ++ greenTexts xs) t
  | bracket {p k start group xs w ws t ys} : Brackets k start group → (∀ x ∈ xs, kindOf x ≠ start ∧ kindOf x ≠ EOF) → Blank ws →
      ExpectedComment p (.node k (xs ++ .token start w :: (ws ++ .token COMMENT t :: ys))) (p ++ greenTexts xs ++ w ++ greenTexts ws) t
  | dangling {p k start group xs w us as t bs ys} : Brackets k start group →
      ExpectedComment p (.node k (xs ++ .token start w :: (us ++ .node DANGLING_COMMENT_GROUP (as ++ .token COMMENT t :: bs) :: ys)))
        (p ++ greenTexts xs ++ w ++ greenTexts us ++ greenTexts as) t
  | beforeComma {p k start group xs w us as i bs cs t ds es ys} : Brackets k start group → Formatter.isItemKind (kindOf i) = true →
      isNode i = true → (∀ b ∈ bs, isNode b = false) → (∀ x ∈ cs, isLeadingKind x = true) →
      ExpectedComment p (.node k (xs ++ .token start w :: (us ++ .node group
        (as ++ i :: (bs ++ .node COMMA (cs ++ .token COMMENT t :: ds) :: es)) :: ys)))
        (p ++ greenTexts xs ++ w ++ greenTexts us ++ greenTexts as ++ greenText i ++ greenTexts bs ++ greenTexts cs) t
  | afterComma {p k start group xs w us as i bs cs t es ys} : Brackets k start group → Formatter.isItemKind (kindOf i) = true →
      isNode i = true → (∀ b ∈ bs, isNode b = false) →
      ExpectedComment p (.node k (xs ++ .token start w :: (us ++ .node group
        (as ++ i :: (bs ++ .node COMMA (cs ++ [.token COMMENT t]) :: es)) :: ys)))
        (p ++ greenTexts xs ++ w ++ greenTexts us ++ greenTexts as ++ greenText i ++ greenTexts bs ++ greenTexts cs) t

/-- The text `t` after `q` is a comment of the table or array of tables after `p` whose header ends with a token of kind `end_`:
before the header, after it in its line, or in lines of its own below. -/
inductive SectionComment (end_ : SyntaxKind) (p : List Char) : List Green → List Char → List Char → Prop
  | leading {xs t ys} : (∀ x ∈ xs, isLeadingKind x = true) →
      SectionComment end_ p (xs ++ .token COMMENT t :: ys) (p ++ greenTexts xs) t
  | header {xs w ws t ys} : (∀ x ∈ xs, kindOf x ≠ end_ ∧ kindOf x ≠ EOF) → Blank ws →
      SectionComment end_ p (xs ++ .token end_ w :: (ws ++ .token COMMENT t :: ys)) (p ++ greenTexts xs ++ w ++ greenTexts ws) t
  | below {us w vs b xs as t bs ys} :
      SectionComment end_ p (us ++ .token end_ w :: (vs ++ .token LINE_BREAK b :: (xs
        ++ .node DANGLING_COMMENT_GROUP (as ++ .token COMMENT t :: bs) :: ys)))
        (p ++ greenTexts us ++ w ++ greenTexts vs ++ b ++ greenTexts xs ++ greenTexts as) t

end Tombi.SemanticTokens
