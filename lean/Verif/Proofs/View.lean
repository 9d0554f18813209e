import Verif.Proofs.ParserTop
/-!
A parser on the significant tokens alone, which fails at the first error. `Verif/Proofs/ViewSim.lean` shows that the
parser of `Verif/Model/Parser.lean` builds the same tree, apart from blanks, when it reports no error.
-/
namespace Tombi
open SyntaxKind

/-- A significant token: its kind, its text, and whether the next token follows without blanks. -/
structure VTok where
  kind : SyntaxKind
  text : List Char
  joint : Bool
  deriving DecidableEq, Repr

abbrev View := List VTok

/-- The text of a token. -/
def textAt (src : List Char) (t : Token) : List Char := (byteSlice t.span.start t.span.stop src).getD []

/-- The next token follows without blanks. -/
def jointBefore : List Token → Bool
  | [] => false
  | t :: _ => !t.kind.isTrivia

/-- The significant tokens of a list of tokens. -/
def viewOf (src : List Char) : List Token → View
  | [] => []
  | t :: ts =>
    if t.kind.isTrivia then viewOf src ts else ⟨t.kind, textAt src t, jointBefore ts⟩ :: viewOf src ts

namespace View

/-- The kind of the first token. -/
def hd : View → SyntaxKind
  | [] => EOF
  | t :: _ => t.kind

/-- The first two tokens are of kind `k` and touch. -/
def atPair (k : SyntaxKind) : View → Bool
  | t :: u :: _ => t.kind == k && u.kind == k && t.joint
  | _ => false

/-- A token as a leaf. -/
def leaf (t : VTok) : Green := .token t.kind t.text

/-- A parser on views. -/
abbrev PV := View → Option (List Green × View)

/-- Does nothing. -/
def okV : PV := fun v => some ([], v)

/-- Fails. -/
def failV : PV := fun _ => none

/-- One after the other. -/
def seqV (f g : PV) : PV := fun v =>
  match f v with
  | none => none
  | some (F, v1) =>
    match g v1 with
    | none => none
    | some (F', v2) => some (F ++ F', v2)

infixr:60 " ⨟ " => seqV

/-- A node. -/
def nodeV (k : SyntaxKind) (f : PV) : PV := fun v =>
  match f v with
  | none => none
  | some (F, v') => some ([.node k F], v')

/-- One token of kind `k`. -/
def tokV (k : SyntaxKind) : PV := fun v =>
  match v with
  | t :: v' => if t.kind = k then some ([.token k t.text], v') else none
  | [] => none

/-- Two touching tokens of kind `k`, as one of kind `kk`. -/
def pairV (k kk : SyntaxKind) : PV := fun v =>
  match v with
  | t :: u :: v' => if atPair k v then some ([.token kk (t.text ++ u.text)], v') else none
  | _ => none

/-- The tokens of the kinds `s`. -/
def spanV (s : SyntaxKind → Bool) : PV := fun v =>
  some ((v.takeWhile (fun t => s t.kind)).map leaf, v.dropWhile (fun t => s t.kind))

def isLead (k : SyntaxKind) : Bool := k == COMMENT || k == LINE_BREAK
def isComment (k : SyntaxKind) : Bool := k == COMMENT
def isBreak (k : SyntaxKind) : Bool := k == LINE_BREAK

/-- `leading_comments`, `trailing_comment` and `while p.eat(LINE_BREAK) {}`. -/
def leadV : PV := spanV isLead
def trailV : PV := spanV isComment
def breaksV : PV := spanV isBreak

/-- Where `peek_leading_comments` ends. -/
def peek : View → View
  | [] => []
  | [t] => if t.kind = LINE_BREAK then [] else [t]
  | t :: u :: v =>
    if t.kind = LINE_BREAK then peek (u :: v)
    else if t.kind = COMMENT ∧ u.kind = LINE_BREAK ∧ hd v ≠ LINE_BREAK then peek v
    else t :: u :: v

/-- `is_group_separator`. -/
def isSep (v : View) : Bool := TS_LINE_END.contains (hd v) && TS_LINE_END.contains (hd v.tail)

/-- `eat_key`. -/
def keyV : PV := fun v =>
  match v with
  | [] => none
  | t :: v' =>
    match t.kind with
    | BARE_KEY | BASIC_STRING | LITERAL_STRING => some ([.node t.kind [.token t.kind t.text]], v')
    | INTEGER_DEC | INTEGER_HEX | INTEGER_OCT | INTEGER_BIN | BOOLEAN | LOCAL_DATE =>
      some ([.node BARE_KEY [.token BARE_KEY t.text]], v')
    | FLOAT =>
      match PM.splitDot t.text with
      | [a, b] => some ([.node BARE_KEY [.token BARE_KEY a], .node DOT [.token DOT ['.']],
          .node BARE_KEY [.token BARE_KEY b]], v')
      | _ => some ([.node BARE_KEY [.token BARE_KEY t.text]], v')
    | _ => none

/-- The loop of `eat_keys`. -/
def keysLoopV : Nat → PV
  | 0 => failV
  | n + 1 => keyV ⨟ fun v =>
    if hd v = DOT then (tokV DOT ⨟ fun v =>
      if TS_KEY_FIRST.contains (hd v) then keysLoopV n v else none) v
    else okV v

/-- `Keys::parse`. -/
def keysV : PV := nodeV KEYS fun v =>
  if hd v.tail = DOT then keysLoopV (v.length + 1) v else keyV v

/-- `Comma::parse`. -/
def commaV : PV := nodeV COMMA (leadV ⨟ tokV COMMA ⨟ trailV)

/-- The loop of `dangling_comment_group_len`, from a comment on. -/
def dangLoop : View → Option Nat
  | _ :: l :: v =>
    if TS_LINE_END.contains l.kind = false then none
    else if TS_DANGLING_COMMENT_GROUP_END.contains (hd v) then some 1
    else if hd v ≠ COMMENT then none
    else match dangLoop v with
      | none => none
      | some n => some (n + 2)
  | _ => some 1

/-- `dangling_comment_group_len`. -/
def dangLen (v : View) : Option Nat := if hd v = COMMENT then dangLoop v else none

/-- `Vec<DanglingCommentGroup>::parse`. -/
def danglingV : Nat → PV
  | 0 => failV
  | n + 1 => breaksV ⨟ fun v =>
    match dangLen v with
    | none => okV v
    | some k => (nodeV DANGLING_COMMENT_GROUP (fun v => some ((v.take k).map leaf, v.drop k)) ⨟ danglingV n) v

/-- All dangling comment groups. -/
def danglingsV : PV := fun v => danglingV (v.length + 1) v

/-- Kinds of literals. -/
def isLiteral (k : SyntaxKind) : Bool :=
  match k with
  | BASIC_STRING | MULTI_LINE_BASIC_STRING | LITERAL_STRING | MULTI_LINE_LITERAL_STRING
  | INTEGER_DEC | INTEGER_BIN | INTEGER_OCT | INTEGER_HEX | FLOAT | BOOLEAN | OFFSET_DATE_TIME
  | LOCAL_DATE_TIME | LOCAL_DATE | LOCAL_TIME => true
  | _ => false

/-- `parse_literal_value`, of kind `k`. -/
def literalV (k : SyntaxKind) : PV := nodeV k (leadV ⨟ tokV k ⨟ trailV)

/-- `parse_nested`. -/
def nestedV (d : Nat) (f : Nat → PV) : PV := if maxRecursionDepth ≤ d then failV else f (d + 1)

/-- `Value::parse`. -/
def valueV (rec : PM.NT → Nat → PV) (d : Nat) : PV := fun v =>
  if isLiteral (hd (peek v)) then literalV (hd (peek v)) v
  else if hd (peek v) = BRACKET_START then nestedV d (rec .array) v
  else if hd (peek v) = BRACE_START then nestedV d (rec .inlineTable) v
  else none

/-- `Array::parse`. -/
def arrayV (rec : PM.NT → Nat → PV) (d : Nat) : PV :=
  nodeV ARRAY (leadV ⨟ tokV BRACKET_START ⨟ trailV ⨟ rec .arrayLoop d ⨟ tokV BRACKET_END ⨟ trailV)

def arrayLoopV (rec : PM.NT → Nat → PV) (d : Nat) : PV :=
  breaksV ⨟ danglingsV ⨟ fun v =>
    if TS_ARRAY_END.contains (hd (peek v)) then okV v
    else (rec .valueGroup d ⨟ rec .arrayLoop d) v

/-- `InlineTable::parse`. -/
def inlineTableV (rec : PM.NT → Nat → PV) (d : Nat) : PV :=
  nodeV INLINE_TABLE (leadV ⨟ tokV BRACE_START ⨟ trailV ⨟ rec .inlineTableLoop d ⨟ tokV BRACE_END ⨟ trailV)

def inlineTableLoopV (rec : PM.NT → Nat → PV) (d : Nat) : PV :=
  breaksV ⨟ danglingsV ⨟ fun v =>
    if TS_INLINE_TABLE_END.contains (hd (peek v)) then okV v
    else (rec .commaGroup d ⨟ rec .inlineTableLoop d) v

def valueGroupV (rec : PM.NT → Nat → PV) (d : Nat) : PV := nodeV VALUE_WITH_COMMA_GROUP (rec .valueGroupLoop d)

/-- Another item, if there is one. -/
def moreV (first : TokenSet) (loop : PV) : PV := fun v =>
  if first.contains (hd (peek v)) then loop v else okV v

/-- The comma after an item, and the next item. -/
def afterItemV (end_ first : TokenSet) (loop : PV) : PV := fun v =>
  if hd (peek v) = COMMA then (commaV ⨟ moreV first loop) v
  else if end_.contains (hd (peek v)) then okV v
  else moreV first loop v

def valueGroupLoopV (rec : PM.NT → Nat → PV) (d : Nat) : PV := fun v =>
  if isSep v then okV v
  else (rec .value d ⨟ afterItemV TS_ARRAY_END TS_VALUE_FIRST (rec .valueGroupLoop d)) v

def commaGroupV (rec : PM.NT → Nat → PV) (d : Nat) : PV :=
  nodeV KEY_VALUE_WITH_COMMA_GROUP (rec .commaGroupLoop d)

def commaGroupLoopV (rec : PM.NT → Nat → PV) (d : Nat) : PV := fun v =>
  if isSep v then okV v
  else (rec .keyValue d ⨟ afterItemV TS_INLINE_TABLE_END TS_KEY_FIRST (rec .commaGroupLoop d)) v

/-- `KeyValue::parse`. -/
def keyValueV (rec : PM.NT → Nat → PV) (d : Nat) : PV :=
  nodeV KEY_VALUE (leadV ⨟ keysV ⨟ tokV EQUAL ⨟ (fun v =>
    if TS_LINE_END.contains (hd v) then none else if hd v = COMMENT then none else rec .value d v) ⨟ trailV)

def keyValueGroupV (rec : PM.NT → Nat → PV) (d : Nat) : PV := nodeV KEY_VALUE_GROUP (rec .keyValueGroupLoop d)

/-- Another key-value pair on the next line, if there is one. -/
def nextLineV (loop : PV) : PV := fun v =>
  if hd v = LINE_BREAK then moreV TS_KEY_FIRST loop v else okV v

/-- The comma after a key-value pair of a table, and the next pair. -/
def afterPairV (loop : PV) : PV := fun v =>
  if hd (peek v) = COMMA then (commaV ⨟ nextLineV loop) v else nextLineV loop v

def keyValueGroupLoopV (rec : PM.NT → Nat → PV) (d : Nat) : PV := fun v =>
  if isSep v then okV v
  else (rec .keyValue d ⨟ afterPairV (rec .keyValueGroupLoop d)) v

/-- At the end of a line. -/
def lineEndV : PV := fun v => if TS_LINE_END.contains (hd v) then okV v else none

def sectionLoopV (rec : PM.NT → Nat → PV) (d : Nat) : PV :=
  breaksV ⨟ danglingsV ⨟ fun v =>
    if TS_NEXT_SECTION.contains (hd (peek v)) then okV v
    else (rec .keyValueGroup d ⨟ lineEndV ⨟ rec .sectionLoop d) v

/-- `Table::parse`. -/
def tableV (rec : PM.NT → Nat → PV) (d : Nat) : PV :=
  nodeV TABLE (leadV ⨟ tokV BRACKET_START ⨟ keysV ⨟ tokV BRACKET_END ⨟ trailV ⨟ lineEndV ⨟ rec .sectionLoop d)

/-- `ArrayOfTable::parse`. -/
def arrayOfTableV (rec : PM.NT → Nat → PV) (d : Nat) : PV :=
  nodeV ARRAY_OF_TABLE (leadV ⨟ pairV BRACKET_START DOUBLE_BRACKET_START ⨟ keysV ⨟
    pairV BRACKET_END DOUBLE_BRACKET_END ⨟ trailV ⨟ lineEndV ⨟ rec .sectionLoop d)

def rootLoopV (rec : PM.NT → Nat → PV) (d : Nat) : PV :=
  breaksV ⨟ fun v =>
    if hd (peek v) = EOF then okV v
    else if atPair BRACKET_START (peek v) then (rec .arrayOfTable d ⨟ rec .rootLoop d) v
    else if hd (peek v) = BRACKET_START then (rec .table d ⨟ rec .rootLoop d) v
    else none

/-- One unfolding of the recursion. -/
def bodyV (rec : PM.NT → Nat → PV) : PM.NT → Nat → PV
  | .value => valueV rec
  | .array => arrayV rec
  | .arrayLoop => arrayLoopV rec
  | .inlineTable => inlineTableV rec
  | .inlineTableLoop => inlineTableLoopV rec
  | .valueGroup => valueGroupV rec
  | .valueGroupLoop => valueGroupLoopV rec
  | .commaGroup => commaGroupV rec
  | .commaGroupLoop => commaGroupLoopV rec
  | .keyValue => keyValueV rec
  | .keyValueGroup => keyValueGroupV rec
  | .keyValueGroupLoop => keyValueGroupLoopV rec
  | .sectionLoop => sectionLoopV rec
  | .table => tableV rec
  | .arrayOfTable => arrayOfTableV rec
  | .rootLoop => rootLoopV rec

/-- The recursion, with fuel. -/
def parseV : Nat → PM.NT → Nat → PV
  | 0, _, _ => failV
  | fuel + 1, nt, d => bodyV (parseV fuel) nt d

/-- `Root::parse`. -/
def rootV (fuel : Nat) : PV := nodeV ROOT (parseV fuel .sectionLoop 0 ⨟ parseV fuel .rootLoop 0)

end View
end Tombi
