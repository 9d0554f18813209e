import Verif.Spec.FormatWords
/-!
The TOML grammar as texts (toml.abnf of TOML 1.1): which texts are TOML documents, and what stands in them. Newlines,
comments and a comma at the end inside inline tables belong to TOML 1.1; documents of TOML 1.0 have none of them.

What is a key, a literal and a gap before a comma is a parameter (`Words`), so that the same rules describe TOML
(`Words.toml`) and the part of it that a theorem speaks about.
-/
namespace Tombi.TomlFile
open SyntaxKind
open Tombi.Formatter (TomlLiteral PlainKey DotKey isLetter)
open Tombi.Format (AstKey)
open Tombi.Spec

abbrev Text := List Char

/-! ### what stands in a document -/

mutual
/-- A value: a literal with its kind and text, an array, an inline table. -/
inductive Val where
  | lit (kind : SyntaxKind) (text : Text)
  | array (items : List Val)
  | table (pairs : List Pair)
/-- A pair `key = value`. -/
inductive Pair where
  | mk (keys : List AstKey) (value : Val)
end

/-- A table `[header]` or an element `[[header]]` of an array of tables, with its pairs. -/
structure Sec where
  isArray : Bool
  header : List AstKey
  pairs : List Pair

/-- A document. -/
structure File where
  pairs : List Pair
  sections : List Sec

mutual
/-- Arrays and inline tables are nested at most `n` deep. -/
def Val.Nested : Nat → Val → Prop
  | _, .lit _ _ => True
  | 0, _ => False
  | n + 1, .array items => itemsNested n items
  | n + 1, .table pairs => pairsNested n pairs
/-- `Nested` for a pair. -/
def Pair.Nested : Nat → Pair → Prop
  | n, .mk _ v => v.Nested n
/-- `Nested` for the items of an array. -/
def itemsNested : Nat → List Val → Prop
  | _, [] => True
  | n, v :: rest => v.Nested n ∧ itemsNested n rest
/-- `Nested` for the pairs of a table. -/
def pairsNested : Nat → List Pair → Prop
  | _, [] => True
  | n, p :: rest => p.Nested n ∧ pairsNested n rest
end

/-- `Nested` for a document. -/
def File.Nested (n : Nat) (f : File) : Prop := pairsNested n f.pairs ∧ ∀ s ∈ f.sections, pairsNested n s.pairs

/-! ### blanks, newlines, comments -/

/-- `ws`: blanks and tabs. -/
def Ws (w : Text) : Prop := ∀ c ∈ w, c = ' ' ∨ c = '\t'

/-- `newline`: LF or CRLF. -/
def Newline (n : Text) : Prop := n = ['\n'] ∨ n = ['\r', '\n']

/-- `non-eol`: the characters of comments. -/
def isCommentChar (c : Char) : Prop := c = '\t' ∨ (0x20 ≤ c.toNat ∧ c.toNat ≠ 0x7f)

/-- `comment`. -/
def Comment (t : Text) : Prop := ∃ u, t = '#' :: u ∧ ∀ c ∈ u, isCommentChar c

/-- `[ comment ]`. -/
def OptComment (t : Text) : Prop := t = [] ∨ Comment t

/-- `ws-comment-newline`: what may stand between the parts of an array. -/
inductive Gap : Text → Prop where
  | nil : Gap []
  | ws {c g} : Ws [c] → Gap g → Gap (c :: g)
  | newline {n g} : Newline n → Gap g → Gap (n ++ g)
  | comment {c n g} : Comment c → Newline n → Gap g → Gap (c ++ (n ++ g))

/-- A gap without blank lines: every newline belongs to a comment. -/
inductive CommentLines : Text → Prop where
  | nil : CommentLines []
  | ws {c g} : Ws [c] → CommentLines g → CommentLines (c :: g)
  | comment {c n g} : Comment c → Newline n → CommentLines g → CommentLines (c ++ (n ++ g))

/-- A gap whose blank lines stand before its comments. -/
inductive BlankFirst : Text → Prop where
  | lines {g} : CommentLines g → BlankFirst g
  | ws {c g} : Ws [c] → BlankFirst g → BlankFirst (c :: g)
  | newline {n g} : Newline n → BlankFirst g → BlankFirst (n ++ g)

/-- A gap in which no comment is followed by a blank line, apart from a comment behind the value on its line. -/
def TightGap (g : Text) : Prop :=
  BlankFirst g ∨ ∃ w c n g', Ws w ∧ Comment c ∧ Newline n ∧ BlankFirst g' ∧ g = w ++ (c ++ (n ++ g'))

/-! ### the words -/

/-- What the grammar is built on: keys, keys before a dot, literals with their kinds, gaps before a comma. -/
structure Words where
  key : AstKey → Prop
  keyBeforeDot : AstKey → Prop
  literal : SyntaxKind → Text → Prop
  beforeComma : Text → Prop

/-- `unquoted-key`. -/
def BareKey (t : Text) : Prop :=
  t ≠ [] ∧ ∀ x ∈ t, isLetter x = true ∨ inRange '0' '9' x = true ∨ x = '_' ∨ x = '-'

/-- `simple-key`. -/
def TomlKey : AstKey → Prop
  | .bare t => BareKey t
  | .basic t => BasicString t
  | .literal t => LiteralString t

/-- TOML. -/
def Words.toml : Words where
  key := TomlKey
  keyBeforeDot := TomlKey
  literal := fun k t => TomlLiteral k t ∨ (k = MULTI_LINE_BASIC_STRING ∧ ∃ items, MultiBasicString items t)
  beforeComma := Gap

/-- The part of TOML that C69 speaks about: a bare key that begins with a date is the date; bare keys that are a date or
digits stand last; no multi-line basic string ends with an escaped backslash; gaps before commas are tight. -/
def Words.usual : Words where
  key := fun
    | .bare t => PlainKey t
    | .basic t => BasicString t
    | .literal t => LiteralString t
  keyBeforeDot := fun
    | .bare t => DotKey t
    | .basic t => BasicString t
    | .literal t => LiteralString t
  literal := TomlLiteral
  beforeComma := TightGap

/-! ### the grammar -/

/-- The text of a key. -/
def keyText : AstKey → Text
  | .bare t => t
  | .basic t => t
  | .literal t => t

/-- `key`: keys with dots between them. -/
inductive KeyText (L : Words) : List AstKey → Text → Prop where
  | last {k} : L.key k → KeyText L [k] (keyText k)
  | dot {k ks a b t} : L.keyBeforeDot k → Ws a → Ws b → KeyText L ks t →
      KeyText L (k :: ks) (keyText k ++ (a ++ '.' :: (b ++ t)))

mutual
/-- `val`. -/
def Val.Text (L : Words) : Val → Text → Prop
  | .lit k t, x => L.literal k t ∧ x = t
  | .array items, x => ∃ t, itemsText L items t ∧ x = '[' :: (t ++ [']'])
  | .table pairs, x => ∃ t, pairsText L pairs t ∧ x = '{' :: (t ++ ['}'])
/-- `keyval`. -/
def Pair.Text (L : Words) : Pair → Text → Prop
  | .mk ks v, x => ∃ k a b t, KeyText L ks k ∧ Ws a ∧ Ws b ∧ v.Text L t ∧ x = k ++ (a ++ '=' :: (b ++ t))
/-- What stands between the brackets of an array: values with commas between them, and perhaps one at the end. -/
def itemsText (L : Words) : List Val → Text → Prop
  | [], x => Gap x
  | v :: rest, x => ∃ g t g', Gap g ∧ v.Text L t ∧
      (rest = [] ∧ Gap g' ∧ x = g ++ (t ++ g') ∨
        ∃ t', L.beforeComma g' ∧ itemsText L rest t' ∧ x = g ++ (t ++ (g' ++ ',' :: t')))
/-- What stands between the braces of an inline table. -/
def pairsText (L : Words) : List Pair → Text → Prop
  | [], x => Gap x
  | p :: rest, x => ∃ g t g', Gap g ∧ p.Text L t ∧
      (rest = [] ∧ Gap g' ∧ x = g ++ (t ++ g') ∨
        ∃ t', L.beforeComma g' ∧ pairsText L rest t' ∧ x = g ++ (t ++ (g' ++ ',' :: t')))
end

/-- `table`: the text of a header. -/
def HeaderText (L : Words) (isArray : Bool) (ks : List AstKey) (x : Text) : Prop :=
  ∃ a k b, Ws a ∧ KeyText L ks k ∧ Ws b ∧
    x = if isArray then '[' :: '[' :: (a ++ (k ++ (b ++ [']', ']']))) else '[' :: (a ++ (k ++ (b ++ [']'])))

/-- The lines of a document from some line on: the pairs before the next header, the tables from there on, the text. A
line holds a pair, a header or nothing, and perhaps a comment; the last one ends with the text. -/
inductive Lines (L : Words) : List Pair → List Sec → Text → Prop where
  | end_ {w c} : Ws w → OptComment c → Lines L [] [] (w ++ c)
  | blank {w c n ps ss t} : Ws w → OptComment c → Newline n → Lines L ps ss t → Lines L ps ss (w ++ (c ++ (n ++ t)))
  | pairEnd {w p x w' c} : Ws w → p.Text L x → Ws w' → OptComment c → Lines L [p] [] (w ++ (x ++ (w' ++ c)))
  | pair {w p x w' c n ps ss t} : Ws w → p.Text L x → Ws w' → OptComment c → Newline n → Lines L ps ss t →
      Lines L (p :: ps) ss (w ++ (x ++ (w' ++ (c ++ (n ++ t)))))
  | headerEnd {w arr ks x w' c} : Ws w → HeaderText L arr ks x → Ws w' → OptComment c →
      Lines L [] [⟨arr, ks, []⟩] (w ++ (x ++ (w' ++ c)))
  | header {w arr ks x w' c n ps ss t} : Ws w → HeaderText L arr ks x → Ws w' → OptComment c → Newline n →
      Lines L ps ss t → Lines L [] (⟨arr, ks, ps⟩ :: ss) (w ++ (x ++ (w' ++ (c ++ (n ++ t)))))

/-- `toml`: a document and its text. -/
def FileText (L : Words) (f : File) (t : Text) : Prop := Lines L f.pairs f.sections t

/-! ### what tombi reads

A syntax tree of tombi, read through its accessors (`Verif/Model/AstDoc.lean`), without comments, blank lines, grouping
and commas. -/

open Tombi.Formatter (Node Body Section Doc)

mutual
/-- The value of a node. A pair where a value is expected is no value of TOML. -/
def valOf : Node → Val
  | .lit _ k t _ => .lit k t
  | .array _ _ b _ => .array (valsOf b)
  | .table _ _ b _ => .table (pairsOf b)
  | .pair _ _ _ _ => .lit KEY_VALUE []
/-- The values of an array. -/
def valsOf : Body → List Val
  | .nil => []
  | .dangling _ _ b => valsOf b
  | .item _ n _ b => valOf n :: valsOf b
/-- The pairs of a table. -/
def pairsOf : Body → List Pair
  | .nil => []
  | .dangling _ _ b => pairsOf b
  | .item _ (.pair _ ks _ v) _ b => .mk ks (valOf v) :: pairsOf b
  | .item _ _ _ b => pairsOf b
end

/-- A table or an element of an array of tables. -/
def secOf (s : Section) : Sec := ⟨s.isArray, s.header, pairsOf s.body⟩

/-- The document. -/
def fileOf (d : Doc) : File := ⟨pairsOf d.body, d.sections.map secOf⟩

end Tombi.TomlFile
