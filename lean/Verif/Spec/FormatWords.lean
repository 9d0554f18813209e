import Verif.Spec.Formatter
import Verif.Spec.TomlGrammar
import Verif.Spec.Strings
import Verif.Basic.Regex
/-!
Words of the TOML grammar: which keys, literals and comments a document may hold so that
`Verif/Props/FormatAgain.lean` speaks about it.
-/
namespace Tombi.Formatter
open SyntaxKind
open Tombi.Format (AstKey)
open Tombi.Spec

/-- The two line endings. -/
def _root_.Tombi.IsLineEnding (le : List Char) : Prop := le = ['\n'] ∨ le = ['\r', '\n']

/-- a letter -/
def isLetter (c : Char) : Bool := inRange 'A' 'Z' c || inRange 'a' 'z' c

/-- A written piece as the kind and the text of a token. -/
def Piece.leaf : Piece → SyntaxKind × Text
  | .token k t => (k, t)
  | .comment t => (COMMENT, t)
  | .blank t => (WHITESPACE, t)
  | .newline => (LINE_BREAK, [])

/-- A bare key that starts with a letter or an underscore. -/
def NameKey (t : Text) : Prop :=
  ∃ c w, t = c :: w ∧ (isLetter c = true ∨ c = '_') ∧
    ∀ x ∈ w, isLetter x = true ∨ inRange '0' '9' x = true ∨ x = '_' ∨ x = '-'

/-- A bare key that looks like a decimal number or a date. -/
def NumberKey (t : Text) : Prop := Toml.unsignedDecInt.Lang t ∨ Toml.fullDate.Lang t

/-- A bare key. If it begins with a date, it is the date. -/
def PlainKey (t : Text) : Prop :=
  t ≠ [] ∧ (∀ x ∈ t, isLetter x = true ∨ inRange '0' '9' x = true ∨ x = '_' ∨ x = '-') ∧
    ∀ d r, t = d ++ r → Toml.fullDate.Lang d → r = []

/-- A bare key of digits and underscores, perhaps with a dash before them. -/
def DigitKey (t : Text) : Prop :=
  ∃ s d w, t = s ++ d :: w ∧ (s = [] ∨ s = ['-']) ∧ inRange '0' '9' d = true ∧ ∀ x ∈ w, inRange '0' '9' x = true ∨ x = '_'

/-- A bare key that is neither a date nor a number of digits. -/
def DotKey (t : Text) : Prop := PlainKey t ∧ ¬ DigitKey t ∧ ¬ Toml.fullDate.Lang t

/-- The literals of the TOML grammar, with their kinds. A multi-line basic string that ends with an escaped backslash is
left out: tombi does not find its end (C05). -/
inductive TomlLiteral : SyntaxKind → Text → Prop where
  | dec {t} : Toml.decInt.Lang t → TomlLiteral INTEGER_DEC t
  | hex {t} : Toml.hexInt.Lang t → TomlLiteral INTEGER_HEX t
  | oct {t} : Toml.octInt.Lang t → TomlLiteral INTEGER_OCT t
  | bin {t} : Toml.binInt.Lang t → TomlLiteral INTEGER_BIN t
  | float {t} : Toml.float.Lang t → TomlLiteral FLOAT t
  | boolean {t} : Toml.boolean.Lang t → TomlLiteral BOOLEAN t
  | offsetDateTime {t} : Toml.offsetDateTime.Lang t → TomlLiteral OFFSET_DATE_TIME t
  | localDateTime {t} : Toml.localDateTime.Lang t → TomlLiteral LOCAL_DATE_TIME t
  | localDate {t} : Toml.fullDate.Lang t → TomlLiteral LOCAL_DATE t
  | localTime {t} : Toml.partialTime.Lang t → TomlLiteral LOCAL_TIME t
  | basic {t} : BasicString t → TomlLiteral BASIC_STRING t
  | literal {t} : LiteralString t → TomlLiteral LITERAL_STRING t
  | multiBasic {items t} : MultiBasicString items t → items.getLast? ≠ some (.esc '\\') →
      TomlLiteral MULTI_LINE_BASIC_STRING t
  | multiLiteral {t} : MultiLiteralString t → TomlLiteral MULTI_LINE_LITERAL_STRING t

/-- The keys and literals of the TOML grammar, without the bare keys that begin with a date and go on. -/
def TomlWord : Word → Prop
  | .key (.bare t) => PlainKey t
  | .key (.basic t) => BasicString t
  | .key (.literal t) => LiteralString t
  | .literal k t => TomlLiteral k t
  | .mark _ => True
  | .comment _ _ => True

/-- Bare keys before a dot are not digits only: `1.2` would be one number. -/
def NamesBeforeDots (ws : List Word) : Prop :=
  ∀ a t b, ws = a ++ .key (.bare t) :: .mark DOT :: b → DotKey t

/-- The tokens of the TOML grammar, with the same bare keys. -/
inductive TomlToken : SyntaxKind × Text → Prop where
  | bare {t} : PlainKey t → TomlToken (BARE_KEY, t)
  | literal {k t} : TomlLiteral k t → TomlToken (k, t)
  | mark {k} : markText k ≠ [] → TomlToken (k, markText k)
  | comment {t} : TomlToken (COMMENT, t)

end Tombi.Formatter
