import Verif.Spec.TomlDocument
import Verif.Spec.TomlText
import Verif.Spec.DateTime
import Verif.Spec.Document
import Verif.Model.ReadDocument
/-!
What a document of the TOML grammar means: the values of its keys and literals. With `Verif/Spec/Document.lean` (what the
keys and values of a document make) this is the meaning of a text.
-/
namespace Tombi.Reading
open SyntaxKind Spec
open Tombi.TomlFile (Val Pair Sec File Words)
open Tombi.Format (AstKey)

/-- "A newline immediately following the opening delimiter will be trimmed." -/
def trimNewline : Text → Text
  | '\n' :: s => s
  | '\r' :: '\n' :: s => s
  | s => s

/-- The text of a time of day: TOML 1.1 has times without seconds. -/
def TimeMeans (v : TomlVersion) (t : DateTime.Time) (w : Text) : Prop :=
  ValidTime t ∧ (SecondsText t w ∨ (v ≠ .V1_0_0 ∧ MinutesText t w))

/-- The value of a literal. -/
inductive LiteralMeans (v : TomlVersion) : SyntaxKind → Text → Scalar → Prop where
  | true_ : LiteralMeans v BOOLEAN ['t', 'r', 'u', 'e'] (.boolean true)
  | false_ : LiteralMeans v BOOLEAN ['f', 'a', 'l', 's', 'e'] (.boolean false)
  | dec {t} : InI64 (decValue t) → LiteralMeans v INTEGER_DEC t (.integer (decValue t))
  | hex {t} : InI64 (prefixedValue 16 t) → LiteralMeans v INTEGER_HEX t (.integer (prefixedValue 16 t))
  | oct {t} : InI64 (prefixedValue 8 t) → LiteralMeans v INTEGER_OCT t (.integer (prefixedValue 8 t))
  | bin {t} : InI64 (prefixedValue 2 t) → LiteralMeans v INTEGER_BIN t (.integer (prefixedValue 2 t))
  | float {t} : LiteralMeans v FLOAT t (.float (t.filter (· ≠ '_')))
  | basic {s o} : Decodes toml v false s o → LiteralMeans v BASIC_STRING ('"' :: (s ++ ['"'])) (.string o)
  | literal {s} : LiteralOk false s → LiteralMeans v LITERAL_STRING ('\'' :: (s ++ ['\''])) (.string s)
  | multiBasic {s o} : Decodes toml v true (trimNewline s) o →
      LiteralMeans v MULTI_LINE_BASIC_STRING (['"', '"', '"'] ++ s ++ ['"', '"', '"']) (.string o)
  | multiLiteral {s} : LiteralOk true (trimNewline s) →
      LiteralMeans v MULTI_LINE_LITERAL_STRING (['\'', '\'', '\''] ++ s ++ ['\'', '\'', '\'']) (.string (trimNewline s))
  | localDate {t d} : DateText d t → ValidDate d → LiteralMeans v LOCAL_DATE t (.localDate d)
  | localTime {t w} : TimeMeans v t w → LiteralMeans v LOCAL_TIME w (.localTime t)
  | localDateTime {d t c wd wt} : DateText d wd → ValidDate d → DateTimeSeparator c → TimeMeans v t wt →
      LiteralMeans v LOCAL_DATE_TIME (wd ++ c :: wt) (.localDateTime d t)
  | offsetDateTime {d t o c wd wt wo} : DateText d wd → ValidDate d → DateTimeSeparator c → TimeMeans v t wt →
      OffsetText o wo → LiteralMeans v OFFSET_DATE_TIME (wd ++ c :: wt ++ wo) (.offsetDateTime d t o)

/-- The name a key stands for. -/
inductive KeyMeans (v : TomlVersion) : AstKey → Text → Prop where
  | bare {t} : KeyMeans v (.bare t) t
  | basic {s o} : Decodes toml v false s o → KeyMeans v (.basic ('"' :: (s ++ ['"']))) o
  | literal {s} : LiteralOk false s → KeyMeans v (.literal ('\'' :: (s ++ ['\'']))) s

/-- The names of a dotted key. -/
def keysMean (v : TomlVersion) : List AstKey → List DKey → Prop
  | [], [] => True
  | k :: ks, n :: ns => KeyMeans v k n ∧ keysMean v ks ns
  | _, _ => False

mutual
/-- The value of a value of the grammar. -/
def ValMeans (v : TomlVersion) : Val → AstValue Scalar → Prop
  | .lit k t, .scalar s => LiteralMeans v k t s
  | .array items, .array xs => itemsMean v items xs
  | .table pairs, .inlineTable kvs => pairsMean v pairs kvs
  | _, _ => False
/-- The elements of an array. -/
def itemsMean (v : TomlVersion) : List Val → List (AstItem Scalar) → Prop
  | [], [] => True
  | i :: is, .value x :: xs => ValMeans v i x ∧ itemsMean v is xs
  | _, _ => False
/-- Pairs `key = value`. -/
def pairsMean (v : TomlVersion) : List Pair → List (AstKeyValue Scalar) → Prop
  | [], [] => True
  | .mk ks x :: ps, .mk (some ns) (some y) :: kvs => keysMean v ks ns ∧ ValMeans v x y ∧ pairsMean v ps kvs
  | _, _ => False
end

/-- The tables of a document. -/
def secsMean (v : TomlVersion) : List Sec → List (AstSection Scalar) → Prop
  | [], [] => True
  | s :: ss, x :: xs => (s.isArray = x.isArray ∧ (∃ ns, x.header = some ns ∧ keysMean v s.header ns) ∧
      pairsMean v s.pairs x.kvs) ∧ secsMean v ss xs
  | _, _ => False

/-- A document of the grammar with the values of its keys and literals. -/
def FileMeans (v : TomlVersion) (f : File) (root : AstRoot Scalar) : Prop :=
  pairsMean v f.pairs root.kvs ∧ secsMean v f.sections root.sections

/-! ### the literals that are read right -/

/-- White space of TOML and newlines. -/
def plainWs (c : Char) : Prop := c = ' ' ∨ c = '\t' ∨ c = '\n' ∨ c = '\r'

/-- Behind a backslash at the end of a line, and the blanks of TOML after it, stands no other Unicode white space. -/
def PlainContinuation (s : Text) : Prop :=
  ∀ a w c b, s = a ++ '\\' :: (w ++ c :: b) → (∀ x ∈ w, plainWs x) → '\n' ∈ w → charIsWhitespace c = true → plainWs c

/-- The literals that C70 speaks about: no float `0E…` with a capital letter (C46), no multi-line string that begins with
an empty line, or with CRLF (C16), none with other white space after a backslash at the end of a line (C13). -/
def Readable : SyntaxKind → Text → Prop
  | FLOAT, t => ¬ ∃ sign z, (sign = [] ∨ sign = ['+'] ∨ sign = ['-']) ∧ t = sign ++ '0' :: 'E' :: z
  | MULTI_LINE_BASIC_STRING, t => ∀ s, t = ['"', '"', '"'] ++ s ++ ['"', '"', '"'] →
      ¬ ['\n', '\n'] <+: s ∧ ¬ ['\r', '\n'] <+: s ∧ PlainContinuation s
  | MULTI_LINE_LITERAL_STRING, t => ∀ s, t = ['\'', '\'', '\''] ++ s ++ ['\'', '\'', '\''] →
      ¬ ['\n', '\n'] <+: s ∧ ¬ ['\r', '\n'] <+: s
  | _, _ => True

/-- The part of TOML that C70 speaks about. -/
def wordsReadable : Words := { Words.usual with literal := fun k t => Words.usual.literal k t ∧ Readable k t }

/-- What the body of a string holds when tombi and TOML agree on it: no white space but space, tab, LF and CRLF, no line
feed between single quotes, no `+` as first digit of an escape (C13). -/
structure PlainBody (multi : Bool) (s : Text) : Prop where
  ws : ∀ c ∈ s, charIsWhitespace c = true → plainWs c
  cr : multi = true → ∀ a b, s = a ++ '\r' :: b → b.head? = some '\n'
  nl : multi = false → '\n' ∉ s
  plus : ∀ a k b, s = a ++ '\\' :: k :: '+' :: b → k ≠ 'u' ∧ k ≠ 'U' ∧ k ≠ 'x'

/-- The literals in which tombi takes nothing that is not TOML. -/
def PlainLiteral : SyntaxKind → Text → Prop
  | BASIC_STRING, t => ∀ s, t = '"' :: (s ++ ['"']) → PlainBody false s
  | MULTI_LINE_BASIC_STRING, t => ∀ s, t = ['"', '"', '"'] ++ s ++ ['"', '"', '"'] → PlainBody true s
  | _, _ => True

/-- The keys in which tombi takes nothing that is not TOML. -/
def PlainName : AstKey → Prop
  | .basic t => PlainLiteral BASIC_STRING t
  | _ => True

/-- The words of `wordsReadable` in which tombi takes nothing that is not TOML. -/
def wordsPlain : Words where
  key := fun k => wordsReadable.key k ∧ PlainName k
  keyBeforeDot := fun k => wordsReadable.keyBeforeDot k ∧ PlainName k
  literal := fun k t => wordsReadable.literal k t ∧ PlainLiteral k t
  beforeComma := wordsReadable.beforeComma

/-- A character that may stand in a comment. -/
def CommentChar (c : Char) : Prop := c = '\t' ∨ (0x20 ≤ c.toNat ∧ c.toNat ≠ 0x7F)

end Tombi.Reading
