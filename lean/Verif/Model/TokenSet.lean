import Verif.Model.Syntax
/-! Model of `crates/tombi-parser/src/token_set.rs`: a bit set of kinds in three 64-bit words. -/
namespace Tombi

/-- `token_set.rs:53-55` (`TokenSet([u64; 3])`). -/
structure TokenSet where
  words : List (BitVec 64)

namespace TokenSet

/-- `token_set.rs:62-64`: one round of the loop in `new`. The index `discriminant / 64` is checked by
the compiler (`const` evaluation); the model leaves the words unchanged when it is out of range. -/
def insert (s : TokenSet) (k : SyntaxKind) : TokenSet :=
  let d := k.toNat
  ⟨s.words.modify (d / 64) (· ||| (1#64 <<< (d % 64)))⟩

/-- `token_set.rs:58-68` (`TokenSet::new`). -/
def new (kinds : List SyntaxKind) : TokenSet := kinds.foldl insert ⟨List.replicate 3 0#64⟩

/-- `token_set.rs:70-75` (`contains`); an out-of-range index (a panic) reads as the empty word. -/
def contains (s : TokenSet) (k : SyntaxKind) : Bool :=
  let d := k.toNat
  (s.words[d / 64]?.getD 0#64) &&& (1#64 <<< (d % 64)) != 0#64

end TokenSet

open SyntaxKind

/-- `token_set.rs:3`. -/
def TS_LINE_END : TokenSet := .new [LINE_BREAK, EOF]
/-- `token_set.rs:4`. -/
def TS_COMMENT_OR_LINE_END : TokenSet := .new [COMMENT, LINE_BREAK, EOF]
/-- `token_set.rs:5`. -/
def TS_NEXT_SECTION : TokenSet := .new [BRACKET_START, DOUBLE_BRACKET_START, EOF]
/-- `token_set.rs:6`. -/
def TS_INLINE_TABLE_END : TokenSet := .new [BRACE_END, EOF]
/-- `token_set.rs:7`. -/
def TS_ARRAY_END : TokenSet := .new [BRACKET_END, EOF]
/-- `token_set.rs:8-26`. -/
def TS_VALUE_FIRST : TokenSet :=
  .new [BASIC_STRING, MULTI_LINE_BASIC_STRING, LITERAL_STRING, MULTI_LINE_LITERAL_STRING,
    INTEGER_DEC, INTEGER_BIN, INTEGER_OCT, INTEGER_HEX, FLOAT, BOOLEAN, OFFSET_DATE_TIME,
    LOCAL_DATE_TIME, LOCAL_DATE, LOCAL_TIME, BRACKET_START, BRACE_START, BARE_KEY]
/-- `token_set.rs:27-28`. -/
def TS_DANGLING_COMMENT_GROUP_END : TokenSet := .new [BRACE_END, BRACKET_END, LINE_BREAK, EOF]
/-- `token_set.rs:29`. -/
def TS_LEADING_COMMENTS_KINDS : TokenSet := .new [COMMENT, LINE_BREAK]
/-- `token_set.rs:30-51`. -/
def TS_KEY_FIRST : TokenSet :=
  .new [BARE_KEY, BASIC_STRING, LITERAL_STRING, INTEGER_DEC, INTEGER_HEX, INTEGER_OCT, INTEGER_BIN,
    FLOAT, BOOLEAN, LOCAL_DATE]

end Tombi
