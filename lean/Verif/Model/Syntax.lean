/-! Model of `tombi-syntax`: the kinds of tokens and nodes. -/
namespace Tombi

/-- `crates/tombi-syntax/src/generated/syntax_kind.rs:7-56` (`SyntaxKind`), same order, so that the
constructor index is the `#[repr(u16)]` discriminant. -/
inductive SyntaxKind where
  | TOMBSTONE | EOF | COMMA | DOT | EQUAL | BRACKET_START | BRACKET_END | BRACE_START | BRACE_END
  | DOUBLE_BRACKET_START | DOUBLE_BRACKET_END | BASIC_STRING | MULTI_LINE_BASIC_STRING
  | LITERAL_STRING | MULTI_LINE_LITERAL_STRING | INTEGER_DEC | INTEGER_HEX | INTEGER_OCT
  | INTEGER_BIN | FLOAT | BOOLEAN | OFFSET_DATE_TIME | LOCAL_DATE_TIME | LOCAL_DATE | LOCAL_TIME
  | WHITESPACE | LINE_BREAK | COMMENT | ERROR | ROOT | KEYS | KEY | VALUE | KEY_VALUE | BARE_KEY
  | ARRAY | TABLE | INLINE_TABLE | ARRAY_OF_TABLE | DANGLING_COMMENT_GROUP | KEY_VALUE_GROUP
  | KEY_VALUE_WITH_COMMA_GROUP | VALUE_WITH_COMMA_GROUP | INVALID_TOKEN | LAST
  deriving DecidableEq, Repr

/-- `syntax_kind.rs:57-62` (`is_trivia`). -/
def SyntaxKind.isTrivia (k : SyntaxKind) : Bool := k == .WHITESPACE

/-- `k as u16` / `k as usize` (`syntax_kind.rs:64-69`, `:77-82`). -/
def SyntaxKind.toNat (k : SyntaxKind) : Nat := k.ctorIdx

end Tombi
