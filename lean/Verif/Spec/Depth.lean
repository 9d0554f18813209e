import Verif.Model.Lexer
/-! How deep the brackets and braces of a text are nested. -/
namespace Tombi.Spec
open SyntaxKind

/-- `[` or `{` -/
def opens (t : Token) : Bool := t.kind == BRACKET_START || t.kind == BRACE_START

/-- `]` or `}` -/
def closes (t : Token) : Bool := t.kind == BRACKET_END || t.kind == BRACE_END

/-- At some place of the text, more than `n` brackets and braces are open. -/
def DeeperThan (n : Nat) (tokens : List Token) : Prop :=
  ∃ before after, tokens = before ++ after ∧ before.countP closes + n < before.countP opens

end Tombi.Spec
