import Verif.Model.Lexer
/-!
Specification vocabulary for source texts and tokens. Nothing here refers to the lexer's internals:
only to texts, byte offsets, line/column positions, and the fields of a token.
-/
namespace Tombi.Spec

/-- Spans laid end to end from byte `a` to byte `b`, none empty. -/
inductive Tiles : Nat → List Span → Nat → Prop where
  | nil (a : Nat) : Tiles a [] a
  | cons (a m b : Nat) (rest : List Span) : a < m → Tiles m rest b → Tiles a (⟨a, m⟩ :: rest) b

/-- Line of the end of `pre`: the number of line feeds in it. -/
def lineOf (pre : List Char) : Nat := pre.count '\n'

/-- Column of the end of `pre`: the number of characters after the last line feed in it. -/
def columnOf (pre : List Char) : Nat := (pre.reverse.takeWhile (· ≠ '\n')).length

/-- Line and column of the end of `pre`. -/
def posOf (pre : List Char) : Position := ⟨lineOf pre, columnOf pre⟩

/-- Token `t` covers the text `mid`, between `pre` and `post`. -/
structure Covers (t : Token) (pre mid post src : List Char) : Prop where
  src : src = pre ++ mid ++ post
  start : t.span.start = utf8Len pre
  stop : t.span.stop = utf8Len (pre ++ mid)

/-- Token kinds that keep their neighbours from being joint: spaces and tabs only (line breaks and
comments are grammatical tokens in TOML). -/
def blank (k : SyntaxKind) : Prop := k = .WHITESPACE

end Tombi.Spec
