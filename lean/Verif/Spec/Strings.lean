import Verif.Model.Lexer
/-!
Specification of TOML string literals, from the TOML grammar (toml.abnf), as texts. The classes of
characters are those of the grammar or larger (control characters are not excluded), so theorems
about all of these literals cover all valid TOML string literals.
-/
namespace Tombi.Spec

/-- One element of a basic string: an ordinary character, an escape pair `\e` (a longer escape such
as `é` is the pair `\u` followed by ordinary characters), or a bare quote (only inside
multi-line strings). -/
inductive Item where
  | chr (c : Char)
  | esc (e : Char)
  | quote
  deriving DecidableEq, Repr

def Item.text : Item → List Char
  | .chr c => [c]
  | .esc e => ['\\', e]
  | .quote => ['"']

/-- The text of a sequence of items. -/
def render : List Item → List Char
  | [] => []
  | i :: is => i.text ++ render is

/-- An item allowed in a single-line basic string. -/
def Item.single : Item → Prop
  | .chr c => c ≠ '"' ∧ c ≠ '\\' ∧ c ≠ '\n' ∧ c ≠ '\r'
  | .esc e => e ≠ '\n' ∧ e ≠ '\r'
  | .quote => False

/-- An item allowed in a multi-line basic string. -/
def Item.multi : Item → Prop
  | .chr c => c ≠ '"' ∧ c ≠ '\\'
  | .esc _ => True
  | .quote => True

/-- A single-line basic string literal. -/
def BasicString (lit : List Char) : Prop :=
  ∃ items, (∀ i ∈ items, i.single) ∧ lit = '"' :: (render items ++ ['"'])

/-- A single-line literal string literal. -/
def LiteralString (lit : List Char) : Prop :=
  ∃ body, '\'' ∉ body ∧ '\n' ∉ body ∧ '\r' ∉ body ∧ lit = '\'' :: (body ++ ['\''])

/-- A multi-line basic string literal with these items: no three bare quotes in a row before the
closing ones (so up to two quotes may stand directly before the closing three). -/
def MultiBasicString (items : List Item) (lit : List Char) : Prop :=
  (∀ i ∈ items, i.multi) ∧ ¬ [Item.quote, .quote, .quote] <:+: items
    ∧ lit = ['"', '"', '"'] ++ render items ++ ['"', '"', '"']

/-- A multi-line literal string literal. -/
def MultiLiteralString (lit : List Char) : Prop :=
  ∃ body, ¬ ['\'', '\'', '\''] <:+: body ∧ lit = ['\'', '\'', '\''] ++ body ++ ['\'', '\'', '\'']

end Tombi.Spec
