import Verif.Model.TomlText
/-! Specification of comment texts and their tidy form. -/
namespace Tombi.Spec

/-- The marker directly after the `#` of a comment: nothing, a single `!`, or more `#`. -/
inductive CommentMarker : List Char → Prop where
  | none : CommentMarker []
  | bang : CommentMarker ['!']
  | hashes (n : Nat) : CommentMarker (List.replicate (n + 1) '#')

/-- a blank: space or tab -/
def Blanks (s : List Char) : Prop := ∀ c ∈ s, c = ' ' ∨ c = '\t'

/-- ASCII white space -/
def AsciiSpaces (s : List Char) : Prop := ∀ c ∈ s, c = ' ' ∨ c = '\t' ∨ c = '\n' ∨ c = '\x0c' ∨ c = '\r'

/-- The comment `text` is `#`, a marker, blanks, words and trailing white space. The marker is as long as
possible, the words start and end with something visible, and blanks come before words only. -/
structure CommentParts (text marker blanks words trail : List Char) : Prop where
  text_eq : text = '#' :: (marker ++ blanks ++ words ++ trail)
  marker_ok : CommentMarker marker
  /-- nothing that could be (more of) a marker follows it -/
  marker_max : blanks = [] → (words.head? ≠ some '#' ∨ marker = ['!']) ∧ (words.head? ≠ some '!' ∨ marker ≠ [])
  blanks_ok : Blanks blanks
  words_start : words.head? ≠ some ' ' ∧ words.head? ≠ some '\t'
  words_end : ∀ c, words.getLast? = some c → ¬ AsciiSpaces [c]
  no_words : words = [] → blanks = []
  trail_ok : AsciiSpaces trail

/-- The tidy form: the marker, one space and the words; or, when further blanks are to be kept, the marker,
one space in the place of the first blank, the other blanks and the words. -/
def tidyComment (strip : Bool) (marker blanks words : List Char) : List Char :=
  if words = [] then '#' :: marker
  else '#' :: (marker ++ ' ' :: ((if strip then [] else blanks.tail) ++ words))

/-- white space of Unicode -/
def Spaces (s : List Char) : Prop := ∀ c ∈ s, charIsWhitespace c = true

/-- A comment that gives no instruction to Tombi: it starts neither with `#:schema ` nor with `#:tombi `, and
is not `#`, white space and `tombi:`. -/
structure NoDirective (text : List Char) : Prop where
  schema : ¬ ['#', ':', 's', 'c', 'h', 'e', 'm', 'a', ' '] <+: text
  document : ¬ ['#', ':', 't', 'o', 'm', 'b', 'i', ' '] <+: text
  value : ∀ s c, Spaces s → text ≠ '#' :: (s ++ ['t', 'o', 'm', 'b', 'i', ':'] ++ c)

end Tombi.Spec
