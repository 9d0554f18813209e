import Verif.Model.TextOps
/-!
Specification: spans as sets of offsets, lines of a text, editor positions, and what is assumed of the grapheme
segmentation (`unicode-segmentation`).
-/
namespace Tombi.Spec

/-- the offsets in a span -/
def InSpan (o : Nat) (s : Span) : Prop := s.start ≤ o ∧ o < s.stop

/-- line terminators -/
def Terminator (t : List Char) : Prop := t = ['\n'] ∨ t = ['\r', '\n']

/-- What is assumed of the segmentation into graphemes, from the rules of UAX #29: cutting a text at boundaries does
not move the boundaries inside the pieces, and line terminators are graphemes of their own. -/
structure Segments (G : Segmenter) : Prop where
  stable : ∀ s i n, G.graphemes (((G.graphemes s).drop i).take n).flatten = ((G.graphemes s).drop i).take n
  line : ∀ a t b, Terminator t → (t = ['\n'] → ∀ a', a ≠ a' ++ ['\r']) →
    G.graphemes (a ++ t ++ b) = G.graphemes a ++ t :: G.graphemes b

/-- `Lines s ls`: the text `s` consists of the lines `ls`, separated by line terminators. Lines contain no line feed,
and a carriage return before a line feed belongs to the terminator. -/
inductive Lines : List Char → List (List Char) → Prop
  | last {l : List Char} : '\n' ∉ l → Lines l [l]
  | cons {l t s : List Char} {ls : List (List Char)} : '\n' ∉ l → Terminator t → (t = ['\n'] → ∀ l', l ≠ l' ++ ['\r']) →
      Lines s ls → Lines (l ++ t ++ s) (l :: ls)

/-- the code units a text takes in an encoding of the editor -/
def codeUnits (e : EncodingKind) (s : List Char) : Nat := (s.map fun c => match e with
  | .utf8 => c.utf8Size
  | .utf16 => if c.toNat ≤ 0xFFFF then 1 else 2
  | .utf32 => 1).sum

/-- the text after the last line feed -/
def lastLine (pre : List Char) : List Char := (pre.reverse.takeWhile (· ≠ '\n')).reverse

/-- The editor's position `p` is the place between `pre` and `post` in a document: as many lines as there are line
feeds before it, and as many code units as there are after the last line feed. The place is not inside a line
terminator, where no position of the editor is. -/
structure AtPosition (e : EncodingKind) (p : LspPosition) (pre post : List Char) : Prop where
  line : p.line = pre.count '\n'
  character : p.character = codeUnits e (lastLine pre)
  outside : ∀ a b, pre = a ++ ['\r'] → post ≠ '\n' :: b

/-- Applying the edit `ed` to `old` gives `new`. -/
def Applies (e : EncodingKind) (ed : TextEdit) (old new : List Char) : Prop :=
  ∃ a m b, old = a ++ m ++ b ∧ AtPosition e ed.range.start a (m ++ b) ∧ AtPosition e ed.range.stop (a ++ m) b
    ∧ new = a ++ ed.newText ++ b

/-- The internal position of the end of `pre`: as many lines as there are line feeds in it, and as many columns as there
are graphemes after the last line feed. -/
def graphemePos (G : Segmenter) (pre : List Char) : Position := ⟨pre.count '\n', (G.graphemes (lastLine pre)).length⟩

/-- `pre` is the part of a text before one of its grapheme boundaries, `post` the part after it. -/
def Boundary (G : Segmenter) (pre post : List Char) : Prop := G.graphemes (pre ++ post) = G.graphemes pre ++ G.graphemes post

end Tombi.Spec
