import Verif.Basic.Text
/-!
Model of `tombi-text`: offsets, spans, positions, ranges. `u32` values are `Nat` (texts shorter
than 4 GiB; overflow of `u32` additions is outside the model except in `checkedAdd`).
-/
namespace Tombi

/-- `crates/tombi-text/src/position.rs:8-15` (`Position`). -/
structure Position where
  line : Nat
  column : Nat
  deriving DecidableEq, Repr

/-- `crates/tombi-text/src/relative_position.rs:10-14` (`RelativePosition`). -/
structure RelPosition where
  line : Nat
  column : Nat
  deriving DecidableEq, Repr

/-- `position.rs:8` (`#[derive(Default)]`). -/
def Position.zero : Position := ⟨0, 0⟩

/-- `u32::MAX`. -/
def u32Max : Nat := 4294967295

/-- `position.rs:18` (`Position::MAX`). -/
def Position.max : Position := ⟨u32Max, u32Max⟩

/-- `position.rs:61-67` (`Ord::cmp`): by line, then column; here as the Boolean `a <= b`. -/
def Position.le (a b : Position) : Bool :=
  a.line < b.line || (a.line == b.line && a.column ≤ b.column)

/-- `position.rs:83-96` (`Add<RelativePosition>`), and `:98-108` (`AddAssign`), same effect. -/
def Position.add (p : Position) (r : RelPosition) : Position :=
  ⟨p.line + r.line, if r.line = 0 then p.column + r.column else r.column⟩

/-- `position.rs:110-131` (`Sub<Position>`): clamps to zero when `rhs > self`. -/
def Position.sub (p rhs : Position) : RelPosition :=
  if rhs.le p then
    let line := p.line - rhs.line
    ⟨line, if line = 0 then p.column - rhs.column else p.column⟩
  else ⟨0, 0⟩

/-- `relative_position.rs:54-63` (`From<char>`). -/
def RelPosition.ofChar (c : Char) : RelPosition := if c = '\n' then ⟨1, 0⟩ else ⟨0, 1⟩

/-- `relative_position.rs:75-89` (`Add`) and `:91-101` (`AddAssign`). -/
def RelPosition.add (a b : RelPosition) : RelPosition :=
  ⟨a.line + b.line, if b.line = 0 then a.column + b.column else b.column⟩

/-- The external crate `unicode-segmentation`: a function cutting any text into non-empty pieces
whose concatenation is the text. Everything else about it is left open. -/
structure Segmenter where
  graphemes : List Char → List (List Char)
  flatten_graphemes : ∀ s, (graphemes s).flatten = s
  ne_nil : ∀ s, [] ∉ graphemes s

/-- `relative_position.rs:17-29` (`RelativePosition::of`): one column per grapheme, a new line for
the graphemes LF and CRLF. -/
def RelPosition.of (G : Segmenter) (text : List Char) : RelPosition :=
  (G.graphemes text).foldl
    (fun r g => if g = ['\n'] ∨ g = ['\r', '\n'] then ⟨r.line + 1, 0⟩ else ⟨r.line, r.column + 1⟩)
    ⟨0, 0⟩

/-- `position.rs:30-33` (`add_text`). -/
def Position.addText (G : Segmenter) (p : Position) (text : List Char) : Position :=
  p.add (RelPosition.of G text)

/-- `crates/tombi-text/src/span.rs:11-18` (`Span`), offsets as `Nat`. -/
structure Span where
  start : Nat
  stop : Nat
  deriving DecidableEq, Repr

/-- `span.rs:36` (`Span::MAX`). -/
def Span.max : Span := ⟨u32Max, u32Max⟩

/-- `crates/tombi-text/src/range.rs:5-12` (`Range`). -/
structure Range where
  start : Position
  stop : Position
  deriving DecidableEq, Repr

/-- `range.rs:15-18` (`Range::MAX`). -/
def Range.max : Range := ⟨Position.max, Position.max⟩

/-- `range.rs:5` (`Default`). -/
def Range.zero : Range := ⟨Position.zero, Position.zero⟩

/-- `range.rs:24-40` (`Range::new`): an inverted range is clamped to the empty range at `start`. -/
def Range.new (start stop : Position) : Range := ⟨start, if start.le stop then stop else start⟩

/-- `position.rs:61-74`, `std::cmp::min` (returns the first argument when equal). -/
def Position.min (a b : Position) : Position := if a.le b then a else b

/-- `std::cmp::max` (returns the second argument when equal). -/
def Position.maxOf (a b : Position) : Position := if a.le b then b else a

/-- `range.rs:121-131` (`Add<Range>`), `:111-119` (`AddAssign`). -/
def Range.add (a b : Range) : Range :=
  Range.new (Position.min a.start b.start) (Position.maxOf a.stop b.stop)

/-- `crates/tombi-text/src/line_ending.rs:1-6`. -/
inductive LineEnding where
  | lf | crlf
  deriving DecidableEq, Repr

end Tombi
