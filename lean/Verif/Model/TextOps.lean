import Verif.Model.Text
/-!
Model of the rest of `tombi-text`: span arithmetic, encodings, the line index, the conversion of positions from and to
the editor's (`crates/tombi-text/src/{span,range}.rs`, `features/lsp/*.rs`), and of the text edits the language server
makes from a formatted document (`crates/tombi-lsp/src/handler/formatting.rs`).
-/
namespace Tombi

/-! ### `span.rs` -/

/-- `span.rs:64-67` (`at`). -/
def Span.at (offset len : Nat) : Span := ⟨offset, offset + len⟩

/-- `span.rs:81-84` (`empty`). -/
def Span.empty (offset : Nat) : Span := ⟨offset, offset⟩

/-- `span.rs:88-91` (`len`). -/
def Span.len (s : Span) : Nat := s.stop - s.start

/-- `span.rs:95-98` (`is_empty`). -/
def Span.isEmpty (s : Span) : Bool := s.start == s.stop

/-- `span.rs:114-117` (`contains`). -/
def Span.contains (s : Span) (offset : Nat) : Bool := s.start ≤ offset && offset < s.stop

/-- `span.rs:133-136` (`contains_inclusive`). -/
def Span.containsInclusive (s : Span) (offset : Nat) : Bool := s.start ≤ offset && offset ≤ s.stop

/-- `span.rs:153-156` (`contains_span`). -/
def Span.containsSpan (s other : Span) : Bool := s.start ≤ other.start && other.stop ≤ s.stop

/-- `span.rs:173-181` (`intersect`). -/
def Span.intersect (s other : Span) : Option Span :=
  let start := Nat.max s.start other.start
  let stop := Nat.min s.stop other.stop
  if stop < start then none else some ⟨start, stop⟩

/-- `span.rs:197-202` (`cover`). -/
def Span.cover (s other : Span) : Span := ⟨Nat.min s.start other.start, Nat.max s.stop other.stop⟩

/-- `span.rs:215-218` (`cover_offset`). -/
def Span.coverOffset (s : Span) (offset : Nat) : Span := s.cover (Span.empty offset)

/-- `offset.rs:72-77` (`Offset::checked_add`), on `u32`. -/
def offsetCheckedAdd (a b : Nat) : Option Nat := if a + b < 2 ^ 32 then some (a + b) else none

/-- `offset.rs:81-86` (`Offset::checked_sub`). -/
def offsetCheckedSub (a b : Nat) : Option Nat := if b ≤ a then some (a - b) else none

/-- `span.rs:228-234` (`checked_add`). -/
def Span.checkedAdd (s : Span) (offset : Nat) : Option Span := do
  let start ← offsetCheckedAdd s.start offset
  let stop ← offsetCheckedAdd s.stop offset
  some ⟨start, stop⟩

/-- `span.rs:244-250` (`checked_sub`). -/
def Span.checkedSub (s : Span) (offset : Nat) : Option Span := do
  let start ← offsetCheckedSub s.start offset
  let stop ← offsetCheckedSub s.stop offset
  some ⟨start, stop⟩

/-- `span.rs:285-294` (`ordering`). -/
def Span.ordering (s other : Span) : Ordering :=
  if s.stop ≤ other.start then .lt else if other.stop ≤ s.start then .gt else .eq

/-- `span.rs:296-304` (`as_u64`) on a little-endian machine; `start` and `stop` are 32-bit. -/
def Span.asU64 (s : Span) : BitVec 64 := (BitVec.ofNat 64 s.stop <<< 32) ||| BitVec.ofNat 64 s.start

/-- `span.rs:348-357` (`PartialEq::eq`) on a 64-bit machine. -/
def Span.beq (s other : Span) : Bool := s.asU64 == other.asU64

/-! ### `range.rs` -/

/-- `range.rs:52-55` (`contains`). -/
def Range.contains (r : Range) (p : Position) : Bool := r.start.le p && p.le r.stop

/-- `range.rs:57-60` (`intersects`). -/
def Range.intersects (r other : Range) : Bool := r.start.le other.stop && other.start.le r.stop

/-! ### `features/lsp/encoding_kind.rs` -/

/-- `encoding_kind.rs:8-21` (`EncodingKind`), without `GraphemeCluster`, which is no encoding of the editor. -/
inductive EncodingKind where
  | utf8 | utf16 | utf32
  deriving DecidableEq, Repr

/-- The code units of a character. -/
def EncodingKind.units : EncodingKind → Char → Nat
  | .utf8, c => c.utf8Size
  | .utf16, c => if c.toNat < 0x10000 then 1 else 2
  | .utf32, _ => 1

/-- `encoding_kind.rs:25-32` (`measure`). -/
def EncodingKind.measure (e : EncodingKind) (text : List Char) : Nat := (text.map e.units).sum

/-- `encoding_kind.rs:30` (`measure` for `GraphemeCluster`). -/
def measureGraphemes (G : Segmenter) (text : List Char) : Nat := (G.graphemes text).length

/-! ### `features/lsp/line_index.rs` -/

/-- `line_index.rs:26-51`: the loop over `char_indices`, and the last line. `prev` is the character before `idx`;
`bytes.get(idx - 1)` is `\r` exactly when that character is. -/
def lineLoop : Nat → Nat → Option Char → List Char → List Span
  | idx, start, _, [] => [⟨start, idx⟩]
  | idx, start, prev, c :: cs =>
    if c = '\n' then
      ⟨start, if idx > start ∧ prev = some '\r' then idx - 1 else idx⟩
        :: lineLoop (idx + c.utf8Size) (idx + c.utf8Size) (some c) cs
    else lineLoop (idx + c.utf8Size) start (some c) cs

/-- `line_index.rs:9-13` (`LineIndex`). -/
structure LineIndex where
  text : List Char
  lines : List Span
  encoding : EncodingKind
  deriving DecidableEq, Repr

/-- `line_index.rs:20-58` (`new`, `from_arc`). -/
def LineIndex.new (text : List Char) (encoding : EncodingKind) : LineIndex := ⟨text, lineLoop 0 0 none text, encoding⟩

/-- `line_index.rs:71-75` (`line_text`). A panic of the slice is `none`, too; `C25_line_text` shows that there is none. -/
def LineIndex.lineText (ix : LineIndex) (line : Nat) : Option (List Char) :=
  (ix.lines[line]?).bind fun span => byteSlice span.start span.stop ix.text

/-! ### `features/lsp/from_lsp.rs` -/

/-- `tower_lsp::lsp_types::Position`. -/
structure LspPosition where
  line : Nat
  character : Nat
  deriving DecidableEq, Repr

/-- `tower_lsp::lsp_types::Range`. -/
structure LspRange where
  start : LspPosition
  stop : LspPosition
  deriving DecidableEq, Repr

/-- `from_lsp.rs:80-96`: the loop of `take_column_text`; `before` is the text up to the grapheme. -/
def takeColumnLoop (e : EncodingKind) (target : Nat) : Nat → List Char → List (List Char) → List Char
  | _, before, [] => before
  | consumed, before, g :: gs =>
    if consumed + e.measure g > target then before
    else if consumed + e.measure g = target then before ++ g
    else takeColumnLoop e target (consumed + e.measure g) (before ++ g) gs

/-- `from_lsp.rs:73-97` (`take_column_text`). The final `line_text` is the text of all its graphemes. -/
def takeColumnText (G : Segmenter) (line : List Char) (target : Nat) (e : EncodingKind) : List Char :=
  if target = 0 then [] else takeColumnLoop e target 0 [] (G.graphemes line)

/-- `from_lsp.rs:9-25` (`Position::from_lsp`). -/
def Position.fromLsp (G : Segmenter) (p : LspPosition) (ix : LineIndex) : Position :=
  ⟨p.line, ((ix.lineText p.line).map fun t => measureGraphemes G (takeColumnText G t p.character ix.encoding)).getD 0⟩

/-- `from_lsp.rs:27-47` (`lsp_types::Position::from_lsp`), also `into_lsp`. -/
def Position.intoLsp (G : Segmenter) (p : Position) (ix : LineIndex) : LspPosition :=
  ⟨p.line, ((ix.lineText p.line).map fun t =>
    ((G.graphemes t).take p.column).foldl (fun acc g => acc + ix.encoding.measure g) 0).getD 0⟩

/-- `from_lsp.rs:49-59` (`Range::from_lsp`). -/
def Range.fromLsp (G : Segmenter) (r : LspRange) (ix : LineIndex) : Range :=
  Range.new (Position.fromLsp G r.start ix) (Position.fromLsp G r.stop ix)

/-- `from_lsp.rs:61-71` (`lsp_types::Range::from_lsp`). -/
def Range.intoLsp (G : Segmenter) (r : Range) (ix : LineIndex) : LspRange :=
  ⟨r.start.intoLsp G ix, r.stop.intoLsp G ix⟩

/-! ### `tombi-lsp/src/handler/formatting.rs` -/

/-- `tower_lsp::lsp_types::TextEdit`. -/
structure TextEdit where
  range : LspRange
  newText : List Char
  deriving DecidableEq, Repr

/-- `formatting.rs:195-200`, `:205-211`: the bytes of the common first elements of two lists of graphemes. -/
def commonBytes : List (List Char) → List (List Char) → Nat
  | a :: as, b :: bs => if a = b then utf8Len a + commonBytes as bs else 0
  | _, _ => 0

/-- `formatting.rs:245-266`: the loop over the lines and what follows it; `line` is the index of the next line and
`last` the previous line with its text. -/
def positionAtOffsetLoop (G : Segmenter) (ix : LineIndex) (offset : Nat) :
    Nat → Nat × List Char → List Span → Option Position
  | _, last, [] => some ⟨last.1, (G.graphemes last.2).length⟩
  | line, _, span :: rest =>
    let lineText := (ix.lineText line).getD []
    if offset ≤ span.stop then
      (byteTake (Nat.min (offset - span.start) (utf8Len lineText)) lineText).map fun t => ⟨line, (G.graphemes t).length⟩
    else positionAtOffsetLoop G ix offset (line + 1) (line, lineText) rest

/-- `formatting.rs:240-267` (`position_at_offset`); `none` is a panic. -/
def positionAtOffset (G : Segmenter) (ix : LineIndex) (offset : Nat) : Option Position :=
  if ix.lines.isEmpty then some ⟨0, 0⟩ else positionAtOffsetLoop G ix offset 0 (0, []) ix.lines

/-- `formatting.rs:186-238` (`compute_text_edits`); `none` is a panic. -/
def computeTextEdits (G : Segmenter) (old new : List Char) (ix : LineIndex) : Option (List TextEdit) :=
  if old = new then some []
  else
    let prefixBytes := commonBytes (G.graphemes old) (G.graphemes new)
    match byteDrop prefixBytes old, byteDrop prefixBytes new with
    | some oldSuffix, some newSuffix =>
      let suffixBytes := Nat.min (Nat.min (commonBytes (G.graphemes oldSuffix).reverse (G.graphemes newSuffix).reverse)
        (utf8Len oldSuffix)) (utf8Len newSuffix)
      let oldEnd := Nat.max (utf8Len old - suffixBytes) prefixBytes
      let newEnd := Nat.max (utf8Len new - suffixBytes) prefixBytes
      if prefixBytes = oldEnd ∧ prefixBytes = newEnd then some []
      else
        match positionAtOffset G ix prefixBytes, positionAtOffset G ix oldEnd, byteSlice prefixBytes newEnd new with
        | some start, some stop, some replacement => some [⟨(Range.new start stop).intoLsp G ix, replacement⟩]
        | _, _, _ => none
    | _, _ => none

end Tombi
