import Verif.Proofs.TextPos
import Verif.Props.Lexer
/-! Properties C23, C24, C25, C51 and C52: spans, positions, the line index, formatting edits, token ranges. -/
namespace Tombi
open Spec

/-! ### C23 -/

/-- **C23.** A span contains the offsets from its start up to, but not including, its end. -/
theorem C23_contains (s : Span) (o : Nat) : s.contains o = true ↔ InSpan o s := by
  unfold Span.contains InSpan; simp

/-- **C23.** A span contains another, non-empty one exactly when it contains all its offsets. -/
theorem C23_contains_span (s t : Span) (ht : t.start < t.stop) :
    s.containsSpan t = true ↔ ∀ o, InSpan o t → InSpan o s := by
  unfold Span.containsSpan InSpan
  simp only [Bool.and_eq_true, decide_eq_true_eq]
  constructor
  · rintro ⟨h1, h2⟩ o ⟨h3, h4⟩; omega
  · intro h
    have h1 := h t.start (by omega)
    have h2 := h (t.stop - 1) (by omega)
    omega

/-- **C23.** The intersection of two spans has the offsets that are in both; there is none only if no offset is in
both and the spans do not touch. -/
theorem C23_intersect (s t : Span) (hs : s.start ≤ s.stop) (ht : t.start ≤ t.stop) :
    (∀ r, s.intersect t = some r → r.start ≤ r.stop ∧ ∀ o, InSpan o r ↔ InSpan o s ∧ InSpan o t)
      ∧ (s.intersect t = none ↔ s.stop < t.start ∨ t.stop < s.start) := by
  have e1 : Nat.max s.start t.start = max s.start t.start := rfl
  have e2 : Nat.min s.stop t.stop = min s.stop t.stop := rfl
  unfold Span.intersect InSpan
  simp only [e1, e2]
  constructor
  · intro r h
    by_cases hc : min s.stop t.stop < max s.start t.start
    · rw [if_pos hc] at h; cases h
    · rw [if_neg hc] at h
      cases h
      refine ⟨by simp only []; omega, fun o => ?_⟩
      simp only []
      omega
  · by_cases hc : min s.stop t.stop < max s.start t.start
    · rw [if_pos hc]; simp only [true_iff]; omega
    · rw [if_neg hc]; simp only [reduceCtorEq, false_iff]; omega

/-- **C23.** The cover of two non-empty spans is the smallest span with the offsets of both. -/
theorem C23_cover (s t : Span) (hs : s.start < s.stop) (ht : t.start < t.stop) :
    (∀ o, InSpan o s ∨ InSpan o t → InSpan o (s.cover t))
      ∧ ∀ c : Span, (∀ o, InSpan o s ∨ InSpan o t → InSpan o c) → ∀ o, InSpan o (s.cover t) → InSpan o c := by
  have e1 : Nat.min s.start t.start = min s.start t.start := rfl
  have e2 : Nat.max s.stop t.stop = max s.stop t.stop := rfl
  unfold Span.cover InSpan
  simp only [e1, e2]
  constructor
  · intro o h; omega
  · intro c h o ho
    have h1 := h s.start (by omega)
    have h2 := h t.start (by omega)
    have h3 := h (s.stop - 1) (by omega)
    have h4 := h (t.stop - 1) (by omega)
    omega

/-- **C23.** Covering an offset extends the span to it, and no further. -/
theorem C23_cover_offset (s : Span) (o : Nat) :
    (s.coverOffset o).containsInclusive o = true ∧ (s.coverOffset o).containsSpan s = true
      ∧ ∀ c : Span, c.containsInclusive o = true → c.containsSpan s = true → c.containsSpan (s.coverOffset o) = true := by
  have e1 : Nat.min s.start o = min s.start o := rfl
  have e2 : Nat.max s.stop o = max s.stop o := rfl
  simp only [Span.coverOffset, Span.cover, Span.empty, Span.containsInclusive, Span.containsSpan, Bool.and_eq_true,
    decide_eq_true_eq, e1, e2]
  refine ⟨by omega, by omega, fun c h1 h2 => by omega⟩

/-- **C23.** A checked shift moves every offset of the span, and fails only when an end leaves the 32-bit range. -/
theorem C23_checked_add (s : Span) (k : Nat) (hs : s.start ≤ s.stop) :
    (∀ r, s.checkedAdd k = some r → r.stop < 2 ^ 32 ∧ ∀ o, InSpan o r ↔ ∃ p, o = p + k ∧ InSpan p s)
      ∧ (s.checkedAdd k = none ↔ 2 ^ 32 ≤ s.stop + k) := by
  unfold Span.checkedAdd offsetCheckedAdd InSpan
  by_cases h1 : s.start + k < 2 ^ 32
  · by_cases h2 : s.stop + k < 2 ^ 32
    · simp only [if_pos h1, if_pos h2]
      refine ⟨fun r h => ?_, by simpa using h2⟩
      cases h
      refine ⟨h2, fun o => ⟨fun h => ⟨o - k, by simp only [] at h; omega, by simp only [] at h; omega⟩, ?_⟩⟩
      rintro ⟨p, rfl, h⟩
      simp only []; omega
    · simp only [if_pos h1, if_neg h2]
      refine ⟨fun r h => (by cases h), ?_⟩
      constructor
      · intro; omega
      · intro; rfl
  · simp only [if_neg h1]
    refine ⟨fun r h => (by cases h), ?_⟩
    constructor
    · intro; omega
    · intro; rfl

/-- **C23.** A checked shift to the left, likewise; it fails only when the start would be negative. -/
theorem C23_checked_sub (s : Span) (k : Nat) (hs : s.start ≤ s.stop) :
    (∀ r, s.checkedSub k = some r → ∀ o, InSpan o r ↔ InSpan (o + k) s)
      ∧ (s.checkedSub k = none ↔ s.start < k) := by
  unfold Span.checkedSub offsetCheckedSub InSpan
  by_cases h1 : k ≤ s.start
  · have h2 : k ≤ s.stop := by omega
    simp only [if_pos h1, if_pos h2]
    refine ⟨fun r h => ?_, ?_⟩
    · cases h
      intro o
      simp only []; omega
    · constructor
      · intro h; cases h
      · intro; omega
  · simp only [if_neg h1]
    refine ⟨fun r h => (by cases h), ?_⟩
    constructor
    · intro; omega
    · intro; rfl

/-- **C23**, the part that holds: two non-empty spans are ordered as their offsets, and are equal in this order when they share
an offset. Missing: empty spans, see `C23_ordering_false`. -/
theorem C23_ordering_partial (s t : Span) (hs : s.start < s.stop) (ht : t.start < t.stop) :
    (s.ordering t = .lt ↔ ∀ x y, InSpan x s → InSpan y t → x < y)
      ∧ (s.ordering t = .gt ↔ ∀ x y, InSpan x s → InSpan y t → y < x)
      ∧ (s.ordering t = .eq ↔ ∃ x, InSpan x s ∧ InSpan x t) := by
  unfold Span.ordering InSpan
  by_cases h1 : s.stop ≤ t.start
  · rw [if_pos h1]
    refine ⟨by simp only [true_iff]; intros; omega, ?_, ?_⟩
    · simp only [reduceCtorEq, false_iff]
      intro h
      have := h s.start t.start (by omega) (by omega)
      omega
    · simp only [reduceCtorEq, false_iff]
      rintro ⟨x, hx⟩; omega
  · rw [if_neg h1]
    by_cases h2 : t.stop ≤ s.start
    · rw [if_pos h2]
      refine ⟨?_, by simp only [true_iff]; intros; omega, ?_⟩
      · simp only [reduceCtorEq, false_iff]
        intro h
        have := h s.start t.start (by omega) (by omega)
        omega
      · simp only [reduceCtorEq, false_iff]
        rintro ⟨x, hx⟩; omega
    · rw [if_neg h2]
      have hm : ∃ x, (s.start ≤ x ∧ x < s.stop) ∧ t.start ≤ x ∧ x < t.stop := ⟨max s.start t.start, by omega, by omega⟩
      refine ⟨?_, ?_, by simpa only [true_iff] using hm⟩
      · simp only [reduceCtorEq, false_iff]
        obtain ⟨x, a, b⟩ := hm
        intro h
        have := h x x a b
        omega
      · simp only [reduceCtorEq, false_iff]
        obtain ⟨x, a, b⟩ := hm
        intro h
        have := h x x a b
        omega

/-- **C23**, where it fails: an empty span is less than itself. -/
theorem C23_ordering_false : ∃ s : Span, s.start ≤ s.stop ∧ s.ordering s = .lt := ⟨⟨1, 1⟩, by decide⟩

/-- **C23.** Comparing two spans as 64-bit words is comparing their ends. -/
theorem C23_equality (s t : Span) (h1 : s.start < 2 ^ 32) (h2 : s.stop < 2 ^ 32) (h3 : t.start < 2 ^ 32)
    (h4 : t.stop < 2 ^ 32) : s.beq t = true ↔ s = t := by
  have key : ∀ u : Span, u.start < 2 ^ 32 → u.stop < 2 ^ 32 → u.asU64.toNat = u.stop * 2 ^ 32 + u.start := by
    intro u hu1 hu2
    unfold Span.asU64
    rw [BitVec.toNat_or, BitVec.toNat_shiftLeft, BitVec.toNat_ofNat, BitVec.toNat_ofNat,
      Nat.mod_eq_of_lt (a := u.stop) (by omega), Nat.mod_eq_of_lt (a := u.start) (by omega), Nat.shiftLeft_eq,
      Nat.mod_eq_of_lt (by omega), Nat.mul_comm, ← Nat.two_pow_add_eq_or_of_lt hu1]
  unfold Span.beq
  rw [beq_iff_eq, ← BitVec.toNat_inj, key s h1 h2, key t h3 h4]
  constructor
  · intro h
    have e1 : s.start = t.start := by omega
    have e2 : s.stop = t.stop := by omega
    cases s; cases t
    simp only [] at e1 e2
    rw [e1, e2]
  · rintro rfl; rfl

/-- **C23.** Two ranges intersect exactly when some position is in both. -/
theorem C23_range_intersects (r t : Range) (hr : r.start.le r.stop = true) (ht : t.start.le t.stop = true) :
    r.intersects t = true ↔ ∃ p, r.contains p = true ∧ t.contains p = true := by
  unfold Range.intersects Range.contains Position.le at *
  simp only [Bool.and_eq_true, Bool.or_eq_true, decide_eq_true_eq, beq_iff_eq] at *
  constructor
  · intro h
    by_cases hc : r.start.line < t.start.line ∨ r.start.line = t.start.line ∧ r.start.column ≤ t.start.column
    · exact ⟨t.start, by omega, by omega⟩
    · exact ⟨r.start, by omega, by omega⟩
  · rintro ⟨p, h1, h2⟩
    omega

/-- Concrete cases for C23. -/
example : (Span.mk 2 5).intersect ⟨4, 9⟩ = some ⟨4, 5⟩ ∧ (Span.mk 2 5).cover ⟨7, 9⟩ = ⟨2, 9⟩
    ∧ (Span.mk 2 5).checkedAdd 3 = some ⟨5, 8⟩ ∧ (Span.mk 2 5).ordering ⟨5, 6⟩ = .lt
    ∧ (Span.mk 2 5).beq ⟨5, 2⟩ = false := by decide +kernel

/-! ### C24 -/

/-- **C24.** Adding the relative position of a text to the position after `a` is the position after both texts, when
the texts are cut between graphemes. -/
theorem C24_position_after {G : Segmenter} (hG : Segments G) (a b : List Char) (h : Boundary G a b) :
    (graphemePos G a).addText G b = graphemePos G (a ++ b) := by
  have h1 := relOf_append h
  rw [relOf_spec hG, relOf_spec hG, relOf_spec hG] at h1
  unfold Position.addText
  rw [relOf_spec hG]
  have e1 := congrArg RelPosition.line h1
  have e2 := congrArg RelPosition.column h1
  simp only [RelPosition.add] at e1 e2
  unfold graphemePos Position.add
  simp only []
  rw [e1, e2]

/-- **C24.** The relative position of a text is the position after it, counted from the start of the document. -/
theorem C24_relative_of {G : Segmenter} (hG : Segments G) (s : List Char) :
    Position.zero.addText G s = graphemePos G s := by
  unfold Position.addText Position.zero Position.add graphemePos
  rw [relOf_spec hG]
  simp only [Nat.zero_add]
  congr 1; split <;> rfl

/-- **C24.** Adding relative positions is associative. -/
theorem C24_assoc (p : Position) (a b : RelPosition) : (p.add a).add b = p.add (a.add b) := by
  unfold Position.add RelPosition.add
  simp only [Position.mk.injEq]
  refine ⟨by omega, ?_⟩
  by_cases h2 : b.line = 0
  · simp only [if_pos h2]
    by_cases h1 : a.line = 0
    · simp only [h1, h2, if_pos, Nat.add_assoc]
    · rw [if_neg h1, if_neg (by omega)]
  · simp only [if_neg h2]
    rw [if_neg (by omega)]

/-- **C24.** Subtraction undoes addition. -/
theorem C24_add_sub (p : Position) (r : RelPosition) : (p.add r).sub p = r := by
  unfold Position.add Position.sub Position.le
  obtain ⟨pl, pc⟩ := p
  obtain ⟨rl, rc⟩ := r
  by_cases h : rl = 0
  · subst h
    simp
  · have : pl < pl + rl := by omega
    simp [this, h]

/-- **C24.** Addition undoes subtraction, of a position that is not after. -/
theorem C24_sub_add (p q : Position) (h : p.le q = true) : p.add (q.sub p) = q := by
  unfold Position.sub
  rw [if_pos h]
  unfold Position.le at h
  simp only [Bool.or_eq_true, decide_eq_true_eq, Bool.and_eq_true, beq_iff_eq] at h
  obtain ⟨pl, pc⟩ := p
  obtain ⟨ql, qc⟩ := q
  simp only [] at h
  unfold Position.add
  simp only [Position.mk.injEq]
  refine ⟨by omega, ?_⟩
  by_cases hl : ql - pl = 0
  · simp only [if_pos hl]; omega
  · simp only [if_neg hl]

/-- **C24.** Subtracting a later position gives the zero distance. -/
theorem C24_sub_later (p q : Position) (h : q.le p = false) : p.sub q = ⟨0, 0⟩ := by
  unfold Position.sub; rw [if_neg (by rw [h]; decide)]

/-- Concrete case for C24: the texts are cut between two graphemes, the second of two characters, and between lines. -/
example : Boundary sampleSegmenter "a\r\nb".toList "e\u0301\nc".toList
    ∧ graphemePos sampleSegmenter "a\r\nbe\u0301".toList = ⟨1, 2⟩
    ∧ graphemePos sampleSegmenter "a\r\nbe\u0301\nc".toList = ⟨2, 1⟩ := by
  unfold Boundary; decide +kernel

/-! ### C25 -/

/-- **C25.** The line index cuts any text into its lines, without their terminators. -/
theorem C25_lines (text : List Char) (e : EncodingKind) :
    ∃ ls, Lines text ls ∧ ∀ i, (LineIndex.new text e).lineText i = ls[i]? := by
  obtain ⟨ls, h⟩ := lines_exist text
  exact ⟨ls, h, fun i => lineText_lines h e i⟩

/-- **C25.** There is only one way to cut a text into lines. -/
theorem C25_lines_unique {text : List Char} {ls ls' : List (List Char)} (h : Lines text ls) (h' : Lines text ls') :
    ls = ls' := by
  apply List.ext_getElem?
  intro i
  rw [← lineText_lines h .utf8 i, ← lineText_lines h' .utf8 i]

/-- **C25.** The internal position of a grapheme boundary becomes the editor's position of it. -/
theorem C25_to_editor {G : Segmenter} (hG : Segments G) (e : EncodingKind) (pre post : List Char)
    (h : Boundary G pre post) :
    AtPosition e ((graphemePos G pre).intoLsp G (LineIndex.new (pre ++ post) e)) pre post := by
  obtain ⟨ls, hls⟩ := lines_exist (pre ++ post)
  have hp := boundary_place hG h hls
  have := hp.intoLsp hls (e := e)
  have e1 : (⟨(graphemePos G pre).line, (graphemePos G pre).column⟩ : Position) = graphemePos G pre := rfl
  rw [e1] at this
  rw [this]
  exact ⟨rfl, rfl, fun a b ha => boundary_not_inside hG h a b ha⟩

/-- **C25.** The editor's position of a grapheme boundary becomes the internal position of it. -/
theorem C25_from_editor {G : Segmenter} (hG : Segments G) (e : EncodingKind) (pre post : List Char)
    (h : Boundary G pre post) (p : LspPosition) (hp : AtPosition e p pre post) :
    Position.fromLsp G p (LineIndex.new (pre ++ post) e) = graphemePos G pre := by
  obtain ⟨ls, hls⟩ := lines_exist (pre ++ post)
  have hpl := boundary_place hG h hls
  obtain ⟨h1, l, h2, h3, h4⟩ := hpl.facts
  have hline : p.line = (graphemePos G pre).line := by rw [hp.line, h1]
  unfold Position.fromLsp
  simp only [hline, lineText_lines hls e, h2, Option.map_some, Option.getD_some]
  obtain ⟨k, k1, k2, k3, k4⟩ := takeColumnText_spec G l p.character e
  have hch : p.character = codeUnits e ((G.graphemes l).take (graphemePos G pre).column).flatten := by
    rw [hp.character, h4]
  have hk : k = (graphemePos G pre).column := by
    apply Classical.byContradiction
    intro hne
    by_cases hlt : k < (graphemePos G pre).column
    · have := k4 (by omega)
      have := units_take_mono e (G.graphemes l) (i := k + 1) (j := (graphemePos G pre).column) hlt
      omega
    · have := units_take_lt e (G.graphemes l) (G.ne_nil l) (i := (graphemePos G pre).column) (j := k) (by omega) k1
      omega
  show (⟨_, measureGraphemes G (takeColumnText G l p.character e)⟩ : Position) = _
  rw [k2, measureGraphemes, hG.take, List.length_take, Nat.min_eq_left k1, hk]

/-- **C25.** Any position of the editor in a line becomes the last grapheme boundary that is not after it. -/
theorem C25_from_editor_any {G : Segmenter} (hG : Segments G) (e : EncodingKind) (text : List Char)
    {ls : List (List Char)} (hls : Lines text ls) (p : LspPosition) (l : List Char) (hl : ls[p.line]? = some l) :
    ∃ k, Position.fromLsp G p (LineIndex.new text e) = ⟨p.line, k⟩ ∧ k ≤ (G.graphemes l).length
      ∧ codeUnits e ((G.graphemes l).take k).flatten ≤ p.character
      ∧ ∀ k', k < k' → k' ≤ (G.graphemes l).length → p.character < codeUnits e ((G.graphemes l).take k').flatten := by
  obtain ⟨k, k1, k2, k3, k4⟩ := takeColumnText_spec G l p.character e
  refine ⟨k, ?_, k1, k3, fun k' h1 h2 => ?_⟩
  · unfold Position.fromLsp
    simp only [lineText_lines hls e, hl, Option.map_some, Option.getD_some]
    show (⟨_, measureGraphemes G (takeColumnText G l p.character e)⟩ : Position) = _
    rw [k2, measureGraphemes, hG.take, List.length_take, Nat.min_eq_left k1]
  · have := k4 (by omega)
    have := units_take_mono e (G.graphemes l) (i := k + 1) (j := k') h1
    omega

/-- **C25.** From an internal position in a line to the editor and back. -/
theorem C25_round_trip {G : Segmenter} (hG : Segments G) (e : EncodingKind) (text : List Char)
    {ls : List (List Char)} (hls : Lines text ls) (p : Position) (l : List Char) (hl : ls[p.line]? = some l)
    (hp : p.column ≤ (G.graphemes l).length) :
    Position.fromLsp G (p.intoLsp G (LineIndex.new text e)) (LineIndex.new text e) = p := by
  have e1 : p.intoLsp G (LineIndex.new text e) = ⟨p.line, codeUnits e ((G.graphemes l).take p.column).flatten⟩ := by
    unfold Position.intoLsp
    simp only [lineText_lines hls e, hl, Option.map_some, Option.getD_some]
    rw [foldl_measure, Nat.zero_add]; rfl
  rw [e1]
  obtain ⟨k, k1, k2, k3, k4⟩ := C25_from_editor_any hG e text hls
    ⟨p.line, codeUnits e ((G.graphemes l).take p.column).flatten⟩ l hl
  rw [k1]
  simp only [] at k3 k4
  have : k = p.column := by
    apply Classical.byContradiction
    intro hne
    by_cases hlt : k < p.column
    · have := k4 p.column hlt hp; omega
    · have := units_take_lt e (G.graphemes l) (G.ne_nil l) (i := p.column) (j := k) (by omega) k2; omega
  rw [this]

/-- Concrete cases for C25: a document with both line terminators, a character outside the BMP and a grapheme of two
characters; its boundaries and positions. -/
example : Boundary sampleSegmenter "x\r\ne\u0301𝄞".toList "y\n".toList
    ∧ graphemePos sampleSegmenter "x\r\ne\u0301𝄞".toList = ⟨1, 2⟩
    ∧ (Position.mk 1 2).intoLsp sampleSegmenter (LineIndex.new "x\r\ne\u0301𝄞y\n".toList .utf16) = ⟨1, 4⟩
    ∧ Position.fromLsp sampleSegmenter ⟨1, 4⟩ (LineIndex.new "x\r\ne\u0301𝄞y\n".toList .utf16) = ⟨1, 2⟩
    ∧ (LineIndex.new "x\r\ne\u0301𝄞y\n".toList .utf8).lineText 0 = some ['x']
    ∧ (LineIndex.new "x\r\ne\u0301𝄞y\n".toList .utf8).lineText 2 = some [] := by
  unfold Boundary; decide +kernel

/-! ### C51 -/

/-- **C51.** When the formatted text differs from the document, the language server answers with one edit, and applying
it to the document gives the formatted text. -/
theorem C51_formatting_edit {G : Segmenter} (hG : Segments G) (old new : List Char) (e : EncodingKind)
    (hne : old ≠ new) :
    ∃ ed, computeTextEdits G old new (LineIndex.new old e) = some [ed] ∧ Applies e ed old new :=
  computeTextEdits_applies hG old new e hne

/-- **C51.** When it does not differ, there is no edit. -/
theorem C51_no_edit (G : Segmenter) (text : List Char) (ix : LineIndex) :
    computeTextEdits G text text ix = some [] := by
  unfold computeTextEdits; rw [if_pos rfl]

/-- **C51.** An edit has one effect: applying it to a document can give only one text. -/
theorem C51_edit_unique {e : EncodingKind} {ed : TextEdit} {old new new' : List Char} (h : Applies e ed old new)
    (h' : Applies e ed old new') : new = new' := by
  have key : ∀ (s a b a' b' : List Char) (p : LspPosition), s = a ++ b → s = a' ++ b' → AtPosition e p a b →
      AtPosition e p a' b' → a = a' := by
    intro s a b a' b' p h1 h2 h3 h4
    have sym : ∀ (a b a' b' : List Char), AtPosition e p a b → AtPosition e p a' b' → ∀ u, a' = a ++ u → a = a' := by
      intro a b a' b' h3 h4 u hu
      have hc : u.count '\n' = 0 := by
        have := h3.line; have := h4.line
        rw [hu, List.count_append] at this; omega
      have hch := h4.character
      rw [hu, lastLine_append_no_lf a (List.count_eq_zero.mp hc), codeUnits_append, ← h3.character] at hch
      have : u = [] := by
        apply Classical.byContradiction
        intro hh
        have := codeUnits_pos e hh
        omega
      rw [hu, this, List.append_nil]
    rw [h1] at h2
    rcases List.append_eq_append_iff.mp h2 with ⟨u, h5, -⟩ | ⟨u, h5, -⟩
    · exact sym a b a' b' h3 h4 u h5
    · exact (sym a' b' a b h4 h3 u h5).symm
  obtain ⟨a, m, b, h1, h2, h3, h4⟩ := h
  obtain ⟨a', m', b', h1', h2', h3', h4'⟩ := h'
  have e1 := key old a (m ++ b) a' (m' ++ b') _ (by rw [h1, List.append_assoc]) (by rw [h1', List.append_assoc]) h2 h2'
  have e2 := key old (a ++ m) b (a' ++ m') b' _ h1 h1' h3 h3'
  have e3 : b = b' := by
    rw [h1, e2] at h1'
    exact List.append_cancel_left h1'
  rw [h4, h4', e1, e3]

/-- Concrete case for C51: the edit replaces a grapheme of two characters on the second line. -/
example : computeTextEdits sampleSegmenter "x\r\ny𝄞ez".toList "x\r\ny𝄞e\u0301z".toList
      (LineIndex.new "x\r\ny𝄞ez".toList .utf16)
    = some [⟨⟨⟨1, 3⟩, ⟨1, 4⟩⟩, "e\u0301".toList⟩] := by decide +kernel

/-! ### C52 -/

/-- Every grapheme of the text is one character, or CR LF. -/
def OneCharGraphemes (G : Segmenter) (src : List Char) : Prop :=
  ∀ g ∈ G.graphemes src, g.length = 1 ∨ g = ['\r', '\n']

theorem oneChar_flatten {gs : List (List Char)} (h : ∀ g ∈ gs, g.length = 1) : gs = gs.flatten.map (fun c => [c]) := by
  induction gs with
  | nil => rfl
  | cons g gs ih =>
    have h1 := h g (by simp)
    match g, h1 with
    | [c], _ =>
      rw [List.flatten_cons, List.map_append, ← ih (fun x hx => h x (by simp [hx]))]
      rfl

theorem oneChar_lines {G : Segmenter} (hG : Segments G) {src : List Char} {ls : List (List Char)} (h : Lines src ls)
    (ho : OneCharGraphemes G src) : ∀ l ∈ ls, G.graphemes l = l.map (fun c => [c]) := by
  have inLine : ∀ l, '\n' ∉ l → (∀ g ∈ G.graphemes l, g.length = 1 ∨ g = ['\r', '\n']) →
      G.graphemes l = l.map (fun c => [c]) := by
    intro l hl hg
    have := oneChar_flatten (gs := G.graphemes l) (fun g hm => by
      rcases hg g hm with h | rfl
      · exact h
      · exact absurd (graphemes_no_lf hl _ hm) (by simp))
    rwa [G.flatten_graphemes] at this
  induction h with
  | @last l hl =>
    intro x hx
    rw [List.mem_singleton] at hx
    subst hx
    exact inLine _ hl ho
  | @cons l t s ls hl ht hcr hs ih =>
    unfold OneCharGraphemes at ho
    rw [hG.line l t s ht hcr] at ho
    intro x hx
    rcases List.mem_cons.mp hx with rfl | hx
    · exact inLine _ hl (fun g hg => ho g (by simp [hg]))
    · exact ih (fun g hg => ho g (by simp [hg])) x hx

theorem posOf_intoLsp {G : Segmenter} (hG : Segments G) (e : EncodingKind) (pre post : List Char)
    (ho : OneCharGraphemes G (pre ++ post)) (hout : ∀ a b, pre = a ++ ['\r'] → post ≠ '\n' :: b) :
    AtPosition e ((posOf pre).intoLsp G (LineIndex.new (pre ++ post) e)) pre post := by
  obtain ⟨ls, hls⟩ := lines_exist (pre ++ post)
  obtain ⟨l, r, h1, h2⟩ := lines_prefix hls rfl hout
  have hg := oneChar_lines hG hls ho l (List.mem_of_getElem? h1)
  have e1 : (posOf pre).intoLsp G (LineIndex.new (pre ++ post) e)
      = ⟨pre.count '\n', codeUnits e (lastLine pre)⟩ := by
    unfold Position.intoLsp
    have hl : (posOf pre).line = pre.count '\n' := rfl
    have hc : (posOf pre).column = (lastLine pre).length := by
      show (pre.reverse.takeWhile (· ≠ '\n')).length = _
      unfold lastLine; rw [List.length_reverse]
    simp only [hl, hc, lineText_lines hls e, h1, Option.map_some, Option.getD_some]
    have e2 : ((G.graphemes l).take (lastLine pre).length).flatten = lastLine pre := by
      rw [hg, ← List.map_take, h2, List.take_left]
      induction lastLine pre with
      | nil => rfl
      | cons c x ih => simp_all
    rw [foldl_measure, e2, Nat.zero_add]; rfl
  rw [e1]
  exact ⟨rfl, rfl, hout⟩

/-- **C52**, the part that holds: in a text in which every grapheme is one character, the range the lexer gives to a
token becomes the editor's range of the text the token covers. Missing: graphemes of several characters, see
`C52_token_ranges_false`; an end of the token inside CR LF, where the editor has no position. -/
theorem C52_token_ranges_partial {G : Segmenter} (hG : Segments G) (e : EncodingKind) (src : List Char) (l : Lexed)
    (h : lex G src = .ok l) (ho : OneCharGraphemes G src) (t : Token) (ht : t ∈ l.tokens) :
    ∃ pre mid post, Covers t pre mid post src
      ∧ ((∀ a b, pre = a ++ ['\r'] → mid ++ post ≠ '\n' :: b) →
          AtPosition e (t.range.intoLsp G (LineIndex.new src e)).start pre (mid ++ post))
      ∧ ((∀ a b, pre ++ mid = a ++ ['\r'] → post ≠ '\n' :: b) →
          AtPosition e (t.range.intoLsp G (LineIndex.new src e)).stop (pre ++ mid) post) := by
  obtain ⟨pre, mid, post, h1, h2, -⟩ := C02_token_positions G src l h t ht
  refine ⟨pre, mid, post, h1, fun hout => ?_, fun hout => ?_⟩
  · have := posOf_intoLsp hG e pre (mid ++ post) (by rw [← List.append_assoc, ← h1.src]; exact ho) hout
    rw [← List.append_assoc, ← h1.src] at this
    rw [h2]; exact this
  · have := posOf_intoLsp hG e (pre ++ mid) post (by rw [← h1.src]; exact ho) hout
    rw [← h1.src] at this
    rw [h2]; exact this

/-- **C52**, where it fails: after a grapheme of two characters, the editor is given the wrong columns. In
`"é" = 1`, the é written with a combining accent, the equals sign is at column 5, and 6 is reported. -/
theorem C52_token_ranges_false : ∃ (src : List Char) (l : Lexed) (t : Token),
    lex sampleSegmenter src = .ok l ∧ t ∈ l.tokens ∧ Covers t (src.take 5) ['='] (src.drop 6) src
      ∧ (t.range.intoLsp sampleSegmenter (LineIndex.new src .utf16)).start = ⟨0, 6⟩
      ∧ AtPosition .utf16 ⟨0, 5⟩ (src.take 5) (src.drop 5) := by
  have hd : (lex sampleSegmenter "\"e\u0301\" = 1".toList).toOption.map (fun l => l.tokens[2]?)
      = some (some ⟨.EQUAL, ⟨6, 7⟩, ⟨⟨0, 5⟩, ⟨0, 6⟩⟩⟩) := by decide +kernel
  cases hl : lex sampleSegmenter "\"e\u0301\" = 1".toList with
  | error x => rw [hl] at hd; cases hd
  | ok l =>
    rw [hl] at hd
    have ht : l.tokens[2]? = some ⟨.EQUAL, ⟨6, 7⟩, ⟨⟨0, 5⟩, ⟨0, 6⟩⟩⟩ := Option.some.inj hd
    refine ⟨_, l, _, hl, List.mem_of_getElem? ht, ⟨by decide +kernel, by decide +kernel, by decide +kernel⟩,
      by decide +kernel, by decide +kernel, by decide +kernel, fun a b _ h => ?_⟩
    exact absurd h (by intro h; injection h with h; exact absurd h (by decide))

end Tombi
