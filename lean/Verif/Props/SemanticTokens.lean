import Verif.Proofs.SemanticTokens
import Verif.Proofs.Format
import Verif.Props.TextOps
/-! Property C90: semantic tokens. -/
namespace Tombi.SemanticTokens
open Tombi Tombi.Spec

/-- **C90**, the part that holds for every document: from elements in the order of the text, the server makes tokens without
failing, and an editor that reads them by the protocol shows exactly the parts of the text that are these elements, at
their places and with their lengths in its own code units, and with the names of their types; the directive of a comment
is shown as a keyword between two parts of the comment. That the traversal finds the elements in
the order of the text is `C90_order_partial`. The length of an element of several lines does not count line terminators. -/
theorem C90_shown_partial {G : Segmenter} (hG : Segments G) (e : EncodingKind) (src : List Char) (ms : List Mark)
    (hin : ∀ m ∈ ms, m.In G src) (hord : InOrder [] false ms) :
    ∃ ts, semanticTokens G (LineIndex.new src e) (ms.map (Mark.element G)) = some ts
      ∧ decode legend 0 0 ts = (ms.flatMap Mark.parts).map (Part.shown e) := by
  have hz : Range.zero.start = graphemePos G [] := by
    obtain ⟨b, -, h⟩ := cut_nil G ['x']
    have h2 : G.graphemes [] = [] := by
      have : (G.graphemes ([] ++ b)).length = (G.graphemes [] ++ G.graphemes b).length := congrArg _ h
      rw [List.nil_append, List.length_append] at this
      exact List.length_eq_zero_iff.mp (by omega)
    have h3 : graphemePos G [] = ⟨0, (G.graphemes []).length⟩ := rfl
    rw [h3, h2]; rfl
  obtain ⟨c, h1, h2⟩ := run_decode hG e src ms [] false Range.zero 0 (cut_nil G src) hz (fun _ => rfl) hord hin
  exact ⟨c.tokens, by unfold semanticTokens Builder.new; rw [h1]; rfl, h2⟩

/-- **C90.** The places that are shown are the places of the parts in the editor. -/
theorem C90_place {G : Segmenter} (hG : Segments G) (e : EncodingKind) (src post : List Char) (p : Part)
    (h : src = p.pre ++ post) (hb : Boundary G p.pre post) :
    AtPosition e ⟨(p.shown e).line, (p.shown e).character⟩ p.pre post :=
  ⟨rfl, rfl, boundary_not_inside hG hb⟩

/-- **C90.** A part in one line is as long as the distance of its ends. -/
theorem C90_length {e : EncodingKind} (p : Part) (h : '\n' ∉ p.body) :
    (p.shown e).character + (p.shown e).length = codeUnits e (lastLine (p.pre ++ p.body)) := by
  rw [lastLine_append_no_lf _ h, codeUnits_append]
  show _ + codeUnits e (unbroken p.body) = _
  rw [unbroken_no_lf h]
  rfl

/-- **C90.** The order is needed: the server fails when an element begins before the previous one. -/
theorem C90_backwards {G : Segmenter} (hG : Segments G) (e : EncodingKind) (src : List Char) (b : Builder) (p : Part)
    (u : List Char) (hu : u ≠ []) (h : b.last.start = graphemePos G (p.pre ++ u)) (hc : Cut G src (p.pre ++ u))
    (hm : (Mark.part p).In G src) : b.add G (LineIndex.new src e) (Mark.element G (.part p)) = none := by
  have hd : deltaLineAndStart G (graphemePos G (p.pre ++ u)) (graphemePos G p.pre) (LineIndex.new src e) = none := by
    unfold deltaLineAndStart
    simp only [cut_lsp hG e hc, cut_lsp hG e hm.1, offsetCheckedSub, List.count_append]
    by_cases h0 : u.count '\n' = 0
    · rw [if_pos (by omega), Option.bind_some, if_pos (by omega), lastLine_append_no_lf _ (List.count_eq_zero.mp h0),
        codeUnits_append, if_neg]
      · rfl
      · have := codeUnits_pos e hu
        omega
    · rw [if_neg (by omega)]; rfl
  simp only [Mark.element, Builder.add, Builder.addToken, h, hd, Option.bind_none]

/-! ### directives -/

/-- Every character of the text is a grapheme of its own. -/
def OneEach (G : Segmenter) (s : List Char) : Prop := (G.graphemes s).length = s.length

theorem pos_after {G : Segmenter} (hG : Segments G) {pre s : List Char} (hb : Boundary G pre s) (hs : '\n' ∉ s)
    (h : OneEach G s) : graphemePos G (pre ++ s) = ⟨(graphemePos G pre).line, (graphemePos G pre).column + s.length⟩ := by
  rw [← C24_position_after hG pre s hb]
  unfold Position.addText Position.add
  rw [relOf_spec hG, List.count_eq_zero.mpr hs, lastLine_no_lf hs, h]
  rfl

theorem range_new_eq {a b : Position} (h : a.le b = true) : Range.new a b = ⟨a, b⟩ := by
  unfold Range.new; rw [if_pos h]

/-- **C90**, the part that holds: a comment `# tombi: …` whose directive is after spaces and tabs is shown with the word
`tombi:` as keyword. Missing: other white space, see `C90_directive_false`. -/
theorem C90_directive_partial {G : Segmenter} (hG : Segments G) (pre blanks rest : List Char)
    (hbl : ∀ c ∈ blanks, c = ' ' ∨ c = '\t')
    (h1 : Boundary G pre ('#' :: blanks)) (h2 : Boundary G pre ('#' :: blanks ++ Format.valuePrefix))
    (o1 : OneEach G ('#' :: blanks)) (o2 : OneEach G ('#' :: blanks ++ Format.valuePrefix)) :
    commentElement ('#' :: blanks ++ Format.valuePrefix ++ rest)
        ⟨graphemePos G pre, graphemePos G (pre ++ ('#' :: blanks) ++ Format.valuePrefix ++ rest)⟩
      = some ((Mark.comment pre ('#' :: blanks) Format.valuePrefix rest).element G) := by
  have hn : '\n' ∉ '#' :: blanks := by
    intro h
    rcases List.mem_cons.mp h with h | h
    · exact absurd h (by decide)
    · rcases hbl _ h with h | h <;> exact absurd h (by decide)
  have hn2 : '\n' ∉ '#' :: blanks ++ Format.valuePrefix := by
    intro h
    rcases List.mem_append.mp h with h | h
    · exact hn h
    · exact absurd h (by decide)
  have e1 := pos_after hG h1 hn o1
  have e2 := pos_after hG h2 hn2 o2
  have hlen : utf8Len blanks = blanks.length := by
    clear h1 h2 o1 o2 hn hn2 e1 e2
    induction blanks with
    | nil => rfl
    | cons c cs ih =>
      have : c.utf8Size = 1 := by rcases hbl c (by simp) with rfl | rfl <;> decide
      rw [utf8Len_cons, this, ih (fun x hx => hbl x (by simp [hx])), List.length_cons]; omega
  have ht : Format.trimStart (blanks ++ (Format.valuePrefix ++ rest)) = Format.valuePrefix ++ rest := by
    unfold Format.trimStart
    rw [dropWhile_append_all (fun c hc => by rcases hbl c hc with rfl | rfl <;> decide)]
    have hk : charIsWhitespace 't' = false := by decide
    simp only [Format.valuePrefix, List.cons_append, List.dropWhile_cons, hk, Bool.false_eq_true, if_false]
  have hd : byteDrop 1 ('#' :: blanks ++ Format.valuePrefix ++ rest) = some (blanks ++ (Format.valuePrefix ++ rest)) := by
    rw [List.cons_append, List.cons_append, List.append_assoc]
    have h1 : '#'.utf8Size = 1 := by decide
    rw [byteDrop, if_neg (by decide), h1, if_pos (by omega)]
    cases blanks ++ (Format.valuePrefix ++ rest) with
    | nil => rfl
    | cons c cs => rw [byteDrop, if_pos (by omega)]
  have hp : utf8Len ('#' :: blanks ++ Format.valuePrefix ++ rest) - utf8Len (Format.valuePrefix ++ rest) = blanks.length + 1 := by
    have h1 : '#'.utf8Size = 1 := by decide
    simp only [utf8Len_append, utf8Len_cons, List.cons_append, hlen, h1]
    omega
  have hl : (graphemePos G (pre ++ ('#' :: blanks) ++ Format.valuePrefix))
      = ⟨(graphemePos G pre).line, (graphemePos G pre).column + (blanks.length + 1) + 6⟩ := by
    rw [List.append_assoc, e2]
    simp only [List.length_append, List.length_cons, Position.mk.injEq, true_and, Format.valuePrefix, List.length_nil]
    omega
  unfold commentElement valueDirectiveRange
  simp only [hd, Option.map_some, ht, stripPrefix_append, hp, Mark.element]
  rw [range_new_eq (by simp [Position.le]), hl, e1, List.length_cons]

/-- **C90.** A comment without a directive is shown as a comment. -/
theorem C90_comment (text : List Char) (range : Range)
    (h : ∀ t, byteDrop 1 text = some t → ¬ Format.valuePrefix <+: Format.trimStart t) (hp : (byteDrop 1 text).isSome) :
    commentElement text range = some (.token .comment range) := by
  obtain ⟨t, ht⟩ := Option.isSome_iff_exists.mp hp
  unfold commentElement valueDirectiveRange
  simp only [ht, Option.map_some, stripPrefix_none (h t ht), Option.map_none]

/-- **C90**, where it fails: the width of the white space before a directive is counted in bytes. In `#　tombi: x`, with an
ideographic space, the keyword is at 2, and `mbi: x` at 4 is shown as keyword. -/
theorem C90_directive_false : ∃ (src : List Char) (el : Element),
    commentElement src ⟨⟨0, 0⟩, ⟨0, 10⟩⟩ = some el ∧ src = ['#', '\u3000'] ++ Format.valuePrefix ++ [' ', 'x']
      ∧ (semanticTokens sampleSegmenter (LineIndex.new src .utf16) [el]).map (decode legend 0 0)
        = some [⟨0, 0, 4, some "comment"⟩, ⟨0, 4, 6, some "keyword"⟩, ⟨0, 10, 0, some "comment"⟩] :=
  ⟨['#', '\u3000'] ++ Format.valuePrefix ++ [' ', 'x'], .directive ⟨⟨0, 0⟩, ⟨0, 10⟩⟩ ⟨⟨0, 4⟩, ⟨0, 10⟩⟩, by decide +kernel,
    rfl, by decide +kernel⟩

/-- **C90**, where it fails: the columns of a schema directive are those of a comment at the start of the line. In
` #:schema x`, after a space, `#:schem` is shown as keyword. -/
theorem C90_schema_false : ∃ (src text : List Char) (el : Element), src = ' ' :: text ∧ text = Format.schemaPrefix ++ ['x']
    ∧ headElement (schemaDirectiveRange text ⟨⟨0, 1⟩, ⟨0, 11⟩⟩) text ⟨⟨0, 1⟩, ⟨0, 11⟩⟩ = some el
    ∧ (semanticTokens sampleSegmenter (LineIndex.new src .utf16) [el]).map (decode legend 0 0)
        = some [⟨0, 1, 0, some "comment"⟩, ⟨0, 1, 7, some "keyword"⟩, ⟨0, 8, 3, some "comment"⟩] :=
  ⟨' ' :: (Format.schemaPrefix ++ ['x']), Format.schemaPrefix ++ ['x'], .directive ⟨⟨0, 1⟩, ⟨0, 11⟩⟩ ⟨⟨0, 1⟩, ⟨0, 8⟩⟩, rfl, rfl,
    by decide +kernel, by decide +kernel⟩

/-! ### concrete cases -/

/-- a document with a directive, a key with a grapheme of two characters, and a string of two lines -/
def sampleText : List Char := "# tombi: x\n\"e\u0301\" = '''p\r\nq'''\n".toList

/-- its elements -/
def sampleMarks : List Mark :=
  [.comment [] "# ".toList "tombi:".toList " x".toList,
   .part ⟨"# tombi: x\n".toList, "\"e\u0301\"".toList, .key⟩,
   .part ⟨"# tombi: x\n\"e\u0301\" ".toList, "=".toList, .operator⟩,
   .part ⟨"# tombi: x\n\"e\u0301\" = ".toList, "'''p\r\nq'''".toList, .string⟩]

theorem cut_take (k : Nat) (h : sampleSegmenter.graphemes sampleText
      = sampleSegmenter.graphemes (sampleText.take k) ++ sampleSegmenter.graphemes (sampleText.drop k)) :
    Cut sampleSegmenter sampleText (sampleText.take k) :=
  ⟨sampleText.drop k, (List.take_append_drop k sampleText).symm, by
    unfold Boundary; rw [List.take_append_drop]; exact h⟩

/-- The hypotheses of `C90_shown_partial` are met. -/
example : (∀ m ∈ sampleMarks, m.In sampleSegmenter sampleText) ∧ InOrder [] false sampleMarks := by
  have c0 := cut_take 0 (by decide +kernel)
  have c2 := cut_take 2 (by decide +kernel)
  have c8 := cut_take 8 (by decide +kernel)
  have c10 := cut_take 10 (by decide +kernel)
  have c11 := cut_take 11 (by decide +kernel)
  have c15 := cut_take 15 (by decide +kernel)
  have c16 := cut_take 16 (by decide +kernel)
  have c17 := cut_take 17 (by decide +kernel)
  have c18 := cut_take 18 (by decide +kernel)
  have c28 := cut_take 28 (by decide +kernel)
  constructor
  · intro m hm
    simp only [sampleMarks, List.mem_cons, List.not_mem_nil, or_false] at hm
    rcases hm with rfl | rfl | rfl | rfl
    · exact ⟨c0, c2, c8, c10, by decide +kernel⟩
    · exact ⟨c11, c15⟩
    · exact ⟨c16, c17⟩
    · exact ⟨c18, c28⟩
  · exact ⟨⟨[], rfl, fun h => by cases h⟩, ⟨"# tombi: x\n".toList, rfl, fun _ => by decide +kernel⟩,
      ⟨"\"e\u0301\" ".toList, by decide +kernel, fun h => by cases h⟩, ⟨"= ".toList, by decide +kernel, fun h => by cases h⟩, trivial⟩

/-- The tokens of the sample, and what the editor shows. -/
example : semanticTokens sampleSegmenter (LineIndex.new sampleText .utf16) (sampleMarks.map (Mark.element sampleSegmenter))
      = some [⟨0, 0, 2, 3⟩, ⟨0, 2, 6, 4⟩, ⟨0, 6, 2, 3⟩, ⟨1, 0, 4, 6⟩, ⟨0, 5, 1, 2⟩, ⟨0, 2, 8, 0⟩]
    ∧ (sampleMarks.flatMap Mark.parts).map (Part.shown .utf16)
      = [⟨0, 0, 2, some "comment"⟩, ⟨0, 2, 6, some "keyword"⟩, ⟨0, 8, 2, some "comment"⟩, ⟨1, 0, 4, some "key"⟩,
        ⟨1, 5, 1, some "operator"⟩, ⟨1, 7, 8, some "string"⟩] := by decide +kernel

/-- The hypotheses of `C90_directive_partial` are met. -/
example : Boundary sampleSegmenter ['\n', ' '] ['#', ' '] ∧ Boundary sampleSegmenter ['\n', ' '] (['#', ' '] ++ Format.valuePrefix)
    ∧ OneEach sampleSegmenter ['#', ' '] ∧ OneEach sampleSegmenter (['#', ' '] ++ Format.valuePrefix) := by
  unfold Boundary OneEach; decide +kernel

end Tombi.SemanticTokens
