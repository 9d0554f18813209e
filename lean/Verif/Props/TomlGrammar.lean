import Verif.Proofs.FileParse
import Verif.Proofs.FileWords
import Verif.Props.FormatAgain
/-!
C69: texts of the TOML grammar are parsed without syntax errors, as the documents they are.
-/
namespace Tombi.TomlFile
open SyntaxKind
open Tombi.Formatter (docOf TomlLiteral NameKey isLetter name_dotKey name_plain short_plain)
open Tombi.Format (AstKey)
open Tombi.Spec

/-- Every document of `Words.usual` is a TOML document: C69 speaks about a part of TOML. -/
theorem usual_toml {f : File} {t : Text} (h : FileText Words.usual f t) : FileText Words.toml f t := Lines.mono usual_le h

/-! ### C69 -/

/-- **C69**: a text of the TOML grammar is parsed without panic and without syntax errors, and the syntax tree holds the
pairs, tables, keys and values of the grammar, in order. For what `Words.usual` leaves out the claim is false
(`C69_date_key_false`, `C69_digit_key_false`, `C69_gap_false`, `C69_string_false`). -/
theorem C69_accepted_partial (G : Segmenter) {f : File} {t : Text} (h : FileText Words.usual f t)
    (hn : f.Nested maxRecursionDepth) (hlen : utf8Len t < 2 ^ 28) :
    ∃ p, parse G t = .ok p ∧ p.errors = [] ∧ fileOf (docOf p.tree) = f :=
  (file_parses G h hn hlen).2

/-- A text has one reading: no two documents share a text. -/
theorem C69_unambiguous {f f' : File} {t : Text} (h : FileText Words.usual f t) (h' : FileText Words.usual f' t)
    (hn : f.Nested maxRecursionDepth) (hn' : f'.Nested maxRecursionDepth) (hlen : utf8Len t < 2 ^ 28) : f = f' := by
  obtain ⟨p, h1, -, rfl⟩ := C69_accepted_partial charSegmenter h hn hlen
  obtain ⟨p', h2, -, rfl⟩ := C69_accepted_partial charSegmenter h' hn' hlen
  rw [h1] at h2
  cases h2
  rfl

/-! ### what is rejected -/

/-- The number of syntax errors of a text. -/
def errorCount (t : Text) : Option Nat := ((parse charSegmenter t).toOption).map fun p => p.errors.length

theorem ws1 : Ws [' '] := fun c hc => .inl (by simpa using hc)
theorem ws0 : Ws [] := nofun

/-- A pair of a bare key and a value. -/
theorem pair_text {L : Words} {k : Text} {v : Val} {x : Text} (hk : L.key (.bare k)) (hv : v.Text L x) :
    Pair.Text L (.mk [.bare k] v) (k ++ ([' '] ++ '=' :: ([' '] ++ x))) := by
  rw [Pair.Text]
  exact ⟨k, [' '], [' '], x, .last (k := .bare k) hk, ws1, ws1, hv, rfl⟩

theorem one_text : TomlLiteral INTEGER_DEC ['1'] := .dec ((Rx.matchAll_iff _ _).mp (by decide))
theorem two_text : TomlLiteral INTEGER_DEC ['2'] := .dec ((Rx.matchAll_iff _ _).mp (by decide))

/-- **C69** is false of bare keys that begin with a date: `2024-01-01x = 1` is TOML, but it has syntax errors. -/
theorem C69_date_key_false : FileText Words.toml ⟨[.mk [.bare "2024-01-01x".toList] (.lit INTEGER_DEC ['1'])], []⟩ "2024-01-01x = 1".toList ∧
    errorCount "2024-01-01x = 1".toList = some 4 := by
  refine ⟨?_, by decide +kernel⟩
  have h := Lines.pairEnd (L := Words.toml) ws0 (pair_text (k := "2024-01-01x".toList) (v := .lit INTEGER_DEC ['1']) (x := ['1'])
    (by exact ⟨by decide, by decide⟩) (by rw [Val.Text]; exact ⟨.inl (one_text), rfl⟩)) ws0 (.inl rfl)
  exact h

/-- **C69** is false of bare keys of digits before a dot: ` 1.2 = 3` is TOML, but the parser panics. -/
theorem C69_digit_key_false : FileText Words.toml ⟨[.mk [.bare ['1'], .bare ['2']] (.lit INTEGER_DEC ['3'])], []⟩ " 1.2 = 3".toList ∧
    parse charSegmenter " 1.2 = 3".toList = .error .panic := by
  refine ⟨?_, C08_parse_total_false.1⟩
  have hp : Pair.Text Words.toml (.mk [.bare ['1'], .bare ['2']] (.lit INTEGER_DEC ['3'])) "1.2 = 3".toList := by
    rw [Pair.Text]
    exact ⟨"1.2".toList, [' '], [' '], ['3'], .dot (k := .bare ['1']) (a := []) (b := []) ⟨by decide, by decide⟩ ws0 ws0
      (.last (k := .bare ['2']) ⟨by decide, by decide⟩), ws1, ws1,
      by rw [Val.Text]; exact ⟨.inl (.dec ((Rx.matchAll_iff _ _).mp (by decide))), rfl⟩, rfl⟩
  exact Lines.pairEnd (L := Words.toml) (w := [' ']) ws1 hp ws0 (.inl rfl)

/-- **C69** is false of arrays with a comment that is followed by a blank line before a comma. -/
theorem C69_gap_false : FileText Words.toml ⟨[.mk [.bare ['a']] (.array [.lit INTEGER_DEC ['1'], .lit INTEGER_DEC ['2']])], []⟩
      "a = [1\n# c\n\n, 2]".toList ∧
    errorCount "a = [1\n# c\n\n, 2]".toList = some 2 := by
  refine ⟨?_, by decide +kernel⟩
  have hv : Val.Text Words.toml (.array [.lit INTEGER_DEC ['1'], .lit INTEGER_DEC ['2']]) "[1\n# c\n\n, 2]".toList := by
    rw [Val.Text]
    refine ⟨"1\n# c\n\n, 2".toList, ?_, rfl⟩
    rw [itemsText]
    refine ⟨[], ['1'], "\n# c\n\n".toList, .nil, by rw [Val.Text]; exact ⟨.inl (one_text), rfl⟩, .inr ⟨[' ', '2'], ?_, ?_, rfl⟩⟩
    · exact .newline (.inl rfl) (.comment (c := "# c".toList) ⟨[' ', 'c'], rfl, by simp [isCommentChar]⟩ (.inl rfl) (.newline (.inl rfl) .nil))
    · rw [itemsText]
      exact ⟨[' '], ['2'], [], .ws ws1 .nil, by rw [Val.Text]; exact ⟨.inl (two_text), rfl⟩, .inl ⟨rfl, .nil, rfl⟩⟩
  exact Lines.pairEnd (L := Words.toml) ws0 (pair_text (k := ['a']) ⟨by decide, by decide⟩ hv) ws0 (.inl rfl)

/-- **C69** is false of multi-line basic strings that end with an escaped backslash. -/
theorem C69_string_false : FileText Words.toml ⟨[.mk [.bare ['a']] (.lit MULTI_LINE_BASIC_STRING "\"\"\"\\\\\"\"\"".toList)], []⟩
      "a = \"\"\"\\\\\"\"\"".toList ∧
    errorCount "a = \"\"\"\\\\\"\"\"".toList = some 2 := by
  refine ⟨?_, by decide +kernel⟩
  have hv : Val.Text Words.toml (.lit MULTI_LINE_BASIC_STRING "\"\"\"\\\\\"\"\"".toList) "\"\"\"\\\\\"\"\"".toList := by
    rw [Val.Text]
    exact ⟨.inr ⟨rfl, [.esc '\\'], by simp [Item.multi], by decide, by decide⟩, rfl⟩
  exact Lines.pairEnd (L := Words.toml) ws0 (pair_text (k := ['a']) ⟨by decide, by decide⟩ hv) ws0 (.inl rfl)

/-! ### a document -/

/-- A document with tables, an array of tables, dotted keys, an inline table, comments and blank lines. -/
def sampleFile : File :=
  ⟨[.mk [.bare ['a'], .literal "'b'".toList] (.array [.lit INTEGER_DEC ['1'], .table []])],
   [⟨false, [.bare ['t']], [.mk [.bare ['k']] (.lit INTEGER_DEC ['2'])]⟩, ⟨true, [.bare ['s'], .bare ['3', 'd']], []⟩]⟩

/-- Its text. -/
def sampleToml : Text := "# top\n\na . 'b' = [1\n # one\n,\n{ }, ] # x\r\n\t[ t ]\nk = 2\n[[s.3d]] # end".toList

theorem name1 {c : Char} (h : isLetter c = true) : NameKey [c] := ⟨c, [], rfl, .inl h, nofun⟩

theorem sample_text : FileText Words.usual sampleFile sampleToml := by
  have harr : Val.Text Words.usual (.array [.lit INTEGER_DEC ['1'], .table []]) "[1\n # one\n,\n{ }, ]".toList := by
    rw [Val.Text]
    refine ⟨"1\n # one\n,\n{ }, ".toList, ?_, rfl⟩
    rw [itemsText]
    refine ⟨[], ['1'], "\n # one\n".toList, .nil, by rw [Val.Text]; exact ⟨one_text, rfl⟩, .inr ⟨"\n{ }, ".toList, ?_, ?_, rfl⟩⟩
    · exact .inl (.newline (.inl rfl) (.ws ws1 (.lines (.comment (c := "# one".toList) ⟨" one".toList, rfl, by simp [isCommentChar]⟩
        (.inl rfl) .nil))))
    · rw [itemsText]
      refine ⟨['\n'], "{ }".toList, [], .newline (.inl rfl) .nil, ?_, .inr ⟨[' '], .inl (.lines .nil), ?_, rfl⟩⟩
      · rw [Val.Text]
        refine ⟨[' '], ?_, rfl⟩
        rw [pairsText]
        exact .ws ws1 .nil
      · rw [itemsText]; exact .ws ws1 .nil
  have hpair : Pair.Text Words.usual (.mk [.bare ['a'], .literal "'b'".toList] (.array [.lit INTEGER_DEC ['1'], .table []]))
      "a . 'b' = [1\n # one\n,\n{ }, ]".toList := by
    rw [Pair.Text]
    exact ⟨"a . 'b'".toList, [' '], [' '], _, .dot (k := .bare ['a']) (name_dotKey (name1 (by decide))) ws1 ws1
      (.last (k := .literal "'b'".toList) ⟨['b'], by decide, by decide, by decide, by decide⟩), ws1, ws1, harr, rfl⟩
  have h1 : Lines Words.usual [] [⟨true, [.bare ['s'], .bare ['3', 'd']], []⟩] "[[s.3d]] # end".toList :=
    Lines.headerEnd (w := []) (w' := [' ']) (c := "# end".toList) ws0
      (arr := true) (x := "[[s.3d]]".toList) ⟨[], "s.3d".toList, [], ws0, .dot (k := .bare ['s']) (a := []) (b := []) (name_dotKey (name1 (by decide))) ws0 ws0
        (.last (k := .bare ['3', 'd']) (short_plain (by decide) (by unfold Formatter.IsBareChar; decide) (by decide))), ws0, rfl⟩ ws1 (.inr ⟨" end".toList, rfl, by simp [isCommentChar]⟩)
  have h2 : Lines Words.usual [.mk [.bare ['k']] (.lit INTEGER_DEC ['2'])] [⟨true, [.bare ['s'], .bare ['3', 'd']], []⟩] "k = 2\n[[s.3d]] # end".toList :=
    Lines.pair (w := []) (w' := []) (c := []) (n := ['\n']) ws0 (pair_text (L := Words.usual) (k := ['k']) (x := ['2']) (name_plain (name1 (by decide)))
      (by rw [Val.Text]; exact ⟨two_text, rfl⟩)) ws0 (.inl rfl) (.inl rfl) h1
  have h3 : Lines Words.usual [] sampleFile.sections "\t[ t ]\nk = 2\n[[s.3d]] # end".toList :=
    Lines.header (w := ['\t']) (w' := []) (c := []) (n := ['\n']) (fun c hc => .inr (by simpa using hc))
      (arr := false) (x := "[ t ]".toList) ⟨[' '], ['t'], [' '], ws1, .last (k := .bare ['t']) (name_plain (name1 (by decide))), ws1, rfl⟩
      ws0 (.inl rfl) (.inl rfl) h2
  have h4 : Lines Words.usual sampleFile.pairs sampleFile.sections
      "a . 'b' = [1\n # one\n,\n{ }, ] # x\r\n\t[ t ]\nk = 2\n[[s.3d]] # end".toList :=
    Lines.pair (w := []) (w' := [' ']) (c := "# x".toList) (n := ['\r', '\n']) ws0 hpair ws1
      (.inr ⟨" x".toList, rfl, by simp [isCommentChar]⟩) (.inr rfl) h3
  exact Lines.blank (w := []) (c := "# top".toList) (n := ['\n']) ws0 (.inr ⟨" top".toList, rfl, by simp [isCommentChar]⟩) (.inl rfl)
    (Lines.blank (w := []) (c := []) (n := ['\n']) ws0 (.inl rfl) (.inl rfl) h4)

/-- The hypotheses of C69 hold of the sample. -/
example : FileText Words.usual sampleFile sampleToml ∧ sampleFile.Nested maxRecursionDepth ∧ utf8Len sampleToml < 2 ^ 28 := by
  refine ⟨sample_text, ⟨?_, ?_⟩, by decide⟩
  · simp [sampleFile, maxRecursionDepth, pairsNested, Pair.Nested, Val.Nested, itemsNested]
  · intro s hs
    simp only [sampleFile, List.mem_cons, List.not_mem_nil, or_false] at hs
    rcases hs with rfl | rfl <;> simp [pairsNested, Pair.Nested, Val.Nested]

end Tombi.TomlFile
