import Verif.Proofs.SemanticItems
import Verif.Props.SemanticTree
/-! C90: what is highlighted is an element of the document, and the items of the document are highlighted. -/
namespace Tombi.SemanticTokens
open Tombi SyntaxKind Spec
open Tombi.Formatter (kindOf childrenOf greenText greenTexts)

/-- **C90.** In every syntax tree, complete or not, each element that is highlighted is a comment, an operator, a key or a
literal of the tree, at its place in the text and with the type of its kind. -/
theorem C90_kinds (root : Green) : ∀ m ∈ documentMarks root, Fits [] root m := document_fits root

/-- **C90.** The keys, the equals sign and the literal of every key-value and value of a document are highlighted, wherever
it is nested. -/
theorem C90_items {root h : Green} {p : List Char} {part : Part} (hd : DocumentItem root p h) (he : Expected p h part) :
    Mark.part part ∈ documentMarks root := document_mem hd (expected_mem he)

/-- **C90.** The comments of every key-value and value of a document are highlighted: before it and at its end, after an opening
bracket, between the brackets, and before and after the commas. -/
theorem C90_item_comments {root h : Green} {p q t : List Char} (hd : DocumentItem root p h) (he : ExpectedComment p h q t) :
    ∃ m ∈ documentMarks root, m.pre = q ∧ m.text = t :=
  ⟨_, document_mem hd (expectedComment_mem he), commentMark_pre _ _, commentMark_text _ _⟩

/-- **C90.** The keys in the header of every table and array of tables are highlighted as table names. -/
theorem C90_header_keys {root g : Green} {k end_ : SyntaxKind} {p : List Char} {xs as bs ys : List Green}
    (hs : SectionAt root k end_ p (xs ++ .node KEYS (as ++ g :: bs) :: ys)) (hx : ∀ x ∈ xs, isKeys x = false)
    (hg : (Formatter.keyOf g).isSome) : Mark.part ⟨p ++ greenTexts xs ++ greenTexts as, greenText g, .table⟩ ∈ documentMarks root := by
  obtain ⟨start, -, h⟩ := section_mem hs
  exact h _ (List.mem_append_left _ (List.mem_append_left _ (List.mem_append_left _ (List.mem_append_right _
    (keys_mem xs hx (key_mem as hg))))))

/-- **C90.** The brackets of every header are highlighted as operators. -/
theorem C90_header_brackets {root : Green} {k end_ b : SyntaxKind} {p w : List Char} {xs ys : List Green}
    (hb : b = end_ ∨ k = TABLE ∧ b = BRACKET_START ∨ k = ARRAY_OF_TABLE ∧ b = DOUBLE_BRACKET_START)
    (hs : SectionAt root k end_ p (xs ++ .token b w :: ys)) (hx : ∀ x ∈ xs, isToken b x = false) :
    Mark.part ⟨p ++ greenTexts xs, w, .operator⟩ ∈ documentMarks root := by
  obtain ⟨start, hk, h⟩ := section_mem hs
  by_cases he : b = end_
  · subst he
    exact h _ (List.mem_append_left _ (List.mem_append_left _ (List.mem_append_right _ (token_mem xs hx))))
  · have hst : b = start := by
      rcases hb with hb | ⟨h1, h2⟩ | ⟨h1, h2⟩
      · exact absurd hb he
      · rcases hk with ⟨-, h3⟩ | ⟨h3, -⟩
        · rw [h2, h3]
        · rw [h1] at h3; cases h3
      · rcases hk with ⟨h3, -⟩ | ⟨-, h3⟩
        · rw [h1] at h3; cases h3
        · rw [h2, h3]
    subst hst
    exact h _ (List.mem_append_left _ (List.mem_append_left _ (List.mem_append_left _ (List.mem_append_left _
      (List.mem_append_right _ (token_mem xs hx))))))

/-- **C90.** The comments of every table and array of tables are highlighted: before and after the header, and below. -/
theorem C90_section_comments {root : Green} {k end_ : SyntaxKind} {p q t : List Char} {cs : List Green}
    (hs : SectionAt root k end_ p cs) (hc : SectionComment end_ p cs q t) :
    ∃ m ∈ documentMarks root, m.pre = q ∧ m.text = t := by
  obtain ⟨start, -, h⟩ := section_mem hs
  exact ⟨_, h _ (sectionComment_mem hc), commentMark_pre _ _, commentMark_text _ _⟩

/-- **C90.** The comments in groups of their own, outside of tables, are highlighted. -/
theorem C90_root_comments {root : Green} {xs as bs ys : List Green} {t : List Char}
    (h : childrenOf root = xs ++ .node DANGLING_COMMENT_GROUP (as ++ .token COMMENT t :: bs) :: ys) :
    ∃ m ∈ documentMarks root, m.pre = greenTexts xs ++ greenTexts as ∧ m.text = t := by
  refine ⟨commentMark (greenTexts xs ++ greenTexts as) t, ?_, commentMark_pre _ _, commentMark_text _ _⟩
  unfold documentMarks
  rw [h]
  refine List.mem_append_left _ (groups_dangling xs ?_)
  rw [List.nil_append]
  exact dangling_mem as

/-! ### concrete cases -/

mutual
/-- equality of trees -/
def sameTree : Green → Green → Bool
  | .token k t, .token k' t' => decide (k = k') && decide (t = t')
  | .node k cs, .node k' cs' => decide (k = k') && sameTrees cs cs'
  | _, _ => false
/-- equality of lists of trees -/
def sameTrees : List Green → List Green → Bool
  | [], [] => true
  | g :: gs, g' :: gs' => sameTree g g' && sameTrees gs gs'
  | _, _ => false
end

/-- the key-value `b=1` -/
def samplePair : List Green :=
  [.node KEYS [.node BARE_KEY [.token BARE_KEY ['b']]], .token EQUAL ['='], .node INTEGER_DEC [.token INTEGER_DEC ['1']]]

/-- the value `{b=1}` -/
def sampleInline : Green :=
  .node INLINE_TABLE [.token BRACE_START ['{'], .node KEY_VALUE_WITH_COMMA_GROUP [.node KEY_VALUE samplePair], .token BRACE_END ['}']]

/-- the header of the table, and what follows it -/
def sampleSection : List Green :=
  [.token BRACKET_START ['['], .node KEYS [.node BARE_KEY [.token BARE_KEY ['t']]], .token BRACKET_END [']'], .token LINE_BREAK ['\n'],
    .node KEY_VALUE_GROUP [.node KEY_VALUE
      [.node KEYS [.node BARE_KEY [.token BARE_KEY ['a']]], .token EQUAL ['='], sampleInline]]]

/-- the document `# c`, an empty line, and the table -/
def sampleRoot : Green :=
  .node ROOT [.node DANGLING_COMMENT_GROUP [.token COMMENT ['#', ' ', 'c']], .token LINE_BREAK ['\n'], .token LINE_BREAK ['\n'],
    .node TABLE sampleSection]

/-- The sample is what the parser returns. -/
example : sameTree (treeOf "# c\n\n[t]\na={b=1}".toList) sampleRoot = true := by decide +kernel

/-- The key-value `b=1` is an item of the document. -/
example : DocumentItem sampleRoot "# c\n\n[t]\na={".toList (.node KEY_VALUE samplePair)
    ∧ Expected "# c\n\n[t]\na={".toList (.node KEY_VALUE samplePair) ⟨"# c\n\n[t]\na={".toList, ['b'], .key⟩ := by
  refine ⟨?_, ?_⟩
  · refine .table (k := TABLE) (end_ := BRACKET_END) (r := "# c\n\n".toList) (cs := sampleSection)
      (us := sampleSection.take 2) (w := [']']) (vs := []) (b := ['\n']) (zs := sampleSection.drop 4)
      ⟨.inl ⟨rfl, rfl⟩, (childrenOf sampleRoot).take 3, [], rfl, by decide +kernel⟩ rfl
      (q := "# c\n\n[t]\n".toList) ⟨[], [], [], [], rfl, by decide +kernel⟩ ?_
    refine .value (xs := [.node KEYS [.node BARE_KEY [.token BARE_KEY ['a']]], .token EQUAL ['=']]) (v := sampleInline) (ys := [])
      (by decide) rfl ?_
    refine .table (q := "# c\n\n[t]\na={".toList) ⟨[], ['{'], [], [], [], [.token BRACE_END ['}']], rfl, by decide +kernel⟩ (.here _ _)
  · exact .key (p := "# c\n\n[t]\na={".toList) (xs := []) (as := []) (bs := []) (g := .node BARE_KEY [.token BARE_KEY ['b']])
      (ys := samplePair.drop 1) (fun _ h => nomatch h) rfl

/-- A literal with comments before and after it. -/
example : ExpectedComment ['='] (.node INTEGER_DEC [.token COMMENT ['#', 'x'], .token LINE_BREAK ['\n'], .token INTEGER_DEC ['1'],
      .token WHITESPACE [' '], .token COMMENT ['#', 'y']]) ['=', '#', 'x', '\n', '1', ' '] ['#', 'y'] :=
  .trailing (xs := [.token COMMENT ['#', 'x'], .token LINE_BREAK ['\n'], .token INTEGER_DEC ['1'], .token WHITESPACE [' ']]) rfl

/-- An array with a comment after its bracket and one after its comma. -/
example : ExpectedComment [] (.node ARRAY [.token BRACKET_START ['['], .token COMMENT ['#'], .token LINE_BREAK ['\n'],
      .node VALUE_WITH_COMMA_GROUP [.node INTEGER_DEC [.token INTEGER_DEC ['1']], .node COMMA [.token COMMA [','], .token COMMENT ['#', 'z']]],
      .token LINE_BREAK ['\n'], .token BRACKET_END [']']]) ['['] ['#']
    ∧ ExpectedComment [] (.node ARRAY [.token BRACKET_START ['['], .token COMMENT ['#'], .token LINE_BREAK ['\n'],
      .node VALUE_WITH_COMMA_GROUP [.node INTEGER_DEC [.token INTEGER_DEC ['1']], .node COMMA [.token COMMA [','], .token COMMENT ['#', 'z']]],
      .token LINE_BREAK ['\n'], .token BRACKET_END [']']]) ['[', '#', '\n', '1', ','] ['#', 'z'] :=
  ⟨.bracket (xs := []) (ws := []) (.inl ⟨rfl, rfl, rfl⟩) (fun _ h => nomatch h) (.inl rfl),
    .afterComma (xs := []) (w := ['[']) (us := [.token COMMENT ['#'], .token LINE_BREAK ['\n']]) (as := [])
      (i := .node INTEGER_DEC [.token INTEGER_DEC ['1']]) (bs := []) (cs := [.token COMMA [',']]) (es := [])
      (.inl ⟨rfl, rfl, rfl⟩) rfl rfl (fun _ h => nomatch h)⟩

/-- A comment below the header of a table. -/
example : SectionComment BRACKET_END [] [.token BRACKET_START ['['], .node KEYS [.node BARE_KEY [.token BARE_KEY ['t']]],
      .token BRACKET_END [']'], .token LINE_BREAK ['\n'], .node DANGLING_COMMENT_GROUP [.token COMMENT ['#']]] ['[', 't', ']', '\n'] ['#'] :=
  .below (us := [.token BRACKET_START ['['], .node KEYS [.node BARE_KEY [.token BARE_KEY ['t']]]]) (vs := []) (xs := []) (as := [])

/-- The header of the sample. -/
example : SectionAt sampleRoot TABLE BRACKET_END "# c\n\n".toList sampleSection :=
  ⟨.inl ⟨rfl, rfl⟩, (childrenOf sampleRoot).take 3, [], rfl, by decide +kernel⟩

end Tombi.SemanticTokens
