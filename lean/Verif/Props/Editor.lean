import Verif.Proofs.EditorGrouped
import Verif.Proofs.GatheredCheck
/-! Properties C65, C66, C68 and C71 for the whole formatter without a schema: the syntax tree is edited before it is printed. -/
namespace Tombi.Editing
open SyntaxKind
open Tombi.Formatter (Node Body Section Doc Comma Text Word Env Definitions TomlSource NormD docOf formatDoc treeWords
  fmtDoc textOf CommentsEndLines formatSource commentEnv commentEnv_usual defaultDefinitions)
open Tombi.Reading (Scalar docKeys docComments rawKey astRoot convert readDocument commentOk KeepsClean KeepsValue CommentChar read_ok_iff
  word_kept docKeys_norm docComments_norm astRoot_norm doc_words key_words commentOk_iff isRead sampleEnv)
open Tombi.Format (documentDirective valueDirective)
open Tombi.TomlFile (File FileText Words)
open Tombi.Spec (GatheredRoot)

/-- The formatter, when what belongs together stands together. -/
theorem format_gathered {E : Env} {src : Text} {p : Parsed} (h : Parseable E.G src) (hp : parse E.G src = .ok p) (he : p.errors = [])
    (hg : GatheredRoot (astRoot E.version (docOf p.tree))) : formatToml E src = formatGrouped E src :=
  formatToml_gathered E hp he (Formatter.doc_read h hp he).2 fun _ => hg

/-- **C65** with the editor: when a source without syntax errors is formatted, the words of the output are the tokens of its
syntax tree, in the same order, none lost, none added, each in its configured style; only layout and commas may differ.
Missing: documents that have to be regrouped, sorting by a schema or by comment directives, and the sources that are not
`Parseable`. -/
theorem C65_edited_words_partial (E : Env) (hs : E.singleLine = false) (hc : E.skipComment = false) (src : Text)
    (h : Parseable E.G src) (p : Parsed) (hp : parse E.G src = .ok p) (he : p.errors = [])
    (hg : GatheredRoot (astRoot E.version (docOf p.tree))) :
    ∃ (out : List Formatter.Piece) (ws : List Word),
      formatToml E src = some (if textOf E.lineEnding out = [] then [] else textOf E.lineEnding out ++ E.lineEnding) ∧
      out.filter Formatter.Piece.isWord = ws.map E.write ∧ ws.map Word.leaf = treeWords p.tree ∧ CommentsEndLines out := by
  rw [format_gathered h hp he hg]
  exact grouped_words E hs hc src h p hp he

/-- **C68** with the editor: when a source without syntax errors is formatted, the output has no syntax errors either, and its
tokens are the tokens of the source, in the same order, each in its configured style. Missing: what `C68_reparse_partial`
misses but the editor; documents that have to be regrouped; sorting by a schema or by comment directives. -/
theorem C68_edited_partial {E : Env} {fmt : Text → Option Text} (hE : E.Usual fmt) {src : Text} {p : Parsed}
    (hs : TomlSource E.G src p) (hg : GatheredRoot (astRoot E.version (docOf p.tree)))
    {out : Text} (hout : formatToml E src = some out) (hlen : utf8Len out < 2 ^ 28) :
    ∃ (r : Parsed) (ws : List Word), parse E.G out = .ok r ∧ r.errors = [] ∧ ws.map Word.leaf = treeWords p.tree ∧
      treeWords r.tree = ws.map (fun w => (E.write w).leaf) := by
  rw [format_gathered hs.parseable hs.parsed hs.noErrors hg] at hout
  exact grouped_reparse hE hs hout hlen

/-- **C71** with the editor: when a source is read as a tree, its formatted text is read as the same tree. Missing: what
`C68_edited_partial` misses. -/
theorem C71_edited_data_kept_partial {E : Env} {fmt : Text → Option Text} (hE : E.Usual fmt) (hf : KeepsClean fmt) {src : Text}
    {p : Parsed} (hs : TomlSource E.G src p) (hg : GatheredRoot (astRoot E.version (docOf p.tree)))
    {out : Text} (hout : formatToml E src = some out) (hlen : utf8Len out < 2 ^ 28)
    (v : TomlVersion) {T : DTable Scalar} (h : readDocument E.G v src = .ok T) : readDocument E.G v out = .ok T := by
  rw [format_gathered hs.parseable hs.parsed hs.noErrors hg] at hout
  exact grouped_data_kept hE hf hs hout hlen v h

/-- **C71** with the editor: formatting does not make a wrong document right: if the comments of a source hold no control
characters and its formatted text is read, the source is read as the same tree. -/
theorem C71_edited_errors_kept_partial {E : Env} {fmt : Text → Option Text} (hE : E.Usual fmt) (hf : KeepsClean fmt) {src : Text}
    {p : Parsed} (hs : TomlSource E.G src p) (hg : GatheredRoot (astRoot E.version (docOf p.tree)))
    {out : Text} (hout : formatToml E src = some out) (hlen : utf8Len out < 2 ^ 28)
    (hc : ∀ t, (COMMENT, t) ∈ treeWords p.tree → ∀ c ∈ t, CommentChar c)
    (v : TomlVersion) {T : DTable Scalar} (h : readDocument E.G v out = .ok T) : readDocument E.G v src = .ok T := by
  rw [format_gathered hs.parseable hs.parsed hs.noErrors hg] at hout
  exact grouped_errors_kept hE hf hs hout hlen hc v h

/-- **C66** with the editor: when a source without syntax errors is formatted, formatting the output changes nothing, with any
settings but a line width, the alignment of equal signs and zero blank lines between tables. Missing: what
`C68_edited_partial` misses, control characters in comments (`C66_edited_false`), the directives of tombi in comments other
than `#:schema`. -/
theorem C66_edited_partial {E : Env} {fmt : Text → Option Text} (hE : E.Usual fmt) (hf : KeepsClean fmt)
    (hwidth : E.defs.lineWidth = none) (halign : E.defs.keyValueEqualAlignment = false) {src : Text} {p : Parsed}
    (hs : TomlSource E.G src p) (hg : GatheredRoot (astRoot E.version (docOf p.tree)))
    (hdir : ∀ t, (COMMENT, t) ∈ treeWords p.tree → documentDirective t = none ∧ valueDirective t = some none)
    (hc : ∀ t, (COMMENT, t) ∈ treeWords p.tree → ∀ c ∈ t, CommentChar c)
    {out : Text} (hout : formatToml E src = some out) (hlen : utf8Len out < 2 ^ 28) : formatToml E out = some out := by
  rw [format_gathered hs.parseable hs.parsed hs.noErrors hg] at hout
  have again := grouped_again hE hf hwidth halign hs hdir hc hout hlen
  obtain ⟨r, h1, h2, -, -, h3, h4, -⟩ := edited_means hE hf hs hout hlen E.version
  obtain ⟨-, h5, r', h6, h7, -⟩ := edited_again hE hs hout hlen
  rw [h1] at h6
  obtain rfl := Except.ok.inj h6
  rw [formatToml_gathered E h1 h2 (Formatter.doc_read h5 h1 h2).2, again]
  intro hn
  have hr := (convert_ok (v := E.version) h1 h2 (convert E.version (docOf r.tree)).1).mpr (by rw [← hn])
  have k1 := ((read_ok_iff h1 h2 _).mp hr).1
  rw [h4]
  · exact hg
  · intro k hk
    have := List.mem_map_of_mem (f := rawKey E.version) hk
    rw [← h3] at this
    obtain ⟨k', hk', e⟩ := List.mem_map.mp this
    rw [← e]
    exact k1 k' hk'

/-- **C66** is false when a comment ends with a form feed: tombi takes the document for a wrong one in the first round, so
that it does not move commas, but in the second round, when the form feed is gone, it does. -/
theorem C66_edited_false :
    formatToml sampleEnv "# a\x0c\na = [1 # x\n , 2]\n".toList = some "# a\na = [\n  1  # x\n  ,\n  2\n]\n".toList ∧
    formatToml sampleEnv "# a\na = [\n  1  # x\n  ,\n  2\n]\n".toList = some "# a\na = [\n  1,  # x\n  2\n]\n".toList := by
  constructor <;> decide +kernel

/-! ### what regrouping does -/

/-- **C65** is false for keys that do not stand together: without a schema and without any setting, tombi reorders them. -/
theorem C65_order_false :
    formatToml sampleEnv "a.x = 1\nb = 2\na.y = 3\n".toList = some "a.x = 1\na.y = 3\nb = 2\n".toList ∧
    formatToml sampleEnv "[a]\n[b]\n[a.c]\nz = 1\n".toList = some "[a]\n[a.c]\nz = 1\n\n[b]\n".toList := by
  constructor <;> decide +kernel

/-- **C65** is false for inline tables that are regrouped: without a schema and without any setting, a comment before a comma
is lost. -/
theorem C65_comment_lost_false :
    formatToml sampleEnv "k = { a.x = 1, # 1\nb = 2 # 2\n, a.y = 3 # 3\n}\n".toList =
      some "k = {\n  a.x = 1,  # 1\n  a.y = 3,  # 3\n  b = 2\n}\n".toList := by decide +kernel

/-- What is read at a place in a text. -/
def readAt (source : String) (p : Spec.Path) : Option (Spec.Node Scalar) :=
  match readDocument charSegmenter .V1_1_0 source.toList with
  | .ok T => Spec.nodeAt T.value p
  | .error _ => none

/-- **C71** is false for arrays of tables that do not stand together: without a schema and without any setting, tombi changes
the order of the elements of the array. -/
theorem C71_swapped_false :
    formatToml sampleEnv "[[a]]\nn = 1\n[[a]]\nn = 2\n[[b]]\n[[a]]\nn = 3\n".toList =
      some "[[a]]\nn = 1\n\n[[a]]\nn = 3\n\n[[a]]\nn = 2\n\n[[b]]\n".toList ∧
    readAt "[[a]]\nn = 1\n[[a]]\nn = 2\n[[b]]\n[[a]]\nn = 3\n" [.key ['a'], .index 1, .key ['n']] = some (.scalar (.integer 2)) ∧
    readAt "[[a]]\nn = 1\n\n[[a]]\nn = 3\n\n[[a]]\nn = 2\n\n[[b]]\n" [.key ['a'], .index 1, .key ['n']] =
      some (.scalar (.integer 3)) := by
  refine ⟨?_, ?_, ?_⟩ <;> decide +kernel

/-- A document where nothing has to be regrouped, and one where keys have to. -/
example : (parse charSegmenter "a.x=1\na.y=[{b=1,c.d=2}]\n[t]\n[t.u]\n[[v]]\n[[v]]\n".toList).toOption.map
      (fun p => Spec.checkRoot (astRoot sampleEnv.version (docOf p.tree))) = some true ∧
    (parse charSegmenter "a.x=1\nb=2\na.y=3\n".toList).toOption.map
      (fun p => Spec.checkRoot (astRoot sampleEnv.version (docOf p.tree))) = some false := by
  constructor <;> decide +kernel

/-- **C65**, when nothing is formatted: exactly the sources that the parser reads without a syntax error are formatted. -/
theorem C65_refused (E : Env) (src : Text) :
    (formatToml E src).isSome = true ↔ ∃ p, parse E.G src = .ok p ∧ p.errors = [] := by
  unfold formatToml
  constructor
  · intro h
    cases hp : parse E.G src with
    | error e => rw [hp] at h; cases h
    | ok p =>
      rw [hp] at h
      refine ⟨p, rfl, ?_⟩
      by_cases he : p.errors.isEmpty = true
      · exact List.isEmpty_iff.mp he
      · simp only [if_neg he] at h
        cases h
  · rintro ⟨p, hp, he⟩
    rw [hp]
    obtain ⟨d, hd⟩ := regroup_ok E.version p.tree
    simp [he, hd]

example : (formatToml sampleEnv "a = [1]\n".toList).isSome = true := by decide +kernel

/-! ### texts of the TOML grammar -/

/-- **C71** with the editor for a text of the TOML grammar that stands for a document: it is formatted, and the output is read
as the document the text stands for. -/
theorem C71_edited_meaning_kept_partial {E : Env} {fmt : Text → Option Text} (hE : E.Usual fmt) (hf : KeepsClean fmt)
    {f : File} {t : Text} {root : AstRoot Scalar}
    (h : FileText Reading.wordsReadable f t) (hn : f.Nested maxRecursionDepth) (hlen : utf8Len t < 2 ^ 28)
    (hm : Reading.FileMeans E.version f root) (hv : Spec.Valid root) (hr : Spec.Regular root) (hu : Spec.Uninterrupted root)
    (hg : GatheredRoot root) :
    ∃ out, formatToml E t = some out ∧ (utf8Len out < 2 ^ 28 →
      ∃ T, readDocument E.G E.version out = .ok T ∧ ∀ p n, Spec.nodeAt T.value p = some n ↔ (p, n) ∈ Spec.docNodes root) := by
  have hle : TomlFile.Words.Le Reading.wordsReadable Words.usual := ⟨fun _ h => h, fun _ h => h, fun _ _ h => h.1, fun _ h => h⟩
  obtain ⟨p, hs, e⟩ := Reading.file_source E.G (TomlFile.Lines.mono hle h) hn hlen
  subst e
  have hg : GatheredRoot (astRoot E.version (docOf p.tree)) := by rw [(Reading.root_read h hm).1]; exact hg
  have hout := (format_gathered hs.parseable hs.parsed hs.noErrors hg).trans (format_edited hs.parsed hs.noErrors)
  refine ⟨_, hout, fun hl => ?_⟩
  obtain ⟨T, h1, h2⟩ := Reading.C70_read_partial E.G h hn hlen hm hv hr hu
  exact ⟨T, C71_edited_data_kept_partial hE hf hs hg hout hl E.version h1, h2⟩

/-! ### a concrete case -/

/-- A document with a directive before its first key-value, a comment before a comma and a missing comma. -/
def editSource : List Char := "#:schema  x\na=[1 # y\n , 2\n 3]\n".toList

/-- Its tokens but the commas. -/
def editTokens : List (SyntaxKind × Text) :=
  [(COMMENT, "#:schema  x".toList), (BARE_KEY, ['a']), (EQUAL, ['=']), (BRACKET_START, ['[']), (INTEGER_DEC, ['1']),
    (COMMENT, "# y".toList), (INTEGER_DEC, ['2']), (INTEGER_DEC, ['3']), (BRACKET_END, [']'])]

/-- The directive gets a group of its own, the comment moves behind the comma, the comma is added. -/
theorem edit_formatted : formatToml sampleEnv editSource =
    some "#:schema x\n\na = [\n  1,  # y\n  2,\n  3\n]\n".toList := by decide +kernel

/-- It is a TOML source. -/
theorem edit_toml : ∃ p, TomlSource charSegmenter editSource p ∧ treeWords p.tree = editTokens ∧
    GatheredRoot (astRoot sampleEnv.version (docOf p.tree)) := by
  have h : (parse charSegmenter editSource).toOption.map (fun p => (p.errors, treeWords p.tree,
      Spec.checkRoot (astRoot sampleEnv.version (docOf p.tree)))) = some ([], editTokens, true) := by
    decide +kernel
  cases hp : parse charSegmenter editSource with
  | error e => rw [hp] at h; cases h
  | ok p =>
    rw [hp] at h
    simp only [Except.toOption, Option.map_some, Option.some.injEq, Prod.mk.injEq] at h
    refine ⟨p, ⟨parseable_of_check (by decide +kernel), hp, h.1, ?_, ?_⟩, h.2.1, Spec.gathered_root h.2.2⟩
    · rw [h.2.1]
      intro w hw
      simp only [editTokens, List.mem_cons, List.not_mem_nil, or_false] at hw
      rcases hw with h | h | h | h | h | h | h | h | h <;> subst h
      all_goals first
        | exact .comment
        | exact .bare (Formatter.name_plain ⟨'a', [], rfl, .inl (by decide), fun x hx => by cases hx⟩)
        | exact .mark (k := EQUAL) (by decide)
        | exact .mark (k := BRACKET_START) (by decide)
        | exact .mark (k := BRACKET_END) (by decide)
        | exact .literal (.dec ((Rx.matchAll_iff _ _).mp (by decide +kernel)))
    · intro a t b e
      rw [h.2.1] at e
      have ht : (DOT, ['.']) ∈ editTokens := by rw [e]; simp
      exact absurd ht (by decide +kernel)

/-- The hypotheses of the theorems above hold of it; C66 for it. -/
example : ∃ out, formatToml sampleEnv editSource = some out ∧ utf8Len out < 2 ^ 28 ∧ formatToml sampleEnv out = some out := by
  obtain ⟨p, hs, hw, hg⟩ := edit_toml
  refine ⟨_, edit_formatted, by decide +kernel, C66_edited_partial (E := sampleEnv) commentEnv_usual (fun _ _ h => by cases h) rfl rfl
    (p := p) hs hg ?_ ?_ edit_formatted (by decide +kernel)⟩
  · rw [hw]
    intro t ht
    have hk : ∀ w ∈ editTokens, w.1 = COMMENT → documentDirective w.2 = none ∧ valueDirective w.2 = some none := by decide +kernel
    exact hk _ ht rfl
  · rw [hw]
    intro t ht c hc
    have hk : ∀ w ∈ editTokens, w.1 = COMMENT → w.2.all (fun c => c == '\t' || (decide (0x20 ≤ c.toNat) && c.toNat != 0x7F)) = true := by
      decide +kernel
    simpa [CommentChar] using List.all_eq_true.mp (hk _ ht rfl) c hc

end Tombi.Editing
