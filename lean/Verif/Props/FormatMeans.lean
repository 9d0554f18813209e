import Verif.Proofs.FormatMeans
import Verif.Proofs.FileSource
import Verif.Props.ReadDocument
/-!
C71: formatting never changes the data: what is formatted is read as the same tree.
-/
namespace Tombi.Reading
open SyntaxKind Spec
open Tombi.TomlFile (File FileText Words)
open Tombi.Formatter (Env TomlSource formatSource formatDoc docOf treeWords plainEnv commentEnv defaultDefinitions commentEnv_usual)
open Tombi.Format (AstKey documentDirective valueDirective)

/-- The formatter of directives puts no control characters into a comment. -/
def KeepsClean (fmt : Text → Option Text) : Prop :=
  ∀ content out, fmt content = some out → (∀ c ∈ content, CommentChar c) → ∀ c ∈ out, CommentChar c

/-- What is known of a formatted source. -/
theorem formatted_means {E : Env} {fmt : Text → Option Text} (hE : E.Usual fmt) (hf : KeepsClean fmt) {src : Text} {p : Parsed}
    (hs : TomlSource E.G src p) {out : Text} (hout : formatSource E src = some out) (hlen : utf8Len out < 2 ^ 28) (v : TomlVersion) :
    ∃ r, parse E.G out = .ok r ∧ r.errors = [] ∧
      (docKeys (docOf r.tree)).map (rawKey v) = (docKeys (docOf p.tree)).map (rawKey v) ∧
      ((∀ k ∈ docKeys (docOf p.tree), (rawKey v k).isSome = true) → astRoot v (docOf r.tree) = astRoot v (docOf p.tree)) ∧
      ((∀ t ∈ docComments (docOf p.tree), commentOk t = true) → ∀ t ∈ docComments (docOf r.tree), commentOk t = true) := by
  have ho : formatDoc E (docOf p.tree) = out := by simpa [formatSource, hs.parsed, hs.noErrors] using hout
  subst ho
  obtain ⟨h1, r, h2, h3, h4⟩ := Formatter.formatted_again hE hs hlen
  obtain ⟨hl, hwf⟩ := Formatter.doc_read hs.parseable hs.parsed hs.noErrors
  have hk : ∀ w ∈ (docOf p.tree).words, KeepsValue E v w := fun w hw =>
    word_kept E hE.delimiter v (Formatter.tomlWord_of_leaf (hs.tokens _ (Formatter.leaf_mem hl hw)) (fun k t e => hwf.lits (e ▸ hw)))
  refine ⟨r, h2, h3, ?_, fun hd => astRoot_norm hk hd h4, fun hc t ht => ?_⟩
  · rw [docKeys_norm h4, List.map_map]
    exact List.map_congr_left fun k hm => hk _ (key_words hm)
  · obtain ⟨f, c, hm, rfl⟩ := docComments_norm h4 t ht
    obtain ⟨b, hb⟩ := doc_words hm
    obtain ⟨u, rfl, hu⟩ := Formatter.comments_oneLine hs.parseable hs.parsed hs.noErrors (Formatter.leaf_mem hl hb)
    have hn : '\n' ∉ u ∧ '\r' ∉ u := ⟨fun e => absurd (hu _ e) (by decide), fun e => absurd (hu _ e) (by decide)⟩
    obtain ⟨o, h5, -⟩ := C34_one_line E.defs.commentPreserve fmt f u hn hE.oneLine
    rw [hE.comments, h5, Option.getD_some]
    have := comment_rendered hf ((commentOk_iff u).mp (hc _ hm)) h5
    exact (commentOk_iff o).mpr fun c hc => this c (by simp [hc])

/-- A source is read without errors exactly when its keys and comments are valid and its tree has no errors. -/
theorem read_ok_iff {G : Segmenter} {v : TomlVersion} {src : Text} {p : Parsed} (hp : parse G src = .ok p) (he : p.errors = [])
    (T : DTable Scalar) : readDocument G v src = .ok T ↔
      (∀ k ∈ docKeys (docOf p.tree), (rawKey v k).isSome = true) ∧ (∀ t ∈ docComments (docOf p.tree), commentOk t = true) ∧
        (astRoot v (docOf p.tree)).tree = (T, []) := by
  unfold readDocument convert
  rw [hp]
  simp only [he, List.isEmpty_nil, Bool.not_true, Bool.false_eq_true, if_false]
  have h1 : ((docKeys (docOf p.tree)).filter fun k => (rawKey v k).isNone) = [] ↔
      ∀ k ∈ docKeys (docOf p.tree), (rawKey v k).isSome = true := by
    rw [List.filter_eq_nil_iff]
    constructor
    · intro h k hk
      have := h k hk
      cases hr : rawKey v k with
      | none => rw [hr] at this; exact absurd rfl this
      | some x => rfl
    · intro h k hk e
      have := h k hk
      cases hr : rawKey v k with
      | none => rw [hr] at this; cases this
      | some x => rw [hr] at e; cases e
  have h2 : ((docComments (docOf p.tree)).filter fun t => !commentOk t) = [] ↔ ∀ t ∈ docComments (docOf p.tree), commentOk t = true := by
    rw [List.filter_eq_nil_iff]
    simp
  generalize hr : (astRoot v (docOf p.tree)).tree = r
  obtain ⟨r1, r2⟩ := r
  constructor
  · intro h
    split at h
    · rename_i hE
      cases h
      have hE := List.isEmpty_iff.mp hE
      simp only [List.append_eq_nil_iff, List.map_eq_nil_iff] at hE
      exact ⟨h1.mp hE.1.2, h2.mp hE.2, by rw [hE.1.1]⟩
    · cases h
  · rintro ⟨ha, hb, hc⟩
    cases hc
    rw [h1.mpr ha, h2.mpr hb]
    rfl

/-- **C71**: formatting does not change the data: if a source is read, its formatted text is read as the same tree. Missing:
what `C68_reparse_partial` misses. -/
theorem C71_data_kept_partial {E : Env} {fmt : Text → Option Text} (hE : E.Usual fmt) (hf : KeepsClean fmt) {src : Text}
    {p : Parsed} (hs : TomlSource E.G src p) {out : Text} (hout : formatSource E src = some out) (hlen : utf8Len out < 2 ^ 28)
    (v : TomlVersion) {T : DTable Scalar} (h : readDocument E.G v src = .ok T) : readDocument E.G v out = .ok T := by
  obtain ⟨r, h1, h2, h3, h4, h5⟩ := formatted_means hE hf hs hout hlen v
  obtain ⟨k1, k2, k3⟩ := (read_ok_iff hs.parsed hs.noErrors T).mp h
  refine (read_ok_iff h1 h2 T).mpr ⟨fun k hk => ?_, h5 k2, by rw [h4 k1]; exact k3⟩
  have := List.mem_map_of_mem (f := rawKey v) hk
  rw [h3] at this
  obtain ⟨k', hk', e⟩ := List.mem_map.mp this
  rw [← e]
  exact k1 k' hk'

/-- **C71**: formatting does not make a wrong document right: if the comments of a source hold no control characters and
its formatted text is read, the source is read as the same tree. -/
theorem C71_errors_kept_partial {E : Env} {fmt : Text → Option Text} (hE : E.Usual fmt) (hf : KeepsClean fmt) {src : Text}
    {p : Parsed} (hs : TomlSource E.G src p) {out : Text} (hout : formatSource E src = some out) (hlen : utf8Len out < 2 ^ 28)
    (hc : ∀ t, (COMMENT, t) ∈ treeWords p.tree → ∀ c ∈ t, CommentChar c)
    (v : TomlVersion) {T : DTable Scalar} (h : readDocument E.G v out = .ok T) : readDocument E.G v src = .ok T := by
  obtain ⟨r, h1, h2, h3, h4, h5⟩ := formatted_means hE hf hs hout hlen v
  obtain ⟨k1, k2, k3⟩ := (read_ok_iff h1 h2 T).mp h
  have k1' : ∀ k ∈ docKeys (docOf p.tree), (rawKey v k).isSome = true := fun k hk => by
    have := List.mem_map_of_mem (f := rawKey v) hk
    rw [← h3] at this
    obtain ⟨k', hk', e⟩ := List.mem_map.mp this
    rw [← e]
    exact k1 k' hk'
  refine (read_ok_iff hs.parsed hs.noErrors T).mpr ⟨k1', fun t ht => ?_, by rw [← h4 k1']; exact k3⟩
  obtain ⟨b, hb⟩ := doc_words ht
  obtain ⟨hl, -⟩ := Formatter.doc_read hs.parseable hs.parsed hs.noErrors
  have hm := Formatter.leaf_mem hl hb
  obtain ⟨u, rfl, -⟩ := Formatter.comments_oneLine hs.parseable hs.parsed hs.noErrors hm
  exact (commentOk_iff u).mpr fun c h => hc _ hm c (by simp [h])

/-- Is a text read without errors? -/
def isRead (t : Text) : Bool := (readDocument charSegmenter .V1_0_0 t).toOption.isSome

/-- **C71** is false the other way for comments that end with a form feed: tombi rejects the document, but not after it is
formatted. -/
theorem C71_errors_kept_false :
    formatSource (commentEnv defaultDefinitions fun _ => none) "# a\x0c\na = 1\n".toList = some "# a\na = 1\n".toList ∧
    isRead "# a\x0c\na = 1\n".toList = false ∧ isRead "# a\na = 1\n".toList = true := by
  refine ⟨?_, ?_, ?_⟩ <;> decide +kernel

/-! ### texts of the TOML grammar -/

/-- **C71** for a text of the TOML grammar that stands for a document: it is formatted, and the output is read as the
document the text stands for. -/
theorem C71_meaning_kept_partial {E : Env} {fmt : Text → Option Text} (hE : E.Usual fmt) (hf : KeepsClean fmt) {v : TomlVersion}
    {f : File} {t : Text} {root : AstRoot Scalar}
    (h : FileText wordsReadable f t) (hn : f.Nested maxRecursionDepth) (hlen : utf8Len t < 2 ^ 28) (hm : FileMeans v f root)
    (hv : Valid root) (hr : Spec.Regular root) (hu : Uninterrupted root) :
    ∃ out, formatSource E t = some out ∧ (utf8Len out < 2 ^ 28 →
      ∃ T, readDocument E.G v out = .ok T ∧ ∀ p n, nodeAt T.value p = some n ↔ (p, n) ∈ docNodes root) := by
  have hle : TomlFile.Words.Le wordsReadable Words.usual := ⟨fun _ h => h, fun _ h => h, fun _ _ h => h.1, fun _ h => h⟩
  obtain ⟨p, hs, -⟩ := file_source E.G (TomlFile.Lines.mono hle h) hn hlen
  have hout : formatSource E t = some (formatDoc E (docOf p.tree)) := by simp [formatSource, hs.parsed, hs.noErrors]
  refine ⟨_, hout, fun hl => ?_⟩
  obtain ⟨T, h1, h2⟩ := C70_read_partial E.G h hn hlen hm hv hr hu
  exact ⟨T, C71_data_kept_partial hE hf hs hout hl v h1, h2⟩

/-- **C68** for the texts of the TOML grammar: they are formatted, and the output has no syntax errors. -/
theorem C68_toml_partial {E : Env} {fmt : Text → Option Text} (hE : E.Usual fmt) {f : File} {t : Text}
    (h : FileText Words.usual f t) (hn : f.Nested maxRecursionDepth) (hlen : utf8Len t < 2 ^ 28) :
    ∃ out, formatSource E t = some out ∧ (utf8Len out < 2 ^ 28 → ∃ r, parse E.G out = .ok r ∧ r.errors = []) := by
  obtain ⟨p, hs, -⟩ := file_source E.G h hn hlen
  have hout : formatSource E t = some (formatDoc E (docOf p.tree)) := by simp [formatSource, hs.parsed, hs.noErrors]
  refine ⟨_, hout, fun hl => ?_⟩
  obtain ⟨r, ws, h1, h2, -⟩ := Formatter.C68_reparse_partial hE hs hout hl
  exact ⟨r, h1, h2⟩

/-- **C66** for the texts of the TOML grammar: formatting their formatted text changes nothing, without a line width,
alignment and comment directives. -/
theorem C66_toml_partial {E : Env} {fmt : Text → Option Text} (hE : E.Usual fmt) (hwidth : E.defs.lineWidth = none)
    (halign : E.defs.keyValueEqualAlignment = false) {f : File} {t : Text}
    (h : FileText Words.usual f t) (hn : f.Nested maxRecursionDepth) (hlen : utf8Len t < 2 ^ 28)
    (hdir : ∀ p, parse E.G t = .ok p → ∀ c, (COMMENT, c) ∈ treeWords p.tree → documentDirective c = none ∧ valueDirective c = some none) :
    ∃ out, formatSource E t = some out ∧ (utf8Len out < 2 ^ 28 → formatSource E out = some out) := by
  obtain ⟨p, hs, -⟩ := file_source E.G h hn hlen
  have hout : formatSource E t = some (formatDoc E (docOf p.tree)) := by simp [formatSource, hs.parsed, hs.noErrors]
  exact ⟨_, hout, Formatter.C66_idempotent_partial hE hwidth halign hs (hdir p hs.parsed) hout⟩

/-! ### a concrete case -/

/-- The default settings. -/
abbrev sampleEnv : Env := commentEnv defaultDefinitions fun _ => none

/-- The text of C70's document as it is formatted: the key `'b'` gets other quotes, lines move. -/
theorem sample_formatted : formatSource sampleEnv readToml =
    some "# top\na.\"b\" = [1, \"x\\ty\"]  # x\n\n[[s]]\nd = 2024-02-29\n\n[[s]]\n".toList := by decide +kernel

/-- The hypotheses of `C71_meaning_kept_partial` hold of it. -/
example : ∃ T, readDocument charSegmenter .V1_0_0 "# top\na.\"b\" = [1, \"x\\ty\"]  # x\n\n[[s]]\nd = 2024-02-29\n\n[[s]]\n".toList = .ok T ∧
    ∀ p n, nodeAt T.value p = some n ↔ (p, n) ∈ docNodes readRoot := by
  obtain ⟨out, h1, h2⟩ := C71_meaning_kept_partial (E := sampleEnv) commentEnv_usual (fun _ _ h => by cases h) read_text read_nested
    (by decide) (read_means .V1_0_0) read_sample.1 read_sample.2.1 read_sample.2.2
  rw [sample_formatted] at h1
  cases h1
  exact h2 (by decide)

/-- The hypotheses of `C71_errors_kept_partial` hold of it. -/
example : ∃ p, TomlSource sampleEnv.G readToml p ∧ (treeWords p.tree).any (·.1 == COMMENT) = true ∧
    ∀ t, (COMMENT, t) ∈ treeWords p.tree → ∀ c ∈ t, CommentChar c := by
  have hle : TomlFile.Words.Le wordsReadable Words.usual := ⟨fun _ h => h, fun _ h => h, fun _ _ h => h.1, fun _ h => h⟩
  obtain ⟨p, hs, -⟩ := file_source sampleEnv.G (TomlFile.Lines.mono hle read_text) read_nested (by decide)
  have key : (parse sampleEnv.G readToml).toOption.all (fun p => (treeWords p.tree).any (·.1 == COMMENT) &&
      (treeWords p.tree).all fun w => w.1 != COMMENT || w.2.all fun c => c == '\t' || (decide (0x20 ≤ c.toNat) && c.toNat != 0x7F)) = true := by
    decide +kernel
  rw [hs.parsed] at key
  simp only [Except.toOption, Option.all_some, Bool.and_eq_true] at key
  refine ⟨p, hs, key.1, fun t ht c hc => ?_⟩
  have := List.all_eq_true.mp key.2 _ ht
  simp only [bne_self_eq_false, Bool.false_or] at this
  simpa [CommentChar] using List.all_eq_true.mp this c hc

end Tombi.Reading
