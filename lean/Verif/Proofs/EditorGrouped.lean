import Verif.Props.FormatMeans
import Verif.Proofs.EditorGathered
/-! The formatter when the editor moves only commas and comments. -/
namespace Tombi.Editing
open SyntaxKind
open Tombi.Formatter (Node Body Section Doc Comma Text Word Env Definitions TomlSource NormD docOf formatDoc treeWords
  fmtDoc textOf CommentsEndLines formatSource commentEnv commentEnv_usual defaultDefinitions)
open Tombi.Reading (Scalar docKeys docComments rawKey astRoot convert readDocument commentOk KeepsClean KeepsValue CommentChar read_ok_iff
  word_kept docKeys_norm docComments_norm astRoot_norm doc_words key_words commentOk_iff isRead sampleEnv)
open Tombi.Format (documentDirective valueDirective)
open Tombi.TomlFile (File FileText Words)

theorem format_edited {E : Env} {src : Text} {p : Parsed} (hp : parse E.G src = .ok p) (he : p.errors = []) :
    formatGrouped E src = some (formatDoc E (editTree E.version p.tree)) := by
  simp [formatGrouped, hp, he]

/-- The words of the output. -/
theorem grouped_words (E : Env) (hs : E.singleLine = false) (hc : E.skipComment = false) (src : Text)
    (h : Parseable E.G src) (p : Parsed) (hp : parse E.G src = .ok p) (he : p.errors = []) :
    ∃ (out : List Formatter.Piece) (ws : List Word),
      formatGrouped E src = some (if textOf E.lineEnding out = [] then [] else textOf E.lineEnding out ++ E.lineEnding) ∧
      out.filter Formatter.Piece.isWord = ws.map E.write ∧ ws.map Word.leaf = treeWords p.tree ∧ CommentsEndLines out := by
  have hw := editTree_words E.version p.tree
  refine ⟨fmtDoc E (editTree E.version p.tree), (editTree E.version p.tree).words, ?_,
    Formatter.fmtDoc_words E hs hc _ (by rw [hw]; exact Formatter.docOf_noComma p.tree),
    by rw [hw]; exact (Formatter.doc_read h hp he).1, Formatter.C65_comments_end_lines E hs _⟩
  rw [format_edited hp he]
  simp only [formatDoc, List.isEmpty_iff]
  by_cases ht : textOf E.lineEnding (fmtDoc E (editTree E.version p.tree)) = [] <;> simp [ht]

/-- What is printed is read back. -/
theorem edited_again {E : Env} {fmt : Text → Option Text} (hE : E.Usual fmt) {src : Text} {p : Parsed} (hs : TomlSource E.G src p)
    {out : Text} (hout : formatGrouped E src = some out) (hlen : utf8Len out < 2 ^ 28) :
    out = formatDoc E (editTree E.version p.tree) ∧ Parseable E.G out ∧ ∃ r, parse E.G out = .ok r ∧ r.errors = [] ∧
      NormD E (editTree E.version p.tree) (docOf r.tree) := by
  have ho : formatDoc E (editTree E.version p.tree) = out := by
    rw [format_edited hs.parsed hs.noErrors] at hout
    exact Option.some.inj hout
  subst ho
  obtain ⟨hl, hwf⟩ := Formatter.doc_read hs.parseable hs.parsed hs.noErrors
  have hw := editTree_words E.version p.tree
  obtain ⟨h1, r, h2, h3, doc', h4, h5⟩ := Formatter.format_parses ⟨hE.skip, hE.single, hE.limit, hE.tables⟩ hE.ending hE.delimiter
    (editTree_wf E.version hwf) (by rw [hw]; exact Formatter.docOf_noComma p.tree)
    (fun w hm => by
      rw [hw] at hm
      exact Formatter.tomlWord_of_leaf (hs.tokens _ (Formatter.leaf_mem hl hm)) (fun k t e => hwf.lits (e ▸ hm)))
    (by rw [hw]; exact Formatter.namesBeforeDots_of hl hs.names)
    (fun f t hc => by
      rw [hw] at hc
      exact Formatter.oneLine_rendered hE (Formatter.comments_oneLine hs.parseable hs.parsed hs.noErrors (Formatter.leaf_mem hl hc)) f) hlen
  exact ⟨rfl, h1, r, h2, h3, h4.of_bare h5⟩

/-- The output has no syntax errors. -/
theorem grouped_reparse {E : Env} {fmt : Text → Option Text} (hE : E.Usual fmt) {src : Text} {p : Parsed}
    (hs : TomlSource E.G src p) {out : Text} (hout : formatGrouped E src = some out) (hlen : utf8Len out < 2 ^ 28) :
    ∃ (r : Parsed) (ws : List Word), parse E.G out = .ok r ∧ r.errors = [] ∧ ws.map Word.leaf = treeWords p.tree ∧
      treeWords r.tree = ws.map (fun w => (E.write w).leaf) := by
  obtain ⟨-, h1, r, h2, h3, h4⟩ := edited_again hE hs hout hlen
  refine ⟨r, (editTree E.version p.tree).words, h2, h3, ?_, ?_⟩
  · rw [editTree_words]
    exact (Formatter.doc_read hs.parseable hs.parsed hs.noErrors).1
  · rw [← (Formatter.doc_read h1 h2 h3).1]
    exact Formatter.normD_same h4

/-- What is read back. -/
theorem edited_means {E : Env} {fmt : Text → Option Text} (hE : E.Usual fmt) (hf : KeepsClean fmt) {src : Text} {p : Parsed}
    (hs : TomlSource E.G src p) {out : Text} (hout : formatGrouped E src = some out) (hlen : utf8Len out < 2 ^ 28) (v : TomlVersion) :
    ∃ r, parse E.G out = .ok r ∧ r.errors = [] ∧ NormD E (editTree E.version p.tree) (docOf r.tree) ∧
      (∀ w ∈ (docOf p.tree).words, KeepsValue E v w) ∧
      (docKeys (docOf r.tree)).map (rawKey v) = (docKeys (docOf p.tree)).map (rawKey v) ∧
      ((∀ k ∈ docKeys (docOf p.tree), (rawKey v k).isSome = true) → astRoot v (docOf r.tree) = astRoot v (docOf p.tree)) ∧
      ((∀ t ∈ docComments (docOf p.tree), commentOk t = true) → ∀ t ∈ docComments (docOf r.tree), commentOk t = true) := by
  obtain ⟨-, h1, r, h2, h3, h4⟩ := edited_again hE hs hout hlen
  obtain ⟨hl, hwf⟩ := Formatter.doc_read hs.parseable hs.parsed hs.noErrors
  have hw := editTree_words E.version p.tree
  obtain ⟨ea, ek⟩ := editTree_value E.version v p.tree
  have hk : ∀ w ∈ (docOf p.tree).words, KeepsValue E v w := fun w hm =>
    word_kept E hE.delimiter v (Formatter.tomlWord_of_leaf (hs.tokens _ (Formatter.leaf_mem hl hm)) (fun k t e => hwf.lits (e ▸ hm)))
  have hk' : ∀ w ∈ (editTree E.version p.tree).words, KeepsValue E v w := by rw [hw]; exact hk
  refine ⟨r, h2, h3, h4, hk, ?_, fun hd => ?_, fun hc t ht => ?_⟩
  · rw [docKeys_norm h4, List.map_map, ← ek]
    exact List.map_congr_left fun k hm => hk' _ (key_words hm)
  · rw [← ea]
    exact astRoot_norm hk' (by rw [ek]; exact hd) h4
  · obtain ⟨f, c, hm, rfl⟩ := docComments_norm h4 t ht
    rw [editTree_comments] at hm
    obtain ⟨b, hb⟩ := doc_words hm
    obtain ⟨u, rfl, hu⟩ := Formatter.comments_oneLine hs.parseable hs.parsed hs.noErrors (Formatter.leaf_mem hl hb)
    have hn : '\n' ∉ u ∧ '\r' ∉ u := ⟨fun e => absurd (hu _ e) (by decide), fun e => absurd (hu _ e) (by decide)⟩
    obtain ⟨o, h5, -⟩ := C34_one_line E.defs.commentPreserve fmt f u hn hE.oneLine
    rw [hE.comments, h5, Option.getD_some]
    have := Reading.comment_rendered hf ((commentOk_iff u).mp (hc _ hm)) h5
    exact (commentOk_iff o).mpr fun c hc => this c (by simp [hc])

/-- The output is read as the same tree. -/
theorem grouped_data_kept {E : Env} {fmt : Text → Option Text} (hE : E.Usual fmt) (hf : KeepsClean fmt) {src : Text}
    {p : Parsed} (hs : TomlSource E.G src p) {out : Text} (hout : formatGrouped E src = some out) (hlen : utf8Len out < 2 ^ 28)
    (v : TomlVersion) {T : DTable Scalar} (h : readDocument E.G v src = .ok T) : readDocument E.G v out = .ok T := by
  obtain ⟨r, h1, h2, -, -, h3, h4, h5⟩ := edited_means hE hf hs hout hlen v
  obtain ⟨k1, k2, k3⟩ := (read_ok_iff hs.parsed hs.noErrors T).mp h
  refine (read_ok_iff h1 h2 T).mpr ⟨fun k hk => ?_, h5 k2, by rw [h4 k1]; exact k3⟩
  have := List.mem_map_of_mem (f := rawKey v) hk
  rw [h3] at this
  obtain ⟨k', hk', e⟩ := List.mem_map.mp this
  rw [← e]
  exact k1 k' hk'

/-- The source is read when the output is. -/
theorem grouped_errors_kept {E : Env} {fmt : Text → Option Text} (hE : E.Usual fmt) (hf : KeepsClean fmt) {src : Text}
    {p : Parsed} (hs : TomlSource E.G src p) {out : Text} (hout : formatGrouped E src = some out) (hlen : utf8Len out < 2 ^ 28)
    (hc : ∀ t, (COMMENT, t) ∈ treeWords p.tree → ∀ c ∈ t, CommentChar c)
    (v : TomlVersion) {T : DTable Scalar} (h : readDocument E.G v out = .ok T) : readDocument E.G v src = .ok T := by
  obtain ⟨r, h1, h2, -, -, h3, h4, h5⟩ := edited_means hE hf hs hout hlen v
  obtain ⟨k1, k2, k3⟩ := (read_ok_iff h1 h2 T).mp h
  have k1' : ∀ k ∈ docKeys (docOf p.tree), (rawKey v k).isSome = true := fun k hk => by
    have := List.mem_map_of_mem (f := rawKey v) hk
    rw [← h3] at this
    obtain ⟨k', hk', e⟩ := List.mem_map.mp this
    rw [← e]
    exact k1 k' hk'
  refine (read_ok_iff hs.parsed hs.noErrors T).mpr ⟨k1', fun t ht => ?_, by rw [← h4 k1']; exact k3⟩
  obtain ⟨b, hb⟩ := doc_words ht
  obtain ⟨hl, -⟩ := Formatter.doc_read hs.parseable hs.parsed hs.noErrors
  have hm := Formatter.leaf_mem hl hb
  obtain ⟨u, rfl, -⟩ := Formatter.comments_oneLine hs.parseable hs.parsed hs.noErrors hm
  exact (commentOk_iff u).mpr fun c h => hc _ hm c (by simp [h])

theorem convert_ok {G : Segmenter} {v : TomlVersion} {src : Text} {p : Parsed} (hp : parse G src = .ok p) (he : p.errors = [])
    (T : DTable Scalar) : readDocument G v src = .ok T ↔ convert v (docOf p.tree) = (T, []) := by
  unfold readDocument
  rw [hp]
  simp only [he, List.isEmpty_nil, Bool.not_true, Bool.false_eq_true, if_false]
  cases h : convert v (docOf p.tree) with
  | mk x y => cases y <;> simp

/-- Formatting the output changes nothing. -/
theorem grouped_again {E : Env} {fmt : Text → Option Text} (hE : E.Usual fmt) (hf : KeepsClean fmt)
    (hwidth : E.defs.lineWidth = none) (halign : E.defs.keyValueEqualAlignment = false) {src : Text} {p : Parsed}
    (hs : TomlSource E.G src p)
    (hdir : ∀ t, (COMMENT, t) ∈ treeWords p.tree → documentDirective t = none ∧ valueDirective t = some none)
    (hc : ∀ t, (COMMENT, t) ∈ treeWords p.tree → ∀ c ∈ t, CommentChar c)
    {out : Text} (hout : formatGrouped E src = some out) (hlen : utf8Len out < 2 ^ 28) : formatGrouped E out = some out := by
  obtain ⟨r, h1, h2, h4, hk, -, ha, -⟩ := edited_means hE hf hs hout hlen E.version
  obtain ⟨hl, hwf⟩ := Formatter.doc_read hs.parseable hs.parsed hs.noErrors
  have hw := editTree_words E.version p.tree
  have hcom : ∀ f b t, Word.comment b t ∈ (docOf p.tree).words → E.renderComment f (E.renderComment f t) = E.renderComment f t ∧
      isDirective (E.renderComment f t) = isDirective t := by
    intro f b t hm
    have hm := Formatter.leaf_mem hl hm
    obtain ⟨hd, hv⟩ := hdir t hm
    obtain ⟨u, rfl, hu⟩ := Formatter.comments_oneLine hs.parseable hs.parsed hs.noErrors hm
    have hn : '\n' ∉ u ∧ '\r' ∉ u := ⟨fun e => absurd (hu _ e) (by decide), fun e => absurd (hu _ e) (by decide)⟩
    obtain ⟨o, h5, -⟩ := C34_one_line E.defs.commentPreserve fmt f u hn hE.oneLine
    have h6 := C34_idempotent_partial E.defs.commentPreserve fmt f u _
      (fun c e => by rw [hd] at e; cases e) (fun c e => by rw [hv] at e; cases e) h5
    rw [hE.comments f ('#' :: u), h5, Option.getD_some, hE.comments, h6]
    refine ⟨rfl, ?_⟩
    cases hp : E.defs.commentPreserve with
    | true =>
      rw [hp] at h5
      have h5 : '#' :: u = '#' :: o := by simpa [Format.formatComment] using h5
      rw [h5]
    | false =>
      rw [hp] at h5
      obtain ⟨e1, e2, -⟩ := C34_directives_kept fmt f u _ h5
      rw [isDirective, isDirective, e1, e2]
      simp
  have hcalm : Formatter.CalmL E (editTree E.version p.tree).words := by
    rw [hw]
    intro w hm
    have ht := Formatter.tomlWord_of_leaf (hs.tokens _ (Formatter.leaf_mem hl hm)) (fun k t e => hwf.lits (e ▸ hm))
    cases w with
    | key k => exact Formatter.calm_key_toml E ht
    | literal k t => exact Formatter.calm_literal_toml E hE.delimiter ht
    | mark k => trivial
    | comment f t => exact (hcom f f t hm).1
  have same : editTree E.version r.tree = docOf r.tree := by
    by_cases hr : ∃ T, readDocument E.G E.version src = .ok T
    · obtain ⟨T, hT⟩ := hr
      have hT2 := grouped_data_kept hE hf hs hout hlen E.version hT
      have c1 := (convert_ok hs.parsed hs.noErrors T).mp hT
      have c2 := (convert_ok h1 h2 T).mp hT2
      have k1 := ((read_ok_iff hs.parsed hs.noErrors T).mp hT).1
      have e : editTree E.version p.tree = moveTop (topBreaks (Formatter.childrenOf p.tree)) (editCommas E.version T.value (docOf p.tree)) := by
        unfold editTree
        rw [c1]
        rfl
      have settled : editCommas E.version T.value (docOf r.tree) = docOf r.tree :=
        editCommas_norm (editTree_wf E.version hwf) (by rw [hw]; exact hk)
          (by rw [(editTree_value E.version E.version p.tree).2]; exact k1) h4
          (by rw [e]; exact editCommas_moveTop _ (editCommas_twice _ _ _))
      have top : NoTop (docOf r.tree) := noTop_norm (fun f b t hm => (hcom f b t (by rwa [hw] at hm)).2) h4
        (by rw [e]; exact noTop_moveTop _ _)
      unfold editTree
      rw [c2]
      simp only [List.isEmpty_nil, if_true]
      rw [settled, moveTop_noTop _ _ top]
    · have hn : ∀ T, readDocument E.G E.version out ≠ .ok T := fun T hT =>
        hr ⟨T, grouped_errors_kept hE hf hs hout hlen hc E.version hT⟩
      unfold editTree
      simp only
      rw [if_neg]
      intro he
      refine hn (convert E.version (docOf r.tree)).1 ((convert_ok h1 h2 _).mpr ?_)
      rw [List.isEmpty_iff] at he
      rw [← he]
  rw [format_edited h1 h2, same, Formatter.formatDoc_norm ⟨hE.single, hwidth, halign⟩ h4 hcalm, (edited_again hE hs hout hlen).1]

end Tombi.Editing
