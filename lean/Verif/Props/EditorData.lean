import Verif.Proofs.EditorSame
import Verif.Props.Accepted
/-! Property C71 for the whole formatter, with sorting by schemas and comment directives. -/
namespace Tombi.Editing
open SyntaxKind
open Tombi.Formatter (Node Body Section Doc Comma Text Word Env TomlSource NormD docOf formatDoc treeWords)
open Tombi.Reading (Scalar docKeys docComments rawKey astRoot readDocument commentOk KeepsClean KeepsValue CommentChar read_ok_iff
  word_kept docKeys_norm docComments_norm astRoot_norm doc_words key_words commentOk_iff sampleEnv)
open Tombi.Spec (Valid Flat Near nodeAt docNodes)
open Tombi.TomlFile (File FileText Words)

variable {S : Type}

/-- Nothing says that the values of an array are to be sorted: no comment directive, no override of the settings and no schema. -/
structure NoArrayOrder (w : EditWorld S) : Prop where
  directives : ∀ cs o, w.arrayDirective cs = some o → o.order = none
  overrides : ∀ item acc o, w.arrayOverride item acc = some o → o.order = none
  schemas : ∀ schema acc, w.valuesOrder schema acc = none

theorem NoArrayOrder.ok {w : EditWorld S} (h : NoArrayOrder w) : ArraysOk false w := by
  refine .inr fun acc schema item cs values vs => ?_
  have e1 : (w.arrayDirective cs).bind (·.order) = none := by
    cases hd : w.arrayDirective cs with
    | none => rfl
    | some o => exact h.directives cs o hd
  have e2 : (w.arrayOverride item acc).bind (·.order) = none := by
    cases hd : w.arrayOverride item acc with
    | none => rfl
    | some o => exact h.overrides item acc o hd
  have e3 : schema.bind (w.valuesOrder · acc) = none := by
    cases schema with
    | none => rfl
    | some s => exact h.schemas s acc
  unfold arrayOrder
  simp only [e1, e2, e3, Option.or_none, ite_self]

/-- The keys of headers need no quotes. -/
def BareHeaders (root : AstRoot Scalar) : Prop :=
  ∀ s ∈ root.sections, ∀ header, s.header = some header → ∀ k ∈ header, TomlText.toKeyString k = k

/-- **C71** with sorting: a source that is read as a tree, whose document is valid and whose arrays of tables stand together (`Flat`,
`Near`), is formatted to a text that is read as a tree with the same values at the same places, with any schema, settings and comment
directives that set an order of keys. Missing: what `C68_sorted_partial` misses; headers that need quotes, with a schema; comments with
control characters; arrays of tables that do not stand together, where the claim is false (`C71_swapped_false`). The order of keys in
the tree may change, and that of the values of an array when something says so (`NoArrayOrder`). -/
theorem C71_sorted_partial (w : EditWorld S) (ha : NoArrayOrder w) (fuel : Nat) (schema : Option S) {E : Env} {fmt : Text → Option Text}
    (hE : E.Usual fmt) (hf : KeepsClean fmt) {src : Text} {p : Parsed} (hs : TomlSource E.G src p)
    (hc : ∀ t, (COMMENT, t) ∈ treeWords p.tree → ∀ c ∈ t, CommentChar c)
    (hv : Valid (astRoot E.version (docOf p.tree))) (hflat : Flat (astRoot E.version (docOf p.tree)).sections)
    (hnear : Near (astRoot E.version (docOf p.tree)).sections) (hb : schema = none ∨ BareHeaders (astRoot E.version (docOf p.tree)))
    {out : Text} (hout : formatSorted w fuel schema E src = .ok (some out)) (hlen : utf8Len out < 2 ^ 28)
    {T : DTable Scalar} (h : readDocument E.G E.version src = .ok T) :
    ∃ T', readDocument E.G E.version out = .ok T' ∧ ∀ q, nodeAt T'.value q = nodeAt T.value q := by
  obtain ⟨d, hd, rfl, h1, r, h2, h3, h4⟩ := sorted_again hE hs hout hlen
  obtain ⟨hl, hwf⟩ := Formatter.doc_read hs.parseable hs.parsed hs.noErrors
  obtain ⟨-, -, lost, re, -⟩ := sorted_words hs.parseable hs.parsed hs.noErrors hd
  have same := sortTree_same ha.ok hwf hd hv hflat hnear hb
  obtain ⟨k1, k2, k3⟩ := (read_ok_iff hs.parsed hs.noErrors T).mp h
  have hk : ∀ x ∈ d.words, KeepsValue E E.version x := by
    intro x hm
    rcases re.mem hm with hm | ⟨f, t, g, rfl, -⟩
    · exact word_kept E hE.delimiter E.version
        (Formatter.tomlWord_of_leaf (hs.tokens _ (Formatter.leaf_mem hl hm)) (fun k t e => hwf.lits (e ▸ hm)))
    · trivial
  have hdec : ∀ k ∈ docKeys d, (rawKey E.version k).isSome = true := fun k hk => k1 k (same.keys k hk)
  have hroot : astRoot E.version (docOf r.tree) = astRoot E.version d := astRoot_norm hk hdec h4
  refine ⟨(astRoot E.version d).tree.1, (read_ok_iff h2 h3 _).mpr ⟨fun k hkr => ?_, fun t ht => ?_, ?_⟩, fun q => ?_⟩
  · rw [docKeys_norm h4] at hkr
    obtain ⟨k', hk', rfl⟩ := List.mem_map.mp hkr
    have := hk _ (key_words hk')
    rw [KeepsValue] at this
    rw [this]
    exact hdec k' hk'
  · obtain ⟨f, c, hm, rfl⟩ := docComments_norm h4 t ht
    obtain ⟨b, hb⟩ := doc_words hm
    obtain ⟨g, hg⟩ := re.comments b c hb
    have hm := Formatter.leaf_mem hl hg
    obtain ⟨u, rfl, hu⟩ := Formatter.comments_oneLine hs.parseable hs.parsed hs.noErrors hm
    have hn : '\n' ∉ u ∧ '\r' ∉ u := ⟨fun e => absurd (hu _ e) (by decide), fun e => absurd (hu _ e) (by decide)⟩
    obtain ⟨o, h5, -⟩ := C34_one_line E.defs.commentPreserve fmt f u hn hE.oneLine
    rw [hE.comments, h5, Option.getD_some]
    have := Reading.comment_rendered hf (fun c hcu => hc _ hm c (by simp [hcu])) h5
    exact (commentOk_iff o).mpr fun c hc => this c (by simp [hc])
  · rw [hroot, ← same.accepted]
  · have e1 := fun n => C27_tree_partial (astRoot E.version d) same.accepted (valid_keys same.valid) same.regular q n
    have hreg : Spec.Regular (astRoot E.version (docOf p.tree)) := flat_regular [] _ hflat (valid_headers hv)
    have e2 := fun n => C27_tree_partial (astRoot E.version (docOf p.tree)) (by rw [k3]) (valid_keys hv) hreg q n
    rw [k3] at e2
    have e3 : ∀ n, nodeAt (astRoot E.version d).tree.1.value q = some n ↔ nodeAt T.value q = some n := fun n => by
      rw [e1, e2]
      exact same.nodes (q, n)
    cases hx : nodeAt (astRoot E.version d).tree.1.value q with
    | some n => exact ((e3 n).mp hx).symm
    | none =>
      cases hy : nodeAt T.value q with
      | none => rfl
      | some n =>
        have := (e3 n).mpr hy
        rw [hx] at this
        cases this

theorem noSchema_noArrayOrder : NoArrayOrder noSchema :=
  ⟨fun _ _ h => (nomatch h), fun _ _ _ h => (nomatch h), fun s _ => nomatch s⟩

/-- **C71** without a schema: keys and sections may be regrouped, the values at all places stay. -/
theorem C71_regrouped_partial {E : Env} {fmt : Text → Option Text} (hE : E.Usual fmt) (hf : KeepsClean fmt) {src : Text} {p : Parsed}
    (hs : TomlSource E.G src p) (hc : ∀ t, (COMMENT, t) ∈ treeWords p.tree → ∀ c ∈ t, CommentChar c)
    (hv : Valid (astRoot E.version (docOf p.tree))) (hflat : Flat (astRoot E.version (docOf p.tree)).sections)
    (hnear : Near (astRoot E.version (docOf p.tree)).sections)
    {out : Text} (hout : formatToml E src = some out) (hlen : utf8Len out < 2 ^ 28)
    {T : DTable Scalar} (h : readDocument E.G E.version src = .ok T) :
    ∃ T', readDocument E.G E.version out = .ok T' ∧ ∀ q, nodeAt T'.value q = nodeAt T.value q :=
  C71_sorted_partial noSchema noSchema_noArrayOrder _ none hE hf hs hc hv hflat hnear (.inl rfl) (formatToml_sorted hs.parsed hout) hlen h

/-- **C71** without a schema, for a text of the TOML grammar that stands for a valid document whose arrays of tables stand together: it is
formatted, and the output is read as what the text stands for. -/
theorem C71_regrouped_meaning_partial {E : Env} {fmt : Text → Option Text} (hE : E.Usual fmt) (hf : KeepsClean fmt)
    {f : File} {t : Text} {root : AstRoot Scalar}
    (h : FileText Reading.wordsReadable f t) (hn : f.Nested maxRecursionDepth) (hlen : utf8Len t < 2 ^ 28)
    (hm : Reading.FileMeans E.version f root) (hv : Valid root) (hflat : Flat root.sections) (hnear : Near root.sections) :
    ∃ out, formatToml E t = some out ∧ (utf8Len out < 2 ^ 28 →
      ∃ T, readDocument E.G E.version out = .ok T ∧ ∀ p n, nodeAt T.value p = some n ↔ (p, n) ∈ docNodes root) := by
  have hle : TomlFile.Words.Le Reading.wordsReadable Words.usual := ⟨fun _ h => h, fun _ h => h, fun _ _ h => h.1, fun _ h => h⟩
  obtain ⟨p, hs, e⟩ := Reading.file_source E.G (TomlFile.Lines.mono hle h) hn hlen
  subst e
  have er := (Reading.root_read h hm).1
  have hsome := (C65_refused E t).mpr ⟨p, hs.parsed, hs.noErrors⟩
  obtain ⟨out, hout⟩ := Option.isSome_iff_exists.mp hsome
  refine ⟨out, hout, fun hl => ?_⟩
  have hh := valid_headers hv
  obtain ⟨T, h1, h2⟩ := Reading.C70_read_partial E.G h hn hlen hm hv (flat_regular [] _ hflat hh) (near_uninterrupted [] _ hflat hnear hh)
  have hclean := Reading.lines_clean h hm.1 hm.2
  obtain ⟨T', h3, h4⟩ := C71_regrouped_partial hE hf hs (fun x hx c hc => Reading.comment_char hs.parseable hs.parsed hs.noErrors hclean hx c hc)
    (by rw [er]; exact hv) (by rw [er]; exact hflat) (by rw [er]; exact hnear) hout hl h1
  exact ⟨T', h3, fun q n => by rw [h4]; exact h2 q n⟩

/-! ### a concrete case -/

/-- Decides `Flat`. -/
def flatB (ss : List (AstSection Scalar)) : Bool :=
  ss.all fun s => !s.isArray || ss.all fun s' => match s.header, s'.header with
    | some h, some h' => !h.isPrefixOf h' || s'.isArray == decide (h = h')
    | _, _ => true

theorem flatB_sound {ss : List (AstSection Scalar)} (h : flatB ss = true) : Flat ss := by
  intro s hs s' hs' ha n n' hn hn' hp
  have h1 := List.all_eq_true.mp h s hs
  rw [ha, Bool.not_true, Bool.false_or] at h1
  have h2 := List.all_eq_true.mp h1 s' hs'
  rw [hn, hn'] at h2
  simp only [List.isPrefixOf_iff_prefix.mpr hp, Bool.not_true, Bool.false_or, beq_iff_eq] at h2
  rw [h2, decide_eq_true_eq]

/-- Decides `Near`. -/
def nearB : List (AstSection Scalar) → Bool
  | [] => true
  | s :: rest => (!s.isArray || (List.range rest.length).all fun j => match s.header, (rest[j]?).bind (·.header) with
      | some h, some h' => h.head? != h'.head? || (rest.take j).all fun x => !x.isArray || match x.header with
        | some hx => hx.head? == h'.head?
        | none => true
      | _, _ => true) && nearB rest

theorem nearB_sound {ss : List (AstSection Scalar)} (h : nearB ss = true) : Near ss := by
  intro l s m s' r e ha n n' hn hn' hd x hx hxa hxn hxe
  induction l generalizing ss with
  | nil =>
    subst e
    rw [List.nil_append, nearB, Bool.and_eq_true, ha, Bool.not_true, Bool.false_or] at h
    have := List.all_eq_true.mp h.1 m.length (List.mem_range.mpr (by simp))
    have em : (m ++ s' :: r)[m.length]? = some s' := by simp
    rw [em, hn] at this
    simp only [Option.bind_some, hn', List.take_left', hd, bne_self_eq_false, Bool.false_or, List.all_eq_true] at this
    have := this x hx
    rw [hxa, hxe] at this
    simpa using this
  | cons y l ih =>
    subst e
    rw [List.cons_append, nearB, Bool.and_eq_true] at h
    exact ih h.2 rfl

/-- Comment directives that ask for ascending keys. -/
def ascendingKeys : EditWorld Empty := { noSchema with tableDirective := fun _ => some ⟨false, some .ascending⟩ }

/-- How the document is sorted. -/
theorem keys_formatted : formatSorted ascendingKeys 20 none sampleEnv sortSource =
    .ok (some "a = 3\nb = [\n  2,  # x\n  1\n]\n\n[s]\n\n[[t]]\n\n[[t]]\n".toList) := by decide +kernel

/-- The hypotheses of `C71_sorted_partial` hold of it. -/
example : ∃ T T', readDocument charSegmenter sampleEnv.version sortSource = .ok T ∧
    readDocument charSegmenter sampleEnv.version "a = 3\nb = [\n  2,  # x\n  1\n]\n\n[s]\n\n[[t]]\n\n[[t]]\n".toList = .ok T' ∧
    ∀ q, nodeAt T'.value q = nodeAt T.value q := by
  obtain ⟨p, hs, hw⟩ := sort_toml
  have hp := hs.parsed
  have hr : (parse charSegmenter sortSource).toOption.map (fun p => (validB (astRoot sampleEnv.version (docOf p.tree)),
      flatB (astRoot sampleEnv.version (docOf p.tree)).sections, nearB (astRoot sampleEnv.version (docOf p.tree)).sections)) =
        some (true, true, true) := by decide +kernel
  rw [hp] at hr
  simp only [Except.toOption, Option.map_some, Option.some.injEq, Prod.mk.injEq] at hr
  have ht : (readDocument charSegmenter sampleEnv.version sortSource).toOption.isSome = true := by decide +kernel
  cases hT : readDocument charSegmenter sampleEnv.version sortSource with
  | error e => rw [hT] at ht; cases ht
  | ok T =>
    obtain ⟨T', h1, h2⟩ := C71_sorted_partial ascendingKeys ⟨fun _ _ h => (nomatch h), fun _ _ _ h => (nomatch h), fun s _ => nomatch s⟩ 20 none
      (E := sampleEnv) Formatter.commentEnv_usual (fun _ _ h => by cases h) hs
      (by
        rw [hw]
        intro t ht c hc
        have hk : ∀ w ∈ sortTokens, w.1 = COMMENT → w.2.all (fun c => c == '\t' || (decide (0x20 ≤ c.toNat) && c.toNat != 0x7F)) = true := by
          decide +kernel
        simpa [CommentChar] using List.all_eq_true.mp (hk _ ht rfl) c hc)
      (validB_sound _ hr.1) (flatB_sound hr.2.1) (nearB_sound hr.2.2) (.inl rfl) keys_formatted (by decide +kernel) hT
    exact ⟨T, T', rfl, h1, h2⟩

/-- The hypotheses of `C71_regrouped_meaning_partial` hold of the document of C70. -/
example : ∃ out, formatToml sampleEnv Reading.readToml = some out ∧ (utf8Len out < 2 ^ 28 →
    ∃ T, readDocument sampleEnv.G sampleEnv.version out = .ok T ∧ ∀ p n, nodeAt T.value p = some n ↔ (p, n) ∈ docNodes Reading.readRoot) :=
  C71_regrouped_meaning_partial (E := sampleEnv) Formatter.commentEnv_usual (fun _ _ h => by cases h) Reading.read_text Reading.read_nested
    (by decide +kernel) (Reading.read_means _) Reading.read_sample.1 (flatB_sound (by decide +kernel)) (nearB_sound (by decide +kernel))

end Tombi.Editing
