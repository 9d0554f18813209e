import Verif.Proofs.ReadSound
import Verif.Proofs.ReadComments
import Verif.Props.Accepted
import Verif.Props.TomlGrammar
/-!
C70: reading a TOML text gives the document it stands for.
-/
namespace Tombi.Reading
open SyntaxKind Spec
open Tombi.TomlFile (Val Pair Sec File Words FileText Lines ws0 ws1 one_text two_text)
open Tombi.Format (AstKey)
open Tombi.Formatter (docOf TomlLiteral name_plain name_dotKey)

/-- What reading a text of the grammar comes to: the errors of the tree decide. -/
theorem read_eq (G : Segmenter) {v : TomlVersion} {f : File} {t : Text} {root : AstRoot Scalar}
    (h : FileText wordsReadable f t) (hn : f.Nested maxRecursionDepth) (hlen : utf8Len t < 2 ^ 28) (hm : FileMeans v f root) :
    readDocument G v t = if root.tree.2.isEmpty then .ok root.tree.1 else .error (.errors (root.tree.2.map .tree)) := by
  have hle : TomlFile.Words.Le wordsReadable Words.usual := ⟨fun _ h => h, fun _ h => h, fun _ _ h => h.1, fun _ h => h⟩
  have hu : FileText Words.usual f t := Lines.mono hle h
  obtain ⟨hpar, p, hp, he, rfl⟩ := TomlFile.file_parses G hu hn hlen
  obtain ⟨hroot, hdec⟩ := root_read h hm
  have hc := comments_ok hpar hp he (lines_clean h hm.1 hm.2)
  have h1 : ((docKeys (docOf p.tree)).filter fun k => (rawKey v k).isNone) = [] := by
    rw [List.filter_eq_nil_iff]
    intro k hk
    have := hdec k hk
    cases hr : rawKey v k <;> simp_all
  have h2 : ((docComments (docOf p.tree)).filter fun t => !commentOk t) = [] := by
    rw [List.filter_eq_nil_iff]
    intro c hk
    simp [hc c hk]
  unfold readDocument convert
  rw [hp]
  simp only [he, h1, h2, hroot, List.isEmpty_nil, Bool.not_true, Bool.false_eq_true, if_false, List.map_nil, List.append_nil,
    List.isEmpty_iff, List.map_eq_nil_iff]

/-! ### C70 -/

/-- **C70**: a text of the TOML grammar with a valid document is read without errors, and the result has exactly the nodes
the document stands for: the tables, arrays and scalars, each at its place, with its value. For the texts that
`wordsReadable` leaves out, and without `Regular` and `Uninterrupted`, the claim is false (`C70_float_false`,
`C70_newlines_false`, C69's, C53's and C27's counterexamples). -/
theorem C70_read_partial (G : Segmenter) {v : TomlVersion} {f : File} {t : Text} {root : AstRoot Scalar}
    (h : FileText wordsReadable f t) (hn : f.Nested maxRecursionDepth) (hlen : utf8Len t < 2 ^ 28) (hm : FileMeans v f root)
    (hv : Valid root) (hr : Spec.Regular root) (hu : Uninterrupted root) :
    ∃ T, readDocument G v t = .ok T ∧ ∀ p n, nodeAt T.value p = some n ↔ (p, n) ∈ docNodes root := by
  have hacc := C53_accepted_partial root hv hr hu
  refine ⟨root.tree.1, ?_, C27_tree_partial root hacc (file_hasKeys h hm) hr⟩
  rw [read_eq G h hn hlen hm, hacc]
  rfl

/-- **C70**: a text of the TOML grammar is not misread: if it is read without errors, valid or not, the result has exactly
the nodes the document stands for, and it stands for one node at each place. -/
theorem C70_not_misread_partial (G : Segmenter) {v : TomlVersion} {f : File} {t : Text} {root : AstRoot Scalar} {T : DTable Scalar}
    (h : FileText wordsReadable f t) (hn : f.Nested maxRecursionDepth) (hlen : utf8Len t < 2 ^ 28) (hm : FileMeans v f root)
    (hr : Spec.Regular root) (ht : readDocument G v t = .ok T) :
    (∀ p n, nodeAt T.value p = some n ↔ (p, n) ∈ docNodes root) ∧
    (∀ p n n', (p, n) ∈ docNodes root → (p, n') ∈ docNodes root → n = n') := by
  rw [read_eq G h hn hlen hm] at ht
  split at ht
  · rename_i he
    have he := List.isEmpty_iff.mp he
    cases ht
    exact ⟨C27_tree_partial root he (file_hasKeys h hm) hr, C27_one_meaning_partial root he (file_hasKeys h hm) hr⟩
  · cases ht

/-- **C70**: a text of the TOML grammar that assigns a key twice, assigns below a key that has a value, or has the same
table header twice, is rejected with errors. -/
theorem C70_duplicates_rejected_partial (G : Segmenter) {v : TomlVersion} {f : File} {t : Text} {root : AstRoot Scalar}
    (h : FileText wordsReadable f t) (hn : f.Nested maxRecursionDepth) (hlen : utf8Len t < 2 ^ 28) (hm : FileMeans v f root)
    (hr : Spec.Regular root)
    (hd : ¬ ((assigns root).Pairwise fun a b => ¬ a.1 <+: b.1) ∨ ¬ (sectionPaths [] root.sections).Nodup) :
    ∃ es, es ≠ [] ∧ readDocument G v t = .error (.errors es) := by
  rw [read_eq G h hn hlen hm]
  by_cases he : root.tree.2 = []
  · exfalso
    rcases hd with hd | hd
    · exact hd ((C28_assignments_partial root he (file_hasKeys h hm) hr).imp fun h => h.1)
    · exact hd (C28_headers_partial root he (file_hasKeys h hm) hr)
  · refine ⟨root.tree.2.map .tree, by simpa using he, ?_⟩
    rw [if_neg (by simpa using he)]

/-- **C70**: two texts that stand for the same document are read as the same tree: white space, comments, and the ways to
write a key, a string or a number make no difference. -/
theorem C70_same_document (G : Segmenter) {v : TomlVersion} {f f' : File} {t t' : Text} {root : AstRoot Scalar}
    (h : FileText wordsReadable f t) (hn : f.Nested maxRecursionDepth) (hlen : utf8Len t < 2 ^ 28) (hm : FileMeans v f root)
    (h' : FileText wordsReadable f' t') (hn' : f'.Nested maxRecursionDepth) (hlen' : utf8Len t' < 2 ^ 28)
    (hm' : FileMeans v f' root) : readDocument G v t = readDocument G v t' := by
  rw [read_eq G h hn hlen hm, read_eq G h' hn' hlen' hm']

theorem plain_le : TomlFile.Words.Le wordsPlain wordsReadable := ⟨fun _ h => h.1, fun _ h => h.1, fun _ _ h => h.1, fun _ h => h⟩

/-- **C70**: what is read without errors has a meaning: every number is in range, every date and time exists, every string
has valid escapes and characters; and the result is what the text stands for. Missing: strings with what tombi takes
beyond TOML (`PlainLiteral`; C13's counterexamples). -/
theorem C70_accepted_means_partial (G : Segmenter) {v : TomlVersion} {f : File} {t : Text} {T : DTable Scalar}
    (h : FileText wordsPlain f t) (hn : f.Nested maxRecursionDepth) (hlen : utf8Len t < 2 ^ 28)
    (ht : readDocument G v t = .ok T) :
    ∃ root, FileMeans v f root ∧ (Spec.Regular root → ∀ p n, nodeAt T.value p = some n ↔ (p, n) ∈ docNodes root) := by
  have hr : FileText wordsReadable f t := Lines.mono plain_le h
  have hle : TomlFile.Words.Le wordsReadable Words.usual := ⟨fun _ h => h, fun _ h => h, fun _ _ h => h.1, fun _ h => h⟩
  have hu : FileText Words.usual f t := Lines.mono hle hr
  obtain ⟨-, p, hp, he, rfl⟩ := TomlFile.file_parses G hu hn hlen
  have hm : FileMeans v (TomlFile.fileOf (docOf p.tree)) (astRoot v (docOf p.tree)) := by
    have ht' := ht
    unfold readDocument convert at ht'
    rw [hp] at ht'
    simp only [he, List.isEmpty_nil, Bool.not_true, Bool.false_eq_true, if_false] at ht'
    split at ht'
    · rename_i hE
      simp only [List.isEmpty_iff, List.append_eq_nil_iff, List.map_eq_nil_iff, List.filter_eq_nil_iff] at hE
      refine root_sound h hE.1.1 fun k hk => ?_
      have := hE.1.2 k hk
      cases hr : rawKey v k <;> simp_all
    · cases ht'
  exact ⟨_, hm, fun hreg => (C70_not_misread_partial G hr hn hlen hm hreg ht).1⟩

/-- **C70**: a text with a literal or key that has no meaning is rejected with errors. -/
theorem C70_meaningless_rejected_partial (G : Segmenter) {v : TomlVersion} {f : File} {t : Text}
    (h : FileText wordsPlain f t) (hn : f.Nested maxRecursionDepth) (hlen : utf8Len t < 2 ^ 28)
    (hm : ∀ root, ¬ FileMeans v f root) : ∃ es, es ≠ [] ∧ readDocument G v t = .error (.errors es) := by
  have hle : TomlFile.Words.Le wordsReadable Words.usual := ⟨fun _ h => h, fun _ h => h, fun _ _ h => h.1, fun _ h => h⟩
  obtain ⟨-, p, hp, he, -⟩ := TomlFile.file_parses G (Lines.mono hle (Lines.mono plain_le h)) hn hlen
  cases hr : readDocument G v t with
  | ok T =>
    obtain ⟨root, h', -⟩ := C70_accepted_means_partial G h hn hlen hr
    exact (hm root h').elim
  | error e =>
    unfold readDocument at hr
    rw [hp] at hr
    simp only [he, List.isEmpty_nil, Bool.not_true, Bool.false_eq_true, if_false] at hr
    split at hr
    · cases hr
    · rename_i hE
      cases hr
      exact ⟨_, by simpa using hE, rfl⟩

/-! ### a document -/

/-- A document with a dotted key, an array, a string with an escape, a date and an array of tables. -/
def readFile : File :=
  ⟨[.mk [.bare ['a'], .literal "'b'".toList] (.array [.lit INTEGER_DEC ['1'], .lit BASIC_STRING "\"x\\ty\"".toList])],
   [⟨true, [.bare ['s']], [.mk [.bare ['d']] (.lit LOCAL_DATE "2024-02-29".toList)]⟩, ⟨true, [.bare ['s']], []⟩]⟩

/-- Its text. -/
def readToml : Text := "# top\na . 'b' = [1,\n \"x\\ty\"] # x\n[[s]]\nd = 2024-02-29\n\n[[s]]".toList

/-- What it stands for. -/
def readRoot : AstRoot Scalar :=
  ⟨[.mk (some [['a'], ['b']]) (some (.array [.value (.scalar (.integer 1)), .value (.scalar (.string ['x', '\t', 'y']))]))],
   [⟨true, some [['s']], [.mk (some [['d']]) (some (.scalar (.localDate ⟨2024, 2, 29⟩)))]⟩, ⟨true, some [['s']], []⟩]⟩

theorem name1 {c : Char} (h : Formatter.isLetter c = true) : Formatter.NameKey [c] := ⟨c, [], rfl, .inl h, nofun⟩

theorem read_text : FileText wordsReadable readFile readToml := by
  have hx : TomlLiteral BASIC_STRING "\"x\\ty\"".toList :=
    .basic ⟨[.chr 'x', .esc 't', .chr 'y'], by simp [Item.single], rfl⟩
  have harr : Val.Text wordsReadable (.array [.lit INTEGER_DEC ['1'], .lit BASIC_STRING "\"x\\ty\"".toList])
      "[1,\n \"x\\ty\"]".toList := by
    rw [Val.Text]
    refine ⟨"1,\n \"x\\ty\"".toList, ?_, rfl⟩
    rw [TomlFile.itemsText]
    refine ⟨[], ['1'], [], .nil, by rw [Val.Text]; exact ⟨⟨one_text, trivial⟩, rfl⟩, .inr ⟨"\n \"x\\ty\"".toList, .inl (.lines .nil), ?_, rfl⟩⟩
    rw [TomlFile.itemsText]
    exact ⟨['\n', ' '], _, [], .newline (.inl rfl) (.ws ws1 .nil), by rw [Val.Text]; exact ⟨⟨hx, trivial⟩, rfl⟩, .inl ⟨rfl, .nil, rfl⟩⟩
  have hpair : Pair.Text wordsReadable (.mk [.bare ['a'], .literal "'b'".toList] (.array [.lit INTEGER_DEC ['1'], .lit BASIC_STRING "\"x\\ty\"".toList]))
      "a . 'b' = [1,\n \"x\\ty\"]".toList := by
    rw [Pair.Text]
    exact ⟨"a . 'b'".toList, [' '], [' '], _, .dot (k := .bare ['a']) (name_dotKey (name1 (by decide))) ws1 ws1
      (.last (k := .literal "'b'".toList) ⟨['b'], by decide, by decide, by decide, by decide⟩), ws1, ws1, harr, rfl⟩
  have hhead : TomlFile.HeaderText wordsReadable true [.bare ['s']] "[[s]]".toList :=
    ⟨[], ['s'], [], ws0, .last (k := .bare ['s']) (name_plain (name1 (by decide))), ws0, rfl⟩
  have hd : Pair.Text wordsReadable (.mk [.bare ['d']] (.lit LOCAL_DATE "2024-02-29".toList)) "d = 2024-02-29".toList :=
    TomlFile.pair_text (L := wordsReadable) (k := ['d']) (name_plain (name1 (by decide)))
      (by rw [Val.Text]; exact ⟨⟨.localDate ((Rx.matchAll_iff _ _).mp (by decide +kernel)), trivial⟩, rfl⟩)
  have h1 : Lines wordsReadable [] [⟨true, [.bare ['s']], []⟩] "[[s]]".toList :=
    Lines.headerEnd (w := []) (w' := []) (c := []) ws0 hhead ws0 (.inl rfl)
  have h2 : Lines wordsReadable [.mk [.bare ['d']] (.lit LOCAL_DATE "2024-02-29".toList)] [⟨true, [.bare ['s']], []⟩]
      "d = 2024-02-29\n\n[[s]]".toList :=
    Lines.pair (w := []) (w' := []) (c := []) (n := ['\n']) ws0 hd ws0 (.inl rfl) (.inl rfl)
      (Lines.blank (w := []) (c := []) (n := ['\n']) ws0 (.inl rfl) (.inl rfl) h1)
  have h3 : Lines wordsReadable [] readFile.sections "[[s]]\nd = 2024-02-29\n\n[[s]]".toList :=
    Lines.header (w := []) (w' := []) (c := []) (n := ['\n']) ws0 hhead ws0 (.inl rfl) (.inl rfl) h2
  have h4 : Lines wordsReadable readFile.pairs readFile.sections
      "a . 'b' = [1,\n \"x\\ty\"] # x\n[[s]]\nd = 2024-02-29\n\n[[s]]".toList :=
    Lines.pair (w := []) (w' := [' ']) (c := "# x".toList) (n := ['\n']) ws0 hpair ws1
      (.inr ⟨" x".toList, rfl, by simp [TomlFile.isCommentChar]⟩) (.inl rfl) h3
  exact Lines.blank (w := []) (c := "# top".toList) (n := ['\n']) ws0 (.inr ⟨" top".toList, rfl, by simp [TomlFile.isCommentChar]⟩) (.inl rfl) h4

theorem read_nested : readFile.Nested maxRecursionDepth := by
  refine ⟨?_, ?_⟩
  · simp [readFile, maxRecursionDepth, TomlFile.pairsNested, Pair.Nested, Val.Nested, TomlFile.itemsNested]
  · intro s hs
    simp only [readFile, List.mem_cons, List.not_mem_nil, or_false] at hs
    rcases hs with rfl | rfl <;> simp [TomlFile.pairsNested, Pair.Nested, Val.Nested]

theorem read_means (v : TomlVersion) : FileMeans v readFile readRoot := by
  have hk : ∀ c : Char, KeyMeans v (.bare [c]) [c] := fun _ => .bare
  have hb : KeyMeans v (.literal "'b'".toList) ['b'] := .literal (.chr _ (by decide) .nil)
  have h1 : LiteralMeans v INTEGER_DEC ['1'] (.integer 1) := .dec (t := ['1']) (by decide)
  have hx : LiteralMeans v BASIC_STRING "\"x\\ty\"".toList (.string ['x', '\t', 'y']) :=
    .basic (s := ['x', '\\', 't', 'y']) (.chr _ (by unfold Literal; decide) (.esc _ _ rfl (.chr _ (by unfold Literal; decide) .nil)))
  have hd : LiteralMeans v LOCAL_DATE "2024-02-29".toList (.localDate ⟨2024, 2, 29⟩) :=
    .localDate ⟨['2', '0', '2', '4'], ['0', '2'], ['2', '9'], by unfold Digits; decide, by unfold Digits; decide, by unfold Digits; decide, rfl⟩
      ⟨by decide, 29, by exact .february_leap (by unfold LeapYear; decide), by decide, by decide⟩
  refine ⟨?_, ?_⟩
  · simp only [readFile, readRoot, pairsMean, keysMean, ValMeans, itemsMean]
    exact ⟨⟨hk _, hb, trivial⟩, ⟨h1, hx, trivial⟩, trivial⟩
  · simp only [readFile, readRoot, secsMean, pairsMean, keysMean, ValMeans]
    exact ⟨⟨trivial, ⟨_, rfl, hk _, trivial⟩, ⟨hk _, trivial⟩, hd, trivial⟩, ⟨trivial, ⟨_, rfl, hk _, trivial⟩, trivial⟩, trivial⟩

/-- The hypotheses of `C70_read_partial` hold of the document. -/
theorem read_sample : Valid readRoot ∧ Spec.Regular readRoot ∧ Uninterrupted readRoot :=
  ⟨validB_sound _ (by decide +kernel), regularFromB_sound _ _ _ (by decide +kernel), uninterruptedFromB_sound _ _ _ (by decide +kernel)⟩

/-- Some of what is read: `s[0].d`, `a.b[1]` and the table `s[1]`. -/
example : ∃ T, readDocument charSegmenter .V1_0_0 readToml = .ok T ∧
    nodeAt T.value [.key ['s'], .index 0, .key ['d']] = some (.scalar (.localDate ⟨2024, 2, 29⟩)) ∧
    nodeAt T.value [.key ['a'], .key ['b'], .index 1] = some (.scalar (.string ['x', '\t', 'y'])) ∧
    nodeAt T.value [.key ['s'], .index 1] = some .table := by
  obtain ⟨T, h1, h2⟩ := C70_read_partial charSegmenter read_text read_nested (by decide) (read_means .V1_0_0) read_sample.1
    read_sample.2.1 read_sample.2.2
  refine ⟨T, h1, (h2 _ _).mpr ?_, (h2 _ _).mpr ?_, (h2 _ _).mpr ?_⟩ <;> decide +kernel

/-! ### what is rejected or misread -/

/-- The text `a = x`. -/
theorem single_text {L : Words} {k : SyntaxKind} {x : Text} (hk : L.key (.bare ['a'])) (hv : L.literal k x) :
    FileText L ⟨[.mk [.bare ['a']] (.lit k x)], []⟩ (['a', ' ', '=', ' '] ++ x) := by
  have h := Lines.pairEnd (L := L) ws0 (TomlFile.pair_text (k := ['a']) (v := .lit k x) (x := x) hk (by rw [Val.Text]; exact ⟨hv, rfl⟩)) ws0 (.inl rfl)
  simpa [FileText] using h

/-- What `a = x` stands for. -/
theorem single_means {v : TomlVersion} {k : SyntaxKind} {x : Text} {s : Scalar} (h : LiteralMeans v k x s) :
    FileMeans v ⟨[.mk [.bare ['a']] (.lit k x)], []⟩ ⟨[.mk (some [['a']]) (some (.scalar s))], []⟩ := by
  refine ⟨?_, trivial⟩
  simp only [pairsMean, keysMean, ValMeans]
  exact ⟨⟨.bare, trivial⟩, h, trivial⟩

/-- `a = 1`, `a = 2` meets the hypotheses of `C70_duplicates_rejected_partial`. -/
example : ∃ f root, FileText wordsReadable f "a = 1\na = 2".toList ∧ f.Nested maxRecursionDepth ∧ FileMeans .V1_0_0 f root ∧
    Spec.Regular root ∧ ¬ ((assigns root).Pairwise fun a b => ¬ a.1 <+: b.1) := by
  refine ⟨⟨[.mk [.bare ['a']] (.lit INTEGER_DEC ['1']), .mk [.bare ['a']] (.lit INTEGER_DEC ['2'])], []⟩,
    ⟨[.mk (some [['a']]) (some (.scalar (.integer 1))), .mk (some [['a']]) (some (.scalar (.integer 2)))], []⟩, ?_, ⟨?_, nofun⟩, ⟨?_, trivial⟩, trivial, ?_⟩
  · exact Lines.pair (w := []) (w' := []) (c := []) (n := ['\n']) ws0 (TomlFile.pair_text (k := ['a']) (x := ['1']) (L := wordsReadable) (name_plain (name1 (by decide)))
      (by rw [Val.Text]; exact ⟨⟨one_text, trivial⟩, rfl⟩)) ws0 (.inl rfl) (.inl rfl)
      (t := ['a', ' ', '=', ' '] ++ ['2']) (single_text (L := wordsReadable) (x := ['2']) (name_plain (name1 (by decide))) ⟨two_text, trivial⟩)
  · simp [TomlFile.pairsNested, Pair.Nested, Val.Nested]
  · simp only [pairsMean, keysMean, ValMeans]
    exact ⟨⟨.bare, trivial⟩, .dec (t := ['1']) (by decide), ⟨.bare, trivial⟩, .dec (t := ['2']) (by decide), trivial⟩
  · decide +kernel

theorem no_thirtieth (d : DateTime.Date) : ¬ (DateText d "2024-02-30".toList ∧ ValidDate d) := by
  rw [← C21_local_date]
  intro h
  exact absurd (congrArg (fun r => r.toOption.isSome) h) (show ¬ _ = true by decide +kernel)

/-- `a = 2024-02-30` is a text of the grammar without a meaning. -/
example : let f : File := ⟨[.mk [.bare ['a']] (.lit LOCAL_DATE "2024-02-30".toList)], []⟩
    FileText wordsPlain f "a = 2024-02-30".toList ∧ f.Nested maxRecursionDepth ∧ ∀ root, ¬ FileMeans .V1_0_0 f root := by
  refine ⟨single_text (L := wordsPlain) ⟨name_plain (name1 (by decide)), trivial⟩ ⟨⟨.localDate ((Rx.matchAll_iff _ _).mp (by decide +kernel)), trivial⟩, trivial⟩,
    ⟨by simp [TomlFile.pairsNested, Pair.Nested, Val.Nested], nofun⟩, ?_⟩
  rintro ⟨kvs, secs⟩ ⟨h, -⟩
  match kvs with
  | [] => simp [pairsMean] at h
  | .mk none _ :: _ => simp [pairsMean] at h
  | .mk (some _) none :: _ => simp [pairsMean] at h
  | .mk (some _) (some y) :: _ =>
    simp only [pairsMean] at h
    cases y <;> simp only [ValMeans] at h
    · cases h.2.1 with
      | localDate h1 h2 => exact no_thirtieth _ ⟨h1, h2⟩
    all_goals simp at h

/-- Is the text read without errors? -/
def readOk (t : Text) : Bool := (readDocument charSegmenter .V1_0_0 t).toOption.isSome

/-- The value of `a` in a text. -/
def readA (t : Text) : Option (Node Scalar) :=
  (readDocument charSegmenter .V1_0_0 t).toOption.bind fun T => nodeAt T.value [.key ['a']]

/-- **C70** is false of floats `0E…`: `a = 0E1` is TOML and is rejected. -/
theorem C70_float_false : FileText Words.usual ⟨[.mk [.bare ['a']] (.lit FLOAT "0E1".toList)], []⟩ "a = 0E1".toList ∧
    FileMeans .V1_0_0 ⟨[.mk [.bare ['a']] (.lit FLOAT "0E1".toList)], []⟩ ⟨[.mk (some [['a']]) (some (.scalar (.float "0E1".toList)))], []⟩ ∧
    readOk "a = 0E1".toList = false :=
  ⟨single_text (L := Words.usual) (name_plain (name1 (by decide))) (.float ((Rx.matchAll_iff _ _).mp (by decide +kernel))),
    single_means (LiteralMeans.float (t := "0E1".toList)), by decide +kernel⟩

/-- **C70** is false of multi-line strings that begin with an empty line: of two newlines, both are dropped. -/
theorem C70_newlines_false :
    FileText Words.usual ⟨[.mk [.bare ['a']] (.lit MULTI_LINE_LITERAL_STRING "'''\n\nx'''".toList)], []⟩ "a = '''\n\nx'''".toList ∧
    FileMeans .V1_0_0 ⟨[.mk [.bare ['a']] (.lit MULTI_LINE_LITERAL_STRING "'''\n\nx'''".toList)], []⟩
      ⟨[.mk (some [['a']]) (some (.scalar (.string ['\n', 'x'])))], []⟩ ∧
    readA "a = '''\n\nx'''".toList = some (.scalar (.string ['x'])) :=
  ⟨single_text (L := Words.usual) (name_plain (name1 (by decide))) (.multiLiteral ⟨['\n', '\n', 'x'], by decide, rfl⟩),
    single_means (.multiLiteral (s := ['\n', '\n', 'x']) (.lf rfl (.chr _ (by decide) .nil))), by decide +kernel⟩

end Tombi.Reading
