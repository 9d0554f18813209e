import Verif.Proofs.DeserializeData
import Verif.Props.Serialize
import Verif.Props.ReadDocument
/-!
C78: a TOML text is read into a Rust value as it says, and what was serialised is read back as the same value.
-/
namespace Tombi.Deserializing
open Spec
open Tombi.Reading
open Tombi.Serializing (Data Field toToml toDocument documentText depth isRecord)
open Tombi.TomlFile (File FileText)
open Tombi.Formatter (Env docOf)

theorem read_distinct {G : Segmenter} {v : TomlVersion} {source : Text} {T : DTable Scalar} (h : readDocument G v source = .ok T) :
    Distinct T.value ∧ CompleteEntries T.entries := by
  unfold readDocument at h
  cases hp : parse G source with
  | error e => rw [hp] at h; cases h
  | ok p =>
    rw [hp] at h
    simp only at h
    split at h
    · cases h
    · split at h
      · rename_i he
        have he := List.isEmpty_iff.1 he
        cases h
        have he' : (astRoot v (docOf p.tree)).tree.2 = [] := by
          unfold convert at he
          simp only [List.append_eq_nil_iff, List.map_eq_nil_iff] at he
          exact he.1.1
        exact ⟨(C26_distinct_keys _).1, root_complete _ he'⟩
      · cases h

theorem fromDocument_iff {T : DTable Scalar} (hd : Distinct T.value) {es : List Serializing.Entry}
    (he : intoEntries T.entries = Option.some es) (t : Ty) (x : Val) :
    fromDocument t es = Option.some x ↔ Root t ∧ Holds true t x (nodeAt T.value) := by
  have hw : intoValue T.value = Option.some (.table (tableKind T.kind) es) := by
    unfold DTable.value; rw [intoValue, he]; rfl
  cases t with
  | map t =>
    rw [← fromValue_iff (.map t) hd hw x]
    simp [fromDocument, fromValue, Root]
  | struct fs =>
    rw [← fromValue_iff (.struct fs) hd hw x]
    simp [fromDocument, fromValue, Root]
  | _ => simp [fromDocument, Root]

/-- **C78**: exactly which value of a type is read from a text: the text is read as a document, the type is a struct or a
map, and the value is what the program takes the document to be (`Holds true`). -/
theorem C78_exact (G : Segmenter) (v : TomlVersion) (t : Ty) (source : Text) (x : Val) :
    fromStr G v t source = .ok x ↔
      ∃ T, readDocument G v source = .ok T ∧ Root t ∧ Holds true t x (nodeAt T.value) := by
  unfold fromStr
  cases hr : readDocument G v source with
  | error f => simp
  | ok T =>
    obtain ⟨hd, hc⟩ := read_distinct hr
    obtain ⟨es, he⟩ := intoEntries_complete T.entries hc
    simp only [he]
    have key := fromDocument_iff hd he t x
    cases hf : fromDocument t es with
    | none =>
      rw [hf] at key
      simp only [reduceCtorEq, false_iff, Except.ok.injEq, exists_eq_left'] at key ⊢
      exact key
    | some y =>
      rw [hf, Option.some.injEq] at key
      simp only [Except.ok.injEq, exists_eq_left']
      exact key

/-- **C78**: reading never panics in the conversion to a document, whatever the text and the type. -/
theorem C78_no_panic (G : Segmenter) (v : TomlVersion) (t : Ty) (source : Text) : fromStr G v t source ≠ .error .panic := by
  unfold fromStr
  cases hr : readDocument G v source with
  | error f => simp
  | ok T =>
    obtain ⟨es, he⟩ := intoEntries_complete T.entries (read_distinct hr).2
    simp only [he]
    cases fromDocument t es <;> simp

/-- **C78**: a text of the TOML grammar that stands for a valid document is read into every value that is what the document
says. Missing: types with date-times, which are not read (`C78_dates_false`); types other than structs and maps for the
whole document (`C78_root_false`); what C70 is missing. -/
theorem C78_reads_partial (G : Segmenter) {v : TomlVersion} {f : File} {s : Text} {root : AstRoot Scalar}
    (h : FileText wordsReadable f s) (hn : f.Nested maxRecursionDepth) (hlen : utf8Len s < 2 ^ 28) (hm : FileMeans v f root)
    (hv : Valid root) (hr : Spec.Regular root) (hu : Uninterrupted root)
    {t : Ty} (ht : Root t) (hd : NoDates t) {N : Nodes} (hN : ∀ p n, N p = some n ↔ (p, n) ∈ docNodes root)
    {x : Val} (hx : Holds false t x N) : fromStr G v t s = .ok x := by
  obtain ⟨T, hT, hnodes⟩ := C70_read_partial G h hn hlen hm hv hr hu
  have : N = nodeAt T.value := by
    funext p
    apply Option.ext
    intro n
    rw [hN, hnodes]
  exact (C78_exact G v t s x).2 ⟨T, hT, ht, this ▸ loose_of_strict t hd hx⟩

/-- **C78**: a document says one value of a type at most. -/
theorem C78_one_value (G : Segmenter) {v : TomlVersion} {s : Text} {t : Ty} {T : DTable Scalar} (hT : readDocument G v s = .ok T)
    (ht : Root t) {x y : Val} (hx : Holds true t x (nodeAt T.value)) (hy : Holds true t y (nodeAt T.value)) : x = y := by
  have h1 := (C78_exact G v t s x).2 ⟨T, hT, ht, hx⟩
  have h2 := (C78_exact G v t s y).2 ⟨T, hT, ht, hy⟩
  rw [h1] at h2
  cases h2
  rfl

/-- **C78**: a value that can be written is written, and read back as the same value. Missing: what cannot be written (C72);
date-times. -/
theorem C78_round_trip_partial {E : Env} {fmt : Text → Option Text} (hE : E.Usual fmt) (hf : KeepsClean fmt) (v : TomlVersion)
    {t : Ty} (ht : Root t) (hd : NoDates t) {x : Val} (hx : Is t x) (h : Field (toData x))
    (hdepth : depth (toData x) ≤ maxRecursionDepth) :
    ∃ es, toDocument (toData x) = .ok es ∧ (utf8Len (documentText es) < 2 ^ 28 →
      ∃ out, toToml E (toData x) = .ok out ∧ (utf8Len out < 2 ^ 28 → fromStr E.G v t out = .ok x)) := by
  have hr : isRecord (toData x) = true := by
    cases t with
    | map t => rw [Is] at hx; obtain ⟨es, rfl, -⟩ := hx; rw [toData]; rfl
    | struct fs => rw [Is] at hx; obtain ⟨es, rfl, -⟩ := hx; rw [toData]; rfl
    | _ => exact ht.elim
  obtain ⟨es, h1, h2⟩ := Serializing.C72_round_trip_partial hE hf v hr h hdepth
  refine ⟨es, h1, fun hl => ?_⟩
  obtain ⟨out, h3, h4⟩ := h2 hl
  refine ⟨out, h3, fun hl => ?_⟩
  obtain ⟨T, h5, h6⟩ := h4 hl
  exact (C78_exact E.G v t out x).2 ⟨T, h5, ht, loose_of_strict t hd (holds_of_says t hx h6)⟩

/-! ### a concrete case -/

/-- A struct with fields of many types. -/
def sampleTy : Ty :=
  .struct [("name".toList, .string), ("skip".toList, .option (.unsigned 8)),
    ("server".toList, .struct [("ports".toList, .seq (.signed 64)), ("via".toList, .option (.enum ["tcp".toList, "udp".toList] []))]),
    ("point".toList, .inline (.struct [("x".toList, .f64)])),
    ("item".toList, .seq (.struct [("id".toList, .unsigned 8)])),
    ("limit".toList, .map (.newtype (.signed 8)))]

/-- A value of it. -/
def sampleVal : Val :=
  .struct [("name".toList, .string "x y".toList), ("skip".toList, .none),
    ("server".toList, .struct [("ports".toList, .seq [.int 80, .int (-1)]), ("via".toList, .some (.unitVariant "udp".toList))]),
    ("point".toList, .inline (.struct [("x".toList, .float "1.5".toList)])),
    ("item".toList, .seq [.struct [("id".toList, .uint 1)], .struct [("id".toList, .uint 2)]]),
    ("limit".toList, .map [("a".toList, .newtype (.int 3)), ("b".toList, .newtype (.int (-3)))])]

theorem is_struct {fs : List (Text × Ty)} {es : List (Text × Val)} (hn : (fs.map (·.1)).Nodup) (h : IsStruct fs es) :
    Is (.struct fs) (.struct es) := by rw [Is]; exact ⟨es, rfl, hn, h⟩

theorem is_cons {k : Text} {t : Ty} {fs : List (Text × Ty)} {y : Val} {es : List (Text × Val)} (h : Is t y) (h' : IsStruct fs es) :
    IsStruct ((k, t) :: fs) ((k, y) :: es) := by rw [IsStruct]; exact ⟨y, es, rfl, h, h'⟩

theorem is_nil : IsStruct [] [] := by rw [IsStruct]

theorem sample_is : Is sampleTy sampleVal := by
  refine is_struct (by decide) (is_cons ?_ (is_cons ?_ (is_cons (is_struct (by decide) (is_cons ?_ (is_cons ?_ is_nil)))
    (is_cons ?_ (is_cons ?_ (is_cons ?_ is_nil))))))
  · rw [Is]; exact ⟨_, rfl⟩
  · rw [Is]; exact .inl rfl
  · simp [Is, Written]
  · simp [Is, Written]
  · rw [Is]; exact ⟨_, rfl, is_struct (by decide) (is_cons (by simp [Is]) is_nil)⟩
  · rw [Is]
    refine ⟨_, rfl, fun y hy => ?_⟩
    simp only [List.mem_cons, List.not_mem_nil, or_false] at hy
    rcases hy with rfl | rfl <;> exact ⟨trivial, is_struct (by decide) (is_cons (by simp [Is]) is_nil)⟩
  · rw [Is]
    refine ⟨_, rfl, by decide, fun e he => ?_⟩
    simp only [List.mem_cons, List.not_mem_nil, or_false] at he
    rcases he with rfl | rfl <;> exact ⟨trivial, by simp [Is, Written]⟩

theorem sample_field : Field (toData sampleVal) := by
  have name : ∀ t : Text, Formatter.NameKey t → Serializing.FieldName t := fun t h => .inl (Formatter.name_dotKey h).1
  simp only [sampleVal, toData, toFields, toDatas]
  simp only [Field, Serializing.TableFields, Serializing.isAbsent, Serializing.isRecord, Bool.false_eq_true, if_false, if_true,
    false_or, true_or, true_and, and_true]
  refine ⟨by decide, ⟨name _ (Serializing.nameKey_of (by decide)), by unfold Serializing.PlainScalar Serializing.PlainText Literal; decide⟩,
    ⟨.inl (Formatter.name_dotKey (Serializing.nameKey_of (by decide))), by decide, ⟨name _ (Serializing.nameKey_of (by decide)), .inl ?_⟩,
      name _ (Serializing.nameKey_of (by decide)), by unfold Serializing.PlainScalar Serializing.PlainText Literal; decide⟩,
    ⟨name _ (Serializing.nameKey_of (by decide)), ?_⟩, ⟨name _ (Serializing.nameKey_of (by decide)), .inr ⟨by simp, ?_⟩⟩,
    .inl (Formatter.name_dotKey (Serializing.nameKey_of (by decide))), by decide,
    ⟨name _ (Serializing.nameKey_of (by decide)), by unfold Serializing.PlainScalar; decide⟩,
    name _ (Serializing.nameKey_of (by decide)), by unfold Serializing.PlainScalar; decide⟩
  · simp only [Serializing.Flat, Serializing.FlatItems, Serializing.PlainScalar, and_true]
    exact ⟨⟨_, List.mem_cons_self, rfl⟩, by decide, by decide⟩
  · simp only [Serializing.Inline, Serializing.InlineFields, Serializing.isAbsent, Bool.false_eq_true, false_or, and_true]
    exact ⟨by decide, name _ (Serializing.nameKey_of (by decide)), (Rx.matchAll_iff _ _).mp (by decide), by decide, by decide⟩
  · intro d hd
    simp only [List.mem_cons, List.not_mem_nil, or_false] at hd
    rcases hd with rfl | rfl <;>
    · refine ⟨by decide, fun f hf => ?_⟩
      rw [List.mem_singleton] at hf
      subst hf
      exact .inr ⟨name _ (Serializing.nameKey_of (by decide)), by simp [Serializing.Flat]⟩

theorem sample_written : Serializing.written (toData sampleVal) = some
    ("name = \"x y\"\npoint = { x = 1.5 }\n\n[server]\nports = [80, -1]\nvia = \"udp\"\n\n[[item]]\nid = 1\n\n[[item]]\nid = 2\n\n" ++
      "[limit]\na = 3\nb = -3\n").toList := by
  decide +kernel

/-- The hypotheses of `C78_round_trip_partial` hold of it. -/
theorem sample_round_trip : ∃ out, Serializing.written (toData sampleVal) = some out ∧
    fromStr charSegmenter .V1_0_0 sampleTy out = .ok sampleVal := by
  obtain ⟨es, h1, h2⟩ := C78_round_trip_partial (E := sampleEnv) Formatter.commentEnv_usual (fun _ _ h => by cases h) .V1_0_0
    (t := sampleTy) trivial (by simp [sampleTy, NoDates, NoDatesIn]) sample_is sample_field (by decide)
  have h3 : (toDocument (toData sampleVal)).toOption.all (fun es => decide (utf8Len (documentText es) < 2 ^ 28)) = true := by
    decide +kernel
  rw [h1] at h3
  obtain ⟨out, h4, h5⟩ := h2 (by simpa [Except.toOption] using h3)
  have h6 : Serializing.written (toData sampleVal) = some out := by rw [Serializing.written, h4]; rfl
  refine ⟨out, h6, h5 ?_⟩
  rw [sample_written, Option.some.injEq] at h6
  rw [← h6]
  decide +kernel

/-! ### what is not read as it says -/

/-- What a text says at a place. -/
def saysAt (source : String) (p : Path) : Option (Spec.Node Scalar) :=
  (readDocument charSegmenter .V1_0_0 source.toList).toOption.bind fun T => nodeAt T.value p

/-- The text is read, but not as a value of the type. -/
def mismatched (source : String) (t : Ty) : Bool :=
  match fromStr charSegmenter .V1_0_0 t source.toList with
  | .error .mismatch => true
  | _ => false

/-- A struct with one field. -/
abbrev single (k : String) (t : Ty) : Ty := .struct [(k.toList, t)]

theorem saysAt_read {source : String} {p : Path} {n : Spec.Node Scalar} (h : saysAt source p = some n) :
    ∃ T, readDocument charSegmenter .V1_0_0 source.toList = .ok T ∧ nodeAt T.value p = some n := by
  unfold saysAt at h
  cases hr : readDocument charSegmenter .V1_0_0 source.toList with
  | error e => rw [hr] at h; cases h
  | ok T => rw [hr] at h; exact ⟨T, rfl, h⟩

theorem one_field {T : DTable Scalar} {k : Text} {t : Ty} {x : Val} {loose : Bool} (h0 : nodeAt T.value [] = some .table) :
    Holds loose (.struct [(k, t)]) (.struct [(k, x)]) (nodeAt T.value) ↔ Holds loose t x (Nodes.down (nodeAt T.value) (.key k)) := by
  rw [Holds]
  simp only [h0, HoldsFields]
  simp

/-- **C78** is false for date-times: no date-time of a document is read into a type of `tombi-date-time`, in a field of
whatever struct. (A date-time in a string is.) -/
theorem C78_dates_never (G : Segmenter) {v : TomlVersion} {source : Text} {T : DTable Scalar} (hT : readDocument G v source = .ok T)
    {fs : List (Text × Ty)} {k : Text} {t : Ty} (hk : (k, t) ∈ fs)
    (ht : t = .offsetDateTime ∨ t = .localDateTime ∨ t = .localDate ∨ t = .localTime)
    {s : Scalar} (hs : nodeAt T.value [.key k] = some (.scalar s)) (hd : ∀ txt, s ≠ .string txt) :
    ∀ x, fromStr G v (.struct fs) source ≠ .ok x := by
  intro x hx
  obtain ⟨T', hT', -, h⟩ := (C78_exact G v _ source x).1 hx
  rw [hT] at hT'
  cases hT'
  rw [Holds] at h
  obtain ⟨es, -, ⟨-, h⟩ | ⟨-, h, -⟩⟩ := h
  · have key : ∀ fs es, (k, t) ∈ fs → HoldsFields true fs es (nodeAt T.value) →
        ∃ y, Holds true t y (Nodes.down (nodeAt T.value) (.key k)) := by
      intro fs
      induction fs with
      | nil => intro es h; cases h
      | cons f fs ih =>
        obtain ⟨k', t'⟩ := f
        intro es hm h
        rw [HoldsFields] at h
        obtain ⟨y, ys, -, h1, h2⟩ := h
        rcases List.mem_cons.1 hm with hm | hm
        · cases hm; exact ⟨y, h1⟩
        · exact ih ys hm h2
    obtain ⟨y, hy⟩ := key fs es hk h
    have hno : ∀ txt, ¬ Nodes.IsScalar (Nodes.down (nodeAt T.value) (.key k)) (.string txt) := by
      intro txt h
      have : nodeAt T.value [.key k] = some (.scalar (.string txt)) := h
      rw [hs] at this
      cases this
      exact hd txt rfl
    rcases ht with rfl | rfl | rfl | rfl <;> rw [Holds] at hy <;> simp only [if_true] at hy
    · obtain ⟨_, _, _, -, s, hs, -⟩ := hy; exact hno s hs
    · obtain ⟨_, _, -, s, hs, -⟩ := hy; exact hno s hs
    · obtain ⟨_, -, s, hs, -⟩ := hy; exact hno s hs
    · obtain ⟨_, -, s, hs, -⟩ := hy; exact hno s hs
  · have : nodeAt T.value [] = some .table := rfl
    rw [this] at h
    cases h

/-- **C78** is false for date-times: the date is what the document says, and the text is refused for the type of that date;
what is written for such a struct is therefore not read back. -/
theorem C78_dates_false :
    (∃ T, readDocument charSegmenter .V1_0_0 "a = 2024-02-29\n".toList = .ok T ∧
      Holds false (single "a" .localDate) (.struct [(['a'], .date (.localDate ⟨2024, 2, 29⟩))]) (nodeAt T.value)) ∧
    Serializing.written (toData (.struct [(['a'], .date (.localDate ⟨2024, 2, 29⟩))])) = some "a = 2024-02-29\n".toList ∧
    mismatched "a = 2024-02-29\n" (single "a" .localDate) = true ∧
    mismatched "a = \"2024-02-29\"\n" (single "a" .localDate) = false := by
  refine ⟨?_, by decide +kernel, by decide +kernel, by decide +kernel⟩
  obtain ⟨T, hT, h⟩ := saysAt_read (show saysAt "a = 2024-02-29\n" [.key ['a']] = some (.scalar (.localDate ⟨2024, 2, 29⟩)) by
    decide +kernel)
  refine ⟨T, hT, (one_field rfl).2 ?_⟩
  rw [Holds]
  exact ⟨_, rfl, h⟩

/-- **C78** is false for tuples: elements that the tuple has no place for are dropped without an error. -/
theorem C78_tuples_false :
    fromStr charSegmenter .V1_0_0 (single "a" (.tuple [.signed 64, .signed 64])) "a = [1, 2, 3]".toList =
      .ok (.struct [(['a'], .tuple [.int 1, .int 2])]) ∧
    ∃ T, readDocument charSegmenter .V1_0_0 "a = [1, 2, 3]".toList = .ok T ∧
      ¬ Holds false (single "a" (.tuple [.signed 64, .signed 64])) (.struct [(['a'], .tuple [.int 1, .int 2])]) (nodeAt T.value) := by
  obtain ⟨T, hT, h2⟩ := saysAt_read (show saysAt "a = [1, 2, 3]" [.key ['a'], .index 2] = some (.scalar (.integer 3)) by decide +kernel)
  obtain ⟨T', hT', h0⟩ := saysAt_read (show saysAt "a = [1, 2, 3]" [.key ['a'], .index 0] = some (.scalar (.integer 1)) by decide +kernel)
  rw [hT] at hT'; cases hT'
  obtain ⟨T', hT', h1⟩ := saysAt_read (show saysAt "a = [1, 2, 3]" [.key ['a'], .index 1] = some (.scalar (.integer 2)) by decide +kernel)
  rw [hT] at hT'; cases hT'
  obtain ⟨T', hT', h⟩ := saysAt_read (show saysAt "a = [1, 2, 3]" [.key ['a']] = some .array by decide +kernel)
  rw [hT] at hT'; cases hT'
  refine ⟨(C78_exact _ _ _ _ _).2 ⟨T, hT, trivial, (one_field rfl).2 ?_⟩, T, hT, fun hh => ?_⟩
  · rw [Holds]
    refine ⟨_, rfl, h, fun _ _ => .inl rfl, ?_⟩
    simp only [HoldsTuple]
    refine ⟨_, _, rfl, ?_, ?_, _, _, rfl, ?_, ?_, rfl⟩
    · show nodeAt T.value [.key ['a'], .index 0] ≠ _; rw [h0]; simp
    · rw [Holds]; exact ⟨1, rfl, by decide, h0⟩
    · show nodeAt T.value [.key ['a'], .index 1] ≠ _; rw [h1]; simp
    · rw [Holds]; exact ⟨2, rfl, by decide, h1⟩
  · have hh := (one_field (T := T) rfl).1 hh
    rw [Holds] at hh
    obtain ⟨_, -, -, hlen, -⟩ := hh
    rcases hlen 2 (by show nodeAt T.value [.key ['a'], .index 2] ≠ _; rw [h2]; simp) with h | h
    · cases h
    · simp at h

/-- **C78** is false for structs: an array is taken for a struct. -/
theorem C78_structs_false :
    fromStr charSegmenter .V1_0_0 (single "a" (single "x" (.signed 64))) "a = [1]".toList =
      .ok (.struct [(['a'], .struct [(['x'], .int 1)])]) ∧
    ∃ T, readDocument charSegmenter .V1_0_0 "a = [1]".toList = .ok T ∧
      ∀ x, ¬ Holds false (single "a" (single "x" (.signed 64))) (.struct [(['a'], x)]) (nodeAt T.value) := by
  obtain ⟨T, hT, h0⟩ := saysAt_read (show saysAt "a = [1]" [.key ['a'], .index 0] = some (.scalar (.integer 1)) by decide +kernel)
  obtain ⟨T', hT', h⟩ := saysAt_read (show saysAt "a = [1]" [.key ['a']] = some .array by decide +kernel)
  rw [hT] at hT'; cases hT'
  refine ⟨(C78_exact _ _ _ _ _).2 ⟨T, hT, trivial, (one_field rfl).2 ?_⟩, T, hT, fun x hh => ?_⟩
  · rw [Holds]
    refine ⟨_, rfl, .inr ⟨rfl, h, ?_⟩⟩
    simp only [HoldsElements]
    refine ⟨_, _, rfl, ?_, ?_, rfl⟩
    · show nodeAt T.value [.key ['a'], .index 0] ≠ _; rw [h0]; simp
    · rw [Holds]; exact ⟨1, rfl, by decide, h0⟩
  · have hh := (one_field (T := T) rfl).1 hh
    rw [Holds] at hh
    obtain ⟨es, -, ⟨h', -⟩ | ⟨h', -⟩⟩ := hh
    · have : nodeAt T.value [.key ['a']] = some .table := h'
      rw [h] at this
      cases this
    · cases h'

/-- **C78** is false for the document as a whole: an `Option`, a newtype, an enum of what the document is, is refused,
whatever the text. In a field they are read. -/
theorem C78_root_false :
    (∀ (G : Segmenter) (v : TomlVersion) (t : Ty) (us : List Text) (ps : List (Text × Ty)) (source : Text) (x : Val),
      fromStr G v (.option t) source ≠ .ok x ∧ fromStr G v (.newtype t) source ≠ .ok x ∧ fromStr G v (.enum us ps) source ≠ .ok x) ∧
    (∃ T, readDocument charSegmenter .V1_0_0 "a = 1".toList = .ok T ∧
      Holds false (.option (single "a" (.signed 64))) (.some (.struct [(['a'], .int 1)])) (nodeAt T.value) ∧
      Holds false (.newtype (single "a" (.signed 64))) (.newtype (.struct [(['a'], .int 1)])) (nodeAt T.value)) ∧
    mismatched "a = 1" (single "a" (.option (.newtype (.signed 64)))) = false := by
  refine ⟨fun G v t us ps source x => ⟨?_, ?_, ?_⟩, ?_, by decide +kernel⟩
  · intro h; obtain ⟨_, -, h, -⟩ := (C78_exact _ _ _ _ _).1 h; exact h
  · intro h; obtain ⟨_, -, h, -⟩ := (C78_exact _ _ _ _ _).1 h; exact h
  · intro h; obtain ⟨_, -, h, -⟩ := (C78_exact _ _ _ _ _).1 h; exact h
  · obtain ⟨T, hT, h⟩ := saysAt_read (show saysAt "a = 1" [.key ['a']] = some (.scalar (.integer 1)) by decide +kernel)
    have hp : Nodes.Present (nodeAt T.value) := by
      show nodeAt T.value [] ≠ none
      exact fun h => by cases h
    have hs : Holds false (single "a" (.signed 64)) (.struct [(['a'], .int 1)]) (nodeAt T.value) := by
      refine (one_field rfl).2 ?_
      rw [Holds]
      exact ⟨1, rfl, by decide, h⟩
    refine ⟨T, hT, ?_, ?_⟩
    · rw [Holds]; exact .inr ⟨_, rfl, hp, hs⟩
    · rw [Holds]; exact ⟨_, rfl, hp, hs⟩

end Tombi.Deserializing
