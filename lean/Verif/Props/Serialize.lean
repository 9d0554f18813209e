import Verif.Proofs.SerializeData
import Verif.Props.FormatMeans
/-!
C72: what is serialised is read back as it was.
-/
namespace Tombi.Serializing
open Spec
open Tombi.Reading
open Tombi.TomlFile (File FileText)
open Tombi.Formatter (Env)

/-- **C72**: a record is written without a panic, and what is written is read as the record. Missing: what the serializer
is not able to write, see the theorems below; date-times out of the calendar; the units of `serde`, which are errors. -/
theorem C72_round_trip_partial {E : Env} {fmt : Text → Option Text} (hE : E.Usual fmt) (hf : KeepsClean fmt) (v : TomlVersion)
    {d : Data} (hr : isRecord d = true) (h : Field d) (hdepth : depth d ≤ maxRecursionDepth) :
    ∃ es, toDocument d = .ok es ∧ (utf8Len (documentText es) < 2 ^ 28 →
      ∃ out, toToml E d = .ok out ∧ (utf8Len out < 2 ^ 28 →
        ∃ T, readDocument E.G v out = .ok T ∧ ∀ p n, nodeAt T.value p = some n ↔ (p, n) ∈ dataNodes d)) := by
  obtain ⟨es, h1, h2, h3, h4, h5⟩ := record_document hr h
  refine ⟨es, h1, fun hlen => ?_⟩
  have hnest : (⟨gramEntries (plain es), (partsE [] es).map Part.sec⟩ : File).Nested maxRecursionDepth := by
    refine ⟨gramEntries_nested _ _ ?_, fun s hs => ?_⟩
    · have := vdepth_plain es; omega
    · obtain ⟨p, hp, rfl⟩ := List.mem_map.mp hs
      refine gramEntries_nested _ _ ?_
      have := partsE_depth es [] p hp
      omega
  have hmean : FileMeans v ⟨gramEntries (plain es), (partsE [] es).map Part.sec⟩ (rootOf es) :=
    ⟨inlE_means v _ (plain_inlE es h3), parts_mean v _ (partsE_fine es [] h3 (by simp))⟩
  obtain ⟨v1, v2, v3⟩ := document_valid h3 h2
  obtain ⟨out, o1, o2⟩ := C71_meaning_kept_partial hE hf (f := ⟨gramEntries (plain es), (partsE [] es).map Part.sec⟩)
    (document_lines h3) hnest hlen hmean v1 v2 v3
  refine ⟨out, by simp [toToml, h1, o1], fun hl => ?_⟩
  obtain ⟨T, t1, t2⟩ := o2 hl
  exact ⟨T, t1, fun p n => by rw [t2 p n, document_nodes h3 h2, h4]⟩

/-! ### a concrete case -/

/-- A record with a field left out, a table, an array, an array of tables, a value on one line. -/
def sampleData : Data :=
  .record [("name".toList, .scalar (.string "x y".toList)), ("skip".toList, .none),
    ("server".toList, .record [("ports".toList, .seq [.uint 80, .scalar (.integer (-1))]),
      ("when".toList, .some (.scalar (.localDate ⟨2024, 2, 29⟩)))]),
    ("point".toList, .inline (.record [("x".toList, .scalar (.float "1.5".toList))])),
    ("item".toList, .seq [.record [("id".toList, .uint 1)], .record [("it's".toList, .scalar (.boolean true))]])]

theorem nameKey_of {t : Text} (h : ((t.head?.any fun c => Formatter.isLetter c || c == '_') &&
    (t.tail.all fun x => Formatter.isLetter x || inRange '0' '9' x || x == '_' || x == '-')) = true) : Formatter.NameKey t := by
  cases t with
  | nil => simp at h
  | cons c w =>
    simp only [List.head?_cons, Option.any_some, List.tail_cons, Bool.and_eq_true, Bool.or_eq_true, beq_iff_eq,
      List.all_eq_true] at h
    exact ⟨c, w, rfl, h.1, fun x hx => by have := h.2 x hx; simpa [or_assoc] using this⟩

theorem sample_field : Field sampleData := by
  have name : ∀ t : Text, Formatter.NameKey t → FieldName t := fun t h => .inl (Formatter.name_dotKey h).1
  have feb : ValidDate ⟨2024, 2, 29⟩ := ⟨by decide, 29, .february_leap (by left; decide), by decide, by decide⟩
  unfold sampleData
  simp only [Field, TableFields, isAbsent, isRecord, Bool.false_eq_true, if_false, if_true, false_or, true_or, true_and, and_true]
  refine ⟨by decide, ⟨name _ (nameKey_of (by decide)), by unfold PlainScalar PlainText Literal; decide⟩,
    ⟨.inl (Formatter.name_dotKey (nameKey_of (by decide))), by decide, ⟨name _ (nameKey_of (by decide)), .inl ?_⟩,
      name _ (nameKey_of (by decide)), feb⟩,
    ⟨name _ (nameKey_of (by decide)), ?_⟩, name _ (nameKey_of (by decide)), .inr ⟨by simp, ?_⟩⟩
  · simp only [Flat, FlatItems, PlainScalar, and_true]
    exact ⟨⟨_, List.mem_cons_self, rfl⟩, by decide, by decide⟩
  · simp only [Inline, InlineFields, isAbsent, Bool.false_eq_true, false_or, and_true]
    exact ⟨by decide, name _ (nameKey_of (by decide)), (Rx.matchAll_iff _ _).mp (by decide), by decide, by decide⟩
  · intro d hd
    simp only [List.mem_cons, List.not_mem_nil, or_false] at hd
    rcases hd with rfl | rfl
    · refine ⟨by decide, fun f hf => ?_⟩
      rw [List.mem_singleton] at hf
      subst hf
      exact .inr ⟨name _ (nameKey_of (by decide)), by simp [Flat]⟩
    · refine ⟨by decide, fun f hf => ?_⟩
      rw [List.mem_singleton] at hf
      subst hf
      exact .inr ⟨.inr ⟨by decide, by unfold PlainText Literal; decide⟩, by simp [Flat, PlainScalar]⟩

/-- What is written for a value: `none` is an error or a panic. -/
def written (d : Data) : Option Text := (toToml sampleEnv d).toOption

theorem sample_written : written sampleData = some
    "name = \"x y\"\npoint = { x = 1.5 }\n\n[server]\nports = [80, -1]\nwhen = 2024-02-29\n\n[[item]]\nid = 1\n\n[[item]]\n\"it's\" = true\n".toList := by
  decide +kernel

/-- The hypotheses of `C72_round_trip_partial` hold of it. -/
example : ∃ out, written sampleData = some out ∧ ∃ T, readDocument charSegmenter .V1_0_0 out = .ok T ∧
    ∀ p n, nodeAt T.value p = some n ↔ (p, n) ∈ dataNodes sampleData := by
  obtain ⟨es, h1, h2⟩ := C72_round_trip_partial (E := sampleEnv) Formatter.commentEnv_usual (fun _ _ h => by cases h) .V1_0_0
    (d := sampleData) rfl sample_field (by decide)
  have h3 : (toDocument sampleData).toOption.all (fun es => decide (utf8Len (documentText es) < 2 ^ 28)) = true := by decide +kernel
  rw [h1] at h3
  obtain ⟨out, h4, h5⟩ := h2 (by simpa [Except.toOption] using h3)
  have h6 : written sampleData = some out := by rw [written, h4]; rfl
  refine ⟨out, h6, h5 ?_⟩
  rw [sample_written, Option.some.injEq] at h6
  rw [← h6]
  decide +kernel

/-! ### what is not read back -/

/-- What a value is read back as, at a place. -/
def readBack (d : Data) (p : Path) : Option (Spec.Node Scalar) :=
  match written d with
  | some out => (readDocument charSegmenter .V1_0_0 out).toOption.bind fun T => nodeAt T.value p
  | none => none

/-- Is this a panic? -/
def panics (d : Data) : Bool :=
  match toToml sampleEnv d with
  | .error .panic => true
  | _ => false

/-- A record with one field. -/
abbrev field (k : String) (d : Data) : Data := .record [(k.toList, d)]

abbrev int (n : Int) : Data := .scalar (.integer n)

/-- **C72** is false for sequences without scalars: an empty sequence is left out, sequences of sequences become empty
tables. -/
theorem C72_sequences_false :
    (written (field "a" (.seq [])) = some [] ∧ ([.key ['a']], .array) ∈ dataNodes (field "a" (.seq [])) ∧
      readBack (field "a" (.seq [])) [.key ['a']] = none) ∧
    (written (field "a" (.seq [.seq [int 1], .seq [int 2]])) = some "[[a]]\n\n[[a]]\n".toList ∧
      ([.key ['a'], .index 0], .array) ∈ dataNodes (field "a" (.seq [.seq [int 1], .seq [int 2]])) ∧
      readBack (field "a" (.seq [.seq [int 1], .seq [int 2]])) [.key ['a'], .index 0] = some .table) := by
  refine ⟨⟨?_, ?_, ?_⟩, ?_, ?_, ?_⟩ <;> decide +kernel

/-- **C72** is false for texts: they are not escaped. A backslash with a letter is read as an escape. -/
theorem C72_texts_false :
    ([.key ['a']], .scalar (.string "C:\\temp".toList)) ∈ dataNodes (field "a" (.scalar (.string "C:\\temp".toList))) ∧
      readBack (field "a" (.scalar (.string "C:\\temp".toList))) [.key ['a']] = some (.scalar (.string "C:\temp".toList)) := by
  refine ⟨?_, ?_⟩ <;> decide +kernel

/-- **C72** is false for numbers: a float without fraction, which `Display` writes like an integer, is read as an integer;
a `u64` over the range of `i64` becomes negative. -/
theorem C72_numbers_false :
    (([.key ['a']], .scalar (.float ['1'])) ∈ dataNodes (field "a" (.scalar (.float ['1']))) ∧
      readBack (field "a" (.scalar (.float ['1']))) [.key ['a']] = some (.scalar (.integer 1))) ∧
    (([.key ['a']], .scalar (.integer (2 ^ 63))) ∈ dataNodes (field "a" (.uint (2 ^ 63))) ∧
      readBack (field "a" (.uint (2 ^ 63))) [.key ['a']] = some (.scalar (.integer (-2 ^ 63)))) := by
  refine ⟨⟨?_, ?_⟩, ?_, ?_⟩ <;> decide +kernel

/-- **C72** is false for keys with dots: they are read as dotted keys. -/
theorem C72_keys_false :
    ([.key "a.b".toList], .scalar (.integer 1)) ∈ dataNodes (field "a.b" (int 1)) ∧
      readBack (field "a.b" (int 1)) [.key "a.b".toList] = none ∧
      readBack (field "a.b" (int 1)) [.key ['a'], .key ['b']] = some (.scalar (.integer 1)) := by
  refine ⟨?_, ?_, ?_⟩ <;> decide +kernel

/-- **C72** is false for variants with a payload: the name of the variant is not written. -/
theorem C72_variants_false :
    ([.key ['a'], .key ['V']], .scalar (.integer 1)) ∈ dataNodes (field "a" (.variant ['V'] (int 1))) ∧
      readBack (field "a" (.variant ['V'] (int 1))) [.key ['a']] = some (.scalar (.integer 1)) ∧
      written (field "a" (.variant ['V'] (int 1))) = written (field "a" (.variant ['W'] (int 1))) := by
  refine ⟨?_, ?_, ?_⟩ <;> decide +kernel

/-- **C72** is false for some values: the serializer panics. These are a text with a quotation mark, an empty key, a key
with a blank, a table in an element of an array of tables, a table with a table in an array of values, a sequence with a
table before a scalar. -/
theorem C72_panics_false :
    panics (field "a" (.scalar (.string "say \"x\"".toList))) = true ∧ panics (field "" (int 1)) = true ∧
    panics (field "a b" (int 1)) = true ∧ panics (field "a" (.seq [field "b" (field "c" (int 1))])) = true ∧
    panics (field "a" (.seq [int 1, field "b" (field "c" (int 1))])) = true ∧
    panics (field "a" (.seq [field "b" (int 1), int 1])) = true := by
  refine ⟨?_, ?_, ?_, ?_, ?_, ?_⟩ <;> decide +kernel

end Tombi.Serializing
