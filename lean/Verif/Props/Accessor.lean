import Verif.Proofs.AccessorBest
/-! Properties C40 (paths print and parse back), C59 (paths in Markdown) and C60 (the most specific pattern
applies). -/
namespace Tombi.Accessor
open TomlText Spec Spec.Accessor

/-! ### C40 -/

/-- the keys of a pattern path -/
def patternKeys (p : List PatternAccessor) : List (List Char) :=
  p.filterMap fun | .key k => some k | _ => none

/-- the keys of a schema path -/
def schemaKeys (p : List SchemaAccessor) : List (List Char) :=
  p.filterMap fun | .key k => some k | _ => none

/-- **C40** for pattern paths (`root` of a sub-schema, `target` of an override), exactly: a printed path is
read back as itself if and only if it is not empty, its keys of the form `${...}` have no dot and no opening
bracket, and its other keys have none of the characters NUL, BEL, VT, ESC. All other keys (empty, quoted,
with dots, `*`) are fine. The hypothesis is the range of `usize`. Missing from the full claim: the paths
excluded here, for which it is false. -/
theorem C40_pattern_roundtrip_partial (p : List PatternAccessor) (hu : ∀ i, .index i ∈ p → i < 2 ^ 64) :
    parsePattern (showPattern p) = some p ↔ p ≠ [] ∧ ∀ k ∈ patternKeys p,
      (Placeholder k → '.' ∉ k ∧ '[' ∉ k) ∧ (¬ Placeholder k → ∀ c ∈ k, ¬ NoEscape c) := by
  have hi : ∀ a ∈ p, IndexOk a := by
    intro a ha
    cases a with
    | index i => exact hu i ha
    | _ => trivial
  have ho : (∀ a ∈ p, PatternOk a) ↔ ∀ k ∈ patternKeys p, PatternKeyOk k := by
    constructor
    · intro h k hk
      simp only [patternKeys, List.mem_filterMap] at hk
      obtain ⟨a, ha, he⟩ := hk
      cases a <;> simp at he
      subst he; exact h _ ha
    · intro h a ha
      cases a with
      | key k => exact h k (by simp only [patternKeys, List.mem_filterMap]; exact ⟨_, ha, rfl⟩)
      | _ => trivial
  by_cases hp : p = []
  · subst hp; simp [parsePattern, showPattern]
  · rw [parsePattern_showPattern p hp]
    refine Iff.trans ?_ (and_iff_right hp).symm
    by_cases hk : ∀ a ∈ p, PatternOk a
    · rw [pattern_all p hk hi]
      simp only [flushPattern_nil, List.nil_append, true_iff]
      exact ho.mp hk
    · have := pattern_all_bad p hk hi [] []
      simp only [flushPattern_nil, List.nil_append] at this
      exact ⟨fun h => absurd h this, fun h => absurd (ho.mpr h) hk⟩

/-- **C40** for schema paths (`SchemaAccessor::parse`), exactly: a printed path is read back as itself if and
only if it is not empty and all its keys are printed without quotes and have no dot and no opening bracket.
Missing from the full claim: all keys that need quotes, for which it is false. -/
theorem C40_schema_roundtrip_partial (p : List SchemaAccessor) (hu : ∀ i, .index i ∈ p → i < 2 ^ 64) :
    parseSchema (showSchema p) = some p ↔ p ≠ [] ∧ ∀ k ∈ schemaKeys p,
      Bare k ∨ (Placeholder k ∧ '.' ∉ k ∧ '[' ∉ k) := by
  have hi : ∀ a ∈ p, SchemaIndexOk a := by
    intro a ha
    cases a with
    | index i => exact hu i ha
    | _ => trivial
  have ho : (∀ a ∈ p, SchemaOk a) ↔ ∀ k ∈ schemaKeys p, SchemaKeyOk k := by
    constructor
    · intro h k hk
      simp only [schemaKeys, List.mem_filterMap] at hk
      obtain ⟨a, ha, he⟩ := hk
      cases a <;> simp at he
      subst he; exact h _ ha
    · intro h a ha
      cases a with
      | key k => exact h k (by simp only [schemaKeys, List.mem_filterMap]; exact ⟨_, ha, rfl⟩)
      | _ => trivial
  by_cases hp : p = []
  · subst hp; simp [parseSchema, showSchema]
  · rw [parseSchema_showSchema p hp]
    refine Iff.trans ?_ (and_iff_right hp).symm
    by_cases hk : ∀ a ∈ p, SchemaOk a
    · rw [schema_all p hk hi]
      simp only [flushSchema_nil, List.nil_append, true_iff]
      exact ho.mp hk
    · have := schema_all_bad p hk hi [] []
      simp only [flushSchema_nil, List.nil_append] at this
      exact ⟨fun h => absurd h this, fun h => absurd (ho.mpr h) hk⟩

/-- **C40**, a consequence: a path of a document is printed the same way as an accessor, schema or pattern
path, and as a pattern it is found again (same restrictions on keys). -/
theorem C40_document_path_partial (p : List Accessor) (hp : p ≠ []) (hu : ∀ i, .index i ∈ p → i < 2 ^ 64)
    (hk : ∀ k, .key k ∈ p → ¬ Placeholder k ∧ ∀ c ∈ k, ¬ NoEscape c) :
    showPattern (p.map PatternAccessor.of) = showAccessors p
      ∧ showSchema (p.map SchemaAccessor.of) = showAccessors p
      ∧ parsePattern (showAccessors p) = some (p.map PatternAccessor.of) := by
  have h1 : showPattern (p.map PatternAccessor.of) = showAccessors p := by
    cases p with
    | nil => rfl
    | cons a q =>
      have hs : ∀ a : Accessor, (PatternAccessor.of a).show = a.show := by intro a; cases a <;> rfl
      have hn : ∀ a : Accessor, (PatternAccessor.of a).showNext = a.showNext := by intro a; cases a <;> rfl
      simp only [List.map_cons, showPattern, showAccessors, hs, List.map_map]
      congr 2
      exact List.map_congr_left fun b _ => hn b
  have h2 : showSchema (p.map SchemaAccessor.of) = showAccessors p := by
    cases p with
    | nil => rfl
    | cons a q =>
      have hs : ∀ a : Accessor, (SchemaAccessor.of a).show = a.show := by intro a; cases a <;> rfl
      have hn : ∀ a : Accessor, (SchemaAccessor.of a).showNext = a.showNext := by intro a; cases a <;> rfl
      simp only [List.map_cons, showSchema, showAccessors, hs, List.map_map]
      congr 2
      exact List.map_congr_left fun b _ => hn b
  refine ⟨h1, h2, ?_⟩
  rw [← h1]
  refine (C40_pattern_roundtrip_partial _ ?_).mpr ⟨by simpa using hp, ?_⟩
  · intro i hi
    obtain ⟨a, ha, he⟩ := List.mem_map.mp hi
    cases a with
    | key k => cases he
    | index j => cases he; exact hu _ ha
  · intro k hk'
    simp only [patternKeys, List.mem_filterMap, List.mem_map] at hk'
    obtain ⟨x, ⟨a, ha, rfl⟩, he⟩ := hk'
    cases a with
    | key k' =>
      simp [PatternAccessor.of] at he; subst he
      have := hk k' ha
      exact ⟨fun h => absurd h this.1, fun _ => this.2⟩
    | index j => simp [PatternAccessor.of] at he

/-- **C40**: printing is injective on the paths that read back, so different ones are never confused. -/
theorem C40_pattern_injective (p q : List PatternAccessor)
    (hp : parsePattern (showPattern p) = some p) (hq : parsePattern (showPattern q) = some q)
    (h : showPattern p = showPattern q) : p = q := by
  rw [h, hq] at hp; cases hp; rfl

/-- **C40 is false**: the schema path of the key `a b` is read as a key with quotes in it; a pattern path
with the placeholder `${a.b}` is read as two keys; and the empty path is not read at all. -/
theorem C40_roundtrip_false :
    parseSchema (showSchema [.key ['a', ' ', 'b']]) = some [.key ['"', 'a', ' ', 'b', '"']]
    ∧ parsePattern (showPattern [.key ['$', '{', 'a', '.', 'b', '}']])
        = some [.key ['$', '{', 'a'], .key ['b', '}']]
    ∧ parsePattern (showPattern [.key ['\x00']]) = none
    ∧ parsePattern (showPattern []) = none ∧ parseSchema (showSchema []) = none := by
  decide +kernel

/-- **C40**, keys in single quotes: such a key stands for itself, whatever it contains, backslashes, dots,
brackets and stars included, as long as there is no single quote and no control character other than tab. -/
theorem C40_literal_key (k : List Char) (hq : '\'' ∉ k) (hc : ∀ c ∈ k, c = '\t' ∨ (0x20 ≤ c.toNat ∧ c.toNat ≠ 0x7F)) :
    parsePattern (['\''] ++ k ++ ['\'']) = some [.key k] := by
  have scan : ∀ (k buf : List Char), '\'' ∉ k → patternLoop (.quoted '\'' false buf) [] (k ++ ['\''])
      = match decodeQuoted '\'' (buf ++ k ++ ['\'']) with
        | some k => patternLoop (.key []) [.key k] []
        | none => none := by
    intro k
    induction k with
    | nil =>
      intro buf _
      simp only [List.nil_append, List.append_nil]
      rw [patternLoop, if_neg (by decide), if_pos ⟨rfl, rfl⟩]
      cases decodeQuoted '\'' (buf ++ ['\'']) <;> rfl
    | cons c k ih =>
      intro buf h
      simp only [List.mem_cons, not_or] at h
      rw [List.cons_append, patternLoop, if_neg (by simp), if_neg (by rintro ⟨h', _⟩; exact h.1 h'.symm), ih _ h.2]
      simp
  have hd : decodeQuoted '\'' (['\''] ++ k ++ ['\'']) = some k := by
    have h1 := C15_literal_string k
    obtain ⟨o, ho⟩ := h1.1.mpr ((C15_single_line_ok k).mpr hc)
    have := h1.2 o ho
    subst this
    have ho : tryFromLiteralString (['\''] ++ o ++ ['\'']) = some (.ok o) := ho
    unfold decodeQuoted
    rw [if_neg (by decide), if_pos rfl, ho]
  have hne : ['\''] ++ k ++ ['\''] ≠ [] := by simp
  unfold parsePattern
  rw [if_neg hne]
  show patternLoop (.key []) [] ('\'' :: (k ++ ['\''])) = _
  rw [patternLoop, if_neg (by decide), if_pos ⟨.inl rfl, rfl⟩, scan k _ hq, hd]
  rfl

/-- **C40**, targets of overrides: the empty target is the root, and every other one a pattern. -/
theorem C40_override_target (target : List Char) :
    (target = [] → parseOverrideTarget target = some [])
      ∧ (target ≠ [] → parseOverrideTarget target = parsePattern target) := by
  unfold parseOverrideTarget
  exact ⟨fun h => if_pos h, fun h => if_neg h⟩

/-- Concrete cases for C40. -/
example : parsePattern "'a\\b.c[*'".toList = some [.key "a\\b.c[*".toList] := by decide +kernel
example : parsePattern "tool.*.\"a.b\"[*][12].''".toList
    = some [.key "tool".toList, .anyKey, .key "a.b".toList, .anyIndex, .index 12, .key []] := by decide +kernel
example : showPattern [.key "tool".toList, .anyKey, .key "a.b".toList, .anyIndex, .index 12, .key "*".toList]
    = "tool.*.\"a.b\"[*][12].\"*\"".toList := by decide +kernel
example : ∀ k ∈ patternKeys [.key "tool".toList, .anyKey, .key "a.b".toList, .index 12],
    (∀ c ∈ k, ¬ NoEscape c) ∧ ¬ isVariablePlaceholder k := by
  simp only [NoEscape]; decide
example : parseSchema "key1[*].key2".toList = some [.key "key1".toList, .anyIndex, .key "key2".toList] := by
  decide +kernel

/-! ### C59 -/

/-- **C59**: a path that is not the root is shown as one Markdown code span whose content is the printed path,
whatever backticks its keys contain; the root is shown as `root table`. -/
theorem C59_markdown_code_span (p : List SchemaAccessor) (hp : p ≠ []) :
    ∃ n, CodeSpan n (showSchema p) (showMarkdown p) := by
  obtain ⟨h1, h2, h3⟩ := showSchema_ends p hp
  refine ⟨maxLen (backtickRuns 0 (showSchema p)) + 1, ?_, by omega, h1, h2, h3, ?_⟩
  · unfold showMarkdown
    rw [if_neg hp]
  · intro pre post h
    have := runs_bound (showSchema p) 0 (maxLen (backtickRuns 0 (showSchema p)) + 1)
      ⟨pre, post, by simpa using h.symm⟩
    omega

/-- **C59**: the content of the code span has no line break (which Markdown would show as a blank), unless
a key of the form `${...}` has one. -/
theorem C59_markdown_one_line_partial (p : List SchemaAccessor)
    (hk : ∀ k ∈ schemaKeys p, Placeholder k → '\n' ∉ k ∧ '\r' ∉ k) :
    '\n' ∉ showSchema p ∧ '\r' ∉ showSchema p := by
  have hnat : ∀ i, '\n' ∉ showNat i ∧ '\r' ∉ showNat i := by
    intro i
    have hd : ∀ d, d < 10 → Char.ofNat (48 + d) ≠ '\n' ∧ Char.ofNat (48 + d) ≠ '\r' := by decide
    constructor <;> (intro h; obtain ⟨d, h1, h2⟩ := showNat_chars i _ h)
    · exact (hd d h1).1 h2.symm
    · exact (hd d h1).2 h2.symm
  have hkey : ∀ k, (Placeholder k → '\n' ∉ k ∧ '\r' ∉ k) → '\n' ∉ toKeyString k ∧ '\r' ∉ toKeyString k := by
    intro k h
    rcases toKeyString_cases k with ⟨hp, he⟩ | ⟨hp, hb, he⟩ | ⟨hp, hb, he⟩
    · rw [he]; exact h hp
    · rw [he]
      exact ⟨fun hm => (bare_chars hb hm).2.2.2.2.2.2.1 rfl, fun hm => (bare_chars hb hm).2.2.2.2.2.2.2 rfl⟩
    · rw [he]
      obtain ⟨items, hi, ht⟩ := toBasicString_literal k
      have hr : '\n' ∉ render items ∧ '\r' ∉ render items := by
        clear ht
        induction items with
        | nil => simp [render]
        | cons i items ih =>
          have h1 := ih fun j hj => hi j (by simp [hj])
          have h2 := hi i (by simp)
          cases i with
          | chr c => simp [Item.single] at h2; simp [render, Item.text, h1, Ne.symm h2.2.2.1, Ne.symm h2.2.2.2]
          | esc e => simp [Item.single] at h2; simp [render, Item.text, h1, Ne.symm h2.1, Ne.symm h2.2]
          | quote => exact absurd h2 (by simp [Item.single])
      rw [ht]; simp [hr]
  have hshow : ∀ a ∈ p, ('\n' ∉ a.show ∧ '\r' ∉ a.show) ∧ ('\n' ∉ a.showNext ∧ '\r' ∉ a.showNext) := by
    intro a ha
    have h1 : '\n' ∉ a.show ∧ '\r' ∉ a.show := by
      cases a with
      | key k => exact hkey k (hk k (by simp only [schemaKeys, List.mem_filterMap]; exact ⟨_, ha, rfl⟩))
      | anyIndex => decide
      | index i => simp [SchemaAccessor.show, hnat i]
    refine ⟨h1, ?_⟩
    cases a with
    | key k => simpa [SchemaAccessor.showNext] using h1
    | anyIndex => exact h1
    | index i => exact h1
  cases p with
  | nil => simp [showSchema]
  | cons a q =>
    have ha := (hshow a (by simp)).1
    simp only [showSchema, List.mem_append, List.mem_flatten, List.mem_map, not_or, not_exists, not_and]
    refine ⟨⟨ha.1, ?_⟩, ⟨ha.2, ?_⟩⟩
    · rintro l ⟨b, hb, rfl⟩; exact (hshow b (by simp [hb])).2.1
    · rintro l ⟨b, hb, rfl⟩; exact (hshow b (by simp [hb])).2.2

example : showMarkdown [] = "root table".toList := by decide
example : showMarkdown [.key "a``b`".toList, .index 3] = "```\"a``b`\"[3]```".toList := by decide +kernel
example : showMarkdown [.key "items".toList, .anyIndex, .key "name".toList] = "`items[*].name`".toList := by
  decide +kernel

/-! ### C60 -/

/-- **C60**: of a list of overrides (or sub-schemas) the one applied at a path is exactly the first one among
the most specific ones whose pattern matches the path; none is applied exactly when none matches. -/
theorem C60_most_specific {α : Type} (pattern : α → List PatternAccessor) (items : List α) (path : List Accessor) :
    (∀ x, findBest pattern items path = some x ↔ ∃ i : Nat, items[i]? = some x ∧ Best pattern items path i)
      ∧ (findBest pattern items path = none ↔ ∀ y ∈ items, ¬ Matches (pattern y) path) := by
  have hinv := bestLoop_inv pattern path items [] none (by intro y hy; simp at hy)
  rw [List.nil_append] at hinv
  unfold findBest
  cases hb : bestLoop pattern path none items with
  | none =>
    rw [hb] at hinv
    refine ⟨fun x => ?_, ?_⟩
    · simp only [Option.map_none, reduceCtorEq, false_iff]
      rintro ⟨i, _, x', h1, h2, _⟩
      exact hinv x' (List.mem_of_getElem? h1) h2
    · simp only [Option.map_none, true_iff]; exact hinv
  | some bs =>
    obtain ⟨b, s⟩ := bs
    rw [hb] at hinv
    obtain ⟨_, i, hi, hbest⟩ := hinv
    refine ⟨fun x => ?_, ?_⟩
    · simp only [Option.map_some, Option.some.injEq]
      constructor
      · rintro rfl; exact ⟨i, hi, hbest⟩
      · rintro ⟨j, hj, hbj⟩
        have := best_unique hbest hbj
        subst this
        rw [hi] at hj; cases hj; rfl
    · simp only [Option.map_some, reduceCtorEq, false_iff]
      intro h
      obtain ⟨x, h1, h2, _⟩ := hbest
      exact h x (List.mem_of_getElem? h1) h2

/-- **C60** for sub-schemas, chosen by other code: the same choice. -/
theorem C60_subschema {β : Type} (links : List (List PatternAccessor × β)) (path : List Accessor) (s : β) :
    findSubschema links path = some s
      ↔ ∃ (i : Nat) (p : List PatternAccessor), links[i]? = some (p, s) ∧ Best (·.1) links path i := by
  rw [findSubschema_eq, Option.map_eq_some_iff]
  constructor
  · rintro ⟨⟨p, s'⟩, h, rfl⟩
    obtain ⟨i, h1, h2⟩ := ((C60_most_specific (·.1) links path).1 (p, s')).mp h
    exact ⟨i, p, h1, h2⟩
  · rintro ⟨i, p, h1, h2⟩
    exact ⟨(p, s), ((C60_most_specific (·.1) links path).1 (p, s)).mpr ⟨i, h1, h2⟩, rfl⟩

/-- **C60** for sub-schemas: and there is none exactly when no pattern matches. -/
theorem C60_no_subschema {β : Type} (links : List (List PatternAccessor × β)) (path : List Accessor) :
    findSubschema links path = none ↔ ∀ l ∈ links, ¬ Matches l.1 path := by
  rw [findSubschema_eq, Option.map_eq_none_iff]
  exact (C60_most_specific (·.1) links path).2

/-- **C60**: the override for the path itself always wins over patterns with wildcards. -/
theorem C60_exact_wins {α : Type} (pattern : α → List PatternAccessor) (items : List α) (path : List Accessor)
    (x y : α) (hx : findBest pattern items path = some x) (hy : y ∈ items)
    (he : pattern y = path.map PatternAccessor.of) : pattern x = path.map PatternAccessor.of := by
  have hm : ∀ path : List Accessor, Matches (path.map PatternAccessor.of) path := by
    intro path
    induction path with
    | nil => exact ⟨rfl, by simp⟩
    | cons a as ih => exact matches_cons.mpr ⟨by cases a <;> constructor, ih⟩
  have hn : ∀ path : List Accessor, exactItems (path.map PatternAccessor.of) = path.length := by
    intro path
    induction path with
    | nil => rfl
    | cons a as ih =>
      rw [List.map_cons, exactItems_cons, ih, List.length_cons]
      cases a <;> simp [PatternAccessor.of, exactItems] <;> omega
  obtain ⟨i, _, x', h1, h2, h3⟩ := ((C60_most_specific pattern items path).1 x).mp hx
  have hxx : x' = x := by
    rename_i hi
    rw [h1] at hi; cases hi; rfl
  subst hxx
  obtain ⟨j, hj⟩ := List.getElem?_of_mem hy
  have hle := (h3 j y hj (he ▸ hm path)).1
  rw [he, hn] at hle
  have key : ∀ (p : List PatternAccessor) (path : List Accessor), Matches p path → exactItems p ≤ path.length
      ∧ (path.length ≤ exactItems p → p = path.map PatternAccessor.of) := by
    intro p
    induction p with
    | nil =>
      intro path h
      have : path = [] := by have := h.1; simp at this; exact List.eq_nil_of_length_eq_zero this.symm
      subst this; simp [exactItems]
    | cons a p ih =>
      intro path h
      cases path with
      | nil => exact absurd h.1 (by simp)
      | cons b path =>
        obtain ⟨hc, hp⟩ := matches_cons.mp h
        obtain ⟨i1, i2⟩ := ih path hp
        rw [exactItems_cons]
        cases hc with
        | key k =>
          have : exactItems [PatternAccessor.key k] = 1 := by simp [exactItems]
          rw [this]
          exact ⟨by simp; omega, fun h => by rw [i2 (by simp at h; omega)]; rfl⟩
        | index i =>
          have : exactItems [PatternAccessor.index i] = 1 := by simp [exactItems]
          rw [this]
          exact ⟨by simp; omega, fun h => by rw [i2 (by simp at h; omega)]; rfl⟩
        | anyKey k =>
          have : exactItems [PatternAccessor.anyKey] = 0 := by simp [exactItems]
          rw [this]
          exact ⟨by simp; omega, fun h => by simp at h; omega⟩
        | anyIndex i =>
          have : exactItems [PatternAccessor.anyIndex] = 0 := by simp [exactItems]
          rw [this]
          exact ⟨by simp; omega, fun h => by simp at h; omega⟩
  exact (key _ path h2).2 hle

/-- Concrete case for C60: three patterns match `tool.a[0]`, the second and the third are equally specific. -/
example : findBest (·.1) [(parseOverrideTarget "tool.*[*]".toList |>.getD [], 1),
      (parseOverrideTarget "tool.a[*]".toList |>.getD [], 2), (parseOverrideTarget "tool.*[0]".toList |>.getD [], 3)]
      [.key "tool".toList, .key "a".toList, .index 0]
    = some ([.key "tool".toList, .key "a".toList, .anyIndex], 2) := by decide +kernel
example : findSubschema [([.anyKey], 1), ([PatternAccessor.key "a".toList], 2)] [.key "a".toList] = some 2 := by
  decide +kernel

end Tombi.Accessor
