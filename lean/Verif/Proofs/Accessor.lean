import Verif.Spec.Accessor
import Verif.Props.TomlText
/-! Lemmas for C40, C59, C60. -/
namespace Tombi.Accessor
open TomlText Spec Spec.Accessor

/-! ### numbers -/

theorem radixLoop_append (r : Nat) (xs ys : List Char) : ∀ acc,
    radixLoop r acc (xs ++ ys) = (radixLoop r acc xs).bind fun a => radixLoop r a ys := by
  induction xs with
  | nil => intro acc; rfl
  | cons x xs ih =>
    intro acc
    simp only [List.cons_append, radixLoop]
    cases toDigit r x with
    | none => rfl
    | some d => exact ih _

theorem toDigit_digit : ∀ d, d < 10 → toDigit 10 (Char.ofNat (48 + d)) = some d := by
  decide

theorem digit_cases : ∀ d, d < 10 → Char.ofNat (48 + d) ≠ ']' ∧ Char.ofNat (48 + d) ≠ '*'
    ∧ Char.ofNat (48 + d) ≠ '+' := by
  decide

theorem digitsRev_value : ∀ fuel n, n < fuel → radixLoop 10 0 (digitsRev fuel n).reverse = some n := by
  intro fuel
  induction fuel with
  | zero => intro n h; omega
  | succ fuel ih =>
    intro n h
    have hd := toDigit_digit (n % 10) (Nat.mod_lt _ (by decide))
    unfold digitsRev
    rw [List.reverse_cons, radixLoop_append]
    by_cases h0 : n / 10 = 0
    · rw [if_pos h0]
      simp only [List.reverse_nil, radixLoop, Option.bind_some, hd]
      exact congrArg some (by omega)
    · rw [if_neg h0, ih _ (by omega)]
      simp only [radixLoop, Option.bind_some, hd]
      exact congrArg some (by omega)

theorem digitsRev_chars : ∀ fuel n, ∀ c ∈ digitsRev fuel n, ∃ d, d < 10 ∧ c = Char.ofNat (48 + d) := by
  intro fuel
  induction fuel with
  | zero => intro n c hc; simp [digitsRev] at hc
  | succ fuel ih =>
    intro n c hc
    simp only [digitsRev, List.mem_cons] at hc
    rcases hc with h | h
    · exact ⟨_, Nat.mod_lt _ (by decide), h⟩
    · split at h
      · simp at h
      · exact ih _ _ h

theorem showNat_chars (n : Nat) : ∀ c ∈ showNat n, ∃ d, d < 10 ∧ c = Char.ofNat (48 + d) := by
  intro c hc
  exact digitsRev_chars _ _ c (by simpa [showNat] using hc)

theorem showNat_ne_nil (n : Nat) : showNat n ≠ [] := by
  simp [showNat, digitsRev]

theorem showNat_no_close (n : Nat) : ']' ∉ showNat n := by
  intro h
  obtain ⟨d, hd, he⟩ := showNat_chars n _ h
  exact (digit_cases d hd).1 he.symm

theorem showNat_ne_star (n : Nat) : showNat n ≠ ['*'] := by
  intro h
  obtain ⟨d, hd, he⟩ := showNat_chars n '*' (by simp [h])
  exact (digit_cases d hd).2.1 he.symm

theorem usizeFromStr_showNat (n : Nat) (h : n < 2 ^ 64) : usizeFromStr (showNat n) = some n := by
  have hne := showNat_ne_nil n
  have hv : radixLoop 10 0 (showNat n) = some n := digitsRev_value _ _ (by omega)
  unfold usizeFromStr
  have hm : dropPlus (showNat n) = showNat n := by
    unfold dropPlus
    split
    · next ds heq =>
      obtain ⟨d, hd, he⟩ := showNat_chars n '+' (by rw [heq]; simp)
      exact absurd he.symm (digit_cases d hd).2.2
    · rfl
  rw [hm]
  simp only [hne, if_false, hv, if_pos h]

/-! ### printed keys -/

theorem isVariablePlaceholder_iff (k : List Char) : isVariablePlaceholder k = true ↔ Placeholder k := by
  unfold isVariablePlaceholder Placeholder
  simp only [Bool.and_eq_true, List.isPrefixOf_iff_prefix, List.isSuffixOf_iff_suffix]
  constructor
  · rintro ⟨⟨t, h1⟩, ⟨u, h2⟩⟩
    have ht : t ≠ [] := by
      rintro rfl
      rw [← h1] at h2
      have := congrArg List.getLast? h2
      simp at this
    obtain ⟨m, z, rfl⟩ : ∃ m z, t = m ++ [z] :=
      ⟨t.dropLast, t.getLast ht, (List.dropLast_concat_getLast ht).symm⟩
    refine ⟨m, ?_⟩
    rw [← h1] at h2
    have h3 : u ++ ['}'] = (['$', '{'] ++ m) ++ [z] := by rw [h2]; simp
    have := List.append_inj' h3 rfl
    rw [← h1]
    simp at this
    simp [← this.2]
  · rintro ⟨m, rfl⟩
    exact ⟨⟨m ++ ['}'], by simp⟩, ⟨['$', '{'] ++ m, by simp⟩⟩

theorem isDisplayBareKey_iff' (k : List Char) : isDisplayBareKey k = true ↔ Bare k := isDisplayBareKey_iff k

/-- The three ways a key is printed. -/
theorem toKeyString_cases (k : List Char) :
    (Placeholder k ∧ toKeyString k = k) ∨ (¬ Placeholder k ∧ Bare k ∧ toKeyString k = k)
      ∨ (¬ Placeholder k ∧ ¬ Bare k ∧ toKeyString k = toBasicString k) := by
  unfold toKeyString
  by_cases h1 : Placeholder k
  · exact .inl ⟨h1, by rw [(isVariablePlaceholder_iff k).mpr h1]; simp⟩
  · have h1' : isVariablePlaceholder k = false := by
      apply Bool.eq_false_iff.mpr; intro h; exact h1 ((isVariablePlaceholder_iff k).mp h)
    by_cases h2 : Bare k
    · exact .inr (.inl ⟨h1, h2, by rw [(isDisplayBareKey_iff' k).mpr h2]; simp⟩)
    · have h2' : isDisplayBareKey k = false := by
        apply Bool.eq_false_iff.mpr; intro h; exact h2 ((isDisplayBareKey_iff' k).mp h)
      exact .inr (.inr ⟨h1, h2, by rw [h1', h2']; simp⟩)

/-- a character that does not end a key -/
def keyChar (c : Char) : Bool := c ≠ '.' && c ≠ '['

theorem bare_chars {k : List Char} (h : Bare k) {c : Char} (hc : c ∈ k) :
    keyChar c = true ∧ c ≠ '\'' ∧ c ≠ '"' ∧ c ≠ '*' ∧ c ≠ '`' ∧ c ≠ ' ' ∧ c ≠ '\n' ∧ c ≠ '\r' := by
  have := h.2 c hc
  refine ⟨?_, ?_, ?_, ?_, ?_, ?_, ?_, ?_⟩
  · simp only [keyChar, Bool.and_eq_true, decide_eq_true_eq]
    constructor <;> (rintro rfl; revert this; decide)
  all_goals (rintro rfl; revert this; decide)

theorem not_noEscape_of_bare {k : List Char} (h : Bare k) : ∀ c ∈ k, ¬ NoEscape c := by
  intro c hc hn
  have := h.2 c hc
  rcases hn with rfl | rfl | rfl | rfl <;> (revert this; decide)

theorem noEscape_iff (c : Char) : NoEscape c ↔ Unwritable .V1_0_0 c := by
  simp [NoEscape, Unwritable]

/-! ### decoding of quoted keys -/

theorem decodeQuoted_no_panic (q : Char) (hq : q.utf8Size = 1) (body : List Char) :
    (tryFromBasicString ([q] ++ body ++ [q]) .V1_0_0).isSome ∧ (tryFromLiteralString ([q] ++ body ++ [q])).isSome := by
  unfold tryFromBasicString tryFromLiteralString
  rw [inner_quotes q hq]; simp

theorem decodeQuoted_ok (k : List Char) (h : ∀ c ∈ k, ¬ NoEscape c) :
    decodeQuoted '"' (toBasicString k) = some k := by
  have := (C14_roundtrip_partial k .V1_0_0).mpr fun c hc hu => h c hc ((noEscape_iff c).mpr hu)
  simp [decodeQuoted, this]

theorem decodeQuoted_bad (k : List Char) (h : ¬ ∀ c ∈ k, ¬ NoEscape c) :
    decodeQuoted '"' (toBasicString k) = none := by
  unfold decodeQuoted
  rw [if_pos rfl]
  split
  · next s hs =>
    have := C14_never_misread k .V1_0_0 s hs
    subst this
    exact absurd (fun c hc hu => (C14_roundtrip_partial s .V1_0_0).mp hs c hc ((noEscape_iff c).mp hu)) h
  · rfl

/-- what happens at the closing quote -/
def closeQuoted (acc : List PatternAccessor) (text post : List Char) : Option (List PatternAccessor) :=
  match decodeQuoted '"' text with
  | some k => patternLoop (.key []) (acc ++ [.key k]) post
  | none => none

theorem quoted_scan (items : List Item) (h : ∀ i ∈ items, i.single) : ∀ (buf post : List Char) acc,
    patternLoop (.quoted '"' false buf) acc (render items ++ '"' :: post)
      = closeQuoted acc (buf ++ render items ++ ['"']) post := by
  induction items with
  | nil =>
    intro buf post acc
    simp only [render, List.nil_append, List.append_nil]
    rw [patternLoop, if_neg (by decide), if_pos ⟨rfl, rfl⟩]
    unfold closeQuoted
    cases decodeQuoted '"' (buf ++ ['"']) <;> rfl
  | cons i items ih =>
    intro buf post acc
    have ih' := ih fun j hj => h j (by simp [hj])
    have hi := h i (by simp)
    cases i with
    | chr c =>
      simp only [Item.single] at hi
      simp only [render, Item.text, List.cons_append, List.nil_append]
      rw [patternLoop, if_neg (by simp [hi.2.1]), if_neg (by simp [hi.1]), ih']
      simp
    | esc e =>
      simp only [render, Item.text, List.cons_append, List.nil_append]
      rw [patternLoop, if_pos (by simp), patternLoop, if_neg (by simp), if_neg (by simp), ih']
      simp
    | quote => exact absurd hi (by simp [Item.single])

theorem quoted_key (k post : List Char) (acc : List PatternAccessor) :
    patternLoop (.key []) acc (toBasicString k ++ post) = closeQuoted acc (toBasicString k) post := by
  obtain ⟨items, h1, h2⟩ := toBasicString_literal k
  rw [h2, List.cons_append, patternLoop, if_neg (by decide), if_pos (by simp)]
  have := quoted_scan items h1 ['"'] post acc
  simpa using this

/-! ### scanning keys and indices -/

theorem keyChar_iff (c : Char) : keyChar c = true ↔ c ≠ '.' ∧ c ≠ '[' := by simp [keyChar]

theorem pattern_scan (k : List Char) (h : ∀ c ∈ k, keyChar c = true) : ∀ cur acc post, cur ≠ [] →
    patternLoop (.key cur) acc (k ++ post) = patternLoop (.key (cur ++ k)) acc post := by
  induction k with
  | nil => intro cur acc post _; simp
  | cons c k ih =>
    intro cur acc post hc
    have h1 := (keyChar_iff c).mp (h c (by simp))
    rw [List.cons_append, patternLoop, if_neg h1.2, if_neg (by simp [hc]), if_neg h1.1,
      ih (fun d hd => h d (by simp [hd])) _ _ _ (by simp)]
    simp

theorem pattern_scan_first (k : List Char) (h : ∀ c ∈ k, keyChar c = true)
    (hq : k.head? ≠ some '\'' ∧ k.head? ≠ some '"') (acc post) :
    patternLoop (.key []) acc (k ++ post) = patternLoop (.key k) acc post := by
  cases k with
  | nil => rfl
  | cons c k =>
    have h1 := (keyChar_iff c).mp (h c (by simp))
    simp only [List.head?_cons, ne_eq, Option.some.injEq] at hq
    rw [List.cons_append, patternLoop, if_neg h1.2, if_neg (by simp [hq]), if_neg h1.1,
      pattern_scan k (fun d hd => h d (by simp [hd])) _ _ _ (by simp)]
    simp

theorem schema_scan (k : List Char) (h : ∀ c ∈ k, keyChar c = true) : ∀ cur acc post,
    schemaLoop (.key cur) acc (k ++ post) = schemaLoop (.key (cur ++ k)) acc post := by
  induction k with
  | nil => intro cur acc post; simp
  | cons c k ih =>
    intro cur acc post
    have h1 := (keyChar_iff c).mp (h c (by simp))
    rw [List.cons_append, schemaLoop, if_neg h1.2, if_neg h1.1, ih (fun d hd => h d (by simp [hd]))]
    simp

theorem pattern_index_scan (t : List Char) (h : ']' ∉ t) : ∀ buf acc post,
    patternLoop (.index buf) acc (t ++ ']' :: post)
      = (patternIndex (buf ++ t)).bind fun a => patternLoop (.key []) (acc ++ [a]) post := by
  induction t with
  | nil =>
    intro buf acc post
    simp only [List.nil_append, List.append_nil]
    rw [patternLoop, if_pos rfl]
    cases patternIndex buf <;> rfl
  | cons c t ih =>
    intro buf acc post
    rw [List.cons_append, patternLoop, if_neg (by rintro rfl; simp at h), ih (fun hm => h (by simp [hm]))]
    simp

theorem schema_index_scan (t : List Char) (h : ']' ∉ t) : ∀ buf acc post,
    schemaLoop (.index buf) acc (t ++ ']' :: post)
      = (schemaIndex (buf ++ t)).bind fun a => schemaLoop (.key []) (acc ++ [a]) post := by
  induction t with
  | nil =>
    intro buf acc post
    simp only [List.nil_append, List.append_nil]
    rw [schemaLoop, if_pos rfl]
    cases schemaIndex buf <;> rfl
  | cons c t ih =>
    intro buf acc post
    rw [List.cons_append, schemaLoop, if_neg (by rintro rfl; simp at h), ih (fun hm => h (by simp [hm]))]
    simp

theorem patternIndex_showNat (n : Nat) (h : n < 2 ^ 64) : patternIndex (showNat n) = some (.index n) := by
  unfold patternIndex
  rw [if_neg (showNat_ne_star n), usizeFromStr_showNat n h]

theorem schemaIndex_showNat (n : Nat) (h : n < 2 ^ 64) : schemaIndex (showNat n) = some (.index n) := by
  unfold schemaIndex
  rw [if_neg (showNat_ne_star n), usizeFromStr_showNat n h]

/-! ### the loops only append -/

theorem pattern_prefix : ∀ (s : List Char) (m : Mode) (acc r : List PatternAccessor),
    patternLoop m acc s = some r → acc <+: r := by
  have hf : ∀ cur acc, acc <+: flushPattern cur acc := by
    intro cur acc; unfold flushPattern; split
    · exact List.prefix_rfl
    · exact List.prefix_append _ _
  intro s
  induction s with
  | nil =>
    intro m acc r h
    cases m with
    | key cur => simp only [patternLoop, Option.some.injEq] at h; subst h; exact hf _ _
    | index b => simp [patternLoop] at h
    | quoted q e t => simp [patternLoop] at h
  | cons c s ih =>
    intro m acc r h
    cases m with
    | key cur =>
      rw [patternLoop] at h
      split at h
      · exact (hf _ _).trans (ih _ _ _ h)
      · split at h
        · exact ih _ _ _ h
        · split at h
          · exact (hf _ _).trans (ih _ _ _ h)
          · exact ih _ _ _ h
    | index b =>
      rw [patternLoop] at h
      split at h
      · split at h
        · exact (List.prefix_append _ _).trans (ih _ _ _ h)
        · simp at h
      · exact ih _ _ _ h
    | quoted q e t =>
      rw [patternLoop] at h
      split at h
      · exact ih _ _ _ h
      · split at h
        · split at h
          · exact (List.prefix_append _ _).trans (ih _ _ _ h)
          · simp at h
        · exact ih _ _ _ h

theorem schema_prefix : ∀ (s : List Char) (m : Mode) (acc r : List SchemaAccessor),
    schemaLoop m acc s = some r → acc <+: r := by
  have hf : ∀ cur acc, acc <+: flushSchema cur acc := by
    intro cur acc; unfold flushSchema; split
    · exact List.prefix_rfl
    · exact List.prefix_append _ _
  intro s
  induction s with
  | nil =>
    intro m acc r h
    cases m with
    | key cur => simp only [schemaLoop, Option.some.injEq] at h; subst h; exact hf _ _
    | index b => simp [schemaLoop] at h
    | quoted q e t => simp [schemaLoop] at h
  | cons c s ih =>
    intro m acc r h
    cases m with
    | key cur =>
      rw [schemaLoop] at h
      split at h
      · exact (hf _ _).trans (ih _ _ _ h)
      · split at h
        · exact (hf _ _).trans (ih _ _ _ h)
        · exact ih _ _ _ h
    | index b =>
      rw [schemaLoop] at h
      split at h
      · split at h
        · exact (List.prefix_append _ _).trans (ih _ _ _ h)
        · simp at h
      · exact ih _ _ _ h
    | quoted q e t => simp [schemaLoop] at h

/-- with a current key, the next accessor is that key with everything up to the next dot or bracket -/
theorem pattern_next : ∀ (s cur : List Char) (acc r : List PatternAccessor), cur ≠ [] →
    patternLoop (.key cur) acc s = some r → acc ++ [parseKeyOrWildcard (cur ++ s.takeWhile keyChar)] <+: r := by
  intro s
  induction s with
  | nil =>
    intro cur acc r hc h
    simp only [patternLoop, flushPattern, hc, if_false, Option.some.injEq] at h
    subst h; simp
  | cons c s ih =>
    intro cur acc r hc h
    rw [patternLoop] at h
    by_cases h1 : c = '['
    · subst h1
      rw [if_pos rfl] at h
      have := pattern_prefix _ _ _ _ h
      simpa [flushPattern, hc, keyChar] using this
    · rw [if_neg h1, if_neg (by simp [hc])] at h
      by_cases h2 : c = '.'
      · subst h2
        rw [if_pos rfl] at h
        have := pattern_prefix _ _ _ _ h
        simpa [flushPattern, hc, keyChar] using this
      · rw [if_neg h2] at h
        have := ih _ _ _ (by simp) h
        rw [List.takeWhile_cons_of_pos ((keyChar_iff c).mpr ⟨h2, h1⟩)]
        simpa using this

theorem schema_next : ∀ (s cur : List Char) (acc r : List SchemaAccessor), cur ≠ [] →
    schemaLoop (.key cur) acc s = some r → acc ++ [.key (cur ++ s.takeWhile keyChar)] <+: r := by
  intro s
  induction s with
  | nil =>
    intro cur acc r hc h
    simp only [schemaLoop, flushSchema, hc, if_false, Option.some.injEq] at h
    subst h; simp
  | cons c s ih =>
    intro cur acc r hc h
    rw [schemaLoop] at h
    by_cases h1 : c = '['
    · subst h1
      rw [if_pos rfl] at h
      have := schema_prefix _ _ _ _ h
      simpa [flushSchema, hc, keyChar] using this
    · rw [if_neg h1] at h
      by_cases h2 : c = '.'
      · subst h2
        rw [if_pos rfl] at h
        have := schema_prefix _ _ _ _ h
        simpa [flushSchema, hc, keyChar] using this
      · rw [if_neg h2] at h
        have := ih _ _ _ (by simp) h
        rw [List.takeWhile_cons_of_pos ((keyChar_iff c).mpr ⟨h2, h1⟩)]
        simpa using this

/-! ### the pattern parser on printed paths -/

/-- the keys that read back: placeholders without dot and bracket, other keys without the four controls -/
def PatternKeyOk (k : List Char) : Prop :=
  (Placeholder k → '.' ∉ k ∧ '[' ∉ k) ∧ (¬ Placeholder k → ∀ c ∈ k, ¬ NoEscape c)

def PatternOk : PatternAccessor → Prop
  | .key k => PatternKeyOk k
  | _ => True

def IndexOk : PatternAccessor → Prop
  | .index i => i < 2 ^ 64
  | _ => True

theorem placeholder_head {k : List Char} (h : Placeholder k) : ∃ t, k = '$' :: t := by
  obtain ⟨m, rfl⟩ := h; exact ⟨_, rfl⟩

theorem plain_not_star {k : List Char} (h : Placeholder k ∨ Bare k) : parseKeyOrWildcard k = .key k := by
  unfold parseKeyOrWildcard
  rw [if_neg]
  rintro rfl
  rcases h with h | h
  · obtain ⟨t, ht⟩ := placeholder_head h; simp at ht
  · exact (bare_chars h (c := '*') (by simp)).2.2.2.1 rfl

theorem plain_head {k : List Char} (h : Placeholder k ∨ Bare k) : k.head? ≠ some '\'' ∧ k.head? ≠ some '"' := by
  rcases h with h | h
  · obtain ⟨t, rfl⟩ := placeholder_head h; simp
  · cases k with
    | nil => simp
    | cons c k =>
      have := bare_chars h (c := c) (by simp)
      simp [this]

theorem plain_ne_nil {k : List Char} (h : Placeholder k ∨ Bare k) : k ≠ [] := by
  rcases h with h | h
  · obtain ⟨t, rfl⟩ := placeholder_head h; simp
  · exact h.1

theorem pattern_dot (cur : List Char) (acc post) :
    patternLoop (.key cur) acc ('.' :: post) = patternLoop (.key []) (flushPattern cur acc) post := by
  rw [patternLoop, if_neg (by decide), if_neg (by simp), if_pos rfl]

theorem pattern_bracket (cur : List Char) (acc post) :
    patternLoop (.key cur) acc ('[' :: post) = patternLoop (.index []) (flushPattern cur acc) post := by
  rw [patternLoop, if_pos rfl]

theorem flushPattern_nil (acc : List PatternAccessor) : flushPattern [] acc = acc := by simp [flushPattern]

/-- The state after one printed accessor: either it has been pushed, or it is in `current_key`. -/
theorem pattern_one (a : PatternAccessor) (ha : PatternOk a) (hi : IndexOk a) (cur : List Char)
    (acc : List PatternAccessor) (post : List Char) : ∃ cur' acc',
    patternLoop (.key cur) acc (a.showNext ++ post) = patternLoop (.key cur') acc' post
      ∧ flushPattern cur' acc' = flushPattern cur acc ++ [a] := by
  cases a with
  | key k =>
    simp only [PatternAccessor.showNext, PatternAccessor.show, List.cons_append, pattern_dot]
    rcases toKeyString_cases k with ⟨hp, he⟩ | ⟨hp, hb, he⟩ | ⟨hp, hb, he⟩
    · refine ⟨k, flushPattern cur acc, ?_, ?_⟩
      · rw [he]
        refine pattern_scan_first k (fun c hc => (keyChar_iff c).mpr ?_) (plain_head (.inl hp)) _ _
        have := ha.1 hp
        exact ⟨fun e => this.1 (e ▸ hc), fun e => this.2 (e ▸ hc)⟩
      · rw [flushPattern, if_neg (plain_ne_nil (.inl hp)), plain_not_star (.inl hp)]
    · refine ⟨k, flushPattern cur acc, ?_, ?_⟩
      · rw [he]
        exact pattern_scan_first k (fun c hc => (bare_chars hb hc).1) (plain_head (.inr hb)) _ _
      · rw [flushPattern, if_neg (plain_ne_nil (.inr hb)), plain_not_star (.inr hb)]
    · refine ⟨[], flushPattern cur acc ++ [.key k], ?_, flushPattern_nil _⟩
      rw [he, quoted_key, closeQuoted, decodeQuoted_ok k (ha.2 hp)]
  | anyKey =>
    refine ⟨['*'], flushPattern cur acc, ?_, by simp [flushPattern, parseKeyOrWildcard]⟩
    simp only [PatternAccessor.showNext, PatternAccessor.show, List.cons_append, List.nil_append, pattern_dot]
    rw [patternLoop, if_neg (by decide), if_neg (by decide), if_neg (by decide)]; rfl
  | anyIndex =>
    refine ⟨[], flushPattern cur acc ++ [.anyIndex], ?_, flushPattern_nil _⟩
    simp only [PatternAccessor.showNext, PatternAccessor.show, List.cons_append, List.nil_append, pattern_bracket]
    exact pattern_index_scan ['*'] (by decide) [] _ post
  | index i =>
    refine ⟨[], flushPattern cur acc ++ [.index i], ?_, flushPattern_nil _⟩
    simp only [PatternAccessor.showNext, PatternAccessor.show, List.cons_append, List.append_assoc,
      List.nil_append, pattern_bracket]
    rw [pattern_index_scan _ (showNat_no_close i), List.nil_append, patternIndex_showNat i hi]; rfl

/-- A key that is not readable: the parser fails, or the next accessor is another one. -/
theorem pattern_one_bad (k : List Char) (hk : ¬ PatternKeyOk k) (cur : List Char)
    (acc : List PatternAccessor) (post : List Char) (r : List PatternAccessor)
    (h : patternLoop (.key cur) acc ((PatternAccessor.key k).showNext ++ post) = some r) :
    ∃ b, b ≠ .key k ∧ flushPattern cur acc ++ [b] <+: r := by
  simp only [PatternAccessor.showNext, PatternAccessor.show, List.cons_append, pattern_dot] at h
  rcases toKeyString_cases k with ⟨hp, he⟩ | ⟨hp, hb, he⟩ | ⟨hp, hb, he⟩
  · rw [he] at h
    obtain ⟨t, rfl⟩ := placeholder_head hp
    have hbad : ¬ ∀ c ∈ ('$' :: t), keyChar c = true := by
      intro hall
      apply hk
      refine ⟨fun _ => ⟨fun hm => ?_, fun hm => ?_⟩, fun hn => absurd hp hn⟩
      · exact absurd (hall _ hm) (by decide)
      · exact absurd (hall _ hm) (by decide)
    rw [List.cons_append, patternLoop, if_neg (by decide), if_neg (by decide), if_neg (by decide)] at h
    have hnext := pattern_next _ _ _ _ (by simp) h
    refine ⟨_, ?_, hnext⟩
    intro heq
    apply hbad
    unfold parseKeyOrWildcard at heq
    split at heq
    · cases heq
    · simp only [List.nil_append, List.cons_append, PatternAccessor.key.injEq, List.cons.injEq, true_and] at heq
      intro c hc
      rcases List.mem_cons.mp hc with rfl | hc
      · decide
      · rw [← heq] at hc
        exact List.all_eq_true.mp (List.all_takeWhile (l := t ++ post)) c hc
  · exact absurd ⟨fun h => absurd h hp, fun _ => not_noEscape_of_bare hb⟩ hk
  · rw [he, quoted_key, closeQuoted, decodeQuoted_bad k] at h
    · cases h
    · intro hall
      exact hk ⟨fun h => absurd h hp, fun _ => hall⟩

theorem pattern_all (q : List PatternAccessor) (ho : ∀ a ∈ q, PatternOk a) (hi : ∀ a ∈ q, IndexOk a) :
    ∀ cur acc, patternLoop (.key cur) acc (q.map PatternAccessor.showNext).flatten
      = some (flushPattern cur acc ++ q) := by
  induction q with
  | nil => intro cur acc; simp [patternLoop]
  | cons a q ih =>
    intro cur acc
    simp only [List.map_cons, List.flatten_cons]
    obtain ⟨cur', acc', h1, h2⟩ := pattern_one a (ho a (by simp)) (hi a (by simp)) cur acc
      (q.map PatternAccessor.showNext).flatten
    rw [h1, ih (fun b hb => ho b (by simp [hb])) (fun b hb => hi b (by simp [hb])), h2]
    simp

theorem pattern_all_bad (q : List PatternAccessor) (ho : ¬ ∀ a ∈ q, PatternOk a) (hi : ∀ a ∈ q, IndexOk a) :
    ∀ cur acc, patternLoop (.key cur) acc (q.map PatternAccessor.showNext).flatten
      ≠ some (flushPattern cur acc ++ q) := by
  induction q with
  | nil => exact absurd (by simp) ho
  | cons a q ih =>
    intro cur acc h
    simp only [List.map_cons, List.flatten_cons] at h
    by_cases ha : PatternOk a
    · obtain ⟨cur', acc', h1, h2⟩ := pattern_one a ha (hi a (by simp)) cur acc
        (q.map PatternAccessor.showNext).flatten
      rw [h1] at h
      refine ih (fun hall => ho ?_) (fun b hb => hi b (by simp [hb])) cur' acc' ?_
      · intro b hb
        rcases List.mem_cons.mp hb with rfl | hb
        · exact ha
        · exact hall b hb
      · rw [h, h2]; simp
    · cases a with
      | key k =>
        obtain ⟨b, hb, hpre⟩ := pattern_one_bad k ha cur acc _ _ h
        obtain ⟨t, ht⟩ := hpre
        rw [List.append_assoc] at ht
        have := List.append_cancel_left ht
        simp at this
        exact hb this.1
      | _ => exact ha trivial

/-- the dot before a first key does nothing -/
theorem pattern_first (a : PatternAccessor) (post : List Char) :
    patternLoop (.key []) [] (a.show ++ post) = patternLoop (.key []) [] (a.showNext ++ post) := by
  cases a <;> simp [PatternAccessor.showNext, pattern_dot, flushPattern]

theorem show_ne_nil (k : List Char) : toKeyString k ≠ [] := by
  rcases toKeyString_cases k with ⟨hp, he⟩ | ⟨hp, hb, he⟩ | ⟨hp, hb, he⟩
  · rw [he]; exact plain_ne_nil (.inl hp)
  · rw [he]; exact plain_ne_nil (.inr hb)
  · rw [he]; simp [toBasicString]

theorem patternShow_ne_nil (a : PatternAccessor) : a.show ≠ [] := by
  cases a <;> simp [PatternAccessor.show, show_ne_nil]

theorem parsePattern_showPattern (p : List PatternAccessor) (hp : p ≠ []) :
    parsePattern (showPattern p) = patternLoop (.key []) [] (p.map PatternAccessor.showNext).flatten := by
  cases p with
  | nil => exact absurd rfl hp
  | cons a q =>
    unfold parsePattern showPattern
    rw [if_neg (by simp [patternShow_ne_nil a]), pattern_first]; rfl

/-! ### the schema parser on printed paths -/

def SchemaKeyOk (k : List Char) : Prop := Bare k ∨ (Placeholder k ∧ '.' ∉ k ∧ '[' ∉ k)

def SchemaOk : SchemaAccessor → Prop
  | .key k => SchemaKeyOk k
  | .anyIndex => True
  | .index _ => True

def SchemaIndexOk : SchemaAccessor → Prop
  | .index i => i < 2 ^ 64
  | .key _ => True
  | .anyIndex => True

theorem schema_dot (cur : List Char) (acc post) :
    schemaLoop (.key cur) acc ('.' :: post) = schemaLoop (.key []) (flushSchema cur acc) post := by
  rw [schemaLoop, if_neg (by decide), if_pos rfl]

theorem schema_bracket (cur : List Char) (acc post) :
    schemaLoop (.key cur) acc ('[' :: post) = schemaLoop (.index []) (flushSchema cur acc) post := by
  rw [schemaLoop, if_pos rfl]

theorem flushSchema_nil (acc : List SchemaAccessor) : flushSchema [] acc = acc := by simp [flushSchema]

theorem schemaKeyOk_plain {k : List Char} (h : SchemaKeyOk k) :
    toKeyString k = k ∧ k ≠ [] ∧ ∀ c ∈ k, keyChar c = true := by
  rcases toKeyString_cases k with ⟨hp, he⟩ | ⟨hp, hb, he⟩ | ⟨hp, hb, he⟩
  · refine ⟨he, plain_ne_nil (.inl hp), fun c hc => ?_⟩
    rcases h with h | h
    · exact (bare_chars h hc).1
    · exact (keyChar_iff c).mpr ⟨fun e => h.2.1 (e ▸ hc), fun e => h.2.2 (e ▸ hc)⟩
  · exact ⟨he, hb.1, fun c hc => (bare_chars hb hc).1⟩
  · rcases h with h | h
    · exact absurd h hb
    · exact absurd h.1 hp

theorem schema_one (a : SchemaAccessor) (ha : SchemaOk a) (hi : SchemaIndexOk a) (cur : List Char)
    (acc : List SchemaAccessor) (post : List Char) : ∃ cur' acc',
    schemaLoop (.key cur) acc (a.showNext ++ post) = schemaLoop (.key cur') acc' post
      ∧ flushSchema cur' acc' = flushSchema cur acc ++ [a] := by
  cases a with
  | key k =>
    obtain ⟨he, hne, hc⟩ := schemaKeyOk_plain ha
    refine ⟨k, flushSchema cur acc, ?_, by rw [flushSchema, if_neg hne]⟩
    simp only [SchemaAccessor.showNext, SchemaAccessor.show, List.cons_append, schema_dot, he]
    exact schema_scan k hc [] _ _
  | anyIndex =>
    refine ⟨[], flushSchema cur acc ++ [.anyIndex], ?_, flushSchema_nil _⟩
    simp only [SchemaAccessor.showNext, SchemaAccessor.show, List.cons_append, List.nil_append, schema_bracket]
    exact schema_index_scan ['*'] (by decide) [] _ post
  | index i =>
    refine ⟨[], flushSchema cur acc ++ [.index i], ?_, flushSchema_nil _⟩
    simp only [SchemaAccessor.showNext, SchemaAccessor.show, List.cons_append, List.append_assoc,
      List.nil_append, schema_bracket]
    rw [schema_index_scan _ (showNat_no_close i), List.nil_append, schemaIndex_showNat i hi]; rfl

theorem hexDigit_keyChar : ∀ n, n < 16 → keyChar (hexDigit n) = true := by decide

theorem forall_mem_ite {P : Prop} [Decidable P] {Q : Char → Prop} {a b : List Char} (ha : ∀ x ∈ a, Q x)
    (hb : ∀ x ∈ b, Q x) : ∀ x ∈ (if P then a else b), Q x := by
  split
  · exact ha
  · exact hb

theorem escapeChar_keyChar (c : Char) (h : keyChar c = true) : ∀ x ∈ escapeChar c, keyChar x = true := by
  unfold escapeChar
  iterate 11 refine forall_mem_ite (by decide) ?_
  refine forall_mem_ite ?_ (by simpa using h)
  intro x hx
  simp only [formatU, List.mem_cons, List.not_mem_nil, or_false] at hx
  rcases hx with rfl | rfl | rfl | rfl | rfl | rfl
  · decide
  · decide
  all_goals exact hexDigit_keyChar _ (Nat.mod_lt _ (by decide))

theorem toBasicString_keyChar (k : List Char) (h : ∀ c ∈ k, keyChar c = true) :
    ∀ x ∈ toBasicString k, keyChar x = true := by
  intro x hx
  simp only [toBasicString, List.mem_append, List.mem_cons, List.not_mem_nil, or_false, List.mem_flatten,
    List.mem_map] at hx
  rcases hx with (rfl | ⟨l, ⟨c, hc, rfl⟩, hx⟩) | rfl
  · decide
  · exact escapeChar_keyChar c (h c hc) x hx
  · decide

theorem escapeChar_pos (c : Char) : 1 ≤ (escapeChar c).length := by
  obtain ⟨h, t, he, _⟩ := basicStep_escapeChar .V1_0_0 c
  rw [he]; simp

theorem toBasicString_length (k : List Char) : k.length + 2 ≤ (toBasicString k).length := by
  have : k.length ≤ (k.map escapeChar).flatten.length := by
    induction k with
    | nil => simp
    | cons c k ih =>
      have := escapeChar_pos c
      simp only [List.map_cons, List.flatten_cons, List.length_append, List.length_cons]
      omega
  simp only [toBasicString, List.length_append, List.length_cons, List.length_nil]
  omega

/-- the printed rest of a path is empty or starts with a dot or bracket -/
theorem schema_rest_head (q : List SchemaAccessor) :
    ((q.map SchemaAccessor.showNext).flatten).takeWhile keyChar = [] := by
  cases q with
  | nil => rfl
  | cons a q =>
    cases a <;>
      simp [SchemaAccessor.showNext, SchemaAccessor.show, keyChar]

theorem takeWhile_append_all {p : Char → Bool} {xs ys : List Char} (h : ∀ x ∈ xs, p x = true)
    (hy : ys.takeWhile p = []) : (xs ++ ys).takeWhile p = xs := by
  rw [List.takeWhile_append_of_pos h, hy, List.append_nil]

theorem schema_one_bad (k : List Char) (hk : ¬ SchemaKeyOk k) (cur : List Char)
    (acc : List SchemaAccessor) (q : List SchemaAccessor) (r : List SchemaAccessor)
    (h : schemaLoop (.key cur) acc ((SchemaAccessor.key k).showNext
      ++ (q.map SchemaAccessor.showNext).flatten) = some r) :
    ∃ b, b ≠ .key k ∧ flushSchema cur acc ++ [b] <+: r := by
  simp only [SchemaAccessor.showNext, SchemaAccessor.show, List.cons_append, schema_dot] at h
  have key : ∃ c t, toKeyString k = c :: t ∧ keyChar c = true ∧
      (c :: ((t ++ (q.map SchemaAccessor.showNext).flatten).takeWhile keyChar)) ≠ k := by
    have hdot : ¬ (∀ c ∈ k, keyChar c = true) → ∀ c t, (keyChar c = true) →
        (c :: ((t ++ (q.map SchemaAccessor.showNext).flatten).takeWhile keyChar)) ≠ k := by
      intro hn c t hc he
      apply hn
      intro x hx
      rw [← he] at hx
      rcases List.mem_cons.mp hx with rfl | hx
      · exact hc
      · exact List.all_eq_true.mp (List.all_takeWhile) x hx
    rcases toKeyString_cases k with ⟨hp, he⟩ | ⟨hp, hb, he⟩ | ⟨hp, hb, he⟩
    · obtain ⟨t, ht⟩ := placeholder_head hp
      refine ⟨'$', t, by rw [he, ht], by decide, hdot ?_ _ _ (by decide)⟩
      intro hall
      apply hk
      refine .inr ⟨hp, fun hm => ?_, fun hm => ?_⟩
      · exact absurd (hall _ hm) (by decide)
      · exact absurd (hall _ hm) (by decide)
    · exact absurd (.inl hb) hk
    · obtain ⟨t, ht⟩ : ∃ t, toBasicString k = '"' :: t := ⟨_, by simp [toBasicString]; rfl⟩
      refine ⟨'"', t, by rw [he, ht], by decide, ?_⟩
      by_cases hall : ∀ c ∈ k, keyChar c = true
      · have h1 := toBasicString_keyChar k hall
        have h2 : (t ++ (q.map SchemaAccessor.showNext).flatten).takeWhile keyChar = t :=
          takeWhile_append_all (fun x hx => h1 x (by rw [ht]; simp [hx])) (schema_rest_head q)
        rw [h2, ← ht]
        intro heq
        have := toBasicString_length k
        rw [heq] at this
        omega
      · exact hdot hall _ _ (by decide)
  obtain ⟨c, t, h1, h2, h3⟩ := key
  have hc := (keyChar_iff c).mp h2
  rw [h1, List.cons_append, schemaLoop, if_neg hc.2, if_neg hc.1] at h
  refine ⟨_, ?_, schema_next _ _ _ _ (by simp) h⟩
  intro heq
  simp only [List.nil_append, List.cons_append, SchemaAccessor.key.injEq] at heq
  exact h3 heq

theorem schema_all (q : List SchemaAccessor) (ho : ∀ a ∈ q, SchemaOk a) (hi : ∀ a ∈ q, SchemaIndexOk a) :
    ∀ cur acc, schemaLoop (.key cur) acc (q.map SchemaAccessor.showNext).flatten
      = some (flushSchema cur acc ++ q) := by
  induction q with
  | nil => intro cur acc; simp [schemaLoop]
  | cons a q ih =>
    intro cur acc
    simp only [List.map_cons, List.flatten_cons]
    obtain ⟨cur', acc', h1, h2⟩ := schema_one a (ho a (by simp)) (hi a (by simp)) cur acc
      (q.map SchemaAccessor.showNext).flatten
    rw [h1, ih (fun b hb => ho b (by simp [hb])) (fun b hb => hi b (by simp [hb])), h2]
    simp

theorem schema_all_bad (q : List SchemaAccessor) (ho : ¬ ∀ a ∈ q, SchemaOk a) (hi : ∀ a ∈ q, SchemaIndexOk a) :
    ∀ cur acc, schemaLoop (.key cur) acc (q.map SchemaAccessor.showNext).flatten
      ≠ some (flushSchema cur acc ++ q) := by
  induction q with
  | nil => exact absurd (by simp) ho
  | cons a q ih =>
    intro cur acc h
    simp only [List.map_cons, List.flatten_cons] at h
    by_cases ha : SchemaOk a
    · obtain ⟨cur', acc', h1, h2⟩ := schema_one a ha (hi a (by simp)) cur acc
        (q.map SchemaAccessor.showNext).flatten
      rw [h1] at h
      refine ih (fun hall => ho ?_) (fun b hb => hi b (by simp [hb])) cur' acc' ?_
      · intro b hb
        rcases List.mem_cons.mp hb with rfl | hb
        · exact ha
        · exact hall b hb
      · rw [h, h2]; simp
    · cases a with
      | key k =>
        obtain ⟨b, hb, hpre⟩ := schema_one_bad k ha cur acc _ _ h
        obtain ⟨t, ht⟩ := hpre
        rw [List.append_assoc] at ht
        have := List.append_cancel_left ht
        simp at this
        exact hb this.1
      | _ => exact ha trivial

theorem schema_first (a : SchemaAccessor) (post : List Char) :
    schemaLoop (.key []) [] (a.show ++ post) = schemaLoop (.key []) [] (a.showNext ++ post) := by
  cases a <;> simp [SchemaAccessor.showNext, schema_dot, flushSchema]

theorem schemaShow_ne_nil (a : SchemaAccessor) : a.show ≠ [] := by
  cases a <;> simp [SchemaAccessor.show, show_ne_nil]

theorem parseSchema_showSchema (p : List SchemaAccessor) (hp : p ≠ []) :
    parseSchema (showSchema p) = schemaLoop (.key []) [] (p.map SchemaAccessor.showNext).flatten := by
  cases p with
  | nil => exact absurd rfl hp
  | cons a q =>
    unfold parseSchema showSchema
    rw [if_neg (by simp [schemaShow_ne_nil a]), schema_first]; rfl

end Tombi.Accessor
