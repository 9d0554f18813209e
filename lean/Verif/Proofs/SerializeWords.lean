import Verif.Spec.Serialize
import Verif.Props.DateTime
/-!
The texts of scalars and keys are literals and keys of the TOML grammar, and mean what they were written for.
-/
namespace Tombi.Serializing
open Spec SyntaxKind DateTime
open Tombi.Reading
open Tombi.Formatter (PlainKey DotKey TomlLiteral)
open Tombi.Format (AstKey)

theorem digit_of_dig {c : Char} (h : '0' ≤ c ∧ c ≤ '9') : Toml.digit.Lang [c] :=
  ⟨c, rfl, by simp [Rx.inCls, h.1, h.2]⟩

theorem ch_lang (c : Char) : (Rx.ch c).Lang [c] := ⟨c, rfl, by simp [Rx.inCls]⟩

theorem rep_digits : ∀ (k : Nat) (w : List Char), w.length = k → (∀ c ∈ w, '0' ≤ c ∧ c ≤ '9') → (Rx.rep Toml.digit k).Lang w
  | 0, [], _, _ => rfl
  | k + 1, c :: w, h, hd =>
    ⟨[c], w, rfl, digit_of_dig (hd c List.mem_cons_self),
      rep_digits k w (by simpa using h) fun x hx => hd x (List.mem_cons_of_mem _ hx)⟩

theorem star_digits : ∀ (w : List Char), (∀ c ∈ w, '0' ≤ c ∧ c ≤ '9') → (Rx.star Toml.digit).Lang w
  | [], _ => StarL.nil
  | c :: w, h => StarL.cons [c] w (digit_of_dig (h c List.mem_cons_self)) (star_digits w fun x hx => h x (List.mem_cons_of_mem _ hx))

theorem star_sep_digits : ∀ (w : List Char), (∀ c ∈ w, '0' ≤ c ∧ c ≤ '9') → (Rx.star (Toml.sep Toml.digit)).Lang w
  | [], _ => StarL.nil
  | c :: w, h => StarL.cons [c] w (.inl (digit_of_dig (h c List.mem_cons_self))) (star_sep_digits w fun x hx => h x (List.mem_cons_of_mem _ hx))

theorem plus_digits {w : List Char} (hne : w ≠ []) (h : ∀ c ∈ w, '0' ≤ c ∧ c ≤ '9') : (Rx.plus Toml.digit).Lang w := by
  cases w with
  | nil => exact absurd rfl hne
  | cons c w => exact ⟨[c], w, rfl, digit_of_dig (h c List.mem_cons_self), star_digits w fun x hx => h x (List.mem_cons_of_mem _ hx)⟩

/-! ### integers -/

theorem dec_shape (n : Nat) : 1 ≤ n → ∃ c w, dec n = c :: w ∧ ('1' ≤ c ∧ c ≤ '9') ∧ ∀ x ∈ w, '0' ≤ x ∧ x ≤ '9' := by
  induction n using Nat.strongRecOn with
  | _ n ih =>
    intro h1
    by_cases h : n < 10
    · refine ⟨digitChar n, [], dec_lt h, ?_, by simp⟩
      have : ∀ n, n < 10 → 1 ≤ n → '1' ≤ digitChar n ∧ digitChar n ≤ '9' := by decide
      exact this n h h1
    · obtain ⟨c, w, e, hc, hw⟩ := ih (n / 10) (by omega) (by omega)
      refine ⟨c, w ++ [digitChar (n % 10)], by rw [dec_ge h, e]; rfl, hc, ?_⟩
      intro x hx
      rcases List.mem_append.mp hx with hx | hx
      · exact hw x hx
      · rw [List.mem_singleton] at hx
        subst hx
        have : ∀ n, n < 10 → '0' ≤ digitChar n ∧ digitChar n ≤ '9' := by decide
        exact this _ (by omega)

theorem dec_digits (n : Nat) : ∀ x ∈ dec n, '0' ≤ x ∧ x ≤ '9' := by
  by_cases h : n = 0
  · subst h
    intro x hx
    rw [dec_lt (by decide)] at hx
    rw [List.mem_singleton] at hx
    subst hx
    decide
  · obtain ⟨c, w, e, hc, hw⟩ := dec_shape n (by omega)
    rw [e]
    intro x hx
    rcases List.mem_cons.mp hx with rfl | hx
    · exact ⟨Char.le_trans (by decide) hc.1, hc.2⟩
    · exact hw x hx

theorem dec_value (n : Nat) : posValue 10 (dec n) = n := by
  induction n using Nat.strongRecOn with
  | _ n ih =>
    by_cases h : n < 10
    · rw [dec_lt h]
      have : ∀ n, n < 10 → posValue 10 [digitChar n] = n := by decide
      exact this n h
    · have h2 : ∀ n, n < 10 → posValue 10 [digitChar n] = n := by decide
      have h3 : ∀ n, n < 10 → '0' ≤ digitChar n ∧ digitChar n ≤ '9' := by decide
      rw [dec_ge h, posValue_append (fun c hc => dec_digits _ c hc) (by simpa using h3 (n % 10) (by omega)), ih _ (by omega),
        h2 _ (by omega)]
      simp
      omega

theorem dec_unsigned (n : Nat) : Toml.unsignedDecInt.Lang (dec n) := by
  by_cases h : n < 10
  · left
    rw [dec_lt h]
    have : ∀ n, n < 10 → '0' ≤ digitChar n ∧ digitChar n ≤ '9' := by decide
    exact digit_of_dig (this n h)
  · obtain ⟨c, w, e, hc, hw⟩ := dec_shape n (by omega)
    right
    rw [e]
    refine ⟨[c], w, rfl, ⟨c, rfl, by simp [Rx.inCls, hc.1, hc.2]⟩, ?_⟩
    cases w with
    | nil =>
      exfalso
      have h1 := dec_ge h
      rw [e] at h1
      have h2 : (dec (n / 10)).length = 0 := by
        have := congrArg List.length h1
        simpa using this
      obtain ⟨c', w', e', -⟩ := dec_shape (n / 10) (by omega)
      rw [e'] at h2
      simp at h2
    | cons a w =>
      exact ⟨[a], w, rfl, .inl (digit_of_dig (hw a List.mem_cons_self)), star_sep_digits w fun x hx => hw x (List.mem_cons_of_mem _ hx)⟩

theorem showInt_lang (n : Int) : Toml.decInt.Lang (showInt n) := by
  unfold showInt
  split
  · exact ⟨['-'], _, rfl, .inl ⟨'-', rfl, by decide⟩, dec_unsigned _⟩
  · exact ⟨[], _, rfl, .inr rfl, dec_unsigned _⟩

theorem showInt_value (n : Int) : decValue (showInt n) = n := by
  unfold showInt
  split
  · simp only [decValue, dec_value]
    omega
  · have hd := dec_digits n.natAbs
    have hv := dec_value n.natAbs
    revert hd hv
    generalize dec n.natAbs = w
    intro hd hv
    unfold decValue
    split
    · exact absurd (hd '-' List.mem_cons_self) (by decide)
    · exact absurd (hd '+' List.mem_cons_self) (by decide)
    · rw [hv]; omega

/-! ### dates and times -/

theorem date_lang {d : Date} {w : List Char} (h : DateText d w) : Toml.fullDate.Lang w := by
  obtain ⟨y, m, dd, ⟨h1, h2, -⟩, ⟨h3, h4, -⟩, ⟨h5, h6, -⟩, rfl⟩ := h
  refine ⟨y, '-' :: m ++ '-' :: dd, by simp, rep_digits _ _ h1 h2, ['-'], m ++ '-' :: dd, by simp, ch_lang _, m, '-' :: dd, rfl,
    rep_digits _ _ h3 h4, ['-'], dd, rfl, ch_lang _, dd, [], by simp, rep_digits _ _ h5 h6, rfl⟩

theorem time_lang {t : Time} {w : List Char} (h : SecondsText t w) : Toml.partialTime.Lang w := by
  cases h with
  | @whole h m s h1 h2 h3 h4 =>
    refine ⟨h, ':' :: m ++ ':' :: s, by simp, rep_digits _ _ h1.1 h1.2.1, [':'], m ++ ':' :: s, by simp, ch_lang _, m, ':' :: s, rfl,
      rep_digits _ _ h2.1 h2.2.1, ':' :: s, [], by simp, .inl ?_, rfl⟩
    exact ⟨[':'], s, rfl, ch_lang _, s, [], by simp, rep_digits _ _ h3.1 h3.2.1, [], [], rfl, .inr rfl, rfl⟩
  | @fraction h m s f h1 h2 h3 h4 =>
    refine ⟨h, ':' :: m ++ ':' :: s ++ '.' :: f, by simp, rep_digits _ _ h1.1 h1.2.1, [':'], m ++ ':' :: s ++ '.' :: f, by simp, ch_lang _, m,
      ':' :: s ++ '.' :: f, by simp, rep_digits _ _ h2.1 h2.2.1, ':' :: s ++ '.' :: f, [], by simp, .inl ?_, rfl⟩
    exact ⟨[':'], s ++ '.' :: f, rfl, ch_lang _, s, '.' :: f, by simp, rep_digits _ _ h3.1 h3.2.1, '.' :: f, [], by simp,
      .inl ⟨['.'], f, rfl, ch_lang _, plus_digits h4.1 h4.2.1⟩, rfl⟩

theorem offset_lang {o : Offset} {w : List Char} (h : OffsetText o w) : Toml.timeOffset.Lang w := by
  cases h with
  | upper => exact .inl ⟨'Z', rfl, by decide⟩
  | lower => exact .inl ⟨'z', rfl, by decide⟩
  | @plus h m _ _ h1 h2 _ _ =>
    exact .inr ⟨['+'], h ++ ':' :: m, rfl, ⟨'+', rfl, by decide⟩, h, ':' :: m, rfl, rep_digits _ _ h1.1 h1.2.1, [':'], m, rfl, ch_lang _,
      m, [], by simp, rep_digits _ _ h2.1 h2.2.1, rfl⟩
  | @minus h m _ _ h1 h2 _ _ =>
    exact .inr ⟨['-'], h ++ ':' :: m, rfl, ⟨'-', rfl, by decide⟩, h, ':' :: m, rfl, rep_digits _ _ h1.1 h1.2.1, [':'], m, rfl, ch_lang _,
      m, [], by simp, rep_digits _ _ h2.1 h2.2.1, rfl⟩

theorem showTime_seconds {t : Time} (h : ValidTime t) : SecondsText t (showTime t) := by
  obtain ⟨h1, h2, h3, h4⟩ := h
  unfold showTime
  by_cases h0 : t.nanosecond ≠ 0
  · rw [if_pos h0]
    exact .fraction (padded_digits 1 _ (by omega)) (padded_digits 1 _ (by omega)) (padded_digits 1 _ (by omega)) (fraction_text h4 h0)
  · rw [if_neg h0, List.append_nil]
    exact .whole (padded_digits 1 _ (by omega)) (padded_digits 1 _ (by omega)) (padded_digits 1 _ (by omega)) (by omega)

/-! ### texts -/

theorem plain_basic {s : Text} (h : PlainText s) : BasicString ('"' :: (s ++ ['"'])) := by
  refine ⟨s.map Item.chr, ?_, ?_⟩
  · intro i hi
    obtain ⟨c, hc, rfl⟩ := List.mem_map.mp hi
    obtain ⟨h1, h2, h3⟩ := h c hc
    refine ⟨h1, h2, ?_, ?_⟩ <;> (rintro rfl; revert h3; decide)
  · congr 2
    clear h
    induction s with
    | nil => rfl
    | cons c s ih => simpa [render, Item.text] using ih

theorem plain_decodes (v : TomlVersion) : ∀ {s : Text}, PlainText s → Decodes toml v false s s
  | [], _ => .nil
  | c :: s, h => .chr c (h c List.mem_cons_self).2 (plain_decodes v fun x hx => h x (List.mem_cons_of_mem _ hx))

/-- The kind of the literal of a scalar. -/
def kindOf : Scalar → SyntaxKind
  | .boolean _ => BOOLEAN
  | .integer _ => INTEGER_DEC
  | .float _ => FLOAT
  | .string _ => BASIC_STRING
  | .offsetDateTime _ _ _ => OFFSET_DATE_TIME
  | .localDateTime _ _ => LOCAL_DATE_TIME
  | .localDate _ => LOCAL_DATE
  | .localTime _ => LOCAL_TIME

theorem scalar_literal {s : Scalar} (h : PlainScalar s) : wordsReadable.literal (kindOf s) (scalarText s) := by
  cases s with
  | boolean b =>
    refine ⟨.boolean ?_, trivial⟩
    cases b
    · exact .inr ((Rx.matchAll_iff _ _).mp (by decide))
    · exact .inl ((Rx.matchAll_iff _ _).mp (by decide))
  | integer n => exact ⟨.dec (showInt_lang n), trivial⟩
  | float t =>
    refine ⟨.float h.1, ?_⟩
    rintro ⟨sign, z, -, rfl⟩
    exact h.2.2 (by simp)
  | string _ => exact ⟨.basic (plain_basic h), trivial⟩
  | offsetDateTime d t o =>
    obtain ⟨h1, h2, h3⟩ := h
    refine ⟨.offsetDateTime ?_, trivial⟩
    exact ⟨_, 'T' :: showTime t ++ showOffset o, by simp [scalarText, showOffsetDateTime], date_lang (showDate_text h1), ['T'],
      showTime t ++ showOffset o, by simp, ⟨'T', rfl, by decide⟩, _, showOffset o, rfl, time_lang (showTime_seconds h2), _, [], by simp,
      offset_lang (showOffset_text h3), rfl⟩
  | localDateTime d t =>
    obtain ⟨h1, h2⟩ := h
    refine ⟨.localDateTime ?_, trivial⟩
    exact ⟨_, 'T' :: showTime t, by simp [scalarText, showLocalDateTime], date_lang (showDate_text h1), ['T'],
      showTime t, by simp, ⟨'T', rfl, by decide⟩, _, [], by simp, time_lang (showTime_seconds h2), rfl⟩
  | localDate d => exact ⟨.localDate (date_lang (showDate_text h)), trivial⟩
  | localTime t => exact ⟨.localTime (time_lang (showTime_seconds h)), trivial⟩

theorem scalar_means {s : Scalar} (h : PlainScalar s) (v : TomlVersion) : LiteralMeans v (kindOf s) (scalarText s) s := by
  cases s with
  | boolean b => cases b; exact .false_; exact .true_
  | integer n =>
    have := LiteralMeans.dec (v := v) (t := showInt n) (by rw [showInt_value]; exact h)
    rw [showInt_value] at this
    exact this
  | float t =>
    have := LiteralMeans.float (v := v) (t := t)
    have e : t.filter (· ≠ '_') = t := List.filter_eq_self.mpr fun c hc => by
      simpa using fun e : c = '_' => h.2.1 (e ▸ hc)
    rw [e] at this
    exact this
  | string s => exact .basic (plain_decodes v h)
  | offsetDateTime d t o =>
    obtain ⟨h1, h2, h3⟩ := h
    exact .offsetDateTime (showDate_text h1) h1 (.inl rfl) ⟨h2, .inl (showTime_seconds h2)⟩ (showOffset_text h3)
  | localDateTime d t =>
    obtain ⟨h1, h2⟩ := h
    exact .localDateTime (showDate_text h1) h1 (.inl rfl) ⟨h2, .inl (showTime_seconds h2)⟩
  | localDate d => exact .localDate (showDate_text h) h
  | localTime t => exact .localTime ⟨h, .inl (showTime_seconds h)⟩

/-- What the serializer is handed for a scalar is the scalar. -/
theorem serializeScalar_plain {s : Scalar} (h : PlainScalar s) : serializeScalar s = .ok s := by
  cases s with
  | offsetDateTime d t o =>
    obtain ⟨h1, h2, h3⟩ := h
    have e : showDateTime ⟨some d, some t, some o⟩ = showOffsetDateTime d t o := by simp [showDateTime, showOffsetDateTime]
    simp only [serializeScalar, e, C20_offset_date_time d t o h1 h2 h3]
  | localDateTime d t =>
    obtain ⟨h1, h2⟩ := h
    have e : showDateTime ⟨some d, some t, none⟩ = showLocalDateTime d t := by simp [showDateTime, showLocalDateTime]
    simp only [serializeScalar, e, C20_local_date_time d t h1 h2]
  | localDate d =>
    have e : showDateTime ⟨some d, none, none⟩ = showDate d := by simp [showDateTime]
    simp only [serializeScalar, e, C20_local_date d h]
  | localTime t =>
    have e : showDateTime ⟨none, some t, none⟩ = showTime t := by simp [showDateTime]
    simp only [serializeScalar, e, C20_local_time t h]
  | _ => rfl

/-! ### keys -/

/-- A key as a key of the grammar. -/
def astKey (k : Key) : AstKey :=
  match k.kind with
  | .bareKey => .bare k.value
  | .basicString => .basic ('"' :: (k.value ++ ['"']))
  | .literalString => .literal ('\'' :: (k.value ++ ['\'']))

theorem keyText_astKey (k : Key) : TomlFile.keyText (astKey k) = keyText k := by
  unfold astKey keyText
  cases k.kind <;> rfl

/-- A key that is written right. -/
def NameFine (k : Key) : Prop := wordsReadable.key (astKey k) ∧ ∀ v, KeyMeans v (astKey k) k.value

/-- A key that is written right before a dot. -/
def PathFine (k : Key) : Prop := wordsReadable.keyBeforeDot (astKey k)

theorem keyFrom_value (s : Text) : (keyFrom s).value = s := by
  unfold keyFrom
  split <;> rfl

theorem keyFrom_bare {s : Text} (h : '\'' ∉ s ∧ '"' ∉ s) : keyFrom s = ⟨.bareKey, s⟩ := by
  unfold keyFrom
  rw [if_pos (by simp [h.1, h.2])]

theorem keyFrom_quoted {s : Text} (h : '\'' ∈ s) : keyFrom s = ⟨.basicString, s⟩ := by
  unfold keyFrom
  rw [if_neg (by simp [h])]

theorem plainKey_quotes {s : Text} (h : PlainKey s) : '\'' ∉ s ∧ '"' ∉ s :=
  ⟨fun hc => absurd (h.2.1 _ hc) (by decide), fun hc => absurd (h.2.1 _ hc) (by decide)⟩

theorem fieldName_fine {s : Text} (h : FieldName s) : NameFine (keyFrom s) := by
  rcases h with h | ⟨h1, h2⟩
  · rw [keyFrom_bare (plainKey_quotes h)]
    exact ⟨h, fun _ => .bare⟩
  · rw [keyFrom_quoted h1]
    exact ⟨plain_basic h2, fun v => .basic (plain_decodes v h2)⟩

theorem tableName_fine {s : Text} (h : TableName s) : PathFine (keyFrom s) ∧ NameFine (keyFrom s) := by
  rcases h with h | ⟨h1, h2⟩
  · refine ⟨?_, fieldName_fine (.inl h.1)⟩
    rw [keyFrom_bare (plainKey_quotes h.1)]
    exact h
  · refine ⟨?_, fieldName_fine (.inr ⟨h1, h2⟩)⟩
    rw [keyFrom_quoted h1]
    exact plain_basic h2

end Tombi.Serializing
