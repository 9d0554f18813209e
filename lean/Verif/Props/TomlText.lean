import Verif.Proofs.TomlText2
import Verif.Props.LexStrings
/-! Properties C13-C18: what string literals and keys denote, and how they are rendered. -/
namespace Tombi
open Spec TomlText

/-- the text `s` as a single-line basic string literal -/
def quoted (s : List Char) : List Char := ['"'] ++ s ++ ['"']
/-- the text `s` as a multi-line basic string literal -/
def quoted3 (s : List Char) : List Char := ['"', '"', '"'] ++ s ++ ['"', '"', '"']
/-- the text `s` as a single-line literal string literal -/
def literal1 (s : List Char) : List Char := ['\''] ++ s ++ ['\'']
/-- the text `s` as a multi-line literal string literal -/
def literal3 (s : List Char) : List Char := ['\'', '\'', '\''] ++ s ++ ['\'', '\'', '\'']

theorem tryFromBasicString_quoted (s : List Char) (v : TomlVersion) :
    tryFromBasicString (quoted s) v = some (parseBasicString s v false) := by
  unfold tryFromBasicString quoted
  rw [inner_quotes '"' (by decide)]; rfl

theorem tryFromMultiLineBasicString_quoted3 (s : List Char) (v : TomlVersion) :
    tryFromMultiLineBasicString (quoted3 s) v = some (parseBasicString (s.dropWhile (· == '\n')) v true) := by
  unfold tryFromMultiLineBasicString quoted3
  rw [inner_quotes3 '"' (by decide)]; rfl

theorem tryFromLiteralString_literal1 (s : List Char) :
    tryFromLiteralString (literal1 s) = some (parseLiteralString s false) := by
  unfold tryFromLiteralString literal1
  rw [inner_quotes '\'' (by decide)]; rfl

theorem tryFromMultiLineLiteralString_literal3 (s : List Char) :
    tryFromMultiLineLiteralString (literal3 s) = some (parseLiteralString (s.dropWhile (· == '\n')) true) := by
  unfold tryFromMultiLineLiteralString literal3
  rw [inner_quotes3 '\'' (by decide)]; rfl

theorem dropWhile_of_head {s : List Char} (h : s.head? ≠ some '\n') : s.dropWhile (· == '\n') = s := by
  cases s with
  | nil => rfl
  | cons c cs =>
    have : c ≠ '\n' := by rintro rfl; exact h rfl
    simp [this]

/-! ### C13 -/

/-- **C13**, the exact behaviour for every body and version: a basic string decodes to `o` exactly when its
body denotes `o` in the (slightly lenient) dialect `lenient`; otherwise one of the documented errors is
returned, and the loop always comes to its end. -/
theorem C13_basic_string_exact (s : List Char) (v : TomlVersion) :
    (∀ o, tryFromBasicString (quoted s) v = some (.ok o) ↔ Decodes lenient v false s o)
      ∧ ((∃ e, e ≠ .outOfFuel ∧ tryFromBasicString (quoted s) v = some (.error e))
          ↔ ¬ ∃ o, Decodes lenient v false s o) := by
  rw [tryFromBasicString_quoted]
  have h1 : ∀ o, some (parseBasicString s v false) = some (.ok o) ↔ Decodes lenient v false s o := by
    intro o; rw [Option.some.injEq, parseBasicString_ok]
  refine ⟨h1, ?_, ?_⟩
  · rintro ⟨e, _, he⟩ ⟨o, ho⟩
    rw [(h1 o).mpr ho] at he; cases he
  · intro hn
    cases hp : parseBasicString s v false with
    | ok o => exact absurd ⟨o, (parseBasicString_ok v false s o).mp hp⟩ hn
    | error e =>
      refine ⟨e, ?_, rfl⟩
      rintro rfl
      exact basicLoop_fuel v false _ [] s (by omega) hp

/-- **C13** for single-line strings, restricted to `Regular` bodies: decoding agrees with the TOML
specification for the chosen version, in what is accepted and in the result. Missing: the bodies on which
the code is lenient, shown by `C13_basic_string_false`. -/
theorem C13_basic_string_partial (s : List Char) (v : TomlVersion) (hr : Regular false s) :
    (∀ o, tryFromBasicString (quoted s) v = some (.ok o) ↔ Decodes toml v false s o)
      ∧ ((∃ e, e ≠ .outOfFuel ∧ tryFromBasicString (quoted s) v = some (.error e))
          ↔ ¬ ∃ o, Decodes toml v false s o) := by
  simpa only [decodes_iff hr] using C13_basic_string_exact s v

/-- **C13** for multi-line strings, restricted to `Regular` bodies that do not start with a line feed (for
those see `C16`). -/
theorem C13_multi_line_basic_string_partial (s : List Char) (v : TomlVersion) (hr : Regular true s)
    (hh : s.head? ≠ some '\n') (o : List Char) :
    tryFromMultiLineBasicString (quoted3 s) v = some (.ok o) ↔ Decodes toml v true s o := by
  rw [tryFromMultiLineBasicString_quoted3, dropWhile_of_head hh, Option.some.injEq, parseBasicString_ok,
    decodes_iff hr]

/-- **C13**, no valid string is rejected or misread: every body that TOML gives a meaning to decodes to that
meaning. (Hypothesis: white space is space, tab, LF, CR; for a counter-example without it see
`C13_basic_string_false`.) -/
theorem C13_valid_accepted_partial (s : List Char) (v : TomlVersion) (multi : Bool) (hw : PlainWs s)
    (o : List Char) (h : Decodes toml v multi s o) : parseBasicString s v multi = .ok o :=
  (parseBasicString_ok v multi s o).mpr (lenient_of_toml hw h)

/-- The denotation of the TOML specification is a function on such bodies, so `C13_valid_accepted_partial`
speaks of the only meaning there is. -/
theorem C13_meaning_unique (s : List Char) (v : TomlVersion) (multi : Bool) (hw : PlainWs s) (o o' : List Char)
    (h : Decodes toml v multi s o) (h' : Decodes toml v multi s o') : o = o' := by
  have h1 := C13_valid_accepted_partial s v multi hw o h
  have h2 := C13_valid_accepted_partial s v multi hw o' h'
  rw [h1] at h2; cases h2; rfl

/-- inversion: nothing is denoted when the digits after `\u` are no digits -/
theorem no_toml_u {v : TomlVersion} {multi : Bool} {ds s o : List Char} (h4 : ds.length = 4)
    (hx : hexNumber ds = none) : ¬ Decodes toml v multi ('\\' :: 'u' :: (ds ++ s)) o := by
  intro h
  generalize hb : '\\' :: 'u' :: (ds ++ s) = b at h
  cases h with
  | nil => cases hb
  | chr c hc _ => cases hb; exact hc.1 rfl
  | esc e c he _ => cases hb; simp [simpleEscape] at he
  | escE _ _ => cases hb
  | escX _ _ _ _ _ _ _ => cases hb
  | escU4 ds' n h1 h2 _ _ =>
    simp only [List.cons.injEq, true_and] at hb
    have := List.append_inj hb (by omega)
    rw [this.1] at hx
    exact absurd (hx.symm.trans h2) (by simp)
  | escU8 _ _ _ _ _ _ => cases hb
  | lf _ _ => cases hb
  | crlf _ _ => cases hb
  | cont w hc _ =>
    obtain ⟨_, hw, h2, _⟩ := hc
    cases hw with
    | nil => cases h2
    | _ => cases hb

/-- **C13 is false** without `Regular`: `"\u+041"` is not valid in any version but decodes to `A`; a
line-ending backslash in a single-line string is not valid but accepted; and after a line-ending backslash
the no-break space U+00A0 is removed although TOML keeps it. -/
theorem C13_basic_string_false :
    (tryFromBasicString (quoted "\\u+041".toList) .V1_0_0 = some (.ok ['A'])
      ∧ ∀ o, ¬ Decodes toml .V1_0_0 false "\\u+041".toList o)
    ∧ (tryFromBasicString (quoted "\\\n b".toList) .V1_0_0 = some (.ok ['b'])
      ∧ ∀ o, ¬ Decodes toml .V1_0_0 false "\\\n b".toList o)
    ∧ (parseBasicString "\\\n\u00A0b".toList .V1_0_0 true = .ok ['b']
      ∧ Decodes toml .V1_0_0 true "\\\n\u00A0b".toList "\u00A0b".toList) := by
  refine ⟨⟨by decide +kernel, ?_⟩, ⟨by decide +kernel, ?_⟩, ⟨by decide +kernel, ?_⟩⟩
  · intro o
    exact no_toml_u (ds := ['+', '0', '4', '1']) (s := []) rfl (by decide)
  · intro o h
    generalize hb : "\\\n b".toList = b at h
    have hb : ['\\', '\n', ' ', 'b'] = b := by rw [← hb]; decide
    cases h with
    | nil => cases hb
    | chr c hc _ => cases hb; exact hc.1 rfl
    | esc e c he _ => cases hb; simp [simpleEscape] at he
    | escE _ _ => cases hb
    | escX _ _ _ _ _ _ _ => cases hb
    | escU4 _ _ _ _ _ _ => cases hb
    | escU8 _ _ _ _ _ _ => cases hb
    | lf _ _ => cases hb
    | crlf _ _ => cases hb
    | cont w hc _ => exact absurd hc.1 (by decide)
  · have h2 : Decodes toml .V1_0_0 true ['\u00A0', 'b'] ['\u00A0', 'b'] :=
      .chr _ (by refine ⟨by decide, .inr (by decide)⟩) (.chr _ (by refine ⟨by decide, .inr (by decide)⟩) .nil)
    refine Decodes.cont (D := toml) ['\n'] ⟨rfl, .lf .nil, by simp, ?_⟩ h2
    intro c hc
    cases hc
    decide

/-- Concrete case for C13: a body with all kinds of items is regular and denotes what one expects. -/
example : Decodes toml .V1_1_0 true "é\\n\\u0041\\x42\\e\\\r\n  z".toList "é\nAB\x1bz".toList :=
  .chr _ ⟨by decide, .inr (by decide)⟩ <| .esc _ _ rfl <|
    .escU4 ['0', '0', '4', '1'] 0x41 rfl (by decide) (.inl (by decide)) <|
    .escX ['4', '2'] 0x42 (by decide) rfl (by decide) (.inl (by decide)) <| .escE (by decide) <|
    .cont (D := toml) ['\r', '\n', ' ', ' ']
      ⟨rfl, .crlf (.space (.space .nil)), by decide, by intro c hc; cases hc; decide⟩ <|
    .chr _ ⟨by decide, .inr (by decide)⟩ .nil
example : parseBasicString "é\\n\\u0041\\x42\\e\\\r\n  z".toList .V1_1_0 true = .ok "é\nAB\x1bz".toList := by
  decide +kernel
example : Regular false "a\\n b".toList where
  ws := by decide
  cr := by simp
  nl := by decide
  plus := by
    intro a k b h
    have h1 : '+' ∈ "a\\n b".toList := by rw [h]; simp
    exact absurd h1 (by decide)

/-! ### C14 -/

/-- The characters that `to_basic_string` writes as an escape that TOML does not have: NUL, BEL, VT, and
ESC for version 1.0. -/
def Unwritable (v : TomlVersion) (c : Char) : Prop :=
  c = '\x00' ∨ c = '\x07' ∨ c = '\x0b' ∨ (c = '\x1b' ∧ v = .V1_0_0)

theorem badChar_iff (v : TomlVersion) (c : Char) : badChar v c = true ↔ Unwritable v c := by
  simp [badChar, Unwritable, or_assoc]

/-- **C14**, the exact behaviour: rendering and decoding gives the text back if and only if it has none of
the four characters; missing from the full claim are just those. -/
theorem C14_roundtrip_partial (s : List Char) (v : TomlVersion) :
    tryFromBasicString (toBasicString s) v = some (.ok s) ↔ ∀ c ∈ s, ¬ Unwritable v c := by
  have h := basicLoop_escapes v s ((s.map escapeChar).flatten.length + 1) [] (by omega)
  unfold tryFromBasicString toBasicString
  rw [inner_quotes '"' (by decide)]
  simp only [Option.map_some, Option.some.injEq]
  have hany : s.any (badChar v) = true ↔ ∃ c ∈ s, Unwritable v c := by
    simp [List.any_eq_true, badChar_iff]
  unfold parseBasicString
  split at h
  · next hb =>
    obtain ⟨e, he⟩ := h
    obtain ⟨c, hc, hu⟩ := hany.mp hb
    rw [he]
    exact ⟨fun hx => (by cases hx), fun hx => absurd hu (hx c hc)⟩
  · next hb =>
    rw [h]
    refine ⟨fun _ c hc hu => hb (hany.mpr ⟨c, hc, hu⟩), fun _ => by simp⟩

/-- **C14**: and with one of them it is rejected, never read as another text. -/
theorem C14_never_misread (s : List Char) (v : TomlVersion) (o : List Char)
    (h : tryFromBasicString (toBasicString s) v = some (.ok o)) : o = s := by
  have h' := basicLoop_escapes v s ((s.map escapeChar).flatten.length + 1) [] (by omega)
  unfold tryFromBasicString toBasicString at h
  rw [inner_quotes '"' (by decide)] at h
  simp only [Option.map_some, Option.some.injEq] at h
  unfold parseBasicString at h
  split at h'
  · obtain ⟨e, he⟩ := h'
    rw [he] at h; cases h
  · rw [h'] at h; cases h; simp

/-- **C14**: the rendered text is one single-line basic string literal, which the lexer reads as one token
wherever it stands (if it is the empty string, not before a further quote). -/
theorem C14_one_token (s post : List Char) (hp : s = [] → post.head? ≠ some '"') :
    LexedAs .BASIC_STRING (toBasicString s) post := by
  refine C05_basic_string _ _ (toBasicString_literal s) fun he => hp ?_
  have h2 : (s.map escapeChar).flatten = [] := by
    have := congrArg List.length he
    simp only [toBasicString, List.length_append, List.length_cons, List.length_nil] at this
    exact List.eq_nil_of_length_eq_zero (by omega)
  cases s with
  | nil => rfl
  | cons c cs =>
    obtain ⟨h, t, he, _⟩ := basicStep_escapeChar .V1_0_0 c
    simp [he] at h2

/-- **C14 is false**: NUL is written as `\0`, which is no TOML escape. -/
theorem C14_roundtrip_false :
    ¬ ∀ (s : List Char) (v : TomlVersion), tryFromBasicString (toBasicString s) v = some (.ok s) := by
  intro h
  exact absurd (h ['\x00'] .V1_1_0) (by decide +kernel)

/-- Concrete case for C14. -/
example : tryFromBasicString (toBasicString "a\"\\\n\t\x01\x9fé".toList) .V1_0_0
    = some (.ok "a\"\\\n\t\x01\x9fé".toList) := by decide +kernel
example : ∀ c ∈ "a\"\\\n\t\x01\x9fé".toList, ¬ Unwritable .V1_0_0 c := by
  simp only [Unwritable]; decide

/-! ### C15 -/

/-- **C15**, single-line: a literal string decodes to exactly the text between its quotes, or is rejected;
and it is rejected exactly when that text holds a control character other than tab. -/
theorem C15_literal_string (s : List Char) :
    ((∃ o, tryFromLiteralString (literal1 s) = some (.ok o)) ↔ LiteralOk false s)
      ∧ ∀ o, tryFromLiteralString (literal1 s) = some (.ok o) → o = s := by
  rw [tryFromLiteralString_literal1]
  simp only [Option.some.injEq, parseLiteralString, literalLoop_ok, List.nil_append]
  exact ⟨⟨fun ⟨_, _, h⟩ => h, fun h => ⟨s, rfl, h⟩⟩, fun o h => h.1⟩

/-- `LiteralOk` on single-line texts, spelled out. -/
theorem C15_single_line_ok (s : List Char) :
    LiteralOk false s ↔ ∀ c ∈ s, c = '\t' ∨ (0x20 ≤ c.toNat ∧ c.toNat ≠ 0x7F) := by
  constructor
  · intro h
    induction h with
    | nil => simp
    | chr c hc _ ih =>
      intro d hd
      rcases List.mem_cons.mp hd with rfl | hd
      · exact hc
      · exact ih d hd
    | lf h => cases h
    | crlf h => cases h
  · intro h
    induction s with
    | nil => exact .nil
    | cons c cs ih => exact .chr c (h c (by simp)) (ih fun d hd => h d (by simp [hd]))

/-- **C15**, multi-line, for a body that does not start with a line feed (for those see `C16`). -/
theorem C15_multi_line_literal_string (s : List Char) (hh : s.head? ≠ some '\n') :
    ((∃ o, tryFromMultiLineLiteralString (literal3 s) = some (.ok o)) ↔ LiteralOk true s)
      ∧ ∀ o, tryFromMultiLineLiteralString (literal3 s) = some (.ok o) → o = s := by
  rw [tryFromMultiLineLiteralString_literal3, dropWhile_of_head hh]
  simp only [Option.some.injEq, parseLiteralString, literalLoop_ok, List.nil_append]
  exact ⟨⟨fun ⟨_, _, h⟩ => h, fun h => ⟨s, rfl, h⟩⟩, fun o h => h.1⟩

/-- Concrete cases for C15. -/
example : tryFromLiteralString (literal1 "C:\\é\t\"".toList) = some (.ok "C:\\é\t\"".toList) := by decide +kernel
example : LiteralOk true "a\r\nb\n".toList :=
  .chr _ (.inr (by decide)) <| .crlf rfl <| .chr _ (.inr (by decide)) <| .lf rfl .nil
example : tryFromLiteralString (literal1 "a\x7f".toList) = some (.error .InvalidControlCharacter) := by
  decide +kernel

/-! ### C16 -/

/-- **C16**: the first line feed is dropped and nothing else, when it is not followed by another one; and
nothing is dropped when the body does not start with a line feed. Missing: several leading line feeds (all
are dropped) and a leading CRLF (not dropped), `C16_first_newline_false`. -/
theorem C16_first_newline_partial (s : List Char) (v : TomlVersion) (hh : s.head? ≠ some '\n') :
    (tryFromMultiLineBasicString (quoted3 ('\n' :: s)) v = some (parseBasicString s v true)
      ∧ tryFromMultiLineBasicString (quoted3 s) v = some (parseBasicString s v true))
    ∧ (tryFromMultiLineLiteralString (literal3 ('\n' :: s)) = some (parseLiteralString s true)
      ∧ tryFromMultiLineLiteralString (literal3 s) = some (parseLiteralString s true)) := by
  simp only [tryFromMultiLineBasicString_quoted3, tryFromMultiLineLiteralString_literal3]
  have : ('\n' :: s).dropWhile (· == '\n') = s := by
    rw [List.dropWhile_cons_of_pos (by decide), dropWhile_of_head hh]
  rw [this, dropWhile_of_head hh]
  exact ⟨⟨rfl, rfl⟩, rfl, rfl⟩

/-- **C16 is false**: of two leading line feeds both are dropped, and of a leading CRLF nothing is. -/
theorem C16_first_newline_false :
    tryFromMultiLineBasicString (quoted3 "\n\na".toList) .V1_0_0 = some (.ok "a".toList)
    ∧ tryFromMultiLineLiteralString (literal3 "\n\na".toList) = some (.ok "a".toList)
    ∧ tryFromMultiLineBasicString (quoted3 "\r\na".toList) .V1_0_0 = some (.ok "\r\na".toList)
    ∧ tryFromMultiLineLiteralString (literal3 "\r\na".toList) = some (.ok "\r\na".toList) := by decide +kernel

/-- **C16**, rendering: a multi-line literal string rendered from a text that does not start with a line
feed decodes to the text, when the text may stand in such a string at all. -/
theorem C16_rendered_multi_line_literal (s : List Char) (hh : s.head? ≠ some '\n') (h : LiteralOk true s) :
    tryFromMultiLineLiteralString (toMultiLineLiteralString s) = some (.ok s) := by
  have h1 := (C16_first_newline_partial s .V1_0_0 hh).2.1
  have h2 : toMultiLineLiteralString s = literal3 ('\n' :: s) := by simp [toMultiLineLiteralString, literal3]
  rw [h2, h1, Option.some.injEq, parseLiteralString, literalLoop_ok]
  exact ⟨rfl, h⟩

example : ("a\n b".toList).head? ≠ some '\n' := by decide

/-! ### C17, C18 -/

/-- A TOML bare key (1.0 and 1.1): a non-empty text of ASCII letters, digits, underscores and dashes. -/
def BareKey (s : List Char) : Prop :=
  s ≠ [] ∧ ∀ c ∈ s, ('a' ≤ c ∧ c ≤ 'z') ∨ ('A' ≤ c ∧ c ≤ 'Z') ∨ ('0' ≤ c ∧ c ≤ '9') ∨ c = '_' ∨ c = '-'

theorem isBareKeyChar_iff (c : Char) : isBareKeyChar c = true ↔
    ('a' ≤ c ∧ c ≤ 'z') ∨ ('A' ≤ c ∧ c ≤ 'Z') ∨ ('0' ≤ c ∧ c ≤ '9') ∨ c = '_' ∨ c = '-' ∨ c = '.' := by
  simp [isBareKeyChar, or_assoc]

/-- **C18**, the exact behaviour: a key is accepted, and unchanged, exactly when it is made of the
characters of a bare key and dots; a plus sign and any other character give their own errors. -/
theorem C18_bare_key_exact (s : List Char) :
    (∀ o, tryFromBareKey s = .ok o ↔ o = s ∧ ∀ c ∈ s, BareKey [c] ∨ c = '.')
      ∧ (tryFromBareKey s = .error .PlusCharacter ↔ '+' ∈ s)
      ∧ (tryFromBareKey s = .error .UnicodeKey ↔ '+' ∉ s ∧ ∃ c ∈ s, ¬ (BareKey [c] ∨ c = '.')) := by
  have hb : ∀ c, (BareKey [c] ∨ c = '.') ↔ isBareKeyChar c = true := by
    intro c; rw [isBareKeyChar_iff]; simp [BareKey, or_assoc]
  have hall : (∀ c ∈ s, BareKey [c] ∨ c = '.') ↔ s.all isBareKeyChar = true := by
    simp only [hb, List.all_eq_true]
  have hplus : s.any (· == '+') = true ↔ '+' ∈ s := by simp
  have hex : (∃ c ∈ s, ¬ (BareKey [c] ∨ c = '.')) ↔ ¬ s.all isBareKeyChar = true := by
    rw [← hall]; simp
  have hno : '+' ∈ s → ¬ s.all isBareKeyChar = true := by
    intro hm ha
    have := List.all_eq_true.mp ha _ hm
    exact absurd this (by decide)
  rw [hex]
  simp only [hall]
  unfold tryFromBareKey
  by_cases h1 : '+' ∈ s
  · rw [if_pos (hplus.mpr h1)]
    have := hno h1
    simp [h1, this]
  · rw [if_neg (fun h => h1 (hplus.mp h))]
    by_cases h2 : s.all isBareKeyChar = true
    · rw [if_pos h2]
      refine ⟨fun o => ⟨fun h => by cases h; exact ⟨rfl, h2⟩, fun h => by rw [h.1]⟩, ?_, ?_⟩
      · exact ⟨fun h => (by cases h), fun h => absurd h h1⟩
      · exact ⟨fun h => (by cases h), fun h => absurd h2 h.2⟩
    · rw [if_neg h2]
      refine ⟨fun o => ⟨fun h => (by cases h), fun h => absurd h.2 h2⟩, ?_, ?_⟩
      · exact ⟨fun h => (by cases h), fun h => absurd h h1⟩
      · exact ⟨fun _ => ⟨h1, h2⟩, fun _ => rfl⟩

/-- **C18**: on non-empty texts without dot, validation is exactly that of TOML. Missing: the empty text and
texts with a dot, which are accepted (`C18_bare_key_false`). -/
theorem C18_bare_key_partial (s : List Char) (h : s ≠ []) (hd : '.' ∉ s) (o : List Char) :
    tryFromBareKey s = .ok o ↔ o = s ∧ BareKey s := by
  rw [(C18_bare_key_exact s).1 o]
  refine and_congr_right fun _ => ⟨fun hs => ⟨h, fun c hc => ?_⟩, fun hs c hc => .inl ?_⟩
  · rcases hs c hc with h1 | rfl
    · exact h1.2 c (by simp)
    · exact absurd hc hd
  · exact ⟨by simp, fun d hd => by simp at hd; subst hd; exact hs.2 d hc⟩

/-- **C18 is false**: the empty text and `a.b` are accepted as bare keys. -/
theorem C18_bare_key_false : (tryFromBareKey [] = .ok [] ∧ ¬ BareKey [])
    ∧ (tryFromBareKey "a.b".toList = .ok "a.b".toList ∧ ¬ BareKey "a.b".toList) := by
  refine ⟨⟨by decide, fun h => h.1 rfl⟩, by decide, fun h => ?_⟩
  have := h.2 '.' (by decide)
  exact absurd this (by decide)

example : BareKey "tombi-toml_1".toList := ⟨by decide, by decide⟩
example : tryFromBareKey "a+b".toList = .error .PlusCharacter := by decide
example : tryFromBareKey "café".toList = .error .UnicodeKey := by decide

theorem isDisplayBareKey_iff (k : List Char) : isDisplayBareKey k = true ↔ BareKey k := by
  have hok : (tryFromBareKey k).toBool = true ↔ tryFromBareKey k = .ok k := by
    constructor
    · intro h
      cases hx : tryFromBareKey k with
      | ok o => rw [((C18_bare_key_exact k).1 o).mp hx |>.1]
      | error e => rw [hx] at h; cases h
    · intro h; rw [h]; rfl
  unfold isDisplayBareKey
  simp only [Bool.and_eq_true, Bool.not_eq_true', List.isEmpty_eq_false_iff, hok]
  constructor
  · rintro ⟨⟨h1, h2⟩, h3⟩
    have h2 : '.' ∉ k := by simpa using h2
    exact ((C18_bare_key_partial k h1 h2 k).mp h3).2
  · intro h
    have h2 : '.' ∉ k := fun hm => by
      have := h.2 _ hm
      exact absurd this (by decide)
    exact ⟨⟨h.1, by simpa using h2⟩, (C18_bare_key_partial k h.1 h2 k).mpr ⟨rfl, h⟩⟩

/-- **C17**: the rendered key is the key itself, and then it is a bare key that reads as itself; or it is a
quoted key that reads as the key in every position and version. Missing: texts of the form `${...}`, which
are printed as they are on purpose, and the characters of `Unwritable`. -/
theorem C17_key_roundtrip_partial (k : List Char) (v : TomlVersion)
    (hp : ¬ ∃ m, k = ['$', '{'] ++ m ++ ['}']) (hu : ∀ c ∈ k, ¬ Unwritable v c) :
    (toKeyString k = k ∧ BareKey k ∧ tryFromBareKey k = .ok k)
      ∨ (¬ BareKey k ∧ BasicString (toKeyString k) ∧ tryFromBasicString (toKeyString k) v = some (.ok k)) := by
  have hvar : isVariablePlaceholder k = false := by
    apply Bool.eq_false_iff.mpr
    intro h
    simp only [isVariablePlaceholder, Bool.and_eq_true, List.isPrefixOf_iff_prefix,
      List.isSuffixOf_iff_suffix] at h
    obtain ⟨⟨t, h1⟩, ⟨u, h2⟩⟩ := h
    apply hp
    have ht : t ≠ [] := by
      rintro rfl
      rw [← h1] at h2
      have := congrArg List.getLast? h2
      simp at this
    obtain ⟨m, z, rfl⟩ : ∃ m z, t = m ++ [z] := ⟨t.dropLast, t.getLast ht, (List.dropLast_concat_getLast ht).symm⟩
    refine ⟨m, ?_⟩
    rw [← h1] at h2
    have h3 : u ++ ['}'] = (['$', '{'] ++ m) ++ [z] := by rw [h2]; simp
    have := List.append_inj' h3 rfl
    rw [← h1]
    simp at this
    simp [← this.2]
  unfold toKeyString
  rw [hvar, Bool.false_or]
  by_cases hb : BareKey k
  · rw [if_pos ((isDisplayBareKey_iff k).mpr hb)]
    refine .inl ⟨rfl, hb, ((C18_bare_key_exact k).1 k).mpr ⟨rfl, fun c hc => .inl ?_⟩⟩
    exact ⟨by simp, fun d hd => by simp at hd; subst hd; exact hb.2 d hc⟩
  · rw [if_neg (fun h => hb ((isDisplayBareKey_iff k).mp h))]
    exact .inr ⟨hb, toBasicString_literal k, (C14_roundtrip_partial k v).mpr hu⟩

/-- **C17 is false**: the key `${a}` is printed without quotes, and that is no key. -/
theorem C17_key_roundtrip_false :
    toKeyString "${a}".toList = "${a}".toList ∧ ¬ BareKey "${a}".toList
      ∧ tryFromBareKey "${a}".toList = .error .UnicodeKey := by
  refine ⟨by decide, fun h => ?_, by decide⟩
  have := h.2 '$' (by decide)
  exact absurd this (by decide)

example : toKeyString "a b\"".toList = "\"a b\\\"\"".toList := by decide
example : toKeyString "a-b".toList = "a-b".toList := by decide
example : toKeyString "1.5".toList = "\"1.5\"".toList := by decide

end Tombi
