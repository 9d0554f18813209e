import Verif.Proofs.FormatAdj
import Verif.Spec.FormatWords
import Verif.Props.Format
/-! The words of the TOML grammar, as the formatter writes them, are lexed as they are. -/
namespace Tombi

/-- a keyword at the front of a word -/
theorem kw_iff {c : Cursor} {x : Char} {xs w post : List Char} (hr : c.rest = w ++ post)
    (hw : ∀ y ∈ w, isTokenSeparatorWithDot y = false) (hp : SepAfter post)
    (hxs : ∀ y ∈ xs, isTokenSeparatorWithDot y = false) (ha : ∀ y ∈ x :: xs, y.toNat < 128) :
    c.isKeyword (x :: xs) = true ↔ c.cur = x ∧ xs = w := by
  have h0 : '\x00' ∉ xs := fun h => absurd (hxs _ h) (by decide)
  have htw : ∀ {a b : List Char}, (∀ y ∈ a, isTokenSeparatorWithDot y = false) → SepAfter b →
      (a ++ b).takeWhile (fun y => !isTokenSeparatorWithDot y) = a := by
    intro a b h1 h2
    refine takeWhile_exact (fun y hy => by simp [h1 y hy]) ?_
    rintro y r rfl
    have h2 : isTokenSeparatorWithDot y = true := h2
    simp [h2]
  constructor
  · intro h
    obtain ⟨h1, h2, h3⟩ := isKeyword_spec h0 (by rw [utf8Len_ascii ha]; simp) h
    refine ⟨h1, ?_⟩
    have e := h2.rest
    rw [hr] at e
    have := htw hxs h3
    rw [← e, htw hw hp] at this
    exact this.symm
  · rintro ⟨h1, rfl⟩
    unfold Cursor.isKeyword
    rw [Bool.and_eq_true]
    refine ⟨(Cursor.matches_iff c x xs h0).mpr ⟨h1, by rw [hr]; exact ⟨post, rfl⟩⟩, ?_⟩
    rw [utf8Len_ascii ha, List.length_cons, peek_nth_append hr]
    exact hp

namespace Formatter
open SyntaxKind
open Tombi.Format (AstKey)
open Tombi.Spec

theorem dispatch_name {c : Cursor} (h : isLetter c.cur = true ∨ c.cur = '_') : c.dispatch = c.wordArm := by
  have hne : ∀ d, isLetter d = false → d ≠ '_' → c.cur ≠ d := by
    intro d hd hd' he
    rcases h with h | h
    · rw [he, hd] at h; simp at h
    · exact hd' (he ▸ h)
  unfold Cursor.dispatch
  have h1 : isWhitespace c.cur = false := by
    simp [isWhitespace, hne ' ' (by decide) (by decide), hne '\t' (by decide) (by decide)]
  have h2 : isLineBreak c.cur = false := by
    simp [isLineBreak, hne '\r' (by decide) (by decide), hne '\n' (by decide) (by decide)]
  have h3 : isAsciiDigit c.cur = false := by
    rw [Bool.eq_false_iff]
    intro hd
    simp only [inRange, isAsciiDigit, Bool.and_eq_true, decide_eq_true_eq] at hd
    rcases h with h | h
    · simp only [isLetter, inRange, Bool.or_eq_true, Bool.and_eq_true, decide_eq_true_eq] at h
      rcases h with h | h
      · exact absurd (Char.le_trans h.1 hd.2) (by decide)
      · exact absurd (Char.le_trans h.1 hd.2) (by decide)
    · rw [h] at hd; exact absurd hd (by decide)
  rw [h1, h2, h3]
  simp only [Bool.false_eq_true, if_false]
  rw [if_neg (hne _ (by decide) (by decide)), if_neg (hne _ (by decide) (by decide)), if_neg (hne _ (by decide) (by decide)),
    if_neg (hne _ (by decide) (by decide)), if_neg (hne _ (by decide) (by decide)), if_neg (hne _ (by decide) (by decide)),
    if_neg (hne _ (by decide) (by decide)), if_neg (hne _ (by decide) (by decide)), if_neg (hne _ (by decide) (by decide)),
    if_neg (hne _ (by decide) (by decide)), if_neg (hne _ (by decide) (by decide)), if_neg (hne _ (by decide) (by decide))]
  rw [if_pos]
  rcases h with h | h
  · simp only [isLetter, Bool.or_eq_true] at h
    rcases h with h | h <;> simp [h]
  · simp [h]

theorem name_char {x : Char} (h : isLetter x = true ∨ inRange '0' '9' x = true ∨ x = '_' ∨ x = '-') :
    isKeyChar x = true ∧ isTokenSeparatorWithDot x = false := by
  have hk : isKeyChar x = true := by
    unfold isKeyChar
    rcases h with h | h | h | h
    · simp only [isLetter, Bool.or_eq_true] at h
      rcases h with h | h <;> simp [h]
    · simp [h]
    · simp [h]
    · simp [h]
  refine ⟨hk, ?_⟩
  have hne : ∀ d, isLetter d = false → inRange '0' '9' d = false → d ≠ '_' → d ≠ '-' → (x == d) = false := by
    intro d h1 h2 h3 h4
    rw [beq_eq_false_iff_ne]
    rintro rfl
    rcases h with h | h | h | h
    · rw [h1] at h; cases h
    · rw [h2] at h; cases h
    · exact h3 h
    · exact h4 h
  unfold isTokenSeparatorWithDot
  rw [hne '{' (by decide) (by decide) (by decide) (by decide), hne '}' (by decide) (by decide) (by decide) (by decide),
    hne '[' (by decide) (by decide) (by decide) (by decide), hne ']' (by decide) (by decide) (by decide) (by decide),
    hne ',' (by decide) (by decide) (by decide) (by decide), hne '.' (by decide) (by decide) (by decide) (by decide),
    hne '=' (by decide) (by decide) (by decide) (by decide), hne ' ' (by decide) (by decide) (by decide) (by decide),
    hne '\t' (by decide) (by decide) (by decide) (by decide), hne '\r' (by decide) (by decide) (by decide) (by decide),
    hne '\n' (by decide) (by decide) (by decide) (by decide), hne '#' (by decide) (by decide) (by decide) (by decide),
    hne '\x00' (by decide) (by decide) (by decide) (by decide)]
  rfl

/-- the kind of the token of a name -/
def nameKind (t : Text) : SyntaxKind :=
  if t = ['i', 'n', 'f'] ∨ t = ['n', 'a', 'n'] then FLOAT
  else if t = ['t', 'r', 'u', 'e'] ∨ t = ['f', 'a', 'l', 's', 'e'] then BOOLEAN
  else BARE_KEY

theorem accepts_name {t post : Text} (h : NameKey t) (hp : SepAfter post)
    (hk : ∀ c r, post = c :: r → isKeyChar c = false) : Accepts (nameKind t) t post := by
  obtain ⟨x, w, rfl, hx, hw⟩ := h
  have hwk : ∀ y ∈ w, isKeyChar y = true := fun y hy => (name_char (hw y hy)).1
  have hws : ∀ y ∈ w, isTokenSeparatorWithDot y = false := fun y hy => (name_char (hw y hy)).2
  intro c hc
  have hc' : c.rest = x :: (w ++ post) := by simpa using hc
  obtain ⟨h1, h2, h3⟩ := Adv.bump_cons hc'
  have kw : ∀ y ys, (∀ z ∈ ys, isTokenSeparatorWithDot z = false) → (∀ z ∈ y :: ys, z.toNat < 128) →
      (c.bump.isKeyword (y :: ys) = true ↔ x :: w = y :: ys) := by
    intro y ys hy1 hy2
    rw [kw_iff h2 hws hp hy1 hy2, h3]
    constructor
    · rintro ⟨rfl, rfl⟩; rfl
    · intro e; exact ⟨(List.cons.inj e).1, (List.cons.inj e).2.symm⟩
  have kinf := kw 'i' ['n', 'f'] (by decide) (by decide)
  have knan := kw 'n' ['a', 'n'] (by decide) (by decide)
  have ktrue := kw 't' ['r', 'u', 'e'] (by decide) (by decide)
  have kfalse := kw 'f' ['a', 'l', 's', 'e'] (by decide) (by decide)
  have hd : c.bump.dispatch = c.bump.wordArm := dispatch_name (by rw [h3]; exact hx)
  by_cases hf : x :: w = ['i', 'n', 'f'] ∨ x :: w = ['n', 'a', 'n']
  · have hl : w.length = 2 := by rcases hf with hf | hf <;> (have := (List.cons.inj hf).2; rw [this]; rfl)
    refine ⟨_, by simpa using h1.trans (eatN_exact h2), ?_⟩
    rw [advance_cons hc', hd]
    unfold Cursor.wordArm nameKind
    rw [if_pos (by rw [Bool.or_eq_true, kinf, knan]; exact hf), if_pos hf, hl]
  · have hf' : ¬ ((c.bump.isKeyword ['i', 'n', 'f'] || c.bump.isKeyword ['n', 'a', 'n']) = true) := by
      rw [Bool.or_eq_true, kinf, knan]; exact hf
    by_cases ht : x :: w = ['t', 'r', 'u', 'e']
    · have hl : w.length = 3 := by have := (List.cons.inj ht).2; rw [this]; rfl
      refine ⟨_, by simpa using h1.trans (eatN_exact h2), ?_⟩
      rw [advance_cons hc', hd]
      unfold Cursor.wordArm nameKind
      rw [if_neg hf', if_neg hf, if_pos (ktrue.mpr ht), if_pos (.inl ht), hl]
    by_cases hfa : x :: w = ['f', 'a', 'l', 's', 'e']
    · have hl : w.length = 4 := by have := (List.cons.inj hfa).2; rw [this]; rfl
      refine ⟨_, by simpa using h1.trans (eatN_exact h2), ?_⟩
      rw [advance_cons hc', hd]
      unfold Cursor.wordArm nameKind
      rw [if_neg hf', if_neg hf, if_neg (by rw [ktrue]; exact ht), if_pos (kfalse.mpr hfa), if_pos (.inr hfa), hl]
    · have hsplit : c.bump.rest.takeWhile isKeyChar = w ∧ c.bump.rest.dropWhile isKeyChar = post := by
        have e1 := takeWhile_exact hwk hk
        rw [h2]
        refine ⟨e1, ?_⟩
        have e2 := List.takeWhile_append_dropWhile (p := isKeyChar) (l := w ++ post)
        rw [e1] at e2
        exact List.append_cancel_left e2
      obtain ⟨a1, a2⟩ := Adv.eatWhile isKeyChar c.bump
      rw [hsplit.1] at a1
      rw [hsplit.2] at a2
      refine ⟨_, by simpa using h1.trans a1, ?_⟩
      rw [advance_cons hc', hd]
      unfold Cursor.wordArm nameKind
      rw [if_neg hf', if_neg hf, if_neg (by rw [ktrue]; exact ht), if_neg (by rw [kfalse]; exact hfa),
        if_neg (fun h => h.elim ht hfa)]
      unfold Cursor.key
      simp only []
      rw [if_pos (SepAfter.peek (by rw [a2]; exact hp))]

/-- no key character ends a word, apart from braces -/
theorem sep_notKey {c : Char} (h : isTokenSeparatorWithDot c = true) (h1 : c ≠ '{') (h2 : c ≠ '}') (h3 : c ≠ '\x00') :
    isKeyChar c = false := by
  simp only [isTokenSeparatorWithDot, Bool.or_eq_true, beq_iff_eq] at h
  rcases h with (((((((((((h | h) | rfl) | rfl) | rfl) | rfl) | rfl) | rfl) | rfl) | rfl) | rfl) | rfl) | h <;>
    first | contradiction | decide

theorem readsBare_name {t : Text} (j : Bool) : ReadsBare ⟨nameKind t, t, j⟩ := by
  unfold nameKind
  split
  · rename_i h
    rcases h with rfl | rfl <;> rfl
  · split <;> rfl

theorem name_wordLex {t : Text} (h : NameKey t) : WordLex BARE_KEY t := by
  refine ⟨by obtain ⟨c, w, rfl, -⟩ := h; simp, nameKind t, ⟨readsBare_name, ?_⟩, ?_⟩
  · unfold nameKind
    split
    · rfl
    · split <;> rfl
  · intro post hs hb
    refine accepts_name h (delim_sepAfter hs.1) ?_
    intro c r e
    have h1 := hs.1 c r e
    have h2 := hb rfl c r e
    by_cases h0 : c = '\x00'
    · rw [h0]; decide
    · exact sep_notKey (sep_imp_sepDot h1) h2.1 h2.2 h0

theorem name_dotLex {t : Text} (h : NameKey t) : DotLex BARE_KEY t := by
  refine ⟨nameKind t, ⟨readsBare_name, ?_⟩, ?_⟩
  · unfold nameKind
    split
    · rfl
    · split <;> rfl
  · intro post
    refine accepts_name h rfl ?_
    intro c r e
    rw [← (List.cons.inj e).1]
    decide

theorem number_wordLex {t : Text} (h : NumberKey t) : WordLex BARE_KEY t := by
  rcases h with h | h
  · have hd : Toml.decInt.Lang t := ⟨[], t, rfl, .inr rfl, h⟩
    refine ⟨lang_ne_nil (by decide) hd, INTEGER_DEC, ⟨fun _ => rfl, rfl⟩, fun post hs _ => accepts_dec hd hs.1⟩
  · exact ⟨lang_ne_nil (by decide) h, LOCAL_DATE, ⟨fun _ => rfl, rfl⟩, fun post hs _ => accepts_local_date h hs.1 hs.2⟩

theorem basic_ne {t : Text} (h : BasicString t) : t ≠ [] := by obtain ⟨_, _, rfl⟩ := h; simp
theorem literal_ne {t : Text} (h : LiteralString t) : t ≠ [] := by obtain ⟨_, _, _, _, rfl⟩ := h; simp

theorem stop_head {post : Text} (h : Stop post) {q : Char} (hq : isTokenSeparator q = false) : post.head? ≠ some q := by
  cases post with
  | nil => simp
  | cons c r =>
    simp only [List.head?_cons, ne_eq, Option.some.injEq]
    rintro rfl
    rw [h.1 c r rfl] at hq
    cases hq

theorem basic_wordLex {t : Text} (h : BasicString t) : WordLex BASIC_STRING t :=
  ⟨basic_ne h, BASIC_STRING, ⟨rfl, rfl⟩, fun _ hs _ => accepts_basic h fun _ => stop_head hs (by decide)⟩

theorem literal_wordLex {t : Text} (h : LiteralString t) : WordLex LITERAL_STRING t :=
  ⟨literal_ne h, LITERAL_STRING, ⟨rfl, rfl⟩, fun _ hs _ => accepts_literal h fun _ => stop_head hs (by decide)⟩

theorem basic_dotLex {t : Text} (h : BasicString t) : DotLex BASIC_STRING t :=
  ⟨BASIC_STRING, ⟨rfl, rfl⟩, fun _ => accepts_basic h fun _ => by simp⟩

theorem literal_dotLex {t : Text} (h : LiteralString t) : DotLex LITERAL_STRING t :=
  ⟨LITERAL_STRING, ⟨rfl, rfl⟩, fun _ => accepts_literal h fun _ => by simp⟩

/-- Literals of the TOML grammar are lexed as they are. -/
theorem lit_wordLex {k : SyntaxKind} {t : Text} (h : TomlLiteral k t) : WordLex k t := by
  cases h with
  | dec h => exact ⟨lang_ne_nil (by decide) h, _, ⟨rfl, rfl⟩, fun _ hs _ => accepts_dec h hs.1⟩
  | hex h => exact ⟨lang_ne_nil (by decide) h, _, ⟨rfl, rfl⟩, fun _ hs _ => accepts_hex h hs.1⟩
  | oct h => exact ⟨lang_ne_nil (by decide) h, _, ⟨rfl, rfl⟩, fun _ hs _ => accepts_oct h hs.1⟩
  | bin h => exact ⟨lang_ne_nil (by decide) h, _, ⟨rfl, rfl⟩, fun _ hs _ => accepts_bin h hs.1⟩
  | float h => exact ⟨lang_ne_nil (by decide) h, _, ⟨rfl, rfl⟩, fun _ hs _ => accepts_float h hs.1⟩
  | boolean h => exact ⟨lang_ne_nil (by decide) h, _, ⟨rfl, rfl⟩, fun _ hs _ => accepts_boolean h hs.1⟩
  | offsetDateTime h => exact ⟨lang_ne_nil (by decide) h, _, ⟨rfl, rfl⟩, fun _ hs _ => accepts_offset_date_time h hs.1⟩
  | localDateTime h => exact ⟨lang_ne_nil (by decide) h, _, ⟨rfl, rfl⟩, fun _ hs _ => accepts_local_date_time h hs.1⟩
  | localDate h => exact ⟨lang_ne_nil (by decide) h, _, ⟨rfl, rfl⟩, fun _ hs _ => accepts_local_date h hs.1 hs.2⟩
  | localTime h => exact ⟨lang_ne_nil (by decide) h, _, ⟨rfl, rfl⟩, fun _ hs _ => accepts_time h hs.1⟩
  | basic h => exact basic_wordLex h
  | literal h => exact literal_wordLex h
  | multiBasic h hl =>
    exact ⟨by obtain ⟨_, _, rfl⟩ := h; simp, _, ⟨rfl, rfl⟩, fun _ hs _ => accepts_multi_basic h hl (stop_head hs (by decide))⟩
  | multiLiteral h =>
    exact ⟨by obtain ⟨_, _, rfl⟩ := h; simp, _, ⟨rfl, rfl⟩, fun _ hs _ => accepts_multi_literal h (stop_head hs (by decide))⟩

/-! ### formatted words -/

theorem basicString_head {t : Text} (h : BasicString t) : ∃ w, t = '"' :: w := by obtain ⟨_, _, rfl⟩ := h; exact ⟨_, rfl⟩
theorem literalString_head {t : Text} (h : LiteralString t) : ∃ w, t = '\'' :: w := by
  obtain ⟨_, _, _, _, rfl⟩ := h; exact ⟨_, rfl⟩

theorem written_basic {t : Text} (h : BasicString t) (k : SyntaxKind) (hk : k = BASIC_STRING ∨ k = LITERAL_STRING) :
    writtenKind t k = BASIC_STRING := by
  obtain ⟨w, rfl⟩ := basicString_head h
  rcases hk with rfl | rfl <;> rfl

theorem written_literal {t : Text} (h : LiteralString t) (k : SyntaxKind) (hk : k = BASIC_STRING ∨ k = LITERAL_STRING) :
    writtenKind t k = LITERAL_STRING := by
  obtain ⟨w, rfl⟩ := literalString_head h
  rcases hk with rfl | rfl <;> rfl

/-- A formatted basic string. -/
theorem basic_formatted {t : Text} (h : BasicString t) (style : Format.QuoteStyle) :
    ∃ out, Format.formatBasicString t style = some out ∧ (BasicString out ∨ LiteralString out) := by
  obtain ⟨out, h1, ⟨-, -, -, h2, -⟩ | ⟨-, rfl⟩⟩ := C33_basic_string t h style .V1_0_0
  · exact ⟨out, h1, .inr h2⟩
  · exact ⟨_, h1, .inl h⟩

/-- A formatted literal string. -/
theorem literal_formatted {t : Text} (h : LiteralString t) (style : Format.QuoteStyle) :
    ∃ out, Format.formatLiteralString t style = some out ∧ (BasicString out ∨ LiteralString out) := by
  obtain ⟨out, h1, ⟨-, -, -, h2, -⟩ | ⟨-, rfl⟩⟩ := C33_literal_string t h style .V1_0_0
  · exact ⟨out, h1, .inl h2⟩
  · exact ⟨_, h1, .inr h⟩

/-- a date-time with another delimiter -/
theorem delimiter_formatted {d : Option (List Char)} (hd : DelimiterSetting d) {wd s r : Text} (h1 : Toml.fullDate.Lang wd)
    (h2 : Toml.timeDelim.Lang s) : ∃ s', Toml.timeDelim.Lang s' ∧ Format.formatDateTime d (wd ++ (s ++ r)) = some (wd ++ (s' ++ r)) := by
  obtain ⟨c, rfl, hc⟩ := sep_of h2
  obtain ⟨hl, ha⟩ := date_ascii h1
  obtain ⟨c', hc', h3, -⟩ := formatDateTime_eq (r := r) hd hl ha hc
  refine ⟨[c'], ?_, h3⟩
  refine ⟨c', rfl, ?_⟩
  rcases hc' with rfl | rfl | rfl <;> decide

/-- A formatted literal of the TOML grammar is one again. -/
theorem literal_toml (E : Env) (hd : DelimiterSetting E.defs.dateTimeDelimiter) {k : SyntaxKind} {t : Text} (h : TomlLiteral k t) :
    TomlLiteral (writtenKind (E.literalText k t) k) (E.literalText k t) := by
  cases h with
  | basic h =>
    obtain ⟨out, h1, h2⟩ := basic_formatted h E.defs.stringQuoteStyle
    simp only [Env.literalText, h1, Option.getD_some]
    rcases h2 with h2 | h2
    · rw [written_basic h2 _ (.inl rfl)]; exact .basic h2
    · rw [written_literal h2 _ (.inl rfl)]; exact .literal h2
  | literal h =>
    obtain ⟨out, h1, h2⟩ := literal_formatted h E.defs.stringQuoteStyle
    simp only [Env.literalText, h1, Option.getD_some]
    rcases h2 with h2 | h2
    · rw [written_basic h2 _ (.inr rfl)]; exact .basic h2
    · rw [written_literal h2 _ (.inr rfl)]; exact .literal h2
  | offsetDateTime h =>
    obtain ⟨d, v1, rfl, h1, s, v2, rfl, h2, h3⟩ := h
    obtain ⟨s', h4, h5⟩ := delimiter_formatted hd (r := v2) h1 h2
    simp only [Env.literalText, h5, Option.getD_some]
    exact .offsetDateTime ⟨d, _, rfl, h1, s', _, rfl, h4, h3⟩
  | localDateTime h =>
    obtain ⟨d, v1, rfl, h1, s, v2, rfl, h2, h3⟩ := h
    obtain ⟨s', h4, h5⟩ := delimiter_formatted hd (r := v2) h1 h2
    simp only [Env.literalText, h5, Option.getD_some]
    exact .localDateTime ⟨d, _, rfl, h1, s', _, rfl, h4, h3⟩
  | dec h => exact .dec h
  | hex h => exact .hex h
  | oct h => exact .oct h
  | bin h => exact .bin h
  | float h => exact .float h
  | boolean h => exact .boolean h
  | localDate h => exact .localDate h
  | localTime h => exact .localTime h
  | multiBasic h h' => exact .multiBasic h h'
  | multiLiteral h => exact .multiLiteral h

/-! ### bare keys in general -/

theorem digit_notSep {x : Char} (h : isAsciiDigit x = true) : isTokenSeparatorWithDot x = false :=
  (name_char (x := x) (.inr (.inl h))).2

/-- What may follow a bare key. -/
structure KeyPost (post : Text) : Prop where
  sep : ∀ c r, post = c :: r → isTokenSeparatorWithDot c = true
  notKey : ∀ c r, post = c :: r → isKeyChar c = false

theorem KeyPost.after {post : Text} (h : KeyPost post) : SepAfter post := by
  cases post with
  | nil => rfl
  | cons c r => exact h.sep c r rfl

theorem keyPost_stop {post : Text} (hs : Stop post) (hb : NoBrace post) : KeyPost post := by
  refine ⟨fun c r e => sep_imp_sepDot (hs.1 c r e), fun c r e => ?_⟩
  have h1 := hs.1 c r e
  have h2 := hb c r e
  by_cases h0 : c = '\x00'
  · rw [h0]; decide
  · exact sep_notKey (sep_imp_sepDot h1) h2.1 h2.2 h0

theorem keyPost_dot (post : Text) : KeyPost ('.' :: post) := by
  refine ⟨fun c r e => ?_, fun c r e => ?_⟩ <;> rw [← (List.cons.inj e).1] <;> decide

/-- A character of bare keys. -/
def IsBareChar (x : Char) : Prop := isLetter x = true ∨ inRange '0' '9' x = true ∨ x = '_' ∨ x = '-'

/-- `key` eats a bare key. -/
theorem key_exact {c : Cursor} {w post : Text} (hr : c.rest = w ++ post) (hw : ∀ x ∈ w, IsBareChar x) (hp : KeyPost post) :
    ∃ c1, Adv c c1 w ∧ c.key = c1.ok BARE_KEY := by
  have hwk : ∀ y ∈ w, isKeyChar y = true := fun y hy => (name_char (hw y hy)).1
  have hsplit : c.rest.takeWhile isKeyChar = w ∧ c.rest.dropWhile isKeyChar = post := by
    have e1 := takeWhile_exact hwk hp.notKey
    rw [hr]
    refine ⟨e1, ?_⟩
    have e2 := List.takeWhile_append_dropWhile (p := isKeyChar) (l := w ++ post)
    rw [e1] at e2
    exact List.append_cancel_left e2
  obtain ⟨a1, a2⟩ := Adv.eatWhile isKeyChar c
  rw [hsplit.1] at a1
  rw [hsplit.2] at a2
  refine ⟨_, a1, ?_⟩
  unfold Cursor.key
  simp only []
  rw [if_pos (SepAfter.peek (by rw [a2]; exact hp.after))]

theorem isNumber_false {c : Cursor} (h : ∀ k, ¬ NumWord k (c.peekWithCurrentWhile fun x => !isTokenSeparator x)) : c.isNumber = false := by
  unfold Cursor.isNumber
  simp only []
  rw [Rx.findEnd_none.mpr fun g => h _ (.float g), Rx.findEnd_none.mpr fun g => h _ (.bin g), Rx.findEnd_none.mpr fun g => h _ (.oct g),
    Rx.findEnd_none.mpr fun g => h _ (.hex g), Rx.findEnd_none.mpr fun g => h _ (.dec g)]
  rfl

/-- A word that does not begin with a date is no date. -/
theorem plain_not_date {c : Cursor} {t post : Text} (he : c.cur :: c.rest = t ++ post) (hp : KeyPost post)
    (h : ∀ d r, t = d ++ r → Toml.fullDate.Lang d → r = []) (hd : ¬ Toml.fullDate.Lang t) : c.isDateTime = false := by
  rw [Bool.eq_false_iff]
  intro hdt
  obtain ⟨d9, v, hr, -, hL⟩ := date_line hdt
  rw [hr, ← List.cons_append] at he
  rcases List.append_eq_append_iff.mp he with ⟨p, h1, h2⟩ | ⟨p, h1, h2⟩
  · have := h _ p h1 hL
    subst this
    rw [List.append_nil] at h1
    exact hd (h1 ▸ hL)
  · cases p with
    | nil =>
      rw [List.append_nil] at h1
      exact hd (h1 ▸ hL)
    | cons x p =>
      have hx := Rx.over_lang (p := fun c => !isTokenSeparatorWithDot c) (by decide) hL x (by rw [h1]; simp)
      rw [hp.sep x _ h2] at hx
      simp at hx

/-- A bare key is no time. -/
theorem plain_not_time {c : Cursor} {t post : Text} (he : c.cur :: c.rest = t ++ post) (hne : t ≠ []) (hp : KeyPost post)
    (h : ∀ x ∈ t, IsBareChar x) : c.isTime = false := by
  unfold Cursor.isTime
  rw [Option.isSome_eq_false_iff, Option.isNone_iff_eq_none, Rx.findEnd_none]
  rintro ⟨u1, v1, e1, h1, u2, v2, rfl, h2, u3, v3, rfl, h3, -⟩
  obtain ⟨a1, b1, rfl, k1, a2, b2, rfl, k2, rfl⟩ := h1
  obtain ⟨x1, rfl, g1⟩ := digit_lang k1
  obtain ⟨x2, rfl, g2⟩ := digit_lang k2
  rw [lang_ch] at h2
  subst h2
  have : c.cur :: c.rest = x1 :: x2 :: ':' :: (u3 ++ (v3 ++ c.rest.drop 4)) := by
    unfold Cursor.peeksWithCurrent at e1
    have := congrArg (· ++ c.rest.drop 4) e1
    simp only [List.cons_append] at this
    rw [show (5 - 1) = 4 from rfl, List.take_append_drop] at this
    rw [this]; simp
  rw [this] at he
  have hcolon : ¬ IsBareChar ':' := by
    rintro (h | h | h | h) <;> exact absurd h (by decide)
  match t, hne, he, h with
  | [_], _, he, _ =>
    simp only [List.cons_append, List.nil_append, List.cons.injEq] at he
    have := hp.sep x2 _ he.2.symm
    rw [digit_notSep g2] at this
    cases this
  | [_, _], _, he, _ =>
    simp only [List.cons_append, List.nil_append, List.cons.injEq] at he
    have := hp.sep ':' _ he.2.2.symm
    exact absurd this (by decide)
  | _ :: _ :: z :: _, _, he, h =>
    simp only [List.cons_append, List.cons.injEq] at he
    have := h z (by simp)
    rw [← he.2.2.1] at this
    exact hcolon this

theorem count_zero {t : Text} (h : '.' ∉ t) : t.count '.' = 0 := List.count_eq_zero.mpr h

theorem bare_noDot {t : Text} (h : ∀ x ∈ t, IsBareChar x) : '.' ∉ t := by
  intro hd
  rcases h _ hd with h | h | h | h <;> exact absurd h (by decide)

/-- A number without a dot is read as a bare key. -/
theorem num_readAs {k : SyntaxKind} {w t : Text} (h : NumWord k w) (ht : ∀ x ∈ t, IsBareChar x) : ReadAs BARE_KEY k t := by
  have hs := PM.splitDot_zero (count_zero (bare_noDot ht))
  cases h <;> refine ⟨fun j => ?_, rfl⟩
  · simp [ReadsBare, View.keyV, hs]
  all_goals rfl

theorem float_readAs {t : Text} (ht : ∀ x ∈ t, IsBareChar x) : ReadAs BARE_KEY FLOAT t := by
  have hs := PM.splitDot_zero (count_zero (bare_noDot ht))
  exact ⟨fun j => by simp [ReadsBare, View.keyV, hs], rfl⟩

theorem bare_readAs (t : Text) : ReadAs BARE_KEY BARE_KEY t := ⟨fun _ => rfl, rfl⟩

/-- `inf` or `nan` behind a dash, and nothing else. -/
theorem special_exact {c : Cursor} {w post : Text} (hr : c.rest = w ++ post) (hw : ∀ x ∈ w, IsBareChar x) (hp : KeyPost post) :
    ((c.peeks 3 = ['i', 'n', 'f'] ∨ c.peeks 3 = ['n', 'a', 'n']) ∧ isTokenSeparatorWithDot (c.peek 4) = true) ↔
      (w = ['i', 'n', 'f'] ∨ w = ['n', 'a', 'n']) := by
  have hws : ∀ y ∈ w, isTokenSeparatorWithDot y = false := fun y hy => (name_char (hw y hy)).2
  have key : ∀ x y z : Char, isTokenSeparatorWithDot x = false → isTokenSeparatorWithDot y = false → isTokenSeparatorWithDot z = false →
      ((c.peeks 3 = [x, y, z] ∧ isTokenSeparatorWithDot (c.peek 4) = true) ↔ w = [x, y, z]) := by
    intro x y z hx hy hz
    unfold Cursor.peeks Cursor.peek
    rw [hr]
    constructor
    · rintro ⟨h1, h2⟩
      match w, hws with
      | [], _ =>
        cases post with
        | nil => simp at h1
        | cons a r =>
          simp only [List.nil_append, List.take_succ_cons, List.cons.injEq] at h1
          have := hp.sep a r rfl
          rw [h1.1, hx] at this; cases this
      | [_], _ =>
        cases post with
        | nil => simp at h1
        | cons a r =>
          simp only [List.cons_append, List.nil_append, List.take_succ_cons, List.cons.injEq] at h1
          have := hp.sep a r rfl
          rw [h1.2.1, hy] at this; cases this
      | [_, _], _ =>
        cases post with
        | nil => simp at h1
        | cons a r =>
          simp only [List.cons_append, List.nil_append, List.take_succ_cons, List.cons.injEq] at h1
          have := hp.sep a r rfl
          rw [h1.2.2.1, hz] at this; cases this
      | [_, _, _], _ => simpa using h1
      | _ :: _ :: _ :: d :: _, hws =>
        simp only [List.cons_append, List.getD_eq_getElem?_getD] at h2
        have := hws d (by simp)
        simp [this] at h2
    · rintro rfl
      refine ⟨by simp, ?_⟩
      cases post with
      | nil => simp; decide
      | cons d r => simpa [List.getD_eq_getElem?_getD] using hp.sep d r rfl
  constructor
  · rintro ⟨h1 | h1, h2⟩
    · exact .inl ((key _ _ _ (by decide) (by decide) (by decide)).mp ⟨h1, h2⟩)
    · exact .inr ((key _ _ _ (by decide) (by decide) (by decide)).mp ⟨h1, h2⟩)
  · rintro (h | h)
    · obtain ⟨h1, h2⟩ := (key _ _ _ (by decide) (by decide) (by decide)).mpr h
      exact ⟨.inl h1, h2⟩
    · obtain ⟨h1, h2⟩ := (key _ _ _ (by decide) (by decide) (by decide)).mpr h
      exact ⟨.inr h1, h2⟩

/-- A bare key that starts with a digit, when it is a number. -/
theorem accepts_digits {k : SyntaxKind} {d : Char} {w post : Text} (hd : isAsciiDigit d = true) (h : ∀ x ∈ d :: w, IsBareChar x)
    (hdate : ∀ e r, d :: w = e ++ r → Toml.fullDate.Lang e → r = []) (hnd : ¬ Toml.fullDate.Lang (d :: w)) (hp : KeyPost post)
    (hdp : DelimPost post) (hk : NumWord k (d :: w)) : Accepts k (d :: w) post := by
  intro c hc
  have hc' : c.rest = d :: (w ++ post) := by simpa using hc
  obtain ⟨h1, h2, h3⟩ := Adv.bump_cons hc'
  have he : c.bump.cur :: c.bump.rest = (d :: w) ++ post := by rw [h3, h2]; rfl
  have hk' : NumWord k (c.bump.cur :: w) := by rw [h3]; exact hk
  obtain ⟨hi, c1, h4, h5⟩ := hk'.number h2 hdp
  refine ⟨c1, by simpa using h1.trans h4, ?_⟩
  rw [advance_cons hc', dispatch_digit (by rw [h3]; exact hd)]
  unfold Cursor.digitArm
  rw [plain_not_date he hp hdate hnd, plain_not_time he (by simp) hp h, hi]
  simpa using h5

/-- A bare key that starts with a digit, when it is no number. -/
theorem accepts_digit_key {d : Char} {w post : Text} (hd : isAsciiDigit d = true) (h : ∀ x ∈ d :: w, IsBareChar x)
    (hdate : ∀ e r, d :: w = e ++ r → Toml.fullDate.Lang e → r = []) (hnd : ¬ Toml.fullDate.Lang (d :: w)) (hp : KeyPost post)
    (hk : ∀ k, ¬ NumWord k (d :: (w ++ post).takeWhile fun x => !isTokenSeparator x)) : Accepts BARE_KEY (d :: w) post := by
  intro c hc
  have hc' : c.rest = d :: (w ++ post) := by simpa using hc
  obtain ⟨h1, h2, h3⟩ := Adv.bump_cons hc'
  have he : c.bump.cur :: c.bump.rest = (d :: w) ++ post := by rw [h3, h2]; rfl
  have hi : c.bump.isNumber = false := isNumber_false (by unfold Cursor.peekWithCurrentWhile; rw [h3, h2]; exact hk)
  obtain ⟨c1, h4, h5⟩ := key_exact h2 (fun x hx => h x (by simp [hx])) hp
  refine ⟨c1, by simpa using h1.trans h4, ?_⟩
  rw [advance_cons hc', dispatch_digit (by rw [h3]; exact hd)]
  unfold Cursor.digitArm
  rw [plain_not_date he hp hdate hnd, plain_not_time he (by simp) hp h, hi]
  simpa using h5

/-- A bare key that starts with a dash, when it is a number. -/
theorem accepts_dash_digits {k : SyntaxKind} {d : Char} {w post : Text} (hd : isAsciiDigit d = true) (h : ∀ x ∈ d :: w, IsBareChar x)
    (hp : KeyPost post) (hdp : DelimPost post) (hk : NumWord k (d :: w)) : Accepts k ('-' :: d :: w) post := by
  intro c hc
  have hc' : c.rest = '-' :: (d :: w ++ post) := by simpa using hc
  obtain ⟨h1, h2, h3⟩ := Adv.bump_cons hc'
  obtain ⟨h1', h2', h3'⟩ := Adv.bump_cons (show c.bump.rest = d :: (w ++ post) from h2)
  have hk' : NumWord k (c.bump.bump.cur :: w) := by rw [h3']; exact hk
  obtain ⟨hi, c1, h4, h5⟩ := hk'.number h2' hdp
  refine ⟨c1, by simpa using h1.trans (h1'.trans h4), ?_⟩
  rw [advance_cons hc', dispatch_minus h3]
  unfold Cursor.minusArm
  rw [if_neg (by
    rw [special_exact h2 h hp]
    rintro (e | e) <;> (rw [(List.cons.inj e).1] at hd; exact absurd hd (by decide))), if_pos (by
    unfold Cursor.peek; rw [h2]; exact hd)]
  simp only [hi, if_true]
  exact h5

/-- A bare key that starts with a dash, when it is no number. -/
theorem accepts_dash_key {w post : Text} (h : ∀ x ∈ w, IsBareChar x) (hp : KeyPost post)
    (hk : ∀ d w', w = d :: w' → isAsciiDigit d = true → ∀ k, ¬ NumWord k (d :: (w' ++ post).takeWhile fun x => !isTokenSeparator x)) :
    Accepts (if w = ['i', 'n', 'f'] ∨ w = ['n', 'a', 'n'] then FLOAT else BARE_KEY) ('-' :: w) post := by
  intro c hc
  have hc' : c.rest = '-' :: (w ++ post) := by simpa using hc
  obtain ⟨h1, h2, h3⟩ := Adv.bump_cons hc'
  have hs := special_exact h2 h hp
  by_cases hw : w = ['i', 'n', 'f'] ∨ w = ['n', 'a', 'n']
  · have hl : w.length = 3 := by rcases hw with rfl | rfl <;> rfl
    refine ⟨_, by simpa using h1.trans (eatN_exact h2), ?_⟩
    rw [advance_cons hc', dispatch_minus h3]
    unfold Cursor.minusArm
    rw [if_pos (hs.mpr hw), if_pos hw, hl]
  · rw [if_neg hw]
    by_cases hd : ∃ d w', w = d :: w' ∧ isAsciiDigit d = true
    · obtain ⟨d, w', rfl, hd⟩ := hd
      obtain ⟨h1', h2', h3'⟩ := Adv.bump_cons (show c.bump.rest = d :: (w' ++ post) from h2)
      have hi : c.bump.bump.isNumber = false := isNumber_false (by
        unfold Cursor.peekWithCurrentWhile; rw [h3', h2']; exact hk d w' rfl hd)
      obtain ⟨c1, h4, h5⟩ := key_exact h2' (fun x hx => h x (by simp [hx])) hp
      refine ⟨c1, by simpa using h1.trans (h1'.trans h4), ?_⟩
      rw [advance_cons hc', dispatch_minus h3]
      unfold Cursor.minusArm
      rw [if_neg (fun e => hw (hs.mp e)), if_pos (by unfold Cursor.peek; rw [h2]; exact hd)]
      simp only [hi, Bool.false_eq_true, if_false]
      exact h5
    · obtain ⟨c1, h4, h5⟩ := key_exact h2 h hp
      refine ⟨c1, by simpa using h1.trans h4, ?_⟩
      rw [advance_cons hc', dispatch_minus h3]
      unfold Cursor.minusArm
      rw [if_neg (fun e => hw (hs.mp e)), if_neg ?_]
      · exact h5
      · unfold Cursor.peek
        rw [h2]
        cases w with
        | cons d w' => exact fun e => hd ⟨d, w', rfl, e⟩
        | nil =>
          cases post with
          | nil => decide
          | cons x r =>
            have := hp.sep x r rfl
            intro e
            rw [digit_notSep (show isAsciiDigit x = true from e)] at this
            cases this

theorem line_delim {w post : Text} (hw : ∀ x ∈ w, IsBareChar x) (hp : DelimPost post) :
    (w ++ post).takeWhile (fun x => !isTokenSeparator x) = w := by
  refine takeWhile_exact (fun x hx => ?_) fun c r e => by simp [hp c r e]
  have := (name_char (hw x hx)).2
  cases hs : isTokenSeparator x with
  | false => rfl
  | true => rw [sep_imp_sepDot hs] at this; cases this

/-- The first character of a bare key. -/
theorem bare_cases {t : Text} (hne : t ≠ []) (h : ∀ x ∈ t, IsBareChar x) :
    NameKey t ∨ (∃ d w, t = d :: w ∧ isAsciiDigit d = true) ∨ ∃ w, t = '-' :: w := by
  cases t with
  | nil => exact absurd rfl hne
  | cons c w =>
    rcases h c (by simp) with hc | hc | hc | hc
    · exact .inl ⟨c, w, rfl, .inl hc, fun x hx => h x (by simp [hx])⟩
    · exact .inr (.inl ⟨c, w, rfl, hc⟩)
    · exact .inl ⟨c, w, rfl, .inr hc, fun x hx => h x (by simp [hx])⟩
    · exact .inr (.inr ⟨w, by rw [hc]⟩)

theorem plain_wordLex {t : Text} (h : PlainKey t) : WordLex BARE_KEY t := by
  obtain ⟨hne, hb, hdate⟩ := h
  rcases bare_cases hne hb with h | ⟨d, w, rfl, hd⟩ | ⟨w, rfl⟩
  · exact name_wordLex h
  · by_cases hf : Toml.fullDate.Lang (d :: w)
    · exact number_wordLex (.inr hf)
    · by_cases hk : ∃ k, NumWord k (d :: w)
      · obtain ⟨k, hk⟩ := hk
        exact ⟨hne, k, num_readAs hk hb, fun post hs hnb => accepts_digits hd hb hdate hf (keyPost_stop hs (hnb rfl)) hs.1 hk⟩
      · refine ⟨hne, BARE_KEY, bare_readAs _, fun post hs hnb => accepts_digit_key hd hb hdate hf (keyPost_stop hs (hnb rfl)) ?_⟩
        rw [line_delim (fun x hx => hb x (by simp [hx])) hs.1]
        exact fun k hk' => hk ⟨k, hk'⟩
  · have hw : ∀ x ∈ w, IsBareChar x := fun x hx => hb x (by simp [hx])
    by_cases hk : ∃ k d w', w = d :: w' ∧ isAsciiDigit d = true ∧ NumWord k (d :: w')
    · obtain ⟨k, d, w', rfl, hd, hk⟩ := hk
      exact ⟨hne, k, num_readAs hk hb, fun post hs hnb => accepts_dash_digits hd hw (keyPost_stop hs (hnb rfl)) hs.1 hk⟩
    · refine ⟨hne, _, ?_, fun post hs hnb => accepts_dash_key hw (keyPost_stop hs (hnb rfl)) ?_⟩
      · split
        · exact float_readAs hb
        · exact bare_readAs _
      · rintro d w' rfl hd k
        rw [line_delim (fun x hx => hw x (by simp [hx])) hs.1]
        exact fun hk' => hk ⟨k, d, w', rfl, hd, hk'⟩

/-- A word before a dot is no number, if it holds something else than digits and underscores. -/
theorem dot_not_number {d x : Char} {w q : Text} (hb : ∀ x ∈ d :: w, IsBareChar x) (hx : x ∈ d :: w)
    (hx' : (isAsciiDigit x || x == '_') = false) (k : SyntaxKind) : ¬ NumWord k (d :: (w ++ '.' :: q)) := by
  have hdot : '.' ∈ d :: (w ++ '.' :: q) := by simp
  intro hk
  cases hk with
  | bin h => have := Rx.over_lang (p := fun c => c != '.') (by decide) h _ hdot; simp at this
  | oct h => have := Rx.over_lang (p := fun c => c != '.') (by decide) h _ hdot; simp at this
  | hex h => have := Rx.over_lang (p := fun c => c != '.') (by decide) h _ hdot; simp at this
  | dec h => have := Rx.over_lang (p := fun c => c != '.') (by decide) h _ hdot; simp at this
  | float h =>
    obtain ⟨a, b, e, ha, hb'⟩ := h
    have hax : x ∉ a := by
      intro hxa
      have := Rx.over_lang (p := fun c => isAsciiDigit c || c == '_') (by decide) ha x hxa
      rw [hx'] at this
      cases this
    have e : (d :: w) ++ '.' :: q = a ++ b := by simpa using e
    obtain ⟨p, h1, h2, hpne⟩ : ∃ p, d :: w = a ++ p ∧ b = p ++ '.' :: q ∧ p ≠ [] := by
      rcases List.append_eq_append_iff.mp e with ⟨p, h1, h2⟩ | ⟨p, h1, h2⟩
      · exact absurd (by rw [h1]; exact List.mem_append_left p hx) hax
      · refine ⟨p, h1, h2, ?_⟩
        rintro rfl
        rw [List.append_nil] at h1
        exact hax (h1 ▸ hx)
    cases p with
    | nil => exact hpne rfl
    | cons y p =>
      have hy : IsBareChar y := hb y (by rw [h1]; simp)
      have hy1 : y ≠ '.' := by rintro rfl; rcases hy with h | h | h | h <;> exact absurd h (by decide)
      have hy2 : y ≠ ':' := by rintro rfl; rcases hy with h | h | h | h <;> exact absurd h (by decide)
      rw [List.cons_append] at h2
      rcases hb' with ⟨u1, v1, rfl, k1, u2, v2, rfl, k2, u3, v3, rfl, k3, hv3⟩ | ⟨u1, v1, rfl, k1, -⟩
      · have hu1 : u1 = [] := by
          rcases k1 with k1 | k1
          · rw [lang_ch] at k1
            subst k1
            exact absurd (List.cons.inj h2).1.symm hy2
          · exact k1
        subst hu1
        have hu2 : u2 = [] := by
          rcases k2 with ⟨u4, v4, rfl, k4, u5, v5, rfl, k5, -⟩ | k2
          · rcases k4 with k4 | rfl
            · rw [lang_ch] at k4
              subst k4
              exact absurd (List.cons.inj h2).1.symm hy2
            · rw [lang_ch] at k5
              subst k5
              exact absurd (List.cons.inj h2).1.symm hy1
          · exact k2
        subst hu2
        obtain ⟨z, rfl, -⟩ := k3
        simp only [List.nil_append, List.cons_append, List.cons.injEq] at h2
        have hd' : '.' ∈ v3 := by rw [h2.2]; simp
        have := Rx.over_lang (p := fun c => c != '.') (r := Rx.seq [Rx.opt (.cls [('+', '+'), ('-', '-')]), Rx.plus LexRx.digitU]) (by decide) hv3 _ hd'
        simp at this
      · rw [lang_ch] at k1
        subst k1
        exact hy1 (List.cons.inj h2).1.symm

theorem line_dot {w post : Text} (hw : ∀ x ∈ w, IsBareChar x) :
    ∃ q, (w ++ '.' :: post).takeWhile (fun x => !isTokenSeparator x) = w ++ '.' :: q := by
  induction w with
  | nil => exact ⟨post.takeWhile fun x => !isTokenSeparator x, by rw [List.nil_append, List.takeWhile_cons_of_pos (by decide)]; rfl⟩
  | cons x w ih =>
    obtain ⟨q, hq⟩ := ih fun y hy => hw y (by simp [hy])
    refine ⟨q, ?_⟩
    have := (name_char (hw x (by simp))).2
    have hx : isTokenSeparator x = false := by
      cases hs : isTokenSeparator x with
      | false => rfl
      | true => rw [sep_imp_sepDot hs] at this; cases this
    rw [List.cons_append, List.takeWhile_cons_of_pos (by simp [hx]), hq]
    rfl

theorem dotKey_dotLex {t : Text} (h : DotKey t) : DotLex BARE_KEY t := by
  obtain ⟨⟨hne, hb, hdate⟩, hnum, hf⟩ := h
  have other : ∀ (s : Text) (d : Char) (w : Text), t = s ++ d :: w → (s = [] ∨ s = ['-']) → isAsciiDigit d = true →
      ∃ x ∈ d :: w, (isAsciiDigit x || x == '_') = false := by
    intro s d w e hs hd
    refine Classical.byContradiction fun hno => hnum ⟨s, d, w, e, hs, hd, fun x hx => ?_⟩
    refine Classical.byContradiction fun hx' => hno ⟨x, by simp [hx], ?_⟩
    cases hc : (isAsciiDigit x || x == '_') with
    | false => rfl
    | true =>
      simp only [Bool.or_eq_true, beq_iff_eq] at hc
      exact absurd hc hx'
  rcases bare_cases hne hb with h | ⟨d, w, rfl, hd⟩ | ⟨w, rfl⟩
  · exact name_dotLex h
  · refine ⟨BARE_KEY, bare_readAs _, fun post => accepts_digit_key hd hb hdate hf (keyPost_dot post) ?_⟩
    obtain ⟨q, hq⟩ := line_dot (w := w) (post := post) fun x hx => hb x (by simp [hx])
    rw [hq]
    obtain ⟨x, hx, hx'⟩ := other [] d w rfl (.inl rfl) hd
    exact dot_not_number hb hx hx'
  · have hw : ∀ x ∈ w, IsBareChar x := fun x hx => hb x (by simp [hx])
    refine ⟨_, ?_, fun post => accepts_dash_key hw (keyPost_dot post) ?_⟩
    · split
      · exact float_readAs hb
      · exact bare_readAs _
    · rintro d w' rfl hd
      obtain ⟨q, hq⟩ := line_dot (w := w') (post := post) fun x hx => hw x (by simp [hx])
      rw [hq]
      obtain ⟨x, hx, hx'⟩ := other ['-'] d w' rfl (.inr rfl) hd
      exact dot_not_number hw hx hx'

/-- A bare key of less than ten characters. -/
theorem short_plain {t : Text} (hne : t ≠ []) (hb : ∀ x ∈ t, IsBareChar x) (hlen : t.length < 10) : PlainKey t := by
  refine ⟨hne, hb, fun d r e hd => ?_⟩
  have h1 : d.length = 10 := Rx.fixedLen_lang (by decide) hd
  rw [e, List.length_append] at hlen
  omega

theorem name_dotKey {t : Text} (h : NameKey t) : DotKey t := by
  obtain ⟨c, w, rfl, hc, hw⟩ := h
  have hnd : inRange '0' '9' c = false := by
    cases hd : inRange '0' '9' c with
    | false => rfl
    | true =>
      simp only [inRange, Bool.and_eq_true, decide_eq_true_eq] at hd
      rcases hc with hc | rfl
      · simp only [isLetter, inRange, Bool.or_eq_true, Bool.and_eq_true, decide_eq_true_eq] at hc
        rcases hc with hc | hc <;> exact absurd (Char.le_trans hc.1 hd.2) (by decide)
      · exact absurd hd (by decide)
  have hdate : ∀ d r, c :: w = d ++ r → ¬ Toml.fullDate.Lang d := by
    rintro d r e ⟨a, b, rfl, ⟨x, y, rfl, h2, -⟩, -⟩
    obtain ⟨z, rfl, hz⟩ := digit_lang h2
    simp only [List.cons_append, List.nil_append, List.cons.injEq] at e
    rw [← e.1] at hz
    exact absurd hz (by simp [isAsciiDigit, hnd])
  refine ⟨⟨by simp, fun x hx => ?_, fun d r e h => absurd h (hdate d r e)⟩, ?_, hdate _ [] (by simp)⟩
  · rcases List.mem_cons.mp hx with rfl | hx
    · exact hc.elim .inl fun h => .inr (.inr (.inl h))
    · exact hw x hx
  · rintro ⟨s, d, v, e, rfl | rfl, hd, -⟩
    · rw [← (List.cons.inj e).1, hnd] at hd
      cases hd
    · rw [(List.cons.inj e).1] at hc
      rcases hc with hc | hc <;> exact absurd hc (by decide)

theorem name_plain {t : Text} (h : NameKey t) : PlainKey t := (name_dotKey h).1

/-- The written key. -/
theorem key_wordLex (E : Env) {k : AstKey} (h : TomlWord (.key k)) :
    WordLex (writtenKind (E.keyText k) (keyKind k)) (E.keyText k) := by
  cases k with
  | bare t =>
    have hk : E.keyText (.bare t) = t := rfl
    rw [hk]
    exact plain_wordLex h
  | basic t =>
    obtain ⟨out, h1, h2⟩ := basic_formatted h E.defs.keyQuoteStyle
    have hk : E.keyText (.basic t) = out := by simp [Env.keyText, Format.formatKey, h1]
    rw [hk]
    rcases h2 with h2 | h2
    · rw [written_basic h2 (keyKind (.basic t)) (.inl rfl)]; exact basic_wordLex h2
    · rw [written_literal h2 (keyKind (.basic t)) (.inl rfl)]; exact literal_wordLex h2
  | literal t =>
    obtain ⟨out, h1, h2⟩ := literal_formatted h E.defs.keyQuoteStyle
    have hk : E.keyText (.literal t) = out := by simp [Env.keyText, Format.formatKey, h1]
    rw [hk]
    rcases h2 with h2 | h2
    · rw [written_basic h2 (keyKind (.literal t)) (.inr rfl)]; exact basic_wordLex h2
    · rw [written_literal h2 (keyKind (.literal t)) (.inr rfl)]; exact literal_wordLex h2

/-- The written key before a dot. -/
theorem key_dotLex (E : Env) {k : AstKey} (h : TomlWord (.key k)) (hn : ∀ t, k = .bare t → DotKey t) :
    DotLex (writtenKind (E.keyText k) (keyKind k)) (E.keyText k) := by
  cases k with
  | bare t => exact dotKey_dotLex (hn t rfl)
  | basic t =>
    obtain ⟨out, h1, h2⟩ := basic_formatted h E.defs.keyQuoteStyle
    have hk : E.keyText (.basic t) = out := by simp [Env.keyText, Format.formatKey, h1]
    rw [hk]
    rcases h2 with h2 | h2
    · rw [written_basic h2 (keyKind (.basic t)) (.inl rfl)]; exact basic_dotLex h2
    · rw [written_literal h2 (keyKind (.basic t)) (.inl rfl)]; exact literal_dotLex h2
  | literal t =>
    obtain ⟨out, h1, h2⟩ := literal_formatted h E.defs.keyQuoteStyle
    have hk : E.keyText (.literal t) = out := by simp [Env.keyText, Format.formatKey, h1]
    rw [hk]
    rcases h2 with h2 | h2
    · rw [written_basic h2 (keyKind (.literal t)) (.inr rfl)]; exact basic_dotLex h2
    · rw [written_literal h2 (keyKind (.literal t)) (.inr rfl)]; exact literal_dotLex h2

theorem tomlLiteral_isLiteral {k : SyntaxKind} {t : Text} (h : TomlLiteral k t) : View.isLiteral k = true := by
  cases h <;> rfl

/-- The words of the TOML grammar are fine. -/
theorem fine_of (E : Env) {ws : List Word} (h : ∀ w ∈ ws, TomlWord w) (hn : NamesBeforeDots ws) : Fine E ws where
  lit k t hw := tomlLiteral_isLiteral (h _ hw)
  dot a k b e := key_dotLex E (h _ (by simp [e])) fun t ht => hn a t b (by rw [e, ht])

end Formatter
end Tombi
