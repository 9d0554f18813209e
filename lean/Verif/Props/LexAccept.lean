import Verif.Proofs.LexAccept
import Verif.Props.LexStrings
/-! Property C45: every valid number, boolean and date-time literal is one token of its kind. -/
namespace Tombi
open Spec

namespace Spec
/-- The text after a value: nothing, or something that starts with a delimiter, blank, line break or
comment. -/
def EndsValue (post : List Char) : Prop := ∀ c, post.head? = some c → c ∈ "{}[],= \t\r\n#".toList
end Spec

theorem Spec.EndsValue.delim {post : List Char} (h : EndsValue post) : DelimPost post := by
  intro c r hc
  have := h c (by simp [hc])
  have hall : "{}[],= \t\r\n#".toList.all isTokenSeparator = true := by decide
  exact List.all_eq_true.mp hall c this

/-- the first token of a document that starts with a literal -/
theorem LexedAs.first {k : SyntaxKind} {lit post : List Char} (h : LexedAs k lit post) (G : Segmenter) :
    ∃ l t ts, lex G (lit ++ post) = .ok l ∧ l.tokens = t :: ts ∧ t.kind = k ∧ t.span = ⟨0, utf8Len lit⟩ := by
  obtain ⟨l, toks, eof, -, hl, htk, -, heof, -, htile, -⟩ := C01_lex_lossless G (lit ++ post)
  have key : ∃ t ts, l.tokens = t :: ts ∧ t.span.start = 0 := by
    cases toks with
    | nil =>
      refine ⟨eof, [], htk, ?_⟩
      rw [heof]
      generalize utf8Len (lit ++ post) = n at htile
      cases htile
      rfl
    | cons t ts =>
      refine ⟨t, ts ++ [eof], by rw [htk]; rfl, ?_⟩
      rw [List.map_cons] at htile
      generalize t.span = sp at htile ⊢
      cases htile
      rfl
  obtain ⟨t, ts, htk, hs⟩ := key
  obtain ⟨h1, h2⟩ := h G [] l (by simpa using hl) t (by simp [htk]) (by simpa using hs)
  refine ⟨l, t, ts, hl, htk, h1, ?_⟩
  cases hsp : t.span with
  | mk a b => rw [hsp] at hs h2; simp at hs h2; simp [hs, h2]

theorem lexedAs_of {k : SyntaxKind} {lit post : List Char} (hne : lit ≠ []) (h : Accepts k lit post) :
    LexedAs k lit post := by
  intro G pre l hl t ht hs
  exact lex_accepts hne h hl ht hs

theorem lang_ne_nil {r : Rx} (h : r.nullable = false) {w : List Char} (hw : r.Lang w) : w ≠ [] := by
  rintro rfl
  rw [← Rx.nullable_iff, h] at hw
  simp at hw

/-- **C45** for integers. -/
theorem C45_integer (lit post : List Char) (hp : EndsValue post) :
    (Toml.decInt.Lang lit → LexedAs .INTEGER_DEC lit post)
    ∧ (Toml.hexInt.Lang lit → LexedAs .INTEGER_HEX lit post)
    ∧ (Toml.octInt.Lang lit → LexedAs .INTEGER_OCT lit post)
    ∧ (Toml.binInt.Lang lit → LexedAs .INTEGER_BIN lit post) :=
  ⟨fun h => lexedAs_of (lang_ne_nil (by decide) h) (accepts_dec h (Spec.EndsValue.delim hp)),
   fun h => lexedAs_of (lang_ne_nil (by decide) h) (accepts_hex h (Spec.EndsValue.delim hp)),
   fun h => lexedAs_of (lang_ne_nil (by decide) h) (accepts_oct h (Spec.EndsValue.delim hp)),
   fun h => lexedAs_of (lang_ne_nil (by decide) h) (accepts_bin h (Spec.EndsValue.delim hp))⟩

/-- **C45** for floats and booleans. -/
theorem C45_float_boolean (lit post : List Char) (hp : EndsValue post) :
    (Toml.float.Lang lit → LexedAs .FLOAT lit post)
    ∧ (Toml.boolean.Lang lit → LexedAs .BOOLEAN lit post) :=
  ⟨fun h => lexedAs_of (lang_ne_nil (by decide) h) (accepts_float h (Spec.EndsValue.delim hp)),
   fun h => lexedAs_of (lang_ne_nil (by decide) h) (accepts_boolean h (Spec.EndsValue.delim hp))⟩

/-- **C45** for dates and times. A date followed by a space and a digit is the beginning of a date-time,
so that case is excluded for dates. -/
theorem C45_date_time (lit post : List Char) (hp : EndsValue post) :
    (Toml.offsetDateTime.Lang lit → LexedAs .OFFSET_DATE_TIME lit post)
    ∧ (Toml.localDateTime.Lang lit → LexedAs .LOCAL_DATE_TIME lit post)
    ∧ (Toml.fullDate.Lang lit → (∀ x r, post = ' ' :: x :: r → ¬ ('0' ≤ x ∧ x ≤ '9')) →
        LexedAs .LOCAL_DATE lit post)
    ∧ (Toml.partialTime.Lang lit → LexedAs .LOCAL_TIME lit post) :=
  ⟨fun h => lexedAs_of (lang_ne_nil (by decide) h) (accepts_offset_date_time h (Spec.EndsValue.delim hp)),
   fun h => lexedAs_of (lang_ne_nil (by decide) h) (accepts_local_date_time h (Spec.EndsValue.delim hp)),
   fun h h2 => lexedAs_of (lang_ne_nil (by decide) h) (accepts_local_date h (Spec.EndsValue.delim hp) (fun x r hx => by
     have := h2 x r hx
     rw [Bool.eq_false_iff]
     intro hd
     simp [isAsciiDigit, inRange] at hd
     exact this hd)),
   fun h => lexedAs_of (lang_ne_nil (by decide) h) (accepts_time h (Spec.EndsValue.delim hp))⟩

/-- **C45**, as a document: a text that starts with such a literal lexes, and its first token is exactly
that literal. -/
theorem C45_first_token (k : SyntaxKind) (lit post : List Char) (h : LexedAs k lit post) (G : Segmenter) :
    ∃ l t ts, lex G (lit ++ post) = .ok l ∧ l.tokens = t :: ts ∧ t.kind = k ∧ t.span = ⟨0, utf8Len lit⟩ :=
  h.first G

/-- Concrete case for C45. -/
example : EndsValue "\n".toList ∧ Toml.float.Lang "-1_0.5e+0_3".toList
    ∧ Toml.offsetDateTime.Lang "1979-05-27 07:32:00.999Z".toList ∧ Toml.hexInt.Lang "0xdead_BEEF".toList :=
  ⟨by simp [EndsValue], (Rx.matchAll_iff _ _).mp (by decide +kernel), (Rx.matchAll_iff _ _).mp (by decide +kernel),
   (Rx.matchAll_iff _ _).mp (by decide +kernel)⟩
example : (lex charSegmenter "a = 1979-05-27 07:32:00.999Z\n".toList).map
    (fun l => l.tokens.map (fun t => (t.kind, t.span)))
    = .ok [(.BARE_KEY, ⟨0, 1⟩), (.WHITESPACE, ⟨1, 2⟩), (.EQUAL, ⟨2, 3⟩), (.WHITESPACE, ⟨3, 4⟩),
      (.OFFSET_DATE_TIME, ⟨4, 28⟩), (.LINE_BREAK, ⟨28, 29⟩), (.EOF, ⟨29, 29⟩)] := by decide +kernel

end Tombi
