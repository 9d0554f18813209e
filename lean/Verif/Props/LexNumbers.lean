import Verif.Proofs.Numbers
import Verif.Props.Lexer
/-! Property C04: what number, boolean and date-time tokens look like. -/
namespace Tombi
open Spec

/-- The full statement of C04 for one token kind and one production of the TOML grammar: every token of
that kind covers a text of that production. -/
def OnlyCovers (k : SyntaxKind) (r : Rx) : Prop :=
  ∀ (G : Segmenter) (src : List Char) (l : Lexed), lex G src = .ok l → ∀ t ∈ l.tokens, t.kind = k →
    ∃ pre mid post, Covers t pre mid post src ∧ r.Lang mid

/-- **C04** for booleans. -/
theorem C04_boolean : OnlyCovers .BOOLEAN Toml.boolean := by
  intro G src l h t ht hk
  obtain ⟨pre, mid, post, h1, h2⟩ := lex_shape h ht (by simp [hk]) (by simp [hk])
  rw [hk] at h2
  refine ⟨pre, mid, post, h1, ?_⟩
  rcases h2.1 with rfl | rfl
  · rw [← Rx.matchAll_iff]; decide
  · rw [← Rx.matchAll_iff]; decide

/-- **C04** for local dates. -/
theorem C04_local_date : OnlyCovers .LOCAL_DATE Toml.fullDate := by
  intro G src l h t ht hk
  obtain ⟨pre, mid, post, h1, h2⟩ := lex_shape h ht (by simp [hk]) (by simp [hk])
  rw [hk] at h2
  exact ⟨pre, mid, post, h1, h2.1⟩

/-- **C04** for decimal integers, when the text has no colon. Missing: tokens with a colon, which exist
(`C04_integer_false`) and are outside the grammar. -/
theorem C04_integer_dec_partial (G : Segmenter) (src : List Char) (l : Lexed) (h : lex G src = .ok l)
    (t : Token) (ht : t ∈ l.tokens) (hk : t.kind = .INTEGER_DEC) :
    ∃ pre mid post, Covers t pre mid post src ∧ (':' ∉ mid → Toml.decInt.Lang mid) := by
  obtain ⟨pre, mid, post, h1, h2⟩ := lex_shape h ht (by simp [hk]) (by simp [hk])
  rw [hk] at h2
  obtain ⟨sign, body, hs, rfl, hb, -⟩ := h2
  refine ⟨pre, _, post, h1, fun hc => ?_⟩
  exact ⟨sign, body, rfl, sign_of hs, unsignedDecInt_of hb (fun hm => hc (by simp [hm]))⟩

/-- **C04** for hexadecimal integers: an optional sign (outside the grammar) and, when there is no colon,
a text of the grammar. -/
theorem C04_integer_hex_partial (G : Segmenter) (src : List Char) (l : Lexed) (h : lex G src = .ok l)
    (t : Token) (ht : t ∈ l.tokens) (hk : t.kind = .INTEGER_HEX) :
    ∃ pre sign body post, Covers t pre (sign ++ body) post src
      ∧ Toml.sign.Lang sign ∧ (':' ∉ body → Toml.hexInt.Lang body) := by
  obtain ⟨pre, mid, post, h1, h2⟩ := lex_shape h ht (by simp [hk]) (by simp [hk])
  rw [hk] at h2
  obtain ⟨sign, body, hs, rfl, hb, -⟩ := h2
  exact ⟨pre, sign, body, post, h1, sign_of hs, hexInt_of hb⟩

/-- **C04** for octal integers, as for hexadecimal ones. -/
theorem C04_integer_oct_partial (G : Segmenter) (src : List Char) (l : Lexed) (h : lex G src = .ok l)
    (t : Token) (ht : t ∈ l.tokens) (hk : t.kind = .INTEGER_OCT) :
    ∃ pre sign body post, Covers t pre (sign ++ body) post src
      ∧ Toml.sign.Lang sign ∧ (':' ∉ body → Toml.octInt.Lang body) := by
  obtain ⟨pre, mid, post, h1, h2⟩ := lex_shape h ht (by simp [hk]) (by simp [hk])
  rw [hk] at h2
  obtain ⟨sign, body, hs, rfl, hb, -⟩ := h2
  exact ⟨pre, sign, body, post, h1, sign_of hs, octInt_of hb⟩

/-- **C04** for binary integers, when there is neither a colon nor a bar. -/
theorem C04_integer_bin_partial (G : Segmenter) (src : List Char) (l : Lexed) (h : lex G src = .ok l)
    (t : Token) (ht : t ∈ l.tokens) (hk : t.kind = .INTEGER_BIN) :
    ∃ pre sign body post, Covers t pre (sign ++ body) post src
      ∧ Toml.sign.Lang sign ∧ (':' ∉ body → '|' ∉ body → Toml.binInt.Lang body) := by
  obtain ⟨pre, mid, post, h1, h2⟩ := lex_shape h ht (by simp [hk]) (by simp [hk])
  rw [hk] at h2
  obtain ⟨sign, body, hs, rfl, hb, -⟩ := h2
  exact ⟨pre, sign, body, post, h1, sign_of hs, binInt_of hb⟩

/-- **C04** for floats: a special float, or a signed text that, when it has neither a colon nor an
underscore, is a float of the grammar except that its integer part may have leading zeros. -/
theorem C04_float_partial (G : Segmenter) (src : List Char) (l : Lexed) (h : lex G src = .ok l)
    (t : Token) (ht : t ∈ l.tokens) (hk : t.kind = .FLOAT) :
    ∃ pre mid post, Covers t pre mid post src
      ∧ (Toml.specialFloat.Lang mid ∨ ∃ sign body, mid = sign ++ body ∧ Toml.sign.Lang sign
          ∧ (':' ∉ body → '_' ∉ body → Toml.zeroPrefixedFloat.Lang body)) := by
  obtain ⟨pre, mid, post, h1, h2⟩ := lex_shape h ht (by simp [hk]) (by simp [hk])
  rw [hk] at h2
  refine ⟨pre, mid, post, h1, ?_⟩
  rcases h2 with ⟨sign, hs, hw, -⟩ | ⟨sign, body, hs, rfl, hb, -⟩
  · left
    rcases hw with rfl | rfl
    · exact ⟨sign, _, rfl, sign_of hs, Or.inl ((Rx.matchAll_iff _ _).mp (by decide))⟩
    · exact ⟨sign, _, rfl, sign_of hs, Or.inr ((Rx.matchAll_iff _ _).mp (by decide))⟩
  · right
    exact ⟨sign, body, rfl, sign_of hs, zeroPrefixedFloat_of hb⟩

/-- **C04** for local times: in the grammar, or the explicit deviation `laxTime` (a fraction but no
seconds). -/
theorem C04_local_time_partial (G : Segmenter) (src : List Char) (l : Lexed) (h : lex G src = .ok l)
    (t : Token) (ht : t ∈ l.tokens) (hk : t.kind = .LOCAL_TIME) :
    ∃ pre mid post, Covers t pre mid post src ∧ (Toml.partialTime.Lang mid ∨ Toml.laxTime.Lang mid) := by
  obtain ⟨pre, mid, post, h1, h2⟩ := lex_shape h ht (by simp [hk]) (by simp [hk])
  rw [hk] at h2
  refine ⟨pre, mid, post, h1, time_of h2.1 ?_⟩
  obtain ⟨u1, v1, rfl, g1, -⟩ := h2.1
  exact comma_head (P := isAsciiDigit) (by decide) g1 (by decide) (Or.inl (by decide)) rfl h2.2.2

/-- **C04** for local date-times: a date, a delimiter, and a time as for local times. -/
theorem C04_local_date_time_partial (G : Segmenter) (src : List Char) (l : Lexed) (h : lex G src = .ok l)
    (t : Token) (ht : t ∈ l.tokens) (hk : t.kind = .LOCAL_DATE_TIME) :
    ∃ pre mid post, Covers t pre mid post src ∧ (Toml.localDateTime.Lang mid
      ∨ (Rx.seq [Toml.fullDate, Toml.timeDelim, Toml.laxTime]).Lang mid) := by
  obtain ⟨pre, mid, post, h1, h2⟩ := lex_shape h ht (by simp [hk]) (by simp [hk])
  rw [hk] at h2
  refine ⟨pre, mid, post, h1, ?_⟩
  have hcm : ',' ∉ mid := by
    obtain ⟨u1, v1, rfl, g1, -⟩ := h2.1
    exact comma_head (P := fun c => isAsciiDigit c || c == '-') (by decide) g1 (by decide) (Or.inr (by decide))
      rfl h2.2.2
  obtain ⟨u1, v1, rfl, g1, u2, v2, rfl, g2, u3, v3, rfl, g3, rfl⟩ := h2.1
  rcases time_of g3 (fun hm => hcm (by simp [hm])) with g3 | g3
  · exact Or.inl ⟨u1, _, rfl, g1, u2, _, rfl, g2, u3, _, rfl, g3, rfl⟩
  · exact Or.inr ⟨u1, _, rfl, g1, u2, _, rfl, g2, u3, _, rfl, g3, rfl⟩

/-- **C04** for offset date-times: a date, a delimiter, a time as for local times, and an offset. -/
theorem C04_offset_date_time_partial (G : Segmenter) (src : List Char) (l : Lexed) (h : lex G src = .ok l)
    (t : Token) (ht : t ∈ l.tokens) (hk : t.kind = .OFFSET_DATE_TIME) :
    ∃ pre mid post, Covers t pre mid post src ∧ (Toml.offsetDateTime.Lang mid
      ∨ (Rx.seq [Toml.fullDate, Toml.timeDelim, Toml.laxTime, Toml.timeOffset]).Lang mid) := by
  obtain ⟨pre, mid, post, h1, h2⟩ := lex_shape h ht (by simp [hk]) (by simp [hk])
  rw [hk] at h2
  refine ⟨pre, mid, post, h1, ?_⟩
  have hcm : ',' ∉ mid := by
    obtain ⟨u1, v1, rfl, g1, -⟩ := h2.1
    exact comma_head (P := fun c => isAsciiDigit c || c == '-') (by decide) g1 (by decide) (Or.inr (by decide))
      rfl h2.2.2
  obtain ⟨u1, v1, rfl, g1, u2, v2, rfl, g2, u3, v3, rfl, g3, u4, v4, rfl, g4, rfl⟩ := h2.1
  rcases time_of g3 (fun hm => hcm (by simp [hm])) with g3 | g3
  · exact Or.inl ⟨u1, _, rfl, g1, u2, _, rfl, g2, u3, _, rfl, g3, u4, _, rfl, g4, rfl⟩
  · exact Or.inr ⟨u1, _, rfl, g1, u2, _, rfl, g2, u3, _, rfl, g3, u4, _, rfl, g4, rfl⟩

/-- a source that is one token of kind `k` covering everything, although outside the grammar `r` -/
theorem not_onlyCovers {k : SyntaxKind} {r : Rx} (src : List Char) (n : Nat) (hn : n = utf8Len src)
    (hl : (lex charSegmenter src).map (fun l => (l.tokens.map fun t => (t.kind, t.span)))
      = .ok [(k, ⟨0, n⟩), (.EOF, ⟨n, n⟩)])
    (hr : r.matchAll src = false) : ¬ OnlyCovers k r := by
  intro h
  cases he : lex charSegmenter src with
  | error e => rw [he] at hl; simp [Except.map] at hl
  | ok l =>
    rw [he] at hl
    simp only [Except.map, Except.ok.injEq] at hl
    cases htk : l.tokens with
    | nil => rw [htk] at hl; simp at hl
    | cons t ts =>
      rw [htk] at hl
      simp only [List.map_cons, List.cons.injEq, Prod.mk.injEq] at hl
      obtain ⟨pre, mid, post, hc, hm⟩ := h charSegmenter src l he t (by simp [htk]) hl.1.1
      have h1 := hc.start
      have h2 := hc.stop
      rw [hl.1.2] at h1 h2
      have hpre : pre = [] := by
        cases pre with
        | nil => rfl
        | cons a b => have := utf8Len_pos (s := a :: b) (by simp); simp only at h1; omega
      subst hpre
      have hmid : mid = src := by
        have := hc.src
        simp only [List.nil_append] at this h2
        have h3 : utf8Len src = utf8Len mid := by rw [← hn]; exact h2
        have h4 : src ++ [] = mid ++ post := by simpa using this
        exact (append_inj_utf8 h4 h3).1.symm
      subst hmid
      rw [← Rx.matchAll_iff, hr] at hm
      simp at hm

/-- **C04 is false** for integers: `1:2` is a decimal, `0b0|1` a binary, `+0x1F` a hexadecimal and `-0o7` an
octal integer token. -/
theorem C04_integer_false :
    ¬ OnlyCovers .INTEGER_DEC Toml.decInt ∧ ¬ OnlyCovers .INTEGER_BIN Toml.binInt
      ∧ ¬ OnlyCovers .INTEGER_HEX Toml.hexInt ∧ ¬ OnlyCovers .INTEGER_OCT Toml.octInt :=
  ⟨not_onlyCovers "1:2".toList 3 (by decide) (by decide +kernel) (by decide +kernel),
   not_onlyCovers "0b0|1".toList 5 (by decide) (by decide +kernel) (by decide +kernel),
   not_onlyCovers "+0x1F".toList 5 (by decide) (by decide +kernel) (by decide +kernel),
   not_onlyCovers "-0o7".toList 4 (by decide) (by decide +kernel) (by decide +kernel)⟩

/-- **C04 is false** for floats: `1._` is a float token. -/
theorem C04_float_false : ¬ OnlyCovers .FLOAT Toml.float :=
  not_onlyCovers "1._".toList 3 (by decide) (by decide +kernel) (by decide +kernel)

/-- **C04 is false** for times: `12:30.5` is a local time token, and the same time makes local and offset
date-times. -/
theorem C04_time_false :
    ¬ OnlyCovers .LOCAL_TIME Toml.partialTime ∧ ¬ OnlyCovers .LOCAL_DATE_TIME Toml.localDateTime
      ∧ ¬ OnlyCovers .OFFSET_DATE_TIME Toml.offsetDateTime :=
  ⟨not_onlyCovers "12:30.5".toList 7 (by decide) (by decide +kernel) (by decide +kernel),
   not_onlyCovers "2000-01-01T12:30.5".toList 18 (by decide) (by decide +kernel) (by decide +kernel),
   not_onlyCovers "2000-01-01T12:30.5Z".toList 19 (by decide) (by decide +kernel) (by decide +kernel)⟩

/-- Concrete case for C04: tokens of every kind occur. -/
example : (lex charSegmenter "-1_0 0x1F 0o7 0b1 1.5e+3 true 2000-01-01 00:00:00Z 2000-01-01".toList).map
    (fun l => (l.tokens.filter (fun t => t.kind ≠ .WHITESPACE)).map (fun t => t.kind))
    = .ok [.INTEGER_DEC, .INTEGER_HEX, .INTEGER_OCT, .INTEGER_BIN, .FLOAT, .BOOLEAN, .OFFSET_DATE_TIME,
        .LOCAL_DATE, .EOF] := by decide +kernel

end Tombi
