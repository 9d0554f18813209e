import Verif.Proofs.Floats
import Verif.Props.LexNumbers
/-! Properties C19 and C46: evaluation of number literals. -/
namespace Tombi
open Spec Literals

/-- **C19** for decimal literals: a token evaluates to `v` exactly when its text is a decimal integer of the
TOML grammar, `v` is the integer it denotes, and `v` fits 64 bits; everything else is an error. -/
theorem C19_decimal (G : Segmenter) (src : List Char) (l : Lexed) (h : lex G src = .ok l)
    (t : Token) (ht : t ∈ l.tokens) (hk : t.kind = .INTEGER_DEC) :
    ∃ pre mid post, Covers t pre mid post src ∧ ∀ v : Int,
      (tryFromDecimal mid = some v ↔ Toml.decInt.Lang mid ∧ v = decValue mid ∧ InI64 v) := by
  obtain ⟨pre, mid, post, h1, h2⟩ := lex_shape h ht (by simp [hk]) (by simp [hk])
  rw [hk] at h2
  obtain ⟨sign, body, hs, hm, hb, _, hd⟩ := h2
  exact ⟨pre, mid, post, h1, fun v => dec_eval ⟨sign, body, hs, hm, hb, hd⟩ v⟩

/-- the first two characters of a text in a language `0 p ...` -/
theorem prefix_of {p : Char} {rs : List Rx} {w : List Char} (h : (Rx.seq (Rx.ch '0' :: Rx.ch p :: rs)).Lang w) :
    ∃ rest, w = '0' :: p :: rest := by
  obtain ⟨u1, v1, rfl, h1, u2, v2, rfl, h2, _⟩ := h
  rw [lang_ch] at h1 h2
  subst h1 h2
  exact ⟨v2, rfl⟩

/-- **C19** for hexadecimal literals. The evaluation never panics. -/
theorem C19_hexadecimal (G : Segmenter) (src : List Char) (l : Lexed) (h : lex G src = .ok l)
    (t : Token) (ht : t ∈ l.tokens) (hk : t.kind = .INTEGER_HEX) :
    ∃ pre mid post, Covers t pre mid post src ∧ tryFromHexadecimal mid ≠ none ∧ ∀ v : Int,
      (tryFromHexadecimal mid = some (some v) ↔ Toml.hexInt.Lang mid ∧ v = prefixedValue 16 mid ∧ InI64 v) := by
  obtain ⟨pre, mid, post, h1, h2⟩ := lex_shape h ht (by simp [hk]) (by simp [hk])
  rw [hk] at h2
  obtain ⟨sign, body, hs, rfl, hb, _⟩ := h2
  refine ⟨pre, _, post, h1, prefixed_total (by decide) hs (prefix_of hb), fun v => ?_⟩
  refine prefixed_eval (p := 'x') (by decide) (by decide) rfl hexdig_digits hs (prefix_of hb) ?_ v
  by_cases hc : ':' ∈ body
  · exact .inl ⟨':', hc, by decide, by decide, by decide, by decide, by decide, by decide,
      fun hx => absurd ((Rx.matchAll_iff _ _).mpr hx) (by decide)⟩
  · exact .inr (hexInt_of hb hc)

/-- **C19** for octal literals. -/
theorem C19_octal (G : Segmenter) (src : List Char) (l : Lexed) (h : lex G src = .ok l)
    (t : Token) (ht : t ∈ l.tokens) (hk : t.kind = .INTEGER_OCT) :
    ∃ pre mid post, Covers t pre mid post src ∧ tryFromOctal mid ≠ none ∧ ∀ v : Int,
      (tryFromOctal mid = some (some v) ↔ Toml.octInt.Lang mid ∧ v = prefixedValue 8 mid ∧ InI64 v) := by
  obtain ⟨pre, mid, post, h1, h2⟩ := lex_shape h ht (by simp [hk]) (by simp [hk])
  rw [hk] at h2
  obtain ⟨sign, body, hs, rfl, hb, _⟩ := h2
  refine ⟨pre, _, post, h1, prefixed_total (by decide) hs (prefix_of hb), fun v => ?_⟩
  refine prefixed_eval (p := 'o') (by decide) (by decide) rfl octdig_digits hs (prefix_of hb) ?_ v
  by_cases hc : ':' ∈ body
  · exact .inl ⟨':', hc, by decide, by decide, by decide, by decide, by decide, by decide,
      fun hx => absurd ((Rx.matchAll_iff _ _).mpr hx) (by decide)⟩
  · exact .inr (octInt_of hb hc)

/-- **C19** for binary literals. -/
theorem C19_binary (G : Segmenter) (src : List Char) (l : Lexed) (h : lex G src = .ok l)
    (t : Token) (ht : t ∈ l.tokens) (hk : t.kind = .INTEGER_BIN) :
    ∃ pre mid post, Covers t pre mid post src ∧ tryFromBinary mid ≠ none ∧ ∀ v : Int,
      (tryFromBinary mid = some (some v) ↔ Toml.binInt.Lang mid ∧ v = prefixedValue 2 mid ∧ InI64 v) := by
  obtain ⟨pre, mid, post, h1, h2⟩ := lex_shape h ht (by simp [hk]) (by simp [hk])
  rw [hk] at h2
  obtain ⟨sign, body, hs, rfl, hb, _⟩ := h2
  refine ⟨pre, _, post, h1, prefixed_total (by decide) hs (prefix_of hb), fun v => ?_⟩
  refine prefixed_eval (p := 'b') (by decide) (by decide) rfl bindig_digits hs (prefix_of hb) ?_ v
  by_cases hc : ':' ∈ body
  · exact .inl ⟨':', hc, by decide, by decide, by decide, by decide, by decide, by decide,
      fun hx => absurd ((Rx.matchAll_iff _ _).mpr hx) (by decide)⟩
  by_cases hc' : '|' ∈ body
  · exact .inl ⟨'|', hc', by decide, by decide, by decide, by decide, by decide, by decide,
      fun hx => absurd ((Rx.matchAll_iff _ _).mpr hx) (by decide)⟩
  · exact .inr (binInt_of hb hc hc')

/-- Concrete cases for C19, with the boundary of 64 bits and texts the lexer takes for integers. -/
example : decValue "-1_000".toList = -1000 ∧ prefixedValue 16 "0xdead_BEEF".toList = 3735928559
    ∧ prefixedValue 8 "0o755".toList = 493 ∧ prefixedValue 2 "0b1101".toList = 13 := by decide
example : tryFromDecimal "9_223372036854775807".toList = some 9223372036854775807
    ∧ tryFromDecimal "9223372036854775808".toList = none
    ∧ tryFromDecimal "-9223372036854775808".toList = some (-9223372036854775808)
    ∧ tryFromDecimal "1:2".toList = none ∧ tryFromHexadecimal "+0x1F".toList = some none
    ∧ tryFromHexadecimal "0xdead_BEEF".toList = some (some 3735928559) := by decide
example : Toml.decInt.Lang "-1_000".toList := (Rx.matchAll_iff _ _).mp (by decide)

/-- **C46**: the evaluation of a float token never panics, and accepts its text exactly when it is a float
of the TOML grammar; the text handed to the conversion to binary floating point is then the literal without
underscores. Missing: the floats `0E…` with a capital `E`, which are valid but rejected (`C46_float_false`). -/
theorem C46_float_partial (G : Segmenter) (src : List Char) (l : Lexed) (h : lex G src = .ok l)
    (t : Token) (ht : t ∈ l.tokens) (hk : t.kind = .FLOAT) :
    ∃ pre mid post, Covers t pre mid post src ∧ tryFromFloat mid ≠ .error .panic
      ∧ ∀ o, (tryFromFloat mid = .ok o ↔ Toml.float.Lang mid
          ∧ (¬ ∃ sign z, (sign = [] ∨ sign = ['+'] ∨ sign = ['-']) ∧ mid = sign ++ '0' :: 'E' :: z)
          ∧ o = mid.filter (· ≠ '_')) := by
  obtain ⟨pre, mid, post, h1, h2⟩ := lex_shape h ht (by simp [hk]) (by simp [hk])
  rw [hk] at h2
  have h3 := float_eval (mid := mid) (by
    rcases h2 with ⟨sign, hs, hw, _⟩ | ⟨sign, body, hs, hm, hb, _, hd⟩
    · exact .inl ⟨sign, hs, hw⟩
    · exact .inr ⟨sign, body, hs, hm, hb, hd⟩)
  exact ⟨pre, mid, post, h1, h3.1, h3.2⟩

/-- **C46 is false**: `0E1` is a valid float, but rejected for a leading zero it does not have (only the
lower-case `e` ends the integer part). -/
theorem C46_float_false : Toml.float.Lang "0E1".toList ∧ tryFromFloat "0E1".toList = .error .LeadingZero
    ∧ (lex charSegmenter "0E1".toList).map (fun l => l.tokens.map (fun t => (t.kind, t.span)))
      = .ok [(.FLOAT, ⟨0, 3⟩), (.EOF, ⟨3, 3⟩)] :=
  ⟨(Rx.matchAll_iff _ _).mp (by decide +kernel), by decide +kernel, by decide +kernel⟩

/-- Concrete cases for C46. -/
example : tryFromFloat "-1_0.0_1e+1_0".toList = .ok "-10.01e+10".toList
    ∧ tryFromFloat "1._".toList = .error .Underscore ∧ tryFromFloat "01.5".toList = .error .LeadingZero
    ∧ tryFromFloat "1e_2".toList = .error .Underscore ∧ tryFromFloat "0e1".toList = .ok "0e1".toList := by
  decide +kernel
example : Toml.float.Lang "-1_0.0_1e+1_0".toList := (Rx.matchAll_iff _ _).mp (by decide +kernel)

end Tombi
