import Verif.Spec.ReadDocument
import Verif.Props.TomlText
import Verif.Props.Literals
import Verif.Props.DateTime
import Verif.Proofs.LexAccept
/-! Proofs for C70: keys and literals of the grammar are read as what they mean. -/
namespace Tombi.Reading
open SyntaxKind Spec TomlText Literals DateTime
open Tombi.Formatter (TomlLiteral)
open Tombi.Format (AstKey)

theorem PlainContinuation.tail {a s : Text} (h : PlainContinuation (a ++ s)) : PlainContinuation s := by
  rintro a' w c b rfl
  exact h (a ++ a') w c b (by simp)

theorem plainWs_of_wsNewlines {w : Text} (h : WsNewlines w) : ∀ x ∈ w, plainWs x := by
  induction h with
  | nil => simp
  | space _ ih => intro x hx; rcases List.mem_cons.mp hx with rfl | hx <;> simp_all [plainWs]
  | tab _ ih => intro x hx; rcases List.mem_cons.mp hx with rfl | hx <;> simp_all [plainWs]
  | lf _ ih => intro x hx; rcases List.mem_cons.mp hx with rfl | hx <;> simp_all [plainWs]
  | crlf _ ih =>
    intro x hx
    rcases List.mem_cons.mp hx with rfl | hx
    · simp [plainWs]
    · rcases List.mem_cons.mp hx with rfl | hx <;> simp_all [plainWs]

/-- What TOML gives a meaning to is given that meaning. -/
theorem lenient_of_plain {v : TomlVersion} {multi : Bool} {s o : List Char} (h : Decodes toml v multi s o)
    (hr : multi = true → PlainContinuation s) : Decodes lenient v multi s o := by
  induction h with
  | nil => exact .nil
  | chr c hc _ ih => exact .chr c hc (ih fun m => (hr m).tail (a := [c]))
  | esc e c he _ ih => exact .esc e c he (ih fun m => (hr m).tail (a := ['\\', e]))
  | escE hv _ ih => exact .escE hv (ih fun m => (hr m).tail (a := ['\\', 'e']))
  | escX ds n hv h1 h2 h3 _ ih =>
    exact .escX ds n hv h1 (lenient_of_strict h2) h3 (ih fun m => PlainContinuation.tail (a := '\\' :: 'x' :: ds) (hr m))
  | escU4 ds n h1 h2 h3 _ ih =>
    exact .escU4 ds n h1 (lenient_of_strict h2) h3 (ih fun m => PlainContinuation.tail (a := '\\' :: 'u' :: ds) (hr m))
  | escU8 ds n h1 h2 h3 _ ih =>
    exact .escU8 ds n h1 (lenient_of_strict h2) h3 (ih fun m => PlainContinuation.tail (a := '\\' :: 'U' :: ds) (hr m))
  | lf hm _ ih => exact .lf hm (ih fun m => (hr m).tail (a := ['\n']))
  | crlf hm _ ih => exact .crlf hm (ih fun m => (hr m).tail (a := ['\r', '\n']))
  | @cont s o w hc _ ih =>
    obtain ⟨hm, h1, h2, h3⟩ := hc
    refine .cont w ⟨?_, h1.white, h2, ?_⟩ (ih fun m => PlainContinuation.tail (a := '\\' :: w) (hr m))
    · rintro rfl; cases h2
    · intro c hc
      have hne := h3 c hc
      apply Bool.eq_false_iff.mpr
      intro hw
      obtain ⟨b, rfl⟩ : ∃ b, s = c :: b := by
        cases s with
        | nil => cases hc
        | cons x b => simp at hc; exact ⟨b, by rw [hc]⟩
      rcases hr hm [] w c b rfl (plainWs_of_wsNewlines h1) h2 hw with rfl | rfl | rfl | rfl
      · exact hne.1 rfl
      · exact hne.2.1 rfl
      · exact hne.2.2.1 rfl
      · exact hne.2.2.2 rfl

theorem dec_text {t : Text} (h : Toml.decInt.Lang t) : ∃ sign body, IsSign sign ∧ t = sign ++ body ∧
    LexRx.integerDec.Lang body ∧ ∃ d w, body = d :: w ∧ isAsciiDigit d = true := by
  obtain ⟨s, w, rfl, hs, hw⟩ := h
  obtain ⟨d, r, rfl, hd⟩ := unsigned_head hw
  exact ⟨s, _, isSign_of_toml hs, rfl, dec_of_toml hw, d, r, rfl, hd⟩

theorem float_text {t : Text} (h : Toml.float.Lang t) : (∃ sign, IsSign sign ∧ (t = sign ++ ['i', 'n', 'f'] ∨
      t = sign ++ ['n', 'a', 'n'])) ∨ ∃ sign body, IsSign sign ∧ t = sign ++ body ∧
    LexRx.float.Lang body ∧ ∃ d w, body = d :: w ∧ isAsciiDigit d = true := by
  rcases h with h | h
  · obtain ⟨a, b, rfl, ⟨s, w, rfl, hs, hw⟩, hb⟩ := h
    have hL := float_of_toml hw hb
    obtain ⟨d, r, rfl, hd⟩ := unsigned_head hw
    exact .inr ⟨s, _, isSign_of_toml hs, by simp, hL, d, r ++ b, by simp, hd⟩
  · obtain ⟨s, w, rfl, hs, hw⟩ := h
    refine .inl ⟨s, isSign_of_toml hs, ?_⟩
    rcases hw with hw | hw <;> rw [lang_lit] at hw <;> simp [hw]

theorem localDateTime_text {t : Text} (h : Toml.localDateTime.Lang t) : LexRx.localDateTime.Lang t := by
  obtain ⟨d, v1, rfl, hd, s, v2, rfl, hs, t, v3, rfl, ht, rfl⟩ := h
  exact ⟨d, _, rfl, hd, s, _, rfl, hs, t, _, rfl, time_of_toml ht, rfl⟩

theorem offsetDateTime_text {t : Text} (h : Toml.offsetDateTime.Lang t) : LexRx.offsetDateTime.Lang t := by
  obtain ⟨d, v1, rfl, hd, s, v2, rfl, hs, t, v3, rfl, ht, z, v4, rfl, hz, rfl⟩ := h
  exact ⟨d, _, rfl, hd, s, _, rfl, hs, t, _, rfl, time_of_toml ht, z, _, rfl, hz, rfl⟩

theorem drop_newlines {s : Text} (h1 : ¬ ['\n', '\n'] <+: s) (h2 : ¬ ['\r', '\n'] <+: s) :
    s.dropWhile (· == '\n') = trimNewline s := by
  match s with
  | [] => rfl
  | '\n' :: s =>
    have : s.head? ≠ some '\n' := by
      intro h
      cases s with
      | nil => cases h
      | cons c r => simp at h; subst h; exact h1 ⟨r, rfl⟩
    rw [List.dropWhile_cons_of_pos (by decide), dropWhile_of_head this]; rfl
  | c :: s =>
    by_cases hc : c = '\n'
    · subst hc
      have : s.head? ≠ some '\n' := by
        intro h
        cases s with
        | nil => cases h
        | cons c r => simp at h; subst h; exact h1 ⟨r, rfl⟩
      rw [List.dropWhile_cons_of_pos (by decide), dropWhile_of_head this]; rfl
    · rw [dropWhile_of_head (by simpa using hc)]
      unfold trimNewline
      split
      · rename_i h; cases h; exact absurd rfl hc
      · rename_i r h; exact absurd ⟨r, h.symm⟩ h2
      · rfl

theorem plain_trim {s : Text} (h : PlainContinuation s) : PlainContinuation (trimNewline s) := by
  unfold trimNewline
  split
  · exact h.tail (a := ['\n'])
  · exact h.tail (a := ['\r', '\n'])
  · exact h

theorem strip_prefix (radix : Nat) (p : Char) (digits : Rx) (t : Text)
    (hp : toDigit radix p = none) (hpu : p ≠ '_' ∧ p ≠ '+' ∧ p ≠ '-' ∧ p.utf8Size = 1)
    (hdig : ∀ w, digits.Lang w → ∃ c, w = [c] ∧ digitOf radix c ∧ c ≠ '_')
    (h : (Rx.seq [Rx.ch '0', Rx.ch p, digits, .star (Toml.sep digits)]).Lang t) (hi : InI64 (prefixedValue radix t)) :
    tryFromPrefixed radix t = some (some (prefixedValue radix t)) := by
  have := (prefixed_eval (radix := radix) hp hpu rfl hdig (sign := []) (body := t) (.inl rfl) (prefix_of h) (.inr h)
    (prefixedValue radix t)).mpr ⟨h, rfl, hi⟩
  simpa using this

/-- A literal of the grammar has the value it means. -/
theorem scalar_read {v : TomlVersion} {k : SyntaxKind} {t : Text} {s : Scalar} (hl : TomlLiteral k t) (hr : Readable k t)
    (hm : LiteralMeans v k t s) : scalarOf v k t = some s := by
  cases hm with
  | true_ => rfl
  | false_ => rfl
  | dec hi =>
    cases hl with
    | dec h =>
      have := (dec_eval (dec_text h) (decValue t)).mpr ⟨h, rfl, hi⟩
      simp [scalarOf, this]
  | hex hi =>
    cases hl with
    | hex h =>
      have : tryFromHexadecimal t = _ := strip_prefix 16 'x' _ t (by decide) (by decide) hexdig_digits h hi
      simp [scalarOf, this]
  | oct hi =>
    cases hl with
    | oct h =>
      have : tryFromOctal t = _ := strip_prefix 8 'o' _ t (by decide) (by decide) octdig_digits h hi
      simp [scalarOf, this]
  | bin hi =>
    cases hl with
    | bin h =>
      have : tryFromBinary t = _ := strip_prefix 2 'b' _ t (by decide) (by decide) bindig_digits h hi
      simp [scalarOf, this]
  | float =>
    cases hl with
    | float h =>
      have := ((float_eval (float_text h)).2 (t.filter (· ≠ '_'))).mpr ⟨h, hr, rfl⟩
      simp [scalarOf, this, Except.toOption]
  | @basic s o hd =>
    have := ((C13_basic_string_exact s v).1 o).mpr (lenient_of_plain hd (by simp))
    have e : '"' :: (s ++ ['"']) = quoted s := by simp [quoted]
    simp [scalarOf, e, this, okOf]
  | @literal s hd =>
    have e : '\'' :: (s ++ ['\'']) = literal1 s := by simp [literal1]
    obtain ⟨o, ho⟩ := (C15_literal_string s).1.mpr hd
    cases (C15_literal_string s).2 o ho
    simp [scalarOf, e, ho, okOf]
  | @multiBasic s o hd =>
    obtain ⟨h1, h2, h3⟩ := hr s rfl
    have := (parseBasicString_ok v true _ o).mpr (lenient_of_plain hd fun _ => plain_trim h3)
    rw [show ['"', '"', '"'] ++ s ++ ['"', '"', '"'] = quoted3 s from rfl]
    simp [scalarOf, tryFromMultiLineBasicString_quoted3, drop_newlines h1 h2, this, okOf]
  | @multiLiteral s hd =>
    obtain ⟨h1, h2⟩ := hr s rfl
    have := (literalLoop_ok true [] _ _).mpr ⟨rfl, hd⟩
    rw [show ['\'', '\'', '\''] ++ s ++ ['\'', '\'', '\''] = literal3 s from rfl]
    simp [scalarOf, tryFromMultiLineLiteralString_literal3, drop_newlines h1 h2, parseLiteralString, this, okOf]
  | localDate h1 h2 =>
    have := (C21_local_date t _).mpr ⟨h1, h2⟩
    simp [scalarOf, tryNewLocalDate, this, Except.mapError, Except.toOption]
  | localTime h1 =>
    have := (C47_local_time v t _).mpr h1
    simp [scalarOf, this, Except.toOption]
  | @localDateTime d tm c wd wt h1 h2 h3 h4 =>
    cases hl with
    | localDateTime h =>
      have := (local_date_time_eval (localDateTime_text h) v d tm).mpr ⟨h2, h4.1, wd, c, wt, h1, h3,
        h4.2.imp id fun x => ⟨x.1, .inl x.2⟩, rfl⟩
      simp [scalarOf, this, Except.toOption]
  | @offsetDateTime d tm o c wd wt wo h1 h2 h3 h4 h5 =>
    cases hl with
    | offsetDateTime h =>
      have := (offset_date_time_eval (offsetDateTime_text h) v d tm o).mpr ⟨h2, h4.1, wd, c, wt, wo, h1, h3,
        h4.2.imp id fun x => ⟨x.1, .inl x.2⟩, h5, rfl⟩
      simp only [List.append_assoc, List.cons_append] at this
      simp [scalarOf, this, Except.toOption]

/-- A key of the grammar has the name it means. -/
theorem key_read {v : TomlVersion} {k : AstKey} {n : DKey} (hk : TomlFile.TomlKey k) (hm : KeyMeans v k n) :
    rawKey v k = some n := by
  cases hm with
  | bare =>
    have := ((C18_bare_key_exact n).1 n).mpr ⟨rfl, fun c hc => by
      refine .inl ⟨by simp, fun d hd => ?_⟩
      simp at hd; subst hd
      have := hk.2 d hc
      simp only [Formatter.isLetter, inRange, Bool.or_eq_true, Bool.and_eq_true, decide_eq_true_eq] at this
      rcases this with (h | h) | h | h | h
      · exact .inr (.inl h)
      · exact .inl h
      · exact .inr (.inr (.inl h))
      · exact .inr (.inr (.inr (.inl h)))
      · exact .inr (.inr (.inr (.inr h)))⟩
    simp [rawKey, this, Except.toOption]
  | @basic s o hd =>
    have := ((C13_basic_string_exact s v).1 n).mpr (lenient_of_plain hd (by simp))
    have e : '"' :: (s ++ ['"']) = quoted s := by simp [quoted]
    simp [rawKey, e, this, okOf]
  | @literal s hd =>
    have e : '\'' :: (n ++ ['\'']) = literal1 n := by simp [literal1]
    obtain ⟨o, ho⟩ := (C15_literal_string n).1.mpr hd
    cases (C15_literal_string n).2 o ho
    simp [rawKey, e, ho, okOf]

end Tombi.Reading
