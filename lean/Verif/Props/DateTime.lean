import Verif.Proofs.DateTime
import Verif.Props.LexNumbers
/-! Properties C20, C21 and C47: date-times are parsed to real calendar values, and print and parse back. -/
namespace Tombi
open Spec DateTime

/-- **C21** for local dates: a text is accepted exactly when it is `yyyy-mm-dd` and names a day of the
calendar, and yields that day. -/
theorem C21_local_date (w : List Char) (d : Date) :
    localDateFromStr w = .ok d ↔ DateText d w ∧ ValidDate d := by
  have key : localDateFromStr w = .ok d ↔ fromStr w = .ok ⟨some d, none, none⟩ := by
    unfold localDateFromStr
    split
    · rename_i x h; rw [h]; simp
    · rename_i h1 h2
      rw [h2]
      refine ⟨fun h => (by cases h), fun h => ?_⟩
      cases h
      exact absurd rfl (h1 d)
    · rename_i e h; rw [h]; simp
  rw [key, fromStr_ok]
  constructor
  · intro h; cases h; exact ⟨‹_›, ‹_›⟩
  · rintro ⟨h1, h2⟩; exact .date h1 h2

/-- **C21** for local times. -/
theorem C21_local_time (w : List Char) (t : Time) :
    localTimeFromStr w = .ok t ↔ TimeText t w ∧ ValidTime t := by
  have key : localTimeFromStr w = .ok t ↔ fromStr w = .ok ⟨none, some t, none⟩ := by
    unfold localTimeFromStr
    split
    · rename_i x h; rw [h]; simp
    · rename_i h1 h2
      rw [h2]
      refine ⟨fun h => (by cases h), fun h => ?_⟩
      cases h
      exact absurd rfl (h1 t)
    · rename_i e h; rw [h]; simp
  rw [key, fromStr_ok]
  constructor
  · intro h; cases h; exact ⟨‹_›, ‹_›⟩
  · rintro ⟨h1, h2⟩; exact .time h1 h2

/-- **C21** for local date-times. -/
theorem C21_local_date_time (w : List Char) (d : Date) (t : Time) :
    localDateTimeFromStr w = .ok (d, t) ↔ ValidDate d ∧ ValidTime t
      ∧ ∃ wd c wt, DateText d wd ∧ DateTimeSeparator c ∧ TimeText t wt ∧ w = wd ++ c :: wt := by
  have key : localDateTimeFromStr w = .ok (d, t) ↔ fromStr w = .ok ⟨some d, some t, none⟩ := by
    unfold localDateTimeFromStr
    split
    · rename_i x y h; rw [h]; simp
    · rename_i h1 h2
      rw [h2]
      refine ⟨fun h => (by cases h), fun h => ?_⟩
      cases h
      exact absurd rfl (h1 d t)
    · rename_i e h; rw [h]; simp
  rw [key, fromStr_ok]
  constructor
  · intro h; cases h; exact ⟨‹_›, ‹_›, _, _, _, ‹_›, ‹_›, ‹_›, rfl⟩
  · rintro ⟨h1, h2, wd, c, wt, h3, h4, h5, rfl⟩; exact .local_ h3 h1 h4 h5 h2

/-- **C21** for offset date-times. -/
theorem C21_offset_date_time (w : List Char) (d : Date) (t : Time) (o : Offset) :
    offsetDateTimeFromStr w = .ok (d, t, o) ↔ ValidDate d ∧ ValidTime t
      ∧ ∃ wd c wt wo, DateText d wd ∧ DateTimeSeparator c ∧ TimeText t wt ∧ OffsetText o wo
          ∧ w = wd ++ c :: wt ++ wo := by
  have key : offsetDateTimeFromStr w = .ok (d, t, o) ↔ fromStr w = .ok ⟨some d, some t, some o⟩ := by
    unfold offsetDateTimeFromStr
    split
    · rename_i x y z h; rw [h]; simp
    · rename_i h1 h2
      rw [h2]
      refine ⟨fun h => (by cases h), fun h => ?_⟩
      cases h
      exact absurd rfl (h1 d t o)
    · rename_i e h; rw [h]; simp
  rw [key, fromStr_ok]
  constructor
  · intro h; cases h; exact ⟨‹_›, ‹_›, _, _, _, _, ‹_›, ‹_›, ‹_›, ‹_›, rfl⟩
  · rintro ⟨h1, h2, wd, c, wt, wo, h3, h4, h5, h6, rfl⟩; exact .offset h3 h1 h4 h5 h2 h6

/-- Concrete cases for C21. -/
example : localDateFromStr "2024-02-29".toList = .ok ⟨2024, 2, 29⟩
    ∧ localDateFromStr "1900-02-29".toList = .error (.InvalidDay 28)
    ∧ localDateFromStr "2000-02-29".toList = .ok ⟨2000, 2, 29⟩
    ∧ localTimeFromStr "23:59:60.1234567899".toList = .ok ⟨23, 59, 60, 123456789⟩
    ∧ localTimeFromStr "24:00:00".toList = .error .InvalidHour
    ∧ localTimeFromStr "07:32".toList = .ok ⟨7, 32, 0, 0⟩
    ∧ offsetDateTimeFromStr "1979-05-27t00:32:00.5-07:30".toList
      = .ok (⟨1979, 5, 27⟩, ⟨0, 32, 0, 500000000⟩, .Custom (-450)) := by decide +kernel
example : ValidDate ⟨2024, 2, 29⟩ :=
  ⟨by decide, 29, .february_leap (by left; decide), by decide, by decide⟩
example : ¬ ValidDate ⟨1900, 2, 29⟩ := by
  rintro ⟨_, n, h, _, h'⟩
  obtain ⟨_, _, rfl⟩ := (monthLength_iff _ _ _).mp h
  exact absurd h' (by decide)

/-- **C20** for local dates: every day of the calendar prints to a text that parses back to it. -/
theorem C20_local_date (d : Date) (h : ValidDate d) : localDateFromStr (showDate d) = .ok d :=
  (C21_local_date _ _).mpr ⟨showDate_text h, h⟩

/-- **C20** for local times. -/
theorem C20_local_time (t : Time) (h : ValidTime t) : localTimeFromStr (showTime t) = .ok t :=
  (C21_local_time _ _).mpr ⟨showTime_text h, h⟩

/-- **C20** for local date-times. -/
theorem C20_local_date_time (d : Date) (t : Time) (hd : ValidDate d) (ht : ValidTime t) :
    localDateTimeFromStr (showLocalDateTime d t) = .ok (d, t) :=
  (C21_local_date_time _ _ _).mpr ⟨hd, ht, _, _, _, showDate_text hd, .inl rfl, showTime_text ht, rfl⟩

/-- **C20** for offset date-times. -/
theorem C20_offset_date_time (d : Date) (t : Time) (o : Offset) (hd : ValidDate d) (ht : ValidTime t)
    (ho : ValidOffset o) : offsetDateTimeFromStr (showOffsetDateTime d t o) = .ok (d, t, o) :=
  (C21_offset_date_time _ _ _ _).mpr
    ⟨hd, ht, _, _, _, _, showDate_text hd, .inl rfl, showTime_text ht, showOffset_text ho, rfl⟩

/-- The hypothesis on the offset is met by every parsed value, so parsing, printing and parsing again gives
the first result. -/
theorem C20_offset_parsed (w : List Char) (d : Date) (t : Time) (o : Offset)
    (h : offsetDateTimeFromStr w = .ok (d, t, o)) :
    ValidOffset o ∧ offsetDateTimeFromStr (showOffsetDateTime d t o) = .ok (d, t, o) := by
  obtain ⟨hd, ht, _, _, _, wo, _, _, _, ho, _⟩ := (C21_offset_date_time _ _ _ _).mp h
  have : ValidOffset o := by
    cases ho with
    | upper => trivial
    | lower => trivial
    | plus _ _ h1 h2 => constructor <;> omega
    | minus _ _ h1 h2 => constructor <;> omega
  exact ⟨this, C20_offset_date_time d t o hd ht this⟩

/-- Concrete cases for C20, with a fraction that has leading and trailing zeros. -/
example : showOffsetDateTime ⟨7, 1, 2⟩ ⟨3, 4, 5, 6700000⟩ (.Custom (-61)) = "0007-01-02T03:04:05.0067-01:01".toList := by
  decide +kernel
example : ValidTime ⟨3, 4, 60, 6700000⟩ ∧ ValidOffset (.Custom (-61)) :=
  ⟨⟨by decide, by decide, by decide, by decide⟩, by decide, by decide⟩

/-- The bounds the code documents for an offset (`offset.rs:12`, −1440 to 1440 minutes) include the full day;
that one prints to a text that does not parse back, so `ValidOffset` excludes it. -/
theorem C20_full_day_offset : showOffset (.Custom 1440) = "+24:00".toList
    ∧ offsetDateTimeFromStr (showOffsetDateTime ⟨2024, 1, 1⟩ ⟨0, 0, 0, 0⟩ (.Custom 1440))
      = .error .InvalidTimeZoneOffsetHour := by decide +kernel

/-! ### C47: the literals of a document -/

/-- **C47** for local dates: the token of a local date evaluates to a date exactly when it names a day of the
calendar. -/
theorem C47_local_date (G : Segmenter) (src : List Char) (l : Lexed) (h : lex G src = .ok l)
    (tk : Token) (ht : tk ∈ l.tokens) (hk : tk.kind = .LOCAL_DATE) (v : TomlVersion) :
    ∃ pre mid post, Covers tk pre mid post src ∧ Toml.fullDate.Lang mid
      ∧ ∀ d, tryNewLocalDate v mid = .ok d ↔ DateText d mid ∧ ValidDate d := by
  obtain ⟨pre, mid, post, h1, h2⟩ := C04_local_date G src l h tk ht hk
  exact ⟨pre, mid, post, h1, h2, fun d => by rw [tryNewLocalDate, mapError_ok, C21_local_date]⟩

/-- **C47** for local times: with seconds in every version, without seconds from TOML 1.1 on. Holds for every
text. -/
theorem C47_local_time (v : TomlVersion) (w : List Char) (t : Time) :
    tryNewLocalTime v w = .ok t ↔ ValidTime t ∧ (SecondsText t w ∨ (v ≠ .V1_0_0 ∧ MinutesText t w)) := by
  have hs : SecondsText t w → w[5]? = some ':' := by
    intro h
    obtain ⟨hm, s, fr, rfl, e, _⟩ := h.split
    rw [List.getElem?_append_right (by omega)]
    simp [e]
  have hm : MinutesText t w → w[5]? ≠ some ':' := by
    rintro ⟨a, b, h1, h2, _, _, rfl⟩
    have : (a ++ ':' :: b).length = 5 := by simp [h1.1, h2.1]
    rw [List.getElem?_eq_none (by omega)]
    simp
  unfold tryNewLocalTime
  by_cases h5 : w[5]? = some ':'
  · rw [if_pos h5, mapError_ok, C21_local_time]
    constructor
    · rintro ⟨h1 | h1, h2⟩
      · exact ⟨h2, .inl h1⟩
      · exact absurd h5 (hm h1)
    · rintro ⟨h1, h2 | ⟨_, h2⟩⟩
      · exact ⟨.inl h2, h1⟩
      · exact absurd h5 (hm h2)
  · rw [if_neg h5]
    by_cases hv : v = .V1_0_0
    · rw [if_pos hv]
      refine ⟨fun h => (by cases h), ?_⟩
      rintro ⟨h1, h2 | ⟨h3, h2⟩⟩
      · exact absurd (hs h2) h5
      · exact absurd hv h3
    · rw [if_neg hv, mapError_ok, C21_local_time]
      constructor
      · rintro ⟨h1 | h1, h2⟩
        · exact absurd (hs h1) h5
        · exact ⟨h2, .inr ⟨hv, h1⟩⟩
      · rintro ⟨h1, h2 | ⟨_, h2⟩⟩
        · exact absurd (hs h2) h5
        · exact ⟨.inr h2, h1⟩

/-- The local date-times the lexer takes, and what they evaluate to. -/
theorem local_date_time_eval {mid : List Char} (h2 : LexRx.localDateTime.Lang mid) (v : TomlVersion) (d : Date) (t : Time) :
    tryNewLocalDateTime v mid = .ok (d, t) ↔
      ValidDate d ∧ ValidTime t ∧ ∃ wd c wt, DateText d wd ∧ DateTimeSeparator c
        ∧ (SecondsText t wt ∨ (v ≠ .V1_0_0 ∧ (MinutesText t wt ∨ LaxTimeText t wt))) ∧ mid = wd ++ c :: wt := by
  obtain ⟨wd, v1, rfl, g1, u2, v2, rfl, g2, u3, v3, rfl, g3, rfl⟩ := h2
  obtain ⟨hl, ha⟩ := date_ascii g1
  obtain ⟨c, rfl, hc⟩ := sep_of g2
  obtain ⟨hm, r, rfl, hl2, ha2⟩ := time_ascii g3
  have e : wd ++ ([c] ++ (hm ++ r ++ [])) = wd ++ c :: (hm ++ r) := by simp
  have hno : NoHead (· = ':') [] := fun _ _ h => (by cases h)
  have key := fix_time (v := v) (t := t) (hm := hm) (r := r) hl2 hno
  rw [e]
  unfold tryNewLocalDateTime
  rw [makeDatetimeStr_eq hl ha hl2 ha2 hc]
  constructor
  · intro h
    cases hf : fixRest v r with
    | none => rw [hf] at h; cases h
    | some r' =>
      rw [hf] at h
      simp only [Option.map_some, mapError_ok, C21_local_date_time] at h
      obtain ⟨k1, k2, wd', c', wt, k3, k4, k5, k6⟩ := h
      obtain ⟨rfl, k7⟩ := append_inj_len k6 (by rw [hl, k3.len])
      cases k7
      obtain ⟨wt, j1, j2⟩ := key.mp ⟨r', _, hf, k5, by simp⟩
      exact ⟨k1, k2, wd, c, wt, k3, hc, j1, by rw [j2]; simp⟩
  · rintro ⟨k1, k2, wd', c', wt, k3, k4, k5, k6⟩
    obtain ⟨rfl, k7⟩ := append_inj_len k6 (by rw [hl, k3.len])
    cases k7
    obtain ⟨r', wt, j1, j2, j3⟩ := key.mpr ⟨hm ++ r, k5, by simp⟩
    rw [j1]
    simp only [Option.map_some, mapError_ok, C21_local_date_time]
    exact ⟨k1, k2, wd, ' ', wt, k3, .inr (.inr rfl), j2, by rw [j3]; simp⟩

/-- **C47** for local date-times: the exact set of tokens that evaluate, by version. Missing: from TOML 1.1 on
also a fraction after the minutes is accepted, which TOML does not have (`C47_false`). -/
theorem C47_local_date_time_partial (G : Segmenter) (src : List Char) (l : Lexed) (h : lex G src = .ok l)
    (tk : Token) (ht : tk ∈ l.tokens) (hk : tk.kind = .LOCAL_DATE_TIME) (v : TomlVersion) :
    ∃ pre mid post, Covers tk pre mid post src ∧ ∀ d t, (tryNewLocalDateTime v mid = .ok (d, t) ↔
      ValidDate d ∧ ValidTime t ∧ ∃ wd c wt, DateText d wd ∧ DateTimeSeparator c
        ∧ (SecondsText t wt ∨ (v ≠ .V1_0_0 ∧ (MinutesText t wt ∨ LaxTimeText t wt))) ∧ mid = wd ++ c :: wt) := by
  obtain ⟨pre, mid, post, h1, h2⟩ := lex_shape h ht (by simp [hk]) (by simp [hk])
  rw [hk] at h2
  exact ⟨pre, mid, post, h1, local_date_time_eval h2.1 v⟩

theorem offset_head {o : Offset} {w : List Char} (h : OffsetText o w) : NoHead (· = ':') w := by
  intro c r e hc
  cases h <;> cases e <;> exact absurd hc (by decide)

/-- The offset date-times the lexer takes, and what they evaluate to. -/
theorem offset_date_time_eval {mid : List Char} (h2 : LexRx.offsetDateTime.Lang mid) (v : TomlVersion) (d : Date) (t : Time)
    (o : Offset) : tryNewOffsetDateTime v mid = .ok (d, t, o) ↔
      ValidDate d ∧ ValidTime t ∧ ∃ wd c wt wo, DateText d wd ∧ DateTimeSeparator c
        ∧ (SecondsText t wt ∨ (v ≠ .V1_0_0 ∧ (MinutesText t wt ∨ LaxTimeText t wt))) ∧ OffsetText o wo
        ∧ mid = wd ++ c :: wt ++ wo := by
  obtain ⟨wd, v1, rfl, g1, u2, v2, rfl, g2, u3, v3, rfl, g3, u4, v4, rfl, g4, rfl⟩ := h2
  obtain ⟨hl, ha⟩ := date_ascii g1
  obtain ⟨c, rfl, hc⟩ := sep_of g2
  obtain ⟨hm, r, rfl, hl2, ha2⟩ := time_ascii g3
  have e : wd ++ ([c] ++ (hm ++ r ++ (u4 ++ []))) = wd ++ c :: (hm ++ (r ++ u4)) := by simp
  rw [e]
  unfold tryNewOffsetDateTime
  rw [makeDatetimeStr_eq hl ha hl2 ha2 hc]
  constructor
  · intro h
    cases hf : fixRest v (r ++ u4) with
    | none => rw [hf] at h; cases h
    | some r' =>
      rw [hf] at h
      simp only [Option.map_some, mapError_ok, C21_offset_date_time] at h
      obtain ⟨k1, k2, wd', c', wt, wo, k3, k4, k5, k8, k6⟩ := h
      rw [List.append_assoc] at k6
      obtain ⟨rfl, k7⟩ := append_inj_len k6 (by rw [hl, k3.len])
      rw [List.cons_append] at k7
      injection k7 with k9 k7
      obtain ⟨wt, j1, j2⟩ := (fix_time hl2 (offset_head k8)).mp ⟨r', _, hf, k5, k7⟩
      exact ⟨k1, k2, wd, c, wt, wo, k3, hc, j1, k8, by rw [j2]; simp⟩
  · rintro ⟨k1, k2, wd', c', wt, wo, k3, k4, k5, k8, k6⟩
    rw [List.append_assoc] at k6
    obtain ⟨rfl, k7⟩ := append_inj_len k6 (by rw [hl, k3.len])
    rw [List.cons_append] at k7
    injection k7 with k9 k7
    obtain ⟨r', wt, j1, j2, j3⟩ := (fix_time hl2 (offset_head k8)).mpr ⟨_, k5, k7⟩
    rw [j1]
    simp only [Option.map_some, mapError_ok, C21_offset_date_time]
    exact ⟨k1, k2, wd, ' ', wt, wo, k3, .inr (.inr rfl), j2, k8, by rw [j3]; simp⟩

/-- **C47** for offset date-times, as for local date-times. -/
theorem C47_offset_date_time_partial (G : Segmenter) (src : List Char) (l : Lexed) (h : lex G src = .ok l)
    (tk : Token) (ht : tk ∈ l.tokens) (hk : tk.kind = .OFFSET_DATE_TIME) (v : TomlVersion) :
    ∃ pre mid post, Covers tk pre mid post src ∧ ∀ d t o, (tryNewOffsetDateTime v mid = .ok (d, t, o) ↔
      ValidDate d ∧ ValidTime t ∧ ∃ wd c wt wo, DateText d wd ∧ DateTimeSeparator c
        ∧ (SecondsText t wt ∨ (v ≠ .V1_0_0 ∧ (MinutesText t wt ∨ LaxTimeText t wt))) ∧ OffsetText o wo
        ∧ mid = wd ++ c :: wt ++ wo) := by
  obtain ⟨pre, mid, post, h1, h2⟩ := lex_shape h ht (by simp [hk]) (by simp [hk])
  rw [hk] at h2
  exact ⟨pre, mid, post, h1, offset_date_time_eval h2.1 v⟩

/-- **C47 is false** for date-times from TOML 1.1 on: a fraction after the minutes is accepted. -/
theorem C47_false : tryNewLocalDateTime .V1_1_0 "2024-01-01T12:30.5".toList
      = .ok (⟨2024, 1, 1⟩, ⟨12, 30, 0, 500000000⟩)
    ∧ ¬ Toml.localDateTime.Lang "2024-01-01T12:30.5".toList
    ∧ (lex charSegmenter "2024-01-01T12:30.5".toList).map (fun l => l.tokens.map (fun t => (t.kind, t.span)))
      = .ok [(.LOCAL_DATE_TIME, ⟨0, 18⟩), (.EOF, ⟨18, 18⟩)] :=
  ⟨by decide +kernel, fun h => absurd ((Rx.matchAll_iff _ _).mpr h) (by decide +kernel), by decide +kernel⟩

/-- Concrete cases for C47. -/
example : tryNewOffsetDateTime .V1_0_0 "2024-01-01T12:30Z".toList = .error none
    ∧ tryNewOffsetDateTime .V1_1_0 "2024-01-01T12:30Z".toList = .ok (⟨2024, 1, 1⟩, ⟨12, 30, 0, 0⟩, .Z)
    ∧ tryNewLocalDateTime .V1_0_0 "2024-01-01t12:30:01".toList = .ok (⟨2024, 1, 1⟩, ⟨12, 30, 1, 0⟩)
    ∧ tryNewLocalTime .V1_0_0 "12:30".toList = .error none
    ∧ tryNewLocalTime .V1_1_0 "12:30".toList = .ok ⟨12, 30, 0, 0⟩
    ∧ tryNewLocalTime .V1_1_0 "12:30.5".toList = .error (some .TooLong) := by decide +kernel

/-! ### C48: conversion from chrono -/

/-- A converted date-time denotes the same local time and the same offset. -/
def SameDateTime (c : ChronoDateTime) (r : Date × Time × Offset) : Prop :=
  (r.1.year : Int) = c.year ∧ r.1.month = c.month ∧ r.1.day = c.day ∧ r.2.1.hour = c.hour ∧ r.2.1.minute = c.minute
    ∧ r.2.1.second = c.second ∧ r.2.1.nanosecond = c.nanosecond
    ∧ ∃ m, r.2.2 = .Custom m ∧ m * 60 = c.offsetSeconds

/-- **C48**: a chrono date-time with a four-digit year and an offset of less than a day (chrono's own bound) is
converted faithfully exactly when its offset is zero and it has no fraction of a second. Missing: all others,
see `C48_false`. -/
theorem C48_from_chrono_partial (c : ChronoDateTime) (hy : 0 ≤ c.year ∧ c.year ≤ 9999)
    (ho : -86400 < c.offsetSeconds ∧ c.offsetSeconds < 86400) :
    SameDateTime c (fromFixedOffset c) ↔ c.offsetSeconds = 0 ∧ c.nanosecond = 0 := by
  have hyear : (((c.year % 65536).toNat : Nat) : Int) = c.year := by omega
  unfold SameDateTime fromFixedOffset asI16
  constructor
  · rintro ⟨_, _, _, _, _, _, h1, m, h2, h3⟩
    simp only [Offset.Custom.injEq] at h2
    refine ⟨?_, h1.symm⟩
    omega
  · rintro ⟨h1, h2⟩
    refine ⟨hyear, rfl, rfl, rfl, rfl, rfl, h2.symm, 0, ?_, by omega⟩
    rw [h1]
    rfl

/-- **C48 is false**: nine hours east of UTC become 540 hours, and the fraction is lost. -/
theorem C48_false :
    showOffset (fromFixedOffset ⟨2024, 1, 1, 9, 0, 0, 0, 32400⟩).2.2 = "+540:00".toList
    ∧ (fromFixedOffset ⟨2024, 1, 1, 9, 0, 0, 500000000, 0⟩).2.1.nanosecond = 0 := by decide +kernel

end Tombi
