import Verif.Proofs.Formats
import Verif.Props.Pointer
/-! C86: the `format` keyword. -/
namespace Tombi.Formats
open Tombi.Spec Tombi.DateTime

/-! ### signs -/

theorem not_signed {s a w r : Text} {n : Nat} (hp : PlainSigns s) (hs : s = a ++ w ++ r) (hw : w.length = 2) (hn : parseU32 w = some n)
    (hr : ∀ c, r.head? = some c → ¬ Dig c) : Digits 2 w n := by
  have hh : w.head? ≠ some '+' := by
    intro e
    obtain ⟨x, y, rfl⟩ := length_two hw
    simp only [List.head?_cons, Option.some.injEq] at e
    subst e
    obtain ⟨d, e, t, hb, -, he⟩ := hp a (y :: r) (by rw [hs]; simp)
    injection hb with _ hb
    exact hr e (by rw [hb]; rfl) he
  rw [← hw]
  exact digits_parse hh hn

theorem dash_not_dig : ¬ Dig '-' := by decide
theorem colon_not_dig : ¬ Dig ':' := by decide

/-! ### dates -/

/-- **C86.** Every date of RFC 3339 is accepted. -/
theorem C86_date_accepted {s : Text} (h : RfcDate s) : validDate s = true := by
  obtain ⟨d, ⟨y, m, dd, hy, hm, hd, rfl⟩, -, n, hn, h1, h2⟩ := h
  obtain ⟨hr, rfl⟩ := monthLength_iff.1 hn
  refine validDate_iff.2 ⟨y, m, dd, d.year, d.month, d.day, rfl, ?_, hy.1, hm.1, hd.1, parse_digits (by decide) (by decide) hy,
    parse_digits (by decide) (by decide) hm, parse_digits (by decide) (by decide) hd, hr, h1, h2⟩
  rw [show y ++ '-' :: m ++ '-' :: dd = y ++ (['-'] ++ (m ++ (['-'] ++ dd))) by simp]
  simp only [isAscii_append, isAscii_digits hy.2.1, isAscii_digits hm.2.1, isAscii_digits hd.2.1, Bool.true_and, Bool.and_true]
  decide

/-- **C86 (partial).** Of the texts whose plus signs stand before two digits and a colon, `format: date` accepts exactly the dates of
RFC 3339. Missing: other plus signs, which are read as signs of the year, month or day (`C86_sign_false`). -/
theorem C86_date_partial {s : Text} (hp : PlainSigns s) : validDate s = true ↔ RfcDate s := by
  refine ⟨fun h => ?_, C86_date_accepted⟩
  obtain ⟨y, m, d, year, month, day, rfl, -, h4, h2, h2', hy, hm, hd, hr, h1, h3⟩ := validDate_iff.1 h
  have hy' : Digits 4 y year := by
    rw [← h4]
    refine digits_parse (fun e => ?_) hy
    match y, h4 with
    | [c0, c1, c2, c3], _ =>
      simp only [List.head?_cons, Option.some.injEq] at e
      subst e
      obtain ⟨x, z, t, hb, -, -⟩ := hp [] (c1 :: c2 :: c3 :: '-' :: m ++ '-' :: d) rfl
      simp only [List.cons_append, List.cons.injEq] at hb
      obtain ⟨-, -, rfl, -⟩ := hb
      exact absurd ((signed_parse hy).2 ':' (by simp)) (by decide)
  have hm' : Digits 2 m month := not_signed (a := y ++ ['-']) (r := '-' :: d) hp (by simp) h2 hm (by
    intro c hc; cases hc; decide)
  have hd' : Digits 2 d day := not_signed (a := y ++ '-' :: m ++ ['-']) (r := []) hp (by simp) h2' hd (by
    intro c hc; cases hc)
  refine ⟨⟨year, month, day⟩, ⟨y, m, d, hy', hm', hd', rfl⟩, ?_, maxDay year month, monthLength_iff.2 ⟨hr, rfl⟩, h1, h3⟩
  have := posValue_lt hy'.2.1
  rw [← hy'.2.2, h4] at this
  show year ≤ 9999
  omega

/-! ### times -/

theorem components_sound {s rest : Text} (hp : PlainSigns s) (h : timeComponents s = some rest) (hr : ∀ c, rest.head? = some c → ¬ Dig c) :
    ∃ a, s = a ++ rest ∧ RfcLocalTime a := by
  obtain ⟨hs, m, sec, f, hour, minute, second, rfl, -, h2, h2', h2'', hy, hm, hd, r1, r2, r3, hf⟩ := timeComponents_iff.1 h
  have hh' : Digits 2 hs hour := not_signed (a := []) (r := ':' :: m ++ ':' :: sec ++ f ++ rest) hp (by simp) h2 hy (by
    intro c hc; cases hc; decide)
  have hm' : Digits 2 m minute := not_signed (a := hs ++ [':']) (r := ':' :: sec ++ f ++ rest) hp (by simp) h2' hm (by
    intro c hc; cases hc; decide)
  have hs' : Digits 2 sec second := not_signed (a := hs ++ ':' :: m ++ [':']) (r := f ++ rest) hp (by simp) h2'' hd (by
    intro c hc
    rcases hf with ⟨rfl, -⟩ | ⟨ds, rfl, -⟩
    · exact hr c hc
    · cases hc; decide)
  rcases hf with ⟨rfl, -⟩ | ⟨ds, rfl, hne, hdig, -⟩
  · exact ⟨hs ++ ':' :: m ++ ':' :: sec, by simp, ⟨hour, minute, second, 0⟩, .whole hh' hm' hs' rfl, by show hour < 24; omega,
      by show minute < 60; omega, r3⟩
  · exact ⟨hs ++ ':' :: m ++ ':' :: sec ++ '.' :: ds, by simp,
      ⟨hour, minute, second, posValue 10 (ds.take 9) * 10 ^ (9 - ds.length)⟩, .fraction hh' hm' hs' ⟨hne, hdig, rfl⟩,
      by show hour < 24; omega, by show minute < 60; omega, r3⟩

theorem components_complete {a rest : Text} (h : RfcLocalTime a) (ha : isAscii rest = true)
    (hr : ∀ c, rest.head? = some c → c ≠ '.' ∧ ¬ Dig c) : timeComponents (a ++ rest) = some rest := by
  obtain ⟨t, ht, r1, r2, r3⟩ := h
  refine timeComponents_iff.2 ?_
  cases ht with
  | @whole h m s hh hm hs _ =>
    refine ⟨h, m, s, [], t.hour, t.minute, t.second, by simp, ?_, hh.1, hm.1, hs.1, parse_digits (by decide) (by decide) hh,
      parse_digits (by decide) (by decide) hm, parse_digits (by decide) (by decide) hs, by omega, by omega, r3,
      Or.inl ⟨rfl, fun e => (hr '.' e).1 rfl⟩⟩
    rw [show h ++ ':' :: m ++ ':' :: s ++ rest = h ++ ([':'] ++ (m ++ ([':'] ++ (s ++ rest)))) by simp]
    simp only [isAscii_append, isAscii_digits hh.2.1, isAscii_digits hm.2.1, isAscii_digits hs.2.1, ha, Bool.true_and, Bool.and_true]
    decide
  | @fraction h m s f hh hm hs hf =>
    refine ⟨h, m, s, '.' :: f, t.hour, t.minute, t.second, by simp, ?_, hh.1, hm.1, hs.1, parse_digits (by decide) (by decide) hh,
      parse_digits (by decide) (by decide) hm, parse_digits (by decide) (by decide) hs, by omega, by omega, r3,
      Or.inr ⟨f, rfl, hf.1, hf.2.1, fun c hc => (hr c hc).2⟩⟩
    rw [show h ++ ':' :: m ++ ':' :: s ++ '.' :: f ++ rest = h ++ ([':'] ++ (m ++ ([':'] ++ (s ++ (['.'] ++ (f ++ rest)))))) by simp]
    simp only [isAscii_append, isAscii_digits hh.2.1, isAscii_digits hm.2.1, isAscii_digits hs.2.1, isAscii_digits hf.2.1, ha, Bool.true_and,
      Bool.and_true]
    decide

/-- **C86.** Every time of RFC 3339 is accepted. -/
theorem C86_time_accepted {s : Text} (h : RfcTime s) : validTime s = true := by
  obtain ⟨a, b, o, rfl, ha, hb⟩ := h
  have signed : ∀ (c : Char) (h m : Text) (hours minutes : Nat), (c = '+' ∨ c = '-') → Digits 2 h hours → Digits 2 m minutes → hours < 24 →
      minutes < 60 → isAscii (c :: h ++ ':' :: m) = true ∧ validTimezone (c :: h ++ ':' :: m) = true := by
    intro c h m hours minutes hc hh hm r1 r2
    have ha : isAscii (c :: h ++ ':' :: m) = true := by
      rw [show c :: h ++ ':' :: m = [c] ++ (h ++ ([':'] ++ m)) by simp]
      simp only [isAscii_append, isAscii_digits hh.2.1, isAscii_digits hm.2.1, Bool.true_and, Bool.and_true]
      rcases hc with rfl | rfl <;> decide
    exact ⟨ha, validTimezone_iff.2 (Or.inr (Or.inr ⟨c, h, m, hours, minutes, rfl, hc, ha, hh.1, hm.1,
      parse_digits (by decide) (by decide) hh, parse_digits (by decide) (by decide) hm, by omega, by omega⟩))⟩
  have key : isAscii b = true ∧ validTimezone b = true ∧ ∀ c, b.head? = some c → c ≠ '.' ∧ ¬ Dig c := by
    cases hb with
    | upper => exact ⟨by decide, by decide, fun c hc => by cases hc; decide⟩
    | lower => exact ⟨by decide, by decide, fun c hc => by cases hc; decide⟩
    | plus hh hm r1 r2 =>
      obtain ⟨p, q⟩ := signed '+' _ _ _ _ (Or.inl rfl) hh hm r1 r2
      exact ⟨p, q, fun c hc => by cases hc; decide⟩
    | minus hh hm r1 r2 =>
      obtain ⟨p, q⟩ := signed '-' _ _ _ _ (Or.inr rfl) hh hm r1 r2
      exact ⟨p, q, fun c hc => by cases hc; decide⟩
  simp only [validTime, components_complete ha key.1 key.2.2, key.2.1]

theorem timezone_sound {a s : Text} (hp : PlainSigns (a ++ s)) (h : validTimezone s = true) :
    (∃ o, OffsetText o s) ∧ ∀ c, s.head? = some c → ¬ Dig c := by
  rcases validTimezone_iff.1 h with rfl | rfl | ⟨c, hs, m, hour, minute, rfl, hc, -, h2, h2', hh, hm, r1, r2⟩
  · exact ⟨⟨_, .upper⟩, fun c hc => by cases hc; decide⟩
  · exact ⟨⟨_, .lower⟩, fun c hc => by cases hc; decide⟩
  · have hh' : Digits 2 hs hour := not_signed (a := a ++ [c]) (r := ':' :: m) hp (by simp) h2 hh (by
      intro c hc; cases hc; decide)
    have hm' : Digits 2 m minute := not_signed (a := a ++ c :: hs ++ [':']) (r := []) hp (by simp) h2' hm (by
      intro c hc; cases hc)
    rcases hc with rfl | rfl
    · exact ⟨⟨_, .plus hh' hm' (by omega) (by omega)⟩, fun c hc => by cases hc; decide⟩
    · exact ⟨⟨_, .minus hh' hm' (by omega) (by omega)⟩, fun c hc => by cases hc; decide⟩

theorem components_suffix {s rest : Text} (h : timeComponents s = some rest) : ∃ a, s = a ++ rest := by
  obtain ⟨h, m, sec, f, hour, minute, second, hs, -⟩ := timeComponents_iff.1 h
  exact ⟨_, hs⟩

/-- **C86 (partial).** The same for `format: time`. -/
theorem C86_time_partial {s : Text} (hp : PlainSigns s) : validTime s = true ↔ RfcTime s := by
  refine ⟨fun h => ?_, C86_time_accepted⟩
  unfold validTime at h
  split at h
  · next rest hc =>
    obtain ⟨a, ha⟩ := components_suffix hc
    obtain ⟨⟨o, ho⟩, hr⟩ := timezone_sound (ha ▸ hp) h
    obtain ⟨a, rfl, hl⟩ := components_sound hp hc hr
    exact ⟨a, rest, o, rfl, hl, ho⟩
  · cases h

/-- **C86.** Every time without offset is accepted by `format: time-local`. -/
theorem C86_local_time_accepted {s : Text} (h : RfcLocalTime s) : validLocalTime s = true := by
  have := components_complete (rest := []) h rfl (fun c hc => by cases hc)
  rw [List.append_nil] at this
  simp only [validLocalTime, this]; rfl

/-- **C86 (partial).** The same for `format: time-local`. -/
theorem C86_local_time_partial {s : Text} (hp : PlainSigns s) : validLocalTime s = true ↔ RfcLocalTime s := by
  refine ⟨fun h => ?_, C86_local_time_accepted⟩
  unfold validLocalTime at h
  split at h
  · next rest hc =>
    rw [List.isEmpty_iff] at h
    subst h
    obtain ⟨a, rfl, hl⟩ := components_sound hp hc (fun c hc => by cases hc)
    rw [List.append_nil]; exact hl
  · cases h

/-! ### dates with times -/

theorem separator_iff {c : Char} : isSeparator c = true ↔ Separator c := by
  simp only [isSeparator, Separator, Bool.or_eq_true, beq_iff_eq, or_assoc]

theorem split_sound {s a b : Text} (h : splitDateTime s = some (a, b)) : ∃ c, s = a ++ c :: b ∧ Separator c := by
  unfold splitDateTime at h
  split at h
  · cases h
  · next c time hd =>
    cases h
    refine ⟨c, ?_, ?_⟩
    · rw [← hd, List.takeWhile_append_dropWhile]
    · have := List.head?_dropWhile_not (fun c => !isSeparator c) s
      rw [hd] at this
      simp only [List.head?_cons] at this
      refine separator_iff.1 ?_
      cases hb : isSeparator c with
      | true => rfl
      | false => rw [hb] at this; cases this

theorem split_complete {a b : Text} {c : Char} (ha : ∀ x ∈ a, ¬ Separator x) (hc : Separator c) :
    splitDateTime (a ++ c :: b) = some (a, b) := by
  have h : ∀ x ∈ a, (!isSeparator x) = true := by
    intro x hx
    cases hb : isSeparator x with
    | false => rfl
    | true => exact absurd (separator_iff.1 hb) (ha x hx)
  have hc' : isSeparator c = true := separator_iff.2 hc
  unfold splitDateTime
  rw [List.dropWhile_append_of_pos h, List.takeWhile_append_of_pos h, List.dropWhile_cons, List.takeWhile_cons, hc']
  simp

theorem date_no_separator {s : Text} (h : RfcDate s) : ∀ x ∈ s, ¬ Separator x := by
  obtain ⟨d, ⟨y, m, dd, hy, hm, hd, rfl⟩, -⟩ := h
  have key : ∀ x, Dig x ∨ x = '-' → ¬ Separator x := by
    intro x hx hs
    rcases hs with rfl | rfl | rfl <;> exact absurd hx (by decide)
  intro x hx
  apply key
  simp only [List.mem_append, List.mem_cons] at hx
  rcases hx with (h | rfl | h) | rfl | h
  · exact Or.inl (hy.2.1 x h)
  · exact Or.inr rfl
  · exact Or.inl (hm.2.1 x h)
  · exact Or.inr rfl
  · exact Or.inl (hd.2.1 x h)

theorem plain_right {a b : Text} {c : Char} (h : PlainSigns (a ++ c :: b)) : PlainSigns b := by
  intro x y hb
  exact h (a ++ c :: x) y (by rw [hb]; simp)

theorem plain_left {a b : Text} {c : Char} (h : PlainSigns (a ++ c :: b)) (hc : Separator c) : PlainSigns a := by
  intro x y ha
  obtain ⟨d, e, r, hb, hd, he⟩ := h x (y ++ c :: b) (by rw [ha]; simp)
  have hcd : ¬ Dig c ∧ c ≠ ':' := by rcases hc with rfl | rfl | rfl <;> decide
  match y, hb with
  | [], hb => cases hb; exact absurd hd hcd.1
  | [y0], hb => cases hb; exact absurd he hcd.1
  | [y0, y1], hb => cases hb; exact absurd rfl hcd.2
  | y0 :: y1 :: y2 :: y, hb =>
    simp only [List.cons_append, List.cons.injEq] at hb
    obtain ⟨rfl, rfl, rfl, -⟩ := hb
    exact ⟨y0, y1, y, rfl, hd, he⟩

/-- **C86.** Every date-time of RFC 3339 is accepted. -/
theorem C86_date_time_accepted {s : Text} (h : RfcDateTime s) : validDateTime s = true := by
  obtain ⟨a, b, c, rfl, ha, hc, hb⟩ := h
  simp only [validDateTime, split_complete (date_no_separator ha) hc, C86_date_accepted ha, C86_time_accepted hb]; rfl

/-- **C86 (partial).** The same for `format: date-time`. -/
theorem C86_date_time_partial {s : Text} (hp : PlainSigns s) : validDateTime s = true ↔ RfcDateTime s := by
  refine ⟨fun h => ?_, C86_date_time_accepted⟩
  unfold validDateTime at h
  split at h
  · next a b hs =>
    obtain ⟨c, rfl, hc⟩ := split_sound hs
    rw [Bool.and_eq_true] at h
    exact ⟨a, b, c, rfl, (C86_date_partial (plain_left hp hc)).1 h.1, hc, (C86_time_partial (plain_right hp)).1 h.2⟩
  · cases h

/-- **C86.** Every date-time without offset is accepted by `format: date-time-local`. -/
theorem C86_local_date_time_accepted {s : Text} (h : RfcLocalDateTime s) : validLocalDateTime s = true := by
  obtain ⟨a, b, c, rfl, ha, hc, hb⟩ := h
  simp only [validLocalDateTime, split_complete (date_no_separator ha) hc, C86_date_accepted ha, C86_local_time_accepted hb]; rfl

/-- **C86 (partial).** The same for `format: date-time-local`. -/
theorem C86_local_date_time_partial {s : Text} (hp : PlainSigns s) : validLocalDateTime s = true ↔ RfcLocalDateTime s := by
  refine ⟨fun h => ?_, C86_local_date_time_accepted⟩
  unfold validLocalDateTime at h
  split at h
  · next a b hs =>
    obtain ⟨c, rfl, hc⟩ := split_sound hs
    rw [Bool.and_eq_true] at h
    exact ⟨a, b, c, rfl, (C86_date_partial (plain_left hp hc)).1 h.1, hc, (C86_local_time_partial (plain_right hp)).1 h.2⟩
  · cases h

theorem plain_one {p q : Text} (hp : '+' ∉ p) (hq : '+' ∉ q) (h : ∃ d e r, q = d :: e :: ':' :: r ∧ Dig d ∧ Dig e) :
    PlainSigns (p ++ '+' :: q) := by
  intro a b hab
  suffices b = q by rw [this]; exact h
  clear h
  induction p generalizing a with
  | nil =>
    cases a with
    | nil => cases hab; rfl
    | cons c a =>
      injection hab with h1 h2
      exact absurd (by rw [h2]; simp) hq
  | cons c p ih =>
    cases a with
    | nil =>
      injection hab with h1 h2
      exact absurd (by rw [h1]; exact List.mem_cons_self) hp
    | cons d a =>
      injection hab with h1 h2
      exact ih (fun e => hp (List.mem_cons_of_mem _ e)) a h2

/-- A date-time with an offset whose plus sign is plain, and one with a day that does not exist. -/
example : PlainSigns "2024-02-29T23:59:60.5+05:30".toList ∧ RfcDateTime "2024-02-29T23:59:60.5+05:30".toList ∧
    ¬ RfcDateTime "2023-02-29T23:59:60.5+05:30".toList := by
  have hp : ∀ y : Text, '+' ∉ y → PlainSigns (y ++ '+' :: "05:30".toList) := fun y hy =>
    plain_one hy (by decide) ⟨'0', '5', ['3', '0'], by decide, by decide, by decide⟩
  have h1 : PlainSigns "2024-02-29T23:59:60.5+05:30".toList := hp "2024-02-29T23:59:60.5".toList (by decide)
  have h2 : PlainSigns "2023-02-29T23:59:60.5+05:30".toList := hp "2023-02-29T23:59:60.5".toList (by decide)
  exact ⟨h1, (C86_date_time_partial h1).1 (by decide +kernel), fun h => absurd ((C86_date_time_partial h2).2 h) (by decide +kernel)⟩

/-- **C86**, where it fails: signs in dates and times are accepted. -/
theorem C86_sign_false : (validDate "+202-01-01".toList = true ∧ ¬ RfcDate "+202-01-01".toList) ∧
    (validTime "12:+3:00++5:00".toList = true ∧ ¬ RfcTime "12:+3:00++5:00".toList) := by
  refine ⟨⟨by decide +kernel, ?_⟩, by decide +kernel, ?_⟩
  · rintro ⟨d, ⟨y, m, dd, hy, -, -, h⟩, -⟩
    match y, hy.1 with
    | y0 :: y, _ =>
      injection h with h1 h2
      exact absurd (hy.2.1 y0 List.mem_cons_self) (by rw [← h1]; decide)
  · rintro ⟨a, b, o, hs, ⟨t, ht, -⟩, -⟩
    have key : ∀ (h m r : Text), Digits 2 h t.hour → Digits 2 m t.minute → "12:+3:00++5:00".toList = h ++ ':' :: m ++ r → False := by
      intro h m r hh hm e
      obtain ⟨h0, h1, rfl⟩ := length_two hh.1
      obtain ⟨m0, m1, rfl⟩ := length_two hm.1
      have : m0 = '+' := by
        have : ("12:+3:00++5:00".toList)[3]? = some '+' := by decide
        rw [e] at this
        simpa using this
      exact absurd (hm.2.1 m0 (by simp)) (by rw [this]; decide)
    cases ht with
    | @whole h m sec hh hm _ _ => exact key h m (':' :: sec ++ b) hh hm (by rw [hs]; simp only [List.append_assoc])
    | @fraction h m sec f hh hm _ _ => exact key h m (':' :: sec ++ '.' :: f ++ b) hh hm (by rw [hs]; simp only [List.append_assoc])

/-! ### JSON pointers -/

open Tombi.Pointer (pointer escape)

theorem loop_skip {c : Char} {s : Text} (h : c ≠ '~') : pointerLoop (c :: s) = pointerLoop s := by
  cases s with
  | nil => simp [pointerLoop, h]
  | cons d s => rw [pointerLoop, if_neg h]

theorem loop_escape (t s : Text) : pointerLoop (escape t ++ s) = pointerLoop s := by
  induction t with
  | nil => rfl
  | cons c t ih =>
    by_cases h1 : c = '~'
    · subst h1; rw [escape, List.cons_append, List.cons_append, pointerLoop, if_pos rfl, ih]; rfl
    · by_cases h2 : c = '/'
      · subst h2; rw [escape, List.cons_append, List.cons_append, pointerLoop, if_pos rfl, ih]; rfl
      · rw [escape, List.cons_append, loop_skip h1, ih]
        · exact h1
        · exact h2

theorem loop_pointer (ts : List Text) : pointerLoop (pointer ts) = true := by
  induction ts with
  | nil => rfl
  | cons t ts ih => rw [pointer, List.cons_append, loop_skip (by decide), loop_escape, ih]

theorem escape_other {c : Char} {t : Text} (h1 : c ≠ '~') (h2 : c ≠ '/') : escape (c :: t) = c :: escape t := by
  rw [escape]
  · exact h1
  · exact h2

theorem loop_sound (s : Text) (h : pointerLoop s = true) : ∃ t ts, s = escape t ++ pointer ts := by
  induction s using pointerLoop.induct with
  | case1 => exact ⟨[], [], rfl⟩
  | case2 c =>
    have hc : c ≠ '~' := by simpa [pointerLoop] using h
    by_cases h2 : c = '/'
    · subst h2; exact ⟨[], [[]], rfl⟩
    · exact ⟨[c], [], by rw [escape_other hc h2]; rfl⟩
  | case3 d rest ih =>
    rw [pointerLoop, if_pos rfl, Bool.and_eq_true, Bool.or_eq_true, beq_iff_eq, beq_iff_eq] at h
    obtain ⟨t, ts, rfl⟩ := ih h.2
    rcases h.1 with rfl | rfl
    · exact ⟨'~' :: t, ts, rfl⟩
    · exact ⟨'/' :: t, ts, rfl⟩
  | case4 c d rest hc ih =>
    rw [pointerLoop, if_neg hc] at h
    obtain ⟨t, ts, ht⟩ := ih h
    by_cases h2 : c = '/'
    · subst h2; exact ⟨[], t :: ts, by rw [ht]; rfl⟩
    · exact ⟨c :: t, ts, by rw [escape_other hc h2, ht]; rfl⟩

/-- **C86.** `format: json-pointer` accepts exactly the JSON pointers of RFC 6901. -/
theorem C86_json_pointer (s : Text) : validPointer s = true ↔ ∃ ts, s = pointer ts := by
  constructor
  · intro h
    cases s with
    | nil => exact ⟨[], rfl⟩
    | cons c s =>
      rw [validPointer] at h
      split at h
      · cases h
      · next hc =>
        obtain ⟨t, ts, rfl⟩ := loop_sound s h
        exact ⟨t :: ts, by rw [Decidable.of_not_not hc, pointer, List.cons_append]⟩
  · rintro ⟨ts, rfl⟩
    cases ts with
    | nil => rfl
    | cons t ts => rw [pointer, List.cons_append, validPointer, if_neg (by simp), loop_escape, loop_pointer]

/-- A pointer with escapes, and a text that is none. -/
example : validPointer "/a~1b//~0/é".toList = true ∧ "/a~1b//~0/é".toList = pointer ["a/b".toList, [], "~".toList, "é".toList] ∧
    ¬ ∃ ts, "/a~2".toList = pointer ts :=
  ⟨by decide +kernel, by decide +kernel, fun h => absurd ((C86_json_pointer _).2 h) (by decide +kernel)⟩

/-! ### references -/

theorem name_component {c : Char} (h : NameChar c) : isComponentChar c = true ∧ c ≠ '%' := by
  rcases h with h | h | h | h | h
  · refine ⟨by simp only [isComponentChar, h.1, h.2, decide_true, Bool.and_self, Bool.true_or], ?_⟩
    rintro rfl; exact absurd h (by decide)
  · refine ⟨by simp only [isComponentChar, h.1, h.2, decide_true, Bool.and_self, Bool.true_or, Bool.or_true], ?_⟩
    rintro rfl; exact absurd h (by decide)
  · refine ⟨by simp only [isComponentChar, h.1, h.2, decide_true, Bool.and_self, Bool.true_or, Bool.or_true], ?_⟩
    rintro rfl; exact absurd h (by decide)
  · have : ∀ c ∈ "-._~".toList, isComponentChar c = true ∧ c ≠ '%' := by decide
    exact this c h
  · have : ∀ c ∈ "!$&'()*+,;=".toList, isComponentChar c = true ∧ c ≠ '%' := by decide
    exact this c h

theorem hex_isHex {c : Char} {n : Nat} (h : Tombi.Pointer.HexDigit c n) : isHex c = true := by
  have key : ∀ c ∈ "0123456789abcdefABCDEF".toList, isHex c = true := by decide
  apply key
  rcases h with h | h
  · have := List.mem_of_getElem? h
    have sub : ∀ c ∈ "0123456789abcdef".toList, c ∈ "0123456789abcdefABCDEF".toList := by decide
    exact sub c this
  · have := List.mem_of_getElem? h
    have sub : ∀ c ∈ "0123456789ABCDEF".toList, c ∈ "0123456789abcdefABCDEF".toList := by decide
    exact sub c this

/-- A text of a component, and none of the signs that end one. -/
def Component (s : Text) : Prop := ∀ r, uriComponent (s ++ r) = uriComponent r

theorem uri_cons {c : Char} (h : c ≠ '%') (s : Text) : uriComponent (c :: s) = (isComponentChar c && uriComponent s) := by
  match s with
  | [] => simp only [uriComponent, if_neg h]
  | [a] => rw [uriComponent, if_neg h]; intro a b r e; cases e
  | a :: b :: r => rw [uriComponent, if_neg h]

theorem component_append {a b : Text} (ha : Component a) (hb : Component b) : Component (a ++ b) := fun r => by
  rw [List.append_assoc, ha, hb]

theorem component_char {c : Char} (h : isComponentChar c = true) (hp : c ≠ '%') : Component [c] := fun r => by
  rw [List.singleton_append, uri_cons hp, h, Bool.true_and]

theorem component_true {s : Text} (h : Component s) : uriComponent s = true := by
  have := h []
  rw [List.append_nil] at this
  exact this

theorem encoded_component {extra : List Char} (he : ∀ c ∈ extra, isComponentChar c = true ∧ c ≠ '%') {s : Text} (h : Encoded extra s) :
    Component s := by
  induction h with
  | nil => exact fun r => rfl
  | plain hc _ ih =>
    obtain ⟨h1, h2⟩ := hc.elim name_component (he _)
    exact component_append (component_char h1 h2) ih
  | percent ha hb _ ih =>
    intro r
    rw [List.cons_append, List.cons_append, List.cons_append, uriComponent, if_pos rfl]
    simp only [hex_isHex ha, hex_isHex hb, Bool.true_and, ih r]

theorem path_component {s : Text} (h : UriPath s) : Component s := by
  induction h with
  | nil => exact fun r => rfl
  | cons hs _ ih =>
    exact component_append (a := '/' :: _) (component_append (a := ['/']) (component_char (by decide) (by decide))
      (encoded_component (by decide) hs)) ih

theorem authority_component {s : Text} (h : UriAuthority s) : Component s := by
  obtain ⟨user, host, port, rfl, hu, hh, hp⟩ := h
  refine component_append (component_append ?_ (encoded_component (by decide) hh)) ?_
  · rcases hu with rfl | ⟨u, rfl, hu⟩
    · exact fun r => rfl
    · exact component_append (encoded_component (by decide) hu) (component_char (by decide) (by decide))
  · rcases hp with rfl | ⟨p, rfl, hp⟩
    · exact fun r => rfl
    · refine component_append (a := [':']) (component_char (by decide) (by decide)) ?_
      induction p with
      | nil => exact fun r => rfl
      | cons c p ih =>
        obtain ⟨h1, h2⟩ := name_component (Or.inl (hp c List.mem_cons_self))
        exact component_append (a := [c]) (component_char h1 h2) (ih fun d hd => hp d (List.mem_cons_of_mem _ hd))

theorem part_component {s : Text} (h : RelativePart s) : Component s := by
  have slash : Component ['/'] := component_char (by decide) (by decide)
  cases h with
  | authority ha hp =>
    exact component_append (a := '/' :: '/' :: _) (component_append (a := ['/']) slash (component_append (a := ['/']) slash (authority_component ha)))
      (path_component hp)
  | root => exact slash
  | absolute hs _ hp =>
    exact component_append (a := '/' :: _) (component_append (a := ['/']) slash (encoded_component (by decide) hs)) (path_component hp)
  | noscheme hs _ hp => exact component_append (encoded_component (by decide) hs) (path_component hp)
  | empty => exact fun r => rfl

theorem component_signs {s : Text} (h : uriComponent s = true) : '#' ∉ s ∧ '?' ∉ s := by
  have key : ∀ c, isComponentChar c = true ∨ isHex c = true ∨ c = '%' → '#' ≠ c ∧ '?' ≠ c := by
    intro c hc
    constructor
    all_goals (rintro rfl; revert hc; decide)
  induction s using uriComponent.induct with
  | case1 => simp
  | case2 a b rest ih =>
    rw [uriComponent, if_pos rfl] at h
    simp only [Bool.and_eq_true] at h
    have ha := key a (Or.inr (Or.inl h.1.1))
    have hb := key b (Or.inr (Or.inl h.1.2))
    have hi := ih h.2
    exact ⟨by simp [ha.1, hb.1, hi.1], by simp [ha.2, hb.2, hi.2]⟩
  | case3 cs hn =>
    rw [uriComponent, if_pos rfl] at h
    · cases h
    · exact hn
  | case4 c cs hc ih =>
    rw [uri_cons hc, Bool.and_eq_true] at h
    have := key c (Or.inl h.1)
    exact ⟨by simp [this.1, (ih h.2).1], by simp [this.2, (ih h.2).2]⟩

theorem splitOnce_none {c : Char} {s : Text} (h : c ∉ s) : splitOnce c s = (s, none) := by
  induction s with
  | nil => rfl
  | cons d s ih =>
    rw [splitOnce, if_neg (fun e => h (by rw [e]; exact List.mem_cons_self)), ih (fun e => h (List.mem_cons_of_mem _ e))]

theorem splitOnce_some {c : Char} {s t : Text} (h : c ∉ s) : splitOnce c (s ++ c :: t) = (s, some t) := by
  induction s with
  | nil => simp [splitOnce]
  | cons d s ih =>
    rw [List.cons_append, splitOnce, if_neg (fun e => h (by rw [e]; exact List.mem_cons_self)), ih (fun e => h (List.mem_cons_of_mem _ e))]

theorem tail_component {sign : Char} {s : Text} (h : UriTail sign s) (hq : '?' ∉ s.tail) :
    s = [] ∨ ∃ q, s = sign :: q ∧ uriComponent q = true := by
  rcases h with rfl | ⟨q, rfl, h⟩
  · exact Or.inl rfl
  · refine Or.inr ⟨q, rfl, component_true (encoded_component (extra := [':', '@', '/']) (by decide) ?_)⟩
    simp only [List.tail_cons] at hq
    clear sign
    induction h with
    | nil => exact .nil
    | @plain c s hc _ ih =>
      simp only [List.mem_cons, not_or] at hq
      refine .plain ?_ (ih hq.2)
      rcases hc with hc | hc
      · exact Or.inl hc
      · simp only [List.mem_cons, List.not_mem_nil, or_false] at hc ⊢
        rcases hc with h | h | h | h
        · exact Or.inr (Or.inl h)
        · exact Or.inr (Or.inr (Or.inl h))
        · exact Or.inr (Or.inr (Or.inr h))
        · exact absurd h.symm hq.1
    | percent ha hb _ ih =>
      simp only [List.mem_cons, not_or] at hq
      exact .percent ha hb (ih hq.2.2.2)

/-- **C86 (partial).** `format: uri-reference` accepts every relative reference of RFC 3986 whose query and fragment have no question mark.
Missing: question marks in them (`C86_question_false`) and hosts in brackets, which are rejected; and that nothing else is accepted
(`C86_colon_false`). -/
theorem C86_uri_reference_accepted_partial (isUri : Text → Bool) {path query fragment : Text} (h : RelativeRef path query fragment)
    (hq : '?' ∉ query.tail) (hf : '?' ∉ fragment.tail) : validUriReference isUri (path ++ query ++ fragment) = true := by
  obtain ⟨hp, hq', hf'⟩ := h
  have hp := component_true (part_component hp)
  have hs := component_signs hp
  rw [validUriReference, Bool.or_eq_true]
  refine Or.inr ?_
  rw [relativeReference]
  split
  · rfl
  · rcases tail_component hq' hq with rfl | ⟨q, rfl, hqc⟩
    · rcases tail_component hf' hf with rfl | ⟨f, rfl, hfc⟩
      · simp only [List.append_nil, splitOnce_none hs.1, splitOnce_none hs.2, hp]; rfl
      · simp only [List.append_nil, splitOnce_some hs.1, splitOnce_none hs.2, hp, Option.map_some, hfc]; rfl
    · have hno : '#' ∉ path ++ '?' :: q := by
        simp only [List.mem_append, List.mem_cons, not_or]
        exact ⟨hs.1, by decide, (component_signs hqc).1⟩
      rcases tail_component hf' hf with rfl | ⟨f, rfl, hfc⟩
      · simp only [List.append_nil, splitOnce_none hno, splitOnce_some hs.2, hp, Option.map_some, hqc]; rfl
      · simp only [splitOnce_some hno, splitOnce_some hs.2, hp, Option.map_some, hqc, hfc]; rfl

theorem isHex_hex {c : Char} (h : isHex c = true) : ∃ n, Tombi.Pointer.HexDigit c n := by
  have range : ∀ (lo hi : Char) (l : Text), (∀ n, n < 128 → lo.toNat ≤ n → n ≤ hi.toNat → Char.ofNat n ∈ l) → hi.toNat < 128 →
      lo ≤ c → c ≤ hi → c ∈ l := by
    intro lo hi l hl hh h1 h2
    have h1 : lo.toNat ≤ c.toNat := h1
    have h2 : c.toNat ≤ hi.toNat := h2
    have := hl c.toNat (by omega) h1 h2
    rwa [Char.ofNat_toNat] at this
  simp only [isHex, Bool.or_eq_true, Bool.and_eq_true, decide_eq_true_eq] at h
  rcases h with (h | h) | h
  · obtain ⟨n, hn⟩ := List.getElem?_of_mem (range '0' '9' "0123456789abcdef".toList (by decide +kernel) (by decide) h.1 h.2)
    exact ⟨n, Or.inl hn⟩
  · obtain ⟨n, hn⟩ := List.getElem?_of_mem (range 'a' 'f' "0123456789abcdef".toList (by decide +kernel) (by decide) h.1 h.2)
    exact ⟨n, Or.inl hn⟩
  · obtain ⟨n, hn⟩ := List.getElem?_of_mem (range 'A' 'F' "0123456789ABCDEF".toList (by decide +kernel) (by decide) h.1 h.2)
    exact ⟨n, Or.inr hn⟩

theorem component_encoded {s : Text} (h : uriComponent s = true) : Encoded [':', '@', '/'] s := by
  induction s using uriComponent.induct with
  | case1 => exact .nil
  | case2 a b rest ih =>
    rw [uriComponent, if_pos rfl] at h
    simp only [Bool.and_eq_true] at h
    obtain ⟨n, hn⟩ := isHex_hex h.1.1
    obtain ⟨m, hm⟩ := isHex_hex h.1.2
    exact .percent hn hm (ih h.2)
  | case3 cs hn =>
    rw [uriComponent, if_pos rfl] at h
    · cases h
    · exact hn
  | case4 c cs hc ih =>
    rw [uri_cons hc, Bool.and_eq_true] at h
    refine .plain ?_ (ih h.2)
    have h := h.1
    simp only [isComponentChar, Bool.or_eq_true, Bool.and_eq_true, decide_eq_true_eq, List.contains_iff_mem] at h
    rcases h with ((h | h) | h) | h
    · exact Or.inl (Or.inl h)
    · exact Or.inl (Or.inr (Or.inl h))
    · exact Or.inl (Or.inr (Or.inr (Or.inl h)))
    · have : ∀ c ∈ "-._~:@!$&'()*+,;=/".toList, (c ∈ "-._~".toList ∨ c ∈ "!$&'()*+,;=".toList) ∨ c ∈ [':', '@', '/'] := by decide
      rcases this c h with (h | h) | h
      · exact Or.inl (Or.inr (Or.inr (Or.inr (Or.inl h))))
      · exact Or.inl (Or.inr (Or.inr (Or.inr (Or.inr h))))
      · exact Or.inr h

theorem splitOnce_eq (c : Char) (s : Text) : s = (splitOnce c s).1 ++ ((splitOnce c s).2.map (c :: ·)).getD [] := by
  induction s with
  | nil => rfl
  | cons d s ih =>
    rw [splitOnce]
    split
    · next h => rw [h]; rfl
    · exact congrArg (d :: ·) ih

theorem encoded_more {a b : List Char} (hab : ∀ c ∈ a, c ∈ b) {s : Text} (h : Encoded a s) : Encoded b s := by
  induction h with
  | nil => exact .nil
  | plain hc _ ih => exact .plain (hc.imp_right (hab _)) ih
  | percent ha hb _ ih => exact .percent ha hb ih

theorem opt_tail {c : Char} {o : Option Text} (h : (o.map uriComponent).getD true = true) : UriTail c ((o.map (c :: ·)).getD []) := by
  cases o with
  | none => exact Or.inl rfl
  | some q => exact Or.inr ⟨q, rfl, encoded_more (by decide) (component_encoded h)⟩

/-- **C86 (partial).** What `format: uri-reference` accepts is a URI or at least a path, a query and a fragment of characters that RFC 3986
allows there. Missing: that the path has the form of RFC 3986 (`C86_colon_false`). -/
theorem C86_uri_reference_rejected_partial (isUri : Text → Bool) {s : Text} (h : validUriReference isUri s = true) :
    isUri s = true ∨ ∃ path query fragment, s = path ++ query ++ fragment ∧ Encoded [':', '@', '/'] path ∧ UriTail '?' query ∧
      UriTail '#' fragment := by
  rw [validUriReference, Bool.or_eq_true] at h
  refine h.imp_right fun h => ?_
  rw [relativeReference] at h
  split at h
  · next e => exact ⟨[], [], [], e, .nil, Or.inl rfl, Or.inl rfl⟩
  · simp only [Bool.and_eq_true] at h
    refine ⟨_, _, _, ?_, component_encoded h.1.1, opt_tail h.1.2, opt_tail h.2⟩
    rw [← splitOnce_eq '?', ← splitOnce_eq '#']

/-- A reference with a path, a query and a fragment. -/
example : RelativeRef "a/b%20c".toList "?d=e".toList "#f".toList := by
  refine ⟨?_, Or.inr ⟨"d=e".toList, rfl, ?_⟩, Or.inr ⟨"f".toList, rfl, ?_⟩⟩
  · refine .noscheme (s := ['a']) (p := "/b%20c".toList) (.plain (Or.inl (by unfold NameChar; decide)) .nil) (by decide)
      (.cons (s := "b%20c".toList) (t := []) ?_ .nil)
    exact .plain (Or.inl (by unfold NameChar; decide)) (.percent (n := 2) (m := 0) (Or.inl (by decide)) (Or.inl (by decide)) (.plain (Or.inl (by unfold NameChar; decide)) .nil))
  · exact .plain (Or.inl (by unfold NameChar; decide)) (.plain (Or.inl (by unfold NameChar; decide)) (.plain (Or.inl (by unfold NameChar; decide)) .nil))
  · exact .plain (Or.inl (by unfold NameChar; decide)) .nil

/-- **C86**, where it fails: a query with a question mark is rejected. -/
theorem C86_question_false (isUri : Text → Bool) (h : isUri "?a?b".toList = false) :
    RelativeRef [] "?a?b".toList [] ∧ validUriReference isUri "?a?b".toList = false := by
  refine ⟨⟨.empty, Or.inr ⟨"a?b".toList, rfl, ?_⟩, Or.inl rfl⟩, ?_⟩
  · exact .plain (Or.inl (by unfold NameChar; decide)) (.plain (Or.inr (by decide)) (.plain (Or.inl (by unfold NameChar; decide)) .nil))
  · rw [validUriReference, h]; decide +kernel

/-- **C86**, where it fails: a first segment with a colon is accepted, although the text is no URI either. -/
theorem C86_colon_false (isUri : Text → Bool) :
    validUriReference isUri "1a:b".toList = true ∧ ¬ ∃ p q f, "1a:b".toList = p ++ q ++ f ∧ RelativeRef p q f := by
  refine ⟨by rw [validUriReference, show relativeReference "1a:b".toList = true by decide +kernel, Bool.or_true], ?_⟩
  rintro ⟨p, q, f, e, hp, hq, hf⟩
  have hq0 : q = [] := by
    rcases hq with h | ⟨t, rfl, -⟩
    · exact h
    · exact absurd (show '?' ∈ "1a:b".toList by rw [e]; simp) (by decide)
  have hf0 : f = [] := by
    rcases hf with h | ⟨t, rfl, -⟩
    · exact h
    · exact absurd (show '#' ∈ "1a:b".toList by rw [e]; simp) (by decide)
  subst hq0 hf0
  simp only [List.append_nil] at e
  have noSlash : '/' ∉ p := by rw [← e]; decide
  cases hp with
  | authority => exact noSlash (by simp)
  | root => exact noSlash (by simp)
  | absolute => exact noSlash (by simp)
  | empty => cases e
  | @noscheme s p hs _ hp =>
    cases hp with
    | cons => exact noSlash (by simp)
    | nil =>
      rw [List.append_nil] at e
      have : ∀ s, Encoded ['@'] s → ':' ∉ s := by
        intro s hs
        induction hs with
        | nil => simp
        | plain hc _ ih =>
          intro hm
          rcases List.mem_cons.1 hm with rfl | hm
          · revert hc; unfold NameChar; decide
          · exact ih hm
        | percent ha hb _ ih =>
          have key : ∀ n, ¬ Tombi.Pointer.HexDigit ':' n := by
            rintro n (h | h)
            · exact absurd (List.mem_of_getElem? h) (by decide)
            · exact absurd (List.mem_of_getElem? h) (by decide)
          intro hm
          simp only [List.mem_cons] at hm
          rcases hm with h | rfl | rfl | hm
          · exact absurd h (by decide)
          · exact key _ ha
          · exact key _ hb
          · exact ih hm
      exact this s hs (by rw [← e]; decide)

end Tombi.Formats
