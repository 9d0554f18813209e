import Verif.Model.DateTime
import Verif.Spec.DateTime
import Verif.Proofs.Numbers
/-! Date-time parsing and printing. -/
namespace Tombi
open Spec DateTime

theorem bind_ok {ε α β : Type} {x : Except ε α} {f : α → Except ε β} {b : β} :
    (x >>= f) = .ok b ↔ ∃ a, x = .ok a ∧ f a = .ok b := by
  cases x with
  | error e => exact ⟨fun h => (by cases h), fun ⟨a, h, _⟩ => (by cases h)⟩
  | ok a => exact ⟨fun h => ⟨a, rfl, h⟩, fun ⟨a', h, h'⟩ => by cases h; exact h'⟩

theorem bind_ok2 {ε α β γ : Type} {x : Except ε (α × β)} {f : α → β → Except ε γ} {b : γ} :
    (x >>= fun p => f p.1 p.2) = .ok b ↔ ∃ a a', x = .ok (a, a') ∧ f a a' = .ok b := by
  rw [bind_ok]
  exact ⟨fun ⟨⟨a, a'⟩, h⟩ => ⟨a, a', h⟩, fun ⟨a, a', h⟩ => ⟨(a, a'), h⟩⟩

/-- decimal digits -/
abbrev Dig (c : Char) : Prop := '0' ≤ c ∧ c ≤ '9'

theorem isAsciiDigit_iff {c : Char} : isAsciiDigit c = true ↔ Dig c := by
  simp [isAsciiDigit, inRange]

theorem Dig.ne {c : Char} (h : Dig c) : c ≠ '_' := by
  rintro rfl; exact absurd h (by decide)

theorem Dig.val {c : Char} (h : Dig c) : c.toNat - '0'.toNat = digitVal c := by
  unfold digitVal; rw [if_pos h.2]

theorem Dig.lt {c : Char} (h : Dig c) : digitVal c < 10 := by
  rw [← h.val]
  have h2 : c.toNat ≤ 57 := h.2
  have : '0'.toNat = 48 := by decide
  omega

theorem digitCount_digits {w : List Char} (h : ∀ c ∈ w, Dig c) : digitCount w = w.length := by
  unfold digitCount
  congr 1
  exact List.filter_eq_self.mpr fun d hd => by simpa using (h d hd).ne

theorem posValue_cons {c : Char} {w : List Char} (h : ∀ x ∈ c :: w, Dig x) :
    posValue 10 (c :: w) = digitVal c * 10 ^ w.length + posValue 10 w := by
  rw [posValue, if_neg (h c (by simp)).ne, digitCount_digits (fun x hx => h x (by simp [hx]))]

theorem posValue_lt {w : List Char} (h : ∀ c ∈ w, Dig c) : posValue 10 w < 10 ^ w.length := by
  induction w with
  | nil => simp [posValue]
  | cons c w ih =>
    rw [posValue_cons h, List.length_cons, Nat.pow_succ]
    have h1 := (h c (by simp)).lt
    have h2 := ih fun x hx => h x (by simp [hx])
    have : digitVal c * 10 ^ w.length ≤ 9 * 10 ^ w.length := Nat.mul_le_mul_right _ (by omega)
    omega

theorem posValue_append {a b : List Char} (ha : ∀ c ∈ a, Dig c) (hb : ∀ c ∈ b, Dig c) :
    posValue 10 (a ++ b) = posValue 10 a * 10 ^ b.length + posValue 10 b := by
  induction a with
  | nil => simp [posValue]
  | cons c a ih =>
    have hab : ∀ x ∈ c :: (a ++ b), Dig x := by
      intro x hx
      rcases List.mem_cons.mp hx with rfl | hx
      · exact ha _ (by simp)
      · rcases List.mem_append.mp hx with hx | hx
        · exact ha _ (by simp [hx])
        · exact hb _ hx
    rw [List.cons_append, posValue_cons hab, posValue_cons ha, ih fun x hx => ha x (by simp [hx]),
      List.length_append, Nat.pow_add, Nat.add_mul, Nat.mul_assoc]
    omega

theorem digit_ok {s r : List Char} {n : Nat} : digit s = .ok (n, r) ↔ ∃ c, s = c :: r ∧ Dig c ∧ n = digitVal c := by
  cases s with
  | nil => simp [digit]
  | cons c cs =>
    rw [digit]
    by_cases h : isAsciiDigit c = true
    · rw [if_pos h]
      have hd := isAsciiDigit_iff.mp h
      constructor
      · intro h'; cases h'; exact ⟨c, rfl, hd, hd.val⟩
      · rintro ⟨c', h1, h2, h3⟩; cases h1; rw [h3, ← h2.val]
    · rw [if_neg h]
      constructor
      · intro h'; cases h'
      · rintro ⟨c', h1, h2, h3⟩; cases h1; exact absurd (isAsciiDigit_iff.mpr h2) h

theorem expect_ok {x : Char} {e : DateTime.Error} {s r : List Char} : expect x e s = .ok r ↔ s = x :: r := by
  cases s with
  | nil => simp [expect]
  | cons c cs =>
    rw [expect]
    by_cases h : c = x
    · rw [if_pos h]; subst h; simp
    · rw [if_neg h]; simp [h]

theorem twoDigits_ok {s r : List Char} {n : Nat} :
    twoDigits s = .ok (n, r) ↔ ∃ w, Digits 2 w n ∧ s = w ++ r := by
  unfold twoDigits
  simp only [bind_ok, digit_ok, Prod.exists]
  constructor
  · rintro ⟨_, _, ⟨c, rfl, hc, rfl⟩, _, _, ⟨c', rfl, hc', rfl⟩, h⟩
    cases h
    have hd : ∀ x ∈ [c, c'], Dig x := by
      intro x hx; simp at hx; rcases hx with rfl | rfl <;> assumption
    refine ⟨[c, c'], ⟨rfl, hd, ?_⟩, rfl⟩
    rw [posValue_cons hd, posValue_cons fun x hx => hd x (by simp [List.mem_singleton.mp hx])]
    simp [posValue]
  · rintro ⟨w, ⟨hl, hd, rfl⟩, rfl⟩
    match w, hl with
    | [a, b], _ =>
      refine ⟨_, b :: r, ⟨a, rfl, hd a (by simp), rfl⟩, _, r, ⟨b, rfl, hd b (by simp), rfl⟩, ?_⟩
      rw [posValue_cons hd, posValue_cons fun x hx => hd x (by simp [List.mem_singleton.mp hx])]
      simp [posValue]

theorem fourDigits_ok {s r : List Char} {n : Nat} :
    fourDigits s = .ok (n, r) ↔ ∃ w, Digits 4 w n ∧ s = w ++ r := by
  have hval : ∀ a b c d, (∀ x ∈ [a, b, c, d], Dig x) → posValue 10 [a, b, c, d]
      = digitVal a * 1000 + digitVal b * 100 + digitVal c * 10 + digitVal d := by
    intro a b c d h
    rw [posValue_cons h, posValue_cons fun x hx => h x (by simp at hx ⊢; simp [hx]),
      posValue_cons fun x hx => h x (by simp at hx ⊢; simp [hx]),
      posValue_cons fun x hx => h x (by simp at hx ⊢; simp [hx])]
    simp only [List.length_cons, List.length_nil, posValue]
    omega
  unfold fourDigits
  simp only [bind_ok, digit_ok, Prod.exists]
  constructor
  · rintro ⟨_, _, ⟨a, rfl, ha, rfl⟩, _, _, ⟨b, rfl, hb, rfl⟩, _, _, ⟨c, rfl, hc, rfl⟩, _, _, ⟨d, rfl, hd, rfl⟩, h⟩
    cases h
    have hd : ∀ x ∈ [a, b, c, d], Dig x := by
      intro x hx; simp at hx; rcases hx with rfl | rfl | rfl | rfl <;> assumption
    exact ⟨[a, b, c, d], ⟨rfl, hd, (hval a b c d hd).symm⟩, rfl⟩
  · rintro ⟨w, ⟨hl, hd, rfl⟩, rfl⟩
    match w, hl with
    | [a, b, c, d], _ =>
      refine ⟨_, _, ⟨a, rfl, hd a (by simp), rfl⟩, _, _, ⟨b, rfl, hd b (by simp), rfl⟩, _, _,
        ⟨c, rfl, hd c (by simp), rfl⟩, _, _, ⟨d, rfl, hd d (by simp), rfl⟩, ?_⟩
      rw [hval a b c d hd]
      rfl

theorem leap_iff (y : Nat) :
    (y % 4 == 0 && (!(y % 100 == 0) || y % 400 == 0)) = true ↔ LeapYear y := by
  simp only [LeapYear, Bool.and_eq_true, Bool.or_eq_true, Bool.not_eq_true', beq_iff_eq, beq_eq_false_iff_ne,
    Nat.dvd_iff_mod_eq_zero]
  omega

theorem monthLength_iff (y m n : Nat) : MonthLength y m n ↔ 1 ≤ m ∧ m ≤ 12 ∧ n = maxDaysInMonth y m := by
  constructor
  · intro h
    cases h with
    | february_leap h => simp [maxDaysInMonth, (leap_iff y).mpr h]
    | february h =>
      have : (y % 4 == 0 && (!(y % 100 == 0) || y % 400 == 0)) = false :=
        Bool.eq_false_iff.mpr fun h' => h ((leap_iff y).mp h')
      simp [maxDaysInMonth, this]
    | _ => simp [maxDaysInMonth]
  · rintro ⟨h1, h2, rfl⟩
    have : m = 1 ∨ m = 2 ∨ m = 3 ∨ m = 4 ∨ m = 5 ∨ m = 6 ∨ m = 7 ∨ m = 8 ∨ m = 9 ∨ m = 10 ∨ m = 11 ∨ m = 12 := by
      omega
    rcases this with rfl | rfl | rfl | rfl | rfl | rfl | rfl | rfl | rfl | rfl | rfl | rfl
    · exact .january
    · by_cases h : LeapYear y
      · have : maxDaysInMonth y 2 = 29 := by simp [maxDaysInMonth, (leap_iff y).mpr h]
        rw [this]; exact .february_leap h
      · have h' : (y % 4 == 0 && (!(y % 100 == 0) || y % 400 == 0)) = false :=
          Bool.eq_false_iff.mpr fun h' => h ((leap_iff y).mp h')
        have : maxDaysInMonth y 2 = 28 := by simp [maxDaysInMonth, h']
        rw [this]; exact .february h
    · exact .march
    · exact .april
    · exact .may
    · exact .june
    · exact .july
    · exact .august
    · exact .september
    · exact .october
    · exact .november
    · exact .december

theorem checkDate_ok {d : Date} (hy : d.year ≤ 9999) : checkDate d = .ok () ↔ ValidDate d := by
  unfold checkDate ValidDate
  simp only [monthLength_iff]
  split
  · rename_i h
    refine ⟨fun h' => (by cases h'), fun ⟨_, n, ⟨h1, h2, _⟩, _⟩ => ?_⟩
    omega
  · split
    · rename_i h1 h2
      refine ⟨fun h' => (by cases h'), fun ⟨_, n, ⟨_, _, h3⟩, _, _⟩ => ?_⟩
      omega
    · rename_i h1 h2
      exact ⟨fun _ => ⟨hy, _, ⟨by omega, by omega, rfl⟩, by omega, by omega⟩, fun _ => rfl⟩

theorem Spec.Digits.lt {k : Nat} {w : List Char} {n : Nat} (h : Digits k w n) : n < 10 ^ k := by
  obtain ⟨h1, h2, rfl⟩ := h
  rw [← h1]
  exact posValue_lt h2

theorem fullDate_ok {s r : List Char} {d : Date} :
    fullDate s = .ok (d, r) ↔ ∃ w, DateText d w ∧ ValidDate d ∧ s = w ++ r := by
  unfold fullDate
  simp only [bind_ok, fourDigits_ok, twoDigits_ok, expect_ok, Prod.exists]
  constructor
  · rintro ⟨y, _, ⟨wy, hy, rfl⟩, _, rfl, m, _, ⟨wm, hm, rfl⟩, _, rfl, dd, _, ⟨wd, hd, rfl⟩, ⟨⟩, hc, h⟩
    cases h
    have : y < 10000 := hy.lt
    refine ⟨wy ++ '-' :: wm ++ '-' :: wd, ⟨wy, wm, wd, hy, hm, hd, rfl⟩, (checkDate_ok ?_).mp hc, by simp⟩
    show y ≤ 9999
    omega
  · rintro ⟨w, ⟨wy, wm, wd, hy, hm, hd, rfl⟩, hv, rfl⟩
    exact ⟨_, '-' :: (wm ++ '-' :: (wd ++ r)), ⟨wy, hy, by simp⟩, _, rfl, _, _, ⟨wm, hm, rfl⟩, _, rfl, _, _,
      ⟨wd, hd, rfl⟩, (), (checkDate_ok (d := ⟨_, _, _⟩) hv.1).mpr hv, rfl⟩

/-- the text does not begin with a character of the class -/
def NoHead (p : Char → Prop) (s : List Char) : Prop := ∀ c r, s = c :: r → ¬ p c

theorem fracLoop_eq {w r : List Char} (hw : ∀ c ∈ w, Dig c) (hr : NoHead Dig r) (i n : Nat) :
    fracLoop i n (w ++ r) = (i + w.length, n + posValue 10 (w.take (9 - i)) * 10 ^ (9 - i - w.length), r) := by
  induction w generalizing i n with
  | nil =>
    cases r with
    | nil => simp [fracLoop, posValue]
    | cons c r =>
      have : isAsciiDigit c ≠ true := fun h => hr c r rfl (isAsciiDigit_iff.mp h)
      simp [fracLoop, this, posValue]
  | cons c w ih =>
    have hc := hw c (by simp)
    have hw' : ∀ x ∈ w, Dig x := fun x hx => hw x (by simp [hx])
    rw [List.cons_append, fracLoop, if_pos (isAsciiDigit_iff.mpr hc), ih hw', hc.val]
    have hl : i + 1 + w.length = i + (c :: w).length := by rw [List.length_cons]; omega
    rw [hl]
    congr 2
    by_cases hi : i < 9
    · rw [if_pos hi]
      have h9 : 9 - i = (8 - i) + 1 := by omega
      have h8 : 9 - (i + 1) = 8 - i := by omega
      rw [h9, h8, List.take_succ_cons,
        posValue_cons fun x hx => (List.mem_cons.mp hx).elim (fun h => h ▸ hc) fun h => hw' x (List.mem_of_mem_take h),
        List.length_take, List.length_cons, Nat.add_sub_add_right, Nat.add_mul, Nat.mul_assoc, ← Nat.pow_add]
      have : min (8 - i) w.length + (8 - i - w.length) = 8 - i := by omega
      rw [this, Nat.mul_comm (digitVal c)]
      omega
    · rw [if_neg hi]
      have h9 : 9 - i = 0 := by omega
      have h8 : 9 - (i + 1) = 0 := by omega
      simp [h9, h8, posValue]

theorem span_digits (s : List Char) : ∃ w r, s = w ++ r ∧ (∀ c ∈ w, Dig c) ∧ NoHead Dig r := by
  induction s with
  | nil => exact ⟨[], [], rfl, by simp, fun c r h => (by cases h)⟩
  | cons c s ih =>
    by_cases hc : Dig c
    · obtain ⟨w, r, rfl, h1, h2⟩ := ih
      exact ⟨c :: w, r, rfl, fun x hx => (List.mem_cons.mp hx).elim (fun h => h ▸ hc) (h1 x), h2⟩
    · exact ⟨[], c :: s, rfl, by simp, fun c' r h => by cases h; exact hc⟩

theorem fraction_ok {s r : List Char} {n : Nat} :
    fraction s = .ok (n, r) ↔ ∃ f, FractionText n f ∧ s = f ++ r ∧ NoHead Dig r := by
  obtain ⟨w, t, rfl, hw, ht⟩ := span_digits s
  unfold fraction
  rw [fracLoop_eq hw ht]
  simp only [Nat.zero_add, Nat.sub_zero]
  constructor
  · intro h
    by_cases h0 : w.length = 0
    · rw [if_pos h0] at h; cases h
    · rw [if_neg h0] at h
      cases h
      exact ⟨w, ⟨fun h => h0 (by simp [h]), hw, rfl⟩, rfl, ht⟩
  · rintro ⟨f, ⟨h1, h2, rfl⟩, h3, h4⟩
    have e1 := fracLoop_eq hw ht 0 0
    have e2 := fracLoop_eq h2 h4 0 0
    rw [h3, e2] at e1
    simp only [Nat.zero_add, Nat.sub_zero, Prod.mk.injEq] at e1
    obtain ⟨e3, e4, e5⟩ := e1
    rw [e4, e5, if_neg]
    intro h
    rw [← e3] at h
    exact h1 (List.length_eq_zero_iff.mp h)

theorem optFraction_ok {s r : List Char} {n : Nat} :
    optFraction s = .ok (n, r) ↔ (n = 0 ∧ s = r ∧ NoHead (· = '.') r)
      ∨ ∃ f, FractionText n f ∧ s = '.' :: f ++ r ∧ NoHead Dig r := by
  unfold optFraction
  split
  · rename_i s
    rw [fraction_ok]
    constructor
    · rintro ⟨f, h1, rfl, h2⟩; exact .inr ⟨f, h1, rfl, h2⟩
    · rintro (⟨_, rfl, h⟩ | ⟨f, h1, h2, h3⟩)
      · exact absurd rfl (h '.' s rfl)
      · cases h2; exact ⟨f, h1, rfl, h3⟩
  · rename_i h
    constructor
    · intro h'; cases h'; exact .inl ⟨rfl, rfl, fun c t e hc => h t (by rw [e, hc])⟩
    · rintro (⟨rfl, rfl, _⟩ | ⟨f, _, h2, _⟩)
      · rfl
      · exact absurd h2 (h _)

theorem checkTime_ok {t : Time} : checkTime t = .ok () ↔ ValidTime t := by
  unfold checkTime ValidTime
  by_cases h1 : t.hour ≥ 24
  · rw [if_pos h1]; exact ⟨fun h => (by cases h), fun h => by omega⟩
  rw [if_neg h1]
  by_cases h2 : t.minute ≥ 60
  · rw [if_pos h2]; exact ⟨fun h => (by cases h), fun h => by omega⟩
  rw [if_neg h2]
  by_cases h3 : t.second > 60
  · rw [if_pos h3]; exact ⟨fun h => (by cases h), fun h => by omega⟩
  rw [if_neg h3]
  by_cases h4 : t.nanosecond > 999999999
  · rw [if_pos h4]; exact ⟨fun h => (by cases h), fun h => by omega⟩
  rw [if_neg h4]
  exact ⟨fun _ => by omega, fun _ => rfl⟩

theorem optSeconds_ok {s r : List Char} {x n : Nat} :
    optSeconds s = .ok ((x, n), r) ↔ (x = 0 ∧ n = 0 ∧ s = r ∧ NoHead (· = ':') r)
      ∨ ∃ w s', Digits 2 w x ∧ s = ':' :: w ++ s' ∧ optFraction s' = .ok (n, r) := by
  unfold optSeconds
  split
  · rename_i s
    simp only [bind_ok, twoDigits_ok, Prod.exists]
    constructor
    · rintro ⟨_, s', ⟨w, hw, rfl⟩, n', r', h1, h2⟩
      cases h2
      exact .inr ⟨w, s', hw, rfl, h1⟩
    · rintro (⟨_, _, rfl, h⟩ | ⟨w, s', hw, h1, h2⟩)
      · exact absurd rfl (h ':' s rfl)
      · cases h1; exact ⟨x, s', ⟨w, hw, rfl⟩, n, r, h2, rfl⟩
  · rename_i h
    constructor
    · intro h'; cases h'; exact .inl ⟨rfl, rfl, rfl, fun c t e hc => h t (by rw [e, hc])⟩
    · rintro (⟨rfl, rfl, rfl, _⟩ | ⟨w, s', _, h2, _⟩)
      · rfl
      · exact absurd h2 (h _)

theorem partialTime_sound {s r : List Char} {t : Time} (h : partialTime s = .ok (t, r)) :
    ∃ w, TimeText t w ∧ ValidTime t ∧ s = w ++ r := by
  unfold partialTime at h
  simp only [bind_ok, twoDigits_ok, expect_ok, Prod.exists] at h
  obtain ⟨hh, _, ⟨wh, h1, rfl⟩, _, rfl, mm, _, ⟨wm, h2, rfl⟩, ss, nn, r', h3, ⟨⟩, h4, h5⟩ := h
  cases h5
  have hv := checkTime_ok.mp h4
  rcases optSeconds_ok.mp h3 with ⟨rfl, rfl, rfl, _⟩ | ⟨w, s', hw, rfl, h6⟩
  · exact ⟨wh ++ ':' :: wm, .inr ⟨wh, wm, h1, h2, rfl, rfl, rfl⟩, hv, by simp⟩
  · rcases optFraction_ok.mp h6 with ⟨rfl, rfl, _⟩ | ⟨f, hf, rfl, _⟩
    · exact ⟨wh ++ ':' :: wm ++ ':' :: w, .inl (.whole h1 h2 hw rfl), hv, by simp⟩
    · exact ⟨wh ++ ':' :: wm ++ ':' :: w ++ '.' :: f, .inl (.fraction h1 h2 hw hf), hv, by simp⟩

/-- what may follow a time -/
def AfterTime (r : List Char) : Prop := NoHead (fun c => Dig c ∨ c = ':' ∨ c = '.') r

theorem partialTime_complete {w r : List Char} {t : Time} (h : TimeText t w) (hv : ValidTime t) (hr : AfterTime r) :
    partialTime (w ++ r) = .ok (t, r) := by
  have hd : NoHead Dig r := fun c r' e hc => hr c r' e (.inl hc)
  have hcolon : NoHead (· = ':') r := fun c r' e hc => hr c r' e (.inr (.inl hc))
  have hdot : NoHead (· = '.') r := fun c r' e hc => hr c r' e (.inr (.inr hc))
  unfold partialTime
  simp only [bind_ok, twoDigits_ok, expect_ok, Prod.exists]
  rcases h with h | ⟨wh, wm, h1, h2, h3, h4, rfl⟩
  · cases h with
    | @whole wh wm ws h1 h2 h3 h4 =>
      exact ⟨_, _, ⟨wh, h1, by simp [List.append_assoc]⟩, _, rfl, _, _, ⟨wm, h2, rfl⟩, _, _, _,
        optSeconds_ok.mpr (.inr ⟨ws, r, h3, rfl, optFraction_ok.mpr (.inl ⟨h4, rfl, hdot⟩)⟩), (), checkTime_ok.mpr hv,
        rfl⟩
    | @fraction wh wm ws f h1 h2 h3 h4 =>
      exact ⟨_, _, ⟨wh, h1, by simp [List.append_assoc]⟩, _, rfl, _, _, ⟨wm, h2, rfl⟩, _, _, _,
        optSeconds_ok.mpr (.inr ⟨ws, _, h3, rfl, optFraction_ok.mpr (.inr ⟨f, h4, rfl, hd⟩)⟩), (), checkTime_ok.mpr hv,
        rfl⟩
  · exact ⟨_, _, ⟨wh, h1, by simp [List.append_assoc]⟩, _, rfl, _, _, ⟨wm, h2, rfl⟩, _, _, _,
      optSeconds_ok.mpr (.inl ⟨h3, h4, rfl, hcolon⟩), (), checkTime_ok.mpr hv, rfl⟩

theorem customOffset_ok {sign : Int} (hs : sign = 1 ∨ sign = -1) {s r : List Char} {o : Offset} :
    customOffset sign s = .ok (o, r) ↔ ∃ wh wm hours minutes, Digits 2 wh hours ∧ Digits 2 wm minutes
      ∧ hours < 24 ∧ minutes < 60 ∧ o = .Custom (sign * (hours * 60 + minutes)) ∧ s = wh ++ ':' :: wm ++ r := by
  unfold customOffset
  simp only [bind_ok, twoDigits_ok, expect_ok, Prod.exists]
  constructor
  · rintro ⟨hh, _, ⟨wh, h1, rfl⟩, _, rfl, mm, _, ⟨wm, h2, rfl⟩, h⟩
    by_cases h3 : hh ≥ 24
    · rw [if_pos h3] at h; cases h
    rw [if_neg h3] at h
    by_cases h4 : mm ≥ 60
    · rw [if_pos h4] at h; cases h
    rw [if_neg h4] at h
    split at h
    · cases h
    · cases h
      exact ⟨wh, wm, hh, mm, h1, h2, by omega, by omega, rfl, by simp⟩
  · rintro ⟨wh, wm, hh, mm, h1, h2, h3, h4, rfl, rfl⟩
    refine ⟨hh, ':' :: (wm ++ r), ⟨wh, h1, by simp⟩, _, rfl, mm, r, ⟨wm, h2, rfl⟩, ?_⟩
    rw [if_neg (by omega), if_neg (by omega), if_neg]
    rcases hs with rfl | rfl <;> omega

theorem exceptMap_ok {ε α β : Type} {x : Except ε α} {f : α → β} {b : β} :
    x.map f = .ok b ↔ ∃ a, x = .ok a ∧ f a = b := by
  cases x with
  | error e => exact ⟨fun h => (by cases h), fun ⟨a, h, _⟩ => (by cases h)⟩
  | ok a => exact ⟨fun h => ⟨a, rfl, by cases h; rfl⟩, fun ⟨a', h, h'⟩ => by cases h; rw [← h']; rfl⟩

theorem optOffset_ok {s r : List Char} {o : Option Offset} :
    optOffset s = .ok (o, r) ↔ (o = none ∧ s = [] ∧ r = []) ∨ ∃ x w, o = some x ∧ OffsetText x w ∧ s = w ++ r := by
  cases s with
  | nil =>
    constructor
    · intro h; cases h; exact .inl ⟨rfl, rfl, rfl⟩
    · rintro (⟨rfl, _, rfl⟩ | ⟨x, w, _, h, h'⟩)
      · rfl
      · cases h <;> cases h'
  | cons c s =>
    rw [optOffset]
    by_cases h1 : c = 'Z' ∨ c = 'z'
    · rw [if_pos h1]
      constructor
      · intro h; cases h
        rcases h1 with rfl | rfl
        · exact .inr ⟨_, _, rfl, .upper, rfl⟩
        · exact .inr ⟨_, _, rfl, .lower, rfl⟩
      · rintro (⟨_, h, _⟩ | ⟨x, w, rfl, h, h'⟩)
        · cases h
        · cases h with
          | upper => cases h'; rfl
          | lower => cases h'; rfl
          | plus => cases h'; exact absurd h1 (by decide)
          | minus => cases h'; exact absurd h1 (by decide)
    rw [if_neg h1]
    by_cases h2 : c = '+'
    · subst h2
      rw [if_pos rfl, exceptMap_ok]
      simp only [Prod.exists, customOffset_ok (.inl rfl)]
      constructor
      · rintro ⟨a, b, ⟨wh, wm, hh, mm, e1, e2, e3, e4, rfl, rfl⟩, h⟩
        cases h
        refine .inr ⟨_, '+' :: wh ++ ':' :: wm, rfl, ?_, by simp⟩
        rw [Int.one_mul]
        exact .plus e1 e2 e3 e4
      · rintro (⟨_, h, _⟩ | ⟨x, w, rfl, h, h'⟩)
        · cases h
        · cases h with
          | upper => cases h'
          | lower => cases h'
          | @plus wh wm hh mm e1 e2 e3 e4 =>
            cases h'
            exact ⟨_, r, ⟨wh, wm, hh, mm, e1, e2, e3, e4, by rw [Int.one_mul], rfl⟩, rfl⟩
          | minus => cases h'
    rw [if_neg h2]
    by_cases h3 : c = '-'
    · subst h3
      rw [if_pos rfl, exceptMap_ok]
      simp only [Prod.exists, customOffset_ok (.inr rfl)]
      constructor
      · rintro ⟨a, b, ⟨wh, wm, hh, mm, e1, e2, e3, e4, rfl, rfl⟩, h⟩
        cases h
        refine .inr ⟨_, '-' :: wh ++ ':' :: wm, rfl, ?_, by simp⟩
        rw [Int.neg_one_mul]
        exact .minus e1 e2 e3 e4
      · rintro (⟨_, h, _⟩ | ⟨x, w, rfl, h, h'⟩)
        · cases h
        · cases h with
          | upper => cases h'
          | lower => cases h'
          | plus => cases h'
          | @minus wh wm hh mm e1 e2 e3 e4 =>
            cases h'
            exact ⟨_, r, ⟨wh, wm, hh, mm, e1, e2, e3, e4, by rw [Int.neg_one_mul], rfl⟩, rfl⟩
    rw [if_neg h3]
    constructor
    · intro h; cases h
    · rintro (⟨_, h, _⟩ | ⟨x, w, rfl, h, h'⟩)
      · cases h
      · cases h <;> cases h' <;> simp at h1 h2 h3

theorem atEnd_ok {x d : DateTime.DateTime} {s : List Char} : atEnd x s = .ok d ↔ s = [] ∧ x = d := by
  cases s with
  | nil => simp [atEnd]
  | cons c s => simp [atEnd]

theorem timeFollows_iff {s : List Char} : timeFollows s = true ↔ ∃ c r, DateTimeSeparator c ∧ s = c :: r := by
  cases s with
  | nil => simp [timeFollows]
  | cons c s =>
    simp only [timeFollows, Bool.or_eq_true, beq_iff_eq, or_assoc]
    constructor
    · intro h; exact ⟨c, s, h, rfl⟩
    · rintro ⟨c', r, h, e⟩; cases e; exact h

/-- the texts `fromStr` accepts, and their values -/
inductive Accepted : DateTime.DateTime → List Char → Prop
  | time {t w} : TimeText t w → ValidTime t → Accepted ⟨none, some t, none⟩ w
  | date {d w} : DateText d w → ValidDate d → Accepted ⟨some d, none, none⟩ w
  | local_ {d t wd c wt} : DateText d wd → ValidDate d → DateTimeSeparator c → TimeText t wt → ValidTime t →
      Accepted ⟨some d, some t, none⟩ (wd ++ c :: wt)
  | offset {d t o wd c wt wo} : DateText d wd → ValidDate d → DateTimeSeparator c → TimeText t wt → ValidTime t →
      OffsetText o wo → Accepted ⟨some d, some t, some o⟩ (wd ++ c :: wt ++ wo)

theorem Spec.Digits.two {w : List Char} {n : Nat} (h : Digits 2 w n) : ∃ a b, w = [a, b] ∧ Dig a ∧ Dig b := by
  obtain ⟨h1, h2, _⟩ := h
  match w, h1 with
  | [a, b], _ => exact ⟨a, b, rfl, h2 a (by simp), h2 b (by simp)⟩

theorem Spec.TimeText.third {t : Time} {w : List Char} (h : TimeText t w) : ∃ a b r, w = a :: b :: ':' :: r := by
  rcases h with h | ⟨wh, wm, h1, h2, _, _, rfl⟩
  · cases h with
    | whole h1 _ _ _ => obtain ⟨a, b, rfl, _⟩ := h1.two; exact ⟨a, b, _, rfl⟩
    | fraction h1 _ _ _ => obtain ⟨a, b, rfl, _⟩ := h1.two; exact ⟨a, b, _, rfl⟩
  · obtain ⟨a, b, rfl, _⟩ := h1.two; exact ⟨a, b, _, rfl⟩

theorem Spec.DateText.third {d : Date} {w : List Char} (h : DateText d w) : ∃ a b c r, w = a :: b :: c :: r ∧ Dig c := by
  obtain ⟨wy, wm, wd, ⟨h1, h2, _⟩, _, _, rfl⟩ := h
  match wy, h1 with
  | [a, b, c, e], _ => exact ⟨a, b, c, _, rfl, h2 c (by simp)⟩

theorem utf8Len_three (a b c : Char) (r : List Char) : ¬ utf8Len (a :: b :: c :: r) < 3 := by
  have := length_le_utf8Len (a :: b :: c :: r)
  simp only [List.length_cons] at this
  omega

theorem after_nil : AfterTime [] := fun c r h => (by cases h)

theorem after_offset {o : Offset} {w : List Char} (h : OffsetText o w) : AfterTime w := by
  intro c r e hc
  cases h <;> cases e <;> exact absurd hc (by decide)

theorem fromStr_date {s : List Char} (h : ∃ a b c r, s = a :: b :: c :: r ∧ c ≠ ':') : fromStr s = (do
    let (date, s) ← fullDate s
    if timeFollows s then
      let (time, s) ← partialTime (s.drop 1)
      let (offset, s) ← optOffset s
      atEnd ⟨some date, some time, offset⟩ s
    else atEnd ⟨some date, none, none⟩ s) := by
  obtain ⟨a, b, c, r, rfl, h⟩ := h
  rw [fromStr, if_neg (utf8Len_three _ _ _ _), if_neg]
  simpa using h

theorem fromStr_ok {s : List Char} {d : DateTime.DateTime} : fromStr s = .ok d ↔ Accepted d s := by
  constructor
  · intro h
    unfold fromStr at h
    by_cases h1 : utf8Len s < 3
    · rw [if_pos h1] at h; cases h
    rw [if_neg h1] at h
    by_cases h2 : s[2]? = some ':'
    · rw [if_pos h2] at h
      simp only [bind_ok, Prod.exists, atEnd_ok] at h
      obtain ⟨t, r, h3, rfl, rfl⟩ := h
      obtain ⟨w, h4, h5, rfl⟩ := partialTime_sound h3
      rw [List.append_nil]
      exact .time h4 h5
    · rw [if_neg h2] at h
      simp only [bind_ok, Prod.exists, fullDate_ok] at h
      obtain ⟨x, r, ⟨w, h3, h4, rfl⟩, h5⟩ := h
      by_cases h6 : timeFollows r = true
      · rw [if_pos h6] at h5
        obtain ⟨c, r', hc, rfl⟩ := timeFollows_iff.mp h6
        simp only [bind_ok, Prod.exists, atEnd_ok, List.drop_succ_cons, List.drop_zero] at h5
        obtain ⟨t, r2, h7, o, r3, h8, rfl, rfl⟩ := h5
        obtain ⟨wt, h9, h10, rfl⟩ := partialTime_sound h7
        rcases optOffset_ok.mp h8 with ⟨rfl, rfl, _⟩ | ⟨o, wo, rfl, h11, rfl⟩
        · rw [List.append_nil]; exact .local_ h3 h4 hc h9 h10
        · have := Accepted.offset h3 h4 hc h9 h10 h11
          simpa using this
      · rw [if_neg h6, atEnd_ok] at h5
        obtain ⟨rfl, rfl⟩ := h5
        rw [List.append_nil]
        exact .date h3 h4
  · intro h
    have htime : ∀ {t w}, TimeText t w → ValidTime t → fromStr w = .ok ⟨none, some t, none⟩ := by
      intro t w h1 h2
      have h3 := partialTime_complete h1 h2 after_nil
      rw [List.append_nil] at h3
      obtain ⟨a, b, r, rfl⟩ := h1.third
      rw [fromStr, if_neg (utf8Len_three _ _ _ _), if_pos (by simp), h3]
      rfl
    cases h with
    | time h1 h2 => exact htime h1 h2
    | @date x _ h1 h2 =>
      have h3 : fullDate s = .ok (x, []) := fullDate_ok.mpr ⟨s, h1, h2, by simp⟩
      obtain ⟨a, b, c, r, e, hc⟩ := h1.third
      rw [fromStr_date ⟨a, b, c, r, e, fun h => absurd (h ▸ hc) (by decide)⟩, h3]
      rfl
    | @local_ x t wd c wt h1 h2 hc h4 h5 =>
      have h3 := fullDate_ok (r := c :: wt) |>.mpr ⟨wd, h1, h2, rfl⟩
      have h6 := partialTime_complete h4 h5 after_nil
      rw [List.append_nil] at h6
      obtain ⟨a, b, c', r, e, hc'⟩ := h1.third
      rw [fromStr_date ⟨a, b, c', r ++ c :: wt, by rw [e]; rfl, fun h => absurd (h ▸ hc') (by decide)⟩, h3]
      simp only [bind_ok, Prod.exists]
      refine ⟨x, _, rfl, ?_⟩
      rw [if_pos (timeFollows_iff.mpr ⟨c, wt, hc, rfl⟩)]
      simp only [bind_ok, Prod.exists, List.drop_succ_cons, List.drop_zero, atEnd_ok]
      exact ⟨t, [], h6, none, [], rfl, rfl, rfl⟩
    | @offset x t o wd c wt wo h1 h2 hc h4 h5 h7 =>
      have h3 := fullDate_ok (r := c :: (wt ++ wo)) |>.mpr ⟨wd, h1, h2, rfl⟩
      have h6 := partialTime_complete h4 h5 (after_offset h7)
      have h8 : optOffset wo = .ok (some o, []) := optOffset_ok.mpr (.inr ⟨o, wo, rfl, h7, by simp⟩)
      obtain ⟨a, b, c', r, e, hc'⟩ := h1.third
      have e' : wd ++ c :: wt ++ wo = wd ++ c :: (wt ++ wo) := by simp
      rw [e', fromStr_date ⟨a, b, c', r ++ c :: (wt ++ wo), by rw [e]; rfl, fun h => absurd (h ▸ hc') (by decide)⟩, h3]
      simp only [bind_ok, Prod.exists]
      refine ⟨x, _, rfl, ?_⟩
      rw [if_pos (timeFollows_iff.mpr ⟨c, wt ++ wo, hc, rfl⟩)]
      simp only [bind_ok, Prod.exists, List.drop_succ_cons, List.drop_zero, atEnd_ok]
      exact ⟨t, wo, h6, some o, [], h8, rfl, rfl⟩

/-! ### printing -/

/-- exactly `k` digits -/
def fixed : Nat → Nat → List Char
  | 0, _ => []
  | k + 1, n => fixed k (n / 10) ++ [digitChar (n % 10)]

theorem digitChar_dig : ∀ n, n < 10 → Dig (digitChar n) ∧ digitVal (digitChar n) = n := by decide

theorem fixed_digits (k n : Nat) (h : n < 10 ^ k) : Digits k (fixed k n) n := by
  induction k generalizing n with
  | zero =>
    have : n = 0 := by simpa using h
    subst this
    exact ⟨rfl, by simp [fixed], rfl⟩
  | succ k ih =>
    obtain ⟨h1, h2, h3⟩ := ih (n / 10) (by rw [Nat.pow_succ] at h; omega)
    have hd := digitChar_dig (n % 10) (Nat.mod_lt _ (by omega))
    have h4 : ∀ c ∈ [digitChar (n % 10)], Dig c := by simpa using hd.1
    refine ⟨by simp [fixed, h1], ?_, ?_⟩
    · intro c hc
      rcases List.mem_append.mp hc with hc | hc
      · exact h2 c hc
      · exact h4 c hc
    · rw [fixed, posValue_append h2 h4, ← h3, posValue_cons h4, hd.2]
      simp [posValue]
      omega

theorem decLoop_eq (fuel n : Nat) (h : n < fuel) : decLoop fuel n = dec n := by
  induction fuel generalizing n with
  | zero => omega
  | succ f ih =>
    have key : ∀ g, n < g + 1 → decLoop (g + 1) n = if n < 10 then [digitChar n] else decLoop g (n / 10) ++ [digitChar (n % 10)] := fun g _ => rfl
    rw [dec, decLoop, decLoop]
    by_cases hn : n < 10
    · rw [if_pos hn, if_pos hn]
    · rw [if_neg hn, if_neg hn, ih (n / 10) (by omega)]
      congr 1
      have : ∀ a b m, m < a → m < b → decLoop a m = decLoop b m := by
        intro a
        induction a with
        | zero => intro b m h; omega
        | succ a iha =>
          intro b m h1 h2
          cases b with
          | zero => omega
          | succ b =>
            rw [decLoop, decLoop]
            by_cases hm : m < 10
            · rw [if_pos hm, if_pos hm]
            · rw [if_neg hm, if_neg hm, iha b (m / 10) (by omega) (by omega)]
      exact this _ _ _ (by omega) (by omega)

theorem dec_lt {n : Nat} (h : n < 10) : dec n = [digitChar n] := by
  rw [dec, decLoop, if_pos h]

theorem dec_ge {n : Nat} (h : ¬ n < 10) : dec n = dec (n / 10) ++ [digitChar (n % 10)] := by
  rw [dec, decLoop, if_neg h, decLoop_eq _ _ (by omega)]

theorem fixed_zero (k : Nat) : fixed k 0 = List.replicate k '0' := by
  induction k with
  | zero => rfl
  | succ k ih => rw [fixed, Nat.zero_div, ih, List.replicate_succ']; rfl

theorem padded_eq (k n : Nat) (h : n < 10 ^ (k + 1)) : padded (k + 1) n = fixed (k + 1) n := by
  induction k generalizing n with
  | zero =>
    have hn : n < 10 := by simpa using h
    unfold padded
    rw [dec_lt hn, fixed, fixed, Nat.mod_eq_of_lt hn]
    rfl
  | succ k ih =>
    by_cases hn : n < 10
    · unfold padded
      rw [dec_lt hn, fixed, Nat.mod_eq_of_lt hn, Nat.div_eq_of_lt hn, fixed_zero]
      rfl
    · have := ih (n / 10) (by rw [Nat.pow_succ] at h; omega)
      unfold padded at this ⊢
      rw [dec_ge hn, fixed, ← this, List.length_append, List.length_singleton, Nat.add_sub_add_right, List.append_assoc]

theorem padded_digits (k n : Nat) (h : n < 10 ^ (k + 1)) : Digits (k + 1) (padded (k + 1) n) n := by
  rw [padded_eq k n h]; exact fixed_digits _ _ h

theorem dropWhile_split (p : Char → Bool) (s : List Char) :
    ∃ a, s = a ++ s.dropWhile p ∧ ∀ c ∈ a, p c = true := by
  induction s with
  | nil => exact ⟨[], rfl, by simp⟩
  | cons c s ih =>
    by_cases hc : p c = true
    · obtain ⟨a, h1, h2⟩ := ih
      refine ⟨c :: a, ?_, ?_⟩
      · rw [List.dropWhile_cons_of_pos hc, List.cons_append, ← h1]
      · intro x hx
        rcases List.mem_cons.mp hx with rfl | hx
        · exact hc
        · exact h2 x hx
    · exact ⟨[], by rw [List.dropWhile_cons_of_neg hc]; rfl, by simp⟩

theorem trimZeros_split (s : List Char) : ∃ k, s = trimZeros s ++ List.replicate k '0' := by
  obtain ⟨a, h1, h2⟩ := dropWhile_split (· == '0') s.reverse
  refine ⟨a.length, ?_⟩
  have h3 : a = List.replicate a.length '0' := List.eq_replicate_iff.mpr ⟨rfl, fun c hc => by simpa using h2 c hc⟩
  have h4 : s = (a ++ s.reverse.dropWhile (· == '0')).reverse := by rw [← h1, List.reverse_reverse]
  rw [List.reverse_append, h3, List.reverse_replicate] at h4
  exact h4

theorem posValue_zeros (k : Nat) : posValue 10 (List.replicate k '0') = 0 := by
  induction k with
  | zero => rfl
  | succ k ih =>
    rw [List.replicate_succ, posValue, if_neg (by decide), ih]
    simp [digitVal]

theorem fraction_text {n : Nat} (h : n < 1000000000) (h0 : n ≠ 0) : FractionText n (trimZeros (padded 9 n)) := by
  obtain ⟨h1, h2, h3⟩ := padded_digits 8 n h
  obtain ⟨k, hk⟩ := trimZeros_split (padded 9 n)
  have hd : ∀ c ∈ trimZeros (padded 9 n), Dig c := fun c hc => h2 c (by rw [hk]; simp [hc])
  have hz : ∀ c ∈ List.replicate k '0', Dig c := fun c hc => by rw [(List.mem_replicate.mp hc).2]; decide
  have h1 : (padded 9 n).length = 9 := h1
  have hlen : (trimZeros (padded 9 n)).length + k = 9 := by
    have := congrArg List.length hk
    rw [List.length_append, List.length_replicate, h1] at this
    exact this.symm
  have hval : n = posValue 10 (trimZeros (padded 9 n)) * 10 ^ k := by
    have := h3
    rw [hk, posValue_append hd hz, posValue_zeros, List.length_replicate, Nat.add_zero] at this
    exact this
  refine ⟨?_, hd, ?_⟩
  · intro he
    rw [he] at hval
    simp [posValue] at hval
    exact h0 hval
  · have hk' : 9 - (trimZeros (padded 9 n)).length = k := by omega
    rw [List.take_of_length_le (by omega), hk']
    exact hval

theorem showDate_text {d : Date} (h : ValidDate d) : DateText d (showDate d) := by
  obtain ⟨hy, n, hm, h1, h2⟩ := h
  obtain ⟨h3, h4, rfl⟩ := (monthLength_iff _ _ _).mp hm
  have : maxDaysInMonth d.year d.month ≤ 31 := by
    unfold maxDaysInMonth
    dsimp only
    repeat' split
    all_goals omega
  exact ⟨_, _, _, padded_digits 3 _ (by omega), padded_digits 1 _ (by omega), padded_digits 1 _ (by omega), rfl⟩

theorem showTime_text {t : Time} (h : ValidTime t) : TimeText t (showTime t) := by
  obtain ⟨h1, h2, h3, h4⟩ := h
  unfold showTime
  left
  by_cases h0 : t.nanosecond ≠ 0
  · rw [if_pos h0]
    exact .fraction (padded_digits 1 _ (by omega)) (padded_digits 1 _ (by omega)) (padded_digits 1 _ (by omega))
      (fraction_text h4 h0)
  · rw [if_neg h0, List.append_nil]
    exact .whole (padded_digits 1 _ (by omega)) (padded_digits 1 _ (by omega)) (padded_digits 1 _ (by omega))
      (Classical.not_not.mp h0)

theorem showOffset_text {o : Offset} (h : ValidOffset o) : OffsetText o (showOffset o) := by
  cases o with
  | Z => exact .upper
  | Custom m =>
    obtain ⟨h1, h2⟩ := h
    rw [showOffset]
    by_cases hm : m < 0
    · rw [if_pos hm]
      have e : Offset.Custom m = .Custom (-(((m.natAbs / 60 : Nat) : Int) * 60 + ((m.natAbs % 60 : Nat) : Int))) := by
        congr 1
        omega
      rw [e]
      exact .minus (padded_digits 1 _ (by omega)) (padded_digits 1 _ (by omega)) (by omega) (by omega)
    · rw [if_neg hm]
      have e : Offset.Custom m = .Custom (((m.natAbs / 60 : Nat) : Int) * 60 + ((m.natAbs % 60 : Nat) : Int)) := by
        congr 1
        omega
      rw [e]
      exact .plus (padded_digits 1 _ (by omega)) (padded_digits 1 _ (by omega)) (by omega) (by omega)

/-! ### literals -/

/-- the times of a TOML version, and the lax ones tombi takes for times of TOML 1.1 within date-times -/
def TimeV (v : TomlVersion) (t : Time) (w : List Char) : Prop :=
  SecondsText t w ∨ (v ≠ .V1_0_0 ∧ (MinutesText t w ∨ LaxTimeText t w))

/-- the part of `makeDatetimeStr` after the minutes -/
def fixRest (v : TomlVersion) : List Char → Option (List Char)
  | ':' :: r => some (':' :: r)
  | r => if v = .V1_0_0 then none else some (':' :: '0' :: '0' :: r)

theorem makeLoop_id {v : TomlVersion} {i : Nat} (h : 16 < i) (s : List Char) : makeDatetimeLoop v i s = some s := by
  induction s generalizing i with
  | nil => rfl
  | cons c s ih =>
    rw [makeDatetimeLoop, if_neg (by omega), if_neg (by omega), ih (by omega)]
    rfl

theorem makeLoop_ascii {v : TomlVersion} {i : Nat} {w r : List Char} (hw : ∀ c ∈ w, c.utf8Size = 1)
    (h : i + w.length ≤ 10 ∨ (10 < i ∧ i + w.length ≤ 16)) :
    makeDatetimeLoop v i (w ++ r) = (makeDatetimeLoop v (i + w.length) r).map (w ++ ·) := by
  induction w generalizing i with
  | nil => simp
  | cons c w ih =>
    rw [List.length_cons] at h
    rw [List.cons_append, makeDatetimeLoop, if_neg (by omega), if_neg (by omega), hw c (by simp),
      ih (fun x hx => hw x (by simp [hx])) (by omega), List.length_cons, Option.map_map]
    have : i + 1 + w.length = i + (w.length + 1) := by omega
    rw [this]
    rfl

theorem utf8Len_one {w : List Char} (h : ∀ c ∈ w, c.utf8Size = 1) : utf8Len w = w.length := by
  induction w with
  | nil => rfl
  | cons c w ih => rw [utf8Len_cons, h c (by simp), ih fun x hx => h x (by simp [hx]), List.length_cons]; omega

theorem makeDatetimeStr_eq {v : TomlVersion} {wd hm r : List Char} {c : Char} (h1 : wd.length = 10)
    (h2 : ∀ x ∈ wd, x.utf8Size = 1) (h3 : hm.length = 5) (h4 : ∀ x ∈ hm, x.utf8Size = 1)
    (hc : DateTimeSeparator c) :
    makeDatetimeStr v (wd ++ c :: (hm ++ r)) = (fixRest v r).map fun r' => wd ++ ' ' :: (hm ++ r') := by
  have hsp : (' ').utf8Size = 1 := by decide
  have hcu : c.utf8Size = 1 := by rcases hc with rfl | rfl | rfl <;> decide
  have e : makeDatetimeLoop v 0 (wd ++ c :: (hm ++ r))
      = (makeDatetimeLoop v 16 r).map fun r' => wd ++ ' ' :: (hm ++ r') := by
    rw [makeLoop_ascii h2 (by omega), h1]
    have e1 : makeDatetimeLoop v (0 + 10) (c :: (hm ++ r))
        = (makeDatetimeLoop v 11 (hm ++ r)).map (' ' :: ·) := by
      rw [makeDatetimeLoop, hcu]
      rcases hc with rfl | rfl | rfl
      · rw [if_pos (by decide)]
      · rw [if_pos (by decide)]
      · rw [if_neg (by decide), if_neg (by decide)]
    rw [e1, makeLoop_ascii h4 (by omega), h3, Option.map_map, Option.map_map]
    rfl
  have hlen : ∀ r', utf8Len (wd ++ ' ' :: (hm ++ r')) = 16 + utf8Len r' := by
    intro r'
    rw [utf8Len_append, utf8Len_cons, utf8Len_append, utf8Len_one h2, utf8Len_one h4, h1, h3, hsp]
    omega
  unfold makeDatetimeStr
  rw [e]
  cases r with
  | nil =>
    simp only [makeDatetimeLoop, Option.map_some]
    rw [if_pos (by rw [hlen]; rfl)]
    by_cases hv : v = .V1_0_0
    · simp [fixRest, hv]
    · simp [fixRest, hv]
  | cons x r =>
    have hx : x.utf8Size ≠ 0 := by have := x.utf8Size_pos; omega
    rw [makeDatetimeLoop, if_neg (by omega), makeLoop_id (by omega)]
    by_cases hcol : x = ':'
    · subst hcol
      rw [if_neg (by simp)]
      simp only [Option.map_some, fixRest]
      rw [if_neg]
      rw [hlen, utf8Len_cons]
      omega
    · rw [if_pos ⟨rfl, hcol⟩]
      have : fixRest v (x :: r) = if v = .V1_0_0 then none else some (':' :: '0' :: '0' :: x :: r) := by
        unfold fixRest
        split
        · rename_i e; cases e; exact absurd rfl hcol
        · rfl
      rw [this]
      by_cases hv : v = .V1_0_0
      · rw [if_pos hv, if_pos hv]; rfl
      · rw [if_neg hv, if_neg hv]
        simp only [Option.map_some]
        rw [if_neg]
        rw [hlen, utf8Len_cons]
        have : (':').utf8Size = 1 := by decide
        rw [utf8Len_cons, utf8Len_cons, utf8Len_cons]
        omega

theorem Spec.SecondsText.split {t : Time} {w : List Char} (h : SecondsText t w) :
    ∃ hm s fr, w = hm ++ ':' :: (s ++ fr) ∧ hm.length = 5 ∧ Digits 2 s t.second
      ∧ (∃ wh wm, hm = wh ++ ':' :: wm ∧ Digits 2 wh t.hour ∧ Digits 2 wm t.minute)
      ∧ ((fr = [] ∧ t.nanosecond = 0) ∨ ∃ f, fr = '.' :: f ∧ FractionText t.nanosecond f) := by
  cases h with
  | @whole wh wm ws h1 h2 h3 h4 =>
    exact ⟨wh ++ ':' :: wm, ws, [], by simp, by simp [h1.1, h2.1], h3, ⟨wh, wm, rfl, h1, h2⟩, .inl ⟨rfl, h4⟩⟩
  | @fraction wh wm ws f h1 h2 h3 h4 =>
    exact ⟨wh ++ ':' :: wm, ws, '.' :: f, by simp, by simp [h1.1, h2.1], h3, ⟨wh, wm, rfl, h1, h2⟩, .inr ⟨f, rfl, h4⟩⟩

theorem append_inj_len {a b c d : List Char} (h : a ++ b = c ++ d) (hl : a.length = c.length) : a = c ∧ b = d :=
  List.append_inj h hl

theorem fix_time {v : TomlVersion} {t : Time} {hm r wo : List Char} (hl : hm.length = 5)
    (ho : NoHead (· = ':') wo) :
    (∃ r' wt, fixRest v r = some r' ∧ TimeText t wt ∧ hm ++ r' = wt ++ wo)
      ↔ ∃ wt, TimeV v t wt ∧ hm ++ r = wt ++ wo := by
  have hz : Digits 2 ['0', '0'] 0 := ⟨rfl, by decide, by decide⟩
  constructor
  · rintro ⟨r', wt, h1, h2 | ⟨wh, wm, g1, g2, _, _, rfl⟩, h3⟩
    · obtain ⟨hm', s, fr, rfl, e1, e2, ⟨wh, wm, e3, e4, e5⟩, e6⟩ := h2.split
      rw [List.append_assoc] at h3
      obtain ⟨rfl, rfl⟩ := append_inj_len h3 (by rw [hl, e1])
      unfold fixRest at h1
      split at h1
      · cases h1
        exact ⟨_, .inl h2, by simp⟩
      · split at h1
        · cases h1
        · rename_i hv
          simp only [Option.some.injEq, List.cons_append, List.cons.injEq, true_and, List.append_assoc] at h1
          obtain ⟨rfl, rfl⟩ := append_inj_len (a := ['0', '0']) (b := r) (by exact h1) (by rw [e2.1]; rfl)
          have hs : t.second = 0 := e2.2.2.trans hz.2.2.symm
          rcases e6 with ⟨rfl, h7⟩ | ⟨f, rfl, h7⟩
          · exact ⟨hm, .inr ⟨hv, .inl ⟨wh, wm, e4, e5, hs, h7, e3⟩⟩, rfl⟩
          · exact ⟨hm ++ '.' :: f, .inr ⟨hv, .inr ⟨wh, wm, f, e4, e5, hs, h7, by rw [e3]⟩⟩, by simp⟩
    · obtain ⟨rfl, rfl⟩ := append_inj_len h3 (by rw [hl]; simp [g1.1, g2.1])
      unfold fixRest at h1
      split at h1
      · cases h1; exact absurd rfl (ho _ _ rfl)
      · split at h1
        · cases h1
        · simp only [Option.some.injEq] at h1
          exact absurd rfl (ho ':' _ h1.symm)
  · have hfix : ∀ x, NoHead (· = ':') x → v ≠ .V1_0_0 → fixRest v x = some (':' :: '0' :: '0' :: x) := by
      intro x hx hv
      unfold fixRest
      split
      · exact absurd rfl (hx _ _ rfl)
      · rw [if_neg hv]
    rintro ⟨wt, h2 | ⟨hv, ⟨wh, wm, g1, g2, g3, g4, rfl⟩ | ⟨wh, wm, f, g1, g2, g3, g4, rfl⟩⟩, h3⟩
    · obtain ⟨hm', s, fr, rfl, e1, e2, ⟨wh, wm, e3, e4, e5⟩, e6⟩ := h2.split
      have h3' := h3
      rw [List.append_assoc] at h3'
      obtain ⟨rfl, rfl⟩ := append_inj_len h3' (by rw [hl, e1])
      exact ⟨_, _, rfl, .inl h2, h3⟩
    · obtain ⟨rfl, rfl⟩ := append_inj_len h3 (by rw [hl]; simp [g1.1, g2.1])
      refine ⟨_, _, hfix _ ho hv, .inl (.whole g1 g2 (g3 ▸ hz) g4), by simp⟩
    · rw [List.append_assoc] at h3
      obtain ⟨rfl, rfl⟩ := append_inj_len h3 (by rw [hl]; simp [g1.1, g2.1])
      refine ⟨_, _, hfix _ (fun c x e => by cases e; decide) hv, .inl (.fraction g1 g2 (g3 ▸ hz) g4), by simp⟩

theorem Spec.DateText.len {d : Date} {w : List Char} (h : DateText d w) : w.length = 10 := by
  obtain ⟨a, b, c, h1, h2, h3, rfl⟩ := h
  simp [h1.1, h2.1, h3.1]

theorem mapError_ok {ε α : Type} {x : Except ε α} {a : α} : x.mapError some = .ok a ↔ x = .ok a := by
  cases x with
  | error e => exact ⟨fun h => (by cases h), fun h => (by cases h)⟩
  | ok b => exact ⟨fun h => by cases h; rfl, fun h => by cases h; rfl⟩

theorem Dig.ascii {c : Char} (h : Dig c) : c.utf8Size = 1 := by
  rw [Char.utf8Size_eq_one_iff]
  have h2 : c.toNat ≤ 57 := h.2
  have : c.val.toNat ≤ 57 := h2
  exact UInt32.le_iff_toNat_le.mpr (by simp; omega)

theorem rep_digits {n : Nat} {w : List Char} (h : (Rx.rep LexRx.digit n).Lang w) :
    w.length = n ∧ ∀ c ∈ w, Dig c := by
  induction n generalizing w with
  | zero => cases h; simp
  | succ n ih =>
    obtain ⟨u, v, rfl, ⟨c, rfl, hc⟩, hv⟩ := h
    obtain ⟨h1, h2⟩ := ih hv
    have hd : Dig c := by simpa [Rx.inCls] using hc
    refine ⟨by simp [h1], fun x hx => ?_⟩
    rcases List.mem_append.mp hx with hx | hx
    · rw [List.mem_singleton.mp hx]; exact hd
    · exact h2 x hx

/-- every character takes one byte -/
abbrev Ascii (w : List Char) : Prop := ∀ c ∈ w, c.utf8Size = 1

theorem Ascii.append {a b : List Char} (ha : Ascii a) (hb : Ascii b) : Ascii (a ++ b) := by
  intro c hc
  rcases List.mem_append.mp hc with hc | hc
  · exact ha c hc
  · exact hb c hc

theorem date_ascii {w : List Char} (h : LexRx.date.Lang w) : w.length = 10 ∧ Ascii w := by
  obtain ⟨u1, v1, rfl, g1, u2, v2, rfl, g2, u3, v3, rfl, g3, u4, v4, rfl, g4, u5, v5, rfl, g5, rfl⟩ := h
  rw [lang_ch] at g2 g4
  subst g2 g4
  obtain ⟨l1, a1⟩ := rep_digits g1
  obtain ⟨l3, a3⟩ := rep_digits g3
  obtain ⟨l5, a5⟩ := rep_digits g5
  have hm : Ascii ['-'] := by intro c hc; rw [List.mem_singleton.mp hc]; decide
  refine ⟨by simp [l1, l3, l5], ?_⟩
  exact Ascii.append (fun c hc => (a1 c hc).ascii) (hm.append (Ascii.append (fun c hc => (a3 c hc).ascii)
    (hm.append (Ascii.append (fun c hc => (a5 c hc).ascii) (fun c hc => nomatch hc)))))

theorem time_ascii {w : List Char} (h : LexRx.time.Lang w) : ∃ hm r, w = hm ++ r ∧ hm.length = 5 ∧ Ascii hm := by
  obtain ⟨u1, v1, rfl, g1, u2, v2, rfl, g2, u3, v3, rfl, g3, _⟩ := h
  rw [lang_ch] at g2
  subst g2
  obtain ⟨l1, a1⟩ := rep_digits g1
  obtain ⟨l3, a3⟩ := rep_digits g3
  have hm : Ascii [':'] := by intro c hc; rw [List.mem_singleton.mp hc]; decide
  exact ⟨u1 ++ ([':'] ++ u3), v3, by simp, by simp [l1, l3],
    Ascii.append (fun c hc => (a1 c hc).ascii) (hm.append (fun c hc => (a3 c hc).ascii))⟩

theorem sep_of {w : List Char} (h : LexRx.dateTimeSep.Lang w) : ∃ c, w = [c] ∧ DateTimeSeparator c := by
  obtain ⟨c, rfl, hc⟩ := h
  refine ⟨c, rfl, ?_⟩
  simp only [Rx.inCls, List.any_cons, List.any_nil, Bool.or_false, Bool.or_eq_true, Bool.and_eq_true,
    decide_eq_true_eq] at hc
  rcases hc with ⟨h1, h2⟩ | ⟨h1, h2⟩ | ⟨h1, h2⟩
  · exact .inl (Char.le_antisymm h2 h1)
  · exact .inr (.inl (Char.le_antisymm h2 h1))
  · exact .inr (.inr (Char.le_antisymm h2 h1))

end Tombi
