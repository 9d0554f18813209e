import Verif.Spec.Formats
import Verif.Proofs.DateTime
/-! Numbers, dates and times in texts. -/
namespace Tombi.Formats
open Tombi.Spec Tombi.DateTime

/-! ### numbers -/

theorem fold_number (s : Text) (h : ∀ c ∈ s, Dig c) (n : Nat) :
    s.foldl (fun n c => n * 10 + (c.toNat - '0'.toNat)) n = n * 10 ^ s.length + posValue 10 s := by
  induction s generalizing n with
  | nil => simp [posValue]
  | cons c s ih =>
    rw [List.foldl_cons, ih (fun x hx => h x (List.mem_cons_of_mem _ hx)), (h c List.mem_cons_self).val, posValue_cons h,
      List.length_cons, Nat.pow_succ, Nat.add_mul, Nat.mul_assoc, Nat.mul_comm 10, Nat.add_assoc]

theorem number_eq {s : Text} (h : ∀ c ∈ s, Dig c) : number s = posValue 10 s := by
  rw [number, fold_number s h, Nat.zero_mul, Nat.zero_add]

theorem all_digits {s : Text} : s.all isAsciiDigit = true ↔ ∀ c ∈ s, Dig c := by
  rw [List.all_eq_true]
  exact ⟨fun h c hc => isAsciiDigit_iff.1 (h c hc), fun h c hc => isAsciiDigit_iff.2 (h c hc)⟩

theorem parse_digits {k : Nat} (hk : 1 ≤ k) (hk' : k ≤ 4) {s : Text} {n : Nat} (h : Digits k s n) : parseU32 s = some n := by
  obtain ⟨h1, h2, rfl⟩ := h
  have hne : s ≠ [] := by rintro rfl; simp at h1; omega
  have hh : s.head? ≠ some '+' := fun e => absurd (h2 _ (List.mem_of_head? e)) (by decide)
  have hlt := posValue_lt h2
  have : 10 ^ s.length ≤ 10 ^ 4 := Nat.pow_le_pow_right (by decide) (by omega)
  simp only [parseU32, if_neg hh, number_eq h2]
  rw [if_pos ⟨hne, all_digits.2 h2, by omega⟩]

theorem digits_parse {s : Text} {n : Nat} (hh : s.head? ≠ some '+') (h : parseU32 s = some n) : Digits s.length s n := by
  simp only [parseU32, if_neg hh] at h
  split at h
  · next hc =>
    have hd := all_digits.1 hc.2.1
    exact ⟨rfl, hd, by rw [← number_eq hd]; exact (Option.some.inj h).symm⟩
  · cases h

/-- A number after a sign. -/
theorem signed_parse {s : Text} {n : Nat} (h : parseU32 ('+' :: s) = some n) : s ≠ [] ∧ ∀ c ∈ s, Dig c := by
  simp only [parseU32, List.head?_cons, if_pos, List.tail_cons] at h
  split at h
  · next hc => exact ⟨hc.1, all_digits.1 hc.2.1⟩
  · cases h

/-! ### ASCII -/

theorem Dig.ascii {c : Char} (h : Dig c) : c.toNat < 128 := by
  have h2 : c.toNat ≤ 57 := h.2
  omega

theorem utf8Len_ascii {s : Text} (h : isAscii s = true) : utf8Len s = s.length := by
  induction s with
  | nil => rfl
  | cons c s ih =>
    simp only [isAscii, List.all_cons, Bool.and_eq_true, decide_eq_true_eq] at h
    rw [utf8Len_cons, ih h.2, List.length_cons]
    have : c.utf8Size = 1 := Char.utf8Size_eq_one_iff.2 (UInt32.le_iff_toNat_le.2 (by
      have h1 : c.val.toNat < 128 := h.1
      show c.val.toNat ≤ 127
      omega))
    omega

theorem isAscii_append {a b : Text} : isAscii (a ++ b) = (isAscii a && isAscii b) := by simp [isAscii]

theorem isAscii_digits {s : Text} (h : ∀ c ∈ s, Dig c) : isAscii s = true := by
  rw [isAscii, List.all_eq_true]
  intro c hc
  simpa using Dig.ascii (h c hc)

/-! ### dates -/

theorem monthLength_iff {y m n : Nat} : MonthLength y m n ↔ (1 ≤ m ∧ m ≤ 12) ∧ n = maxDay y m := by
  have leap : LeapYear y ↔ (y % 4 = 0 ∧ (y % 100 ≠ 0 ∨ y % 400 = 0)) := by
    unfold LeapYear
    constructor
    · rintro (⟨h1, h2⟩ | h)
      · exact ⟨by omega, Or.inl (by omega)⟩
      · exact ⟨by omega, Or.inr (by omega)⟩
    · rintro ⟨h1, h2 | h2⟩
      · exact Or.inl ⟨by omega, by omega⟩
      · exact Or.inr (by omega)
  constructor
  · intro h
    cases h with
    | february_leap hl => exact ⟨by decide, by simp only [maxDay, if_pos (leap.1 hl)]⟩
    | february hl => exact ⟨by decide, by simp only [maxDay, if_neg (fun e => hl (leap.2 e))]⟩
    | _ => exact ⟨by decide, rfl⟩
  · rintro ⟨⟨h1, h2⟩, rfl⟩
    have : m = 1 ∨ m = 2 ∨ m = 3 ∨ m = 4 ∨ m = 5 ∨ m = 6 ∨ m = 7 ∨ m = 8 ∨ m = 9 ∨ m = 10 ∨ m = 11 ∨ m = 12 := by omega
    rcases this with rfl | rfl | rfl | rfl | rfl | rfl | rfl | rfl | rfl | rfl | rfl | rfl
    case inr.inl =>
      by_cases hl : LeapYear y
      · simp only [maxDay, if_pos (leap.1 hl)]; exact .february_leap hl
      · simp only [maxDay, if_neg (fun e => hl (leap.2 e))]; exact .february hl
    all_goals constructor

theorem length_two {w : Text} (h : w.length = 2) : ∃ a b, w = [a, b] := by
  match w, h with
  | [a, b], _ => exact ⟨a, b, rfl⟩

/-- What the validator of dates does. -/
theorem validDate_iff {s : Text} : validDate s = true ↔ ∃ (y m d : Text) (year month day : Nat), s = y ++ '-' :: m ++ '-' :: d
    ∧ isAscii s = true ∧ y.length = 4 ∧ m.length = 2 ∧ d.length = 2 ∧ parseU32 y = some year ∧ parseU32 m = some month ∧ parseU32 d = some day
    ∧ (1 ≤ month ∧ month ≤ 12) ∧ 1 ≤ day ∧ day ≤ maxDay year month := by
  constructor
  · intro h
    unfold validDate at h
    split at h
    · cases h
    · next hc =>
      have hc : utf8Len s = 10 ∧ isAscii s = true := by
        constructor
        · exact Decidable.byContradiction fun e => hc (Or.inl e)
        · cases ha : isAscii s with
          | true => rfl
          | false => exact absurd (Or.inr ha) hc
      have hlen : s.length = 10 := by rw [← utf8Len_ascii hc.2]; exact hc.1
      match s, hlen with
      | [c0, c1, c2, c3, c4, c5, c6, c7, c8, c9], _ =>
        simp only [List.getElem?_cons_succ, List.getElem?_cons_zero, Option.some.injEq, ne_eq, List.take_succ_cons, List.take_zero,
          List.drop_succ_cons, List.drop_zero] at h
        split at h
        · cases h
        · next hm =>
          have h4 : c4 = '-' := Decidable.byContradiction fun e => hm (Or.inl e)
          have h7 : c7 = '-' := Decidable.byContradiction fun e => hm (Or.inr e)
          subst h4 h7
          split at h
          · next year month day hy hmo hd =>
            split at h
            · cases h
            · next hr =>
              have hr := Decidable.of_not_not hr
              simp only [Bool.and_eq_true, decide_eq_true_eq] at h
              exact ⟨[c0, c1, c2, c3], [c5, c6], [c8, c9], year, month, day, rfl, hc.2, rfl, rfl, rfl, hy, hmo, hd, hr, h.1, h.2⟩
          · cases h
  · rintro ⟨y, m, d, year, month, day, rfl, ha, h4, h2, h2', hy, hm, hd, hr, h1, h3⟩
    obtain ⟨m0, m1, rfl⟩ := length_two h2
    obtain ⟨d0, d1, rfl⟩ := length_two h2'
    match y, h4 with
    | [c0, c1, c2, c3], _ =>
      unfold validDate
      rw [if_neg]
      · simp only [List.cons_append, List.nil_append, List.getElem?_cons_succ, List.getElem?_cons_zero, List.take_succ_cons, List.take_zero,
          List.drop_succ_cons, List.drop_zero, hy, hm, hd]
        rw [if_neg (by simp), if_neg (by simp [hr])]
        simp [h1, h3]
      · rintro (e | e)
        · exact e (by rw [utf8Len_ascii ha]; rfl)
        · rw [ha] at e; cases e

/-! ### times -/

/-- What the validators of times read before the offset. -/
theorem timeComponents_iff {s rest : Text} : timeComponents s = some rest ↔ ∃ (h m sec f : Text) (hour minute second : Nat),
    s = h ++ ':' :: m ++ ':' :: sec ++ f ++ rest ∧ isAscii s = true ∧ h.length = 2 ∧ m.length = 2 ∧ sec.length = 2
    ∧ parseU32 h = some hour ∧ parseU32 m = some minute ∧ parseU32 sec = some second ∧ hour ≤ 23 ∧ minute ≤ 59 ∧ second ≤ 60
    ∧ ((f = [] ∧ rest.head? ≠ some '.') ∨ ∃ ds, f = '.' :: ds ∧ ds ≠ [] ∧ (∀ c ∈ ds, Dig c) ∧ ∀ c, rest.head? = some c → ¬ Dig c) := by
  constructor
  · intro h
    unfold timeComponents at h
    split at h
    · cases h
    · next hc =>
      have hc : 8 ≤ utf8Len s ∧ isAscii s = true := by
        constructor
        · exact Decidable.byContradiction fun e => hc (Or.inl (by omega))
        · cases ha : isAscii s with
          | true => rfl
          | false => exact absurd (Or.inr ha) hc
      have hlen : 8 ≤ s.length := by rw [← utf8Len_ascii hc.2]; exact hc.1
      match s, hlen with
      | c0 :: c1 :: c2 :: c3 :: c4 :: c5 :: c6 :: c7 :: s, _ =>
        simp only [List.getElem?_cons_succ, List.getElem?_cons_zero, Option.some.injEq, ne_eq, List.take_succ_cons, List.take_zero,
          List.drop_succ_cons, List.drop_zero] at h
        split at h
        · cases h
        · next hm =>
          have h4 : c2 = ':' := Decidable.byContradiction fun e => hm (Or.inl e)
          have h7 : c5 = ':' := Decidable.byContradiction fun e => hm (Or.inr e)
          subst h4 h7
          split at h
          · next hour minute second hy hmo hd =>
            split at h
            · cases h
            · next hr =>
              have hr : hour ≤ 23 ∧ minute ≤ 59 ∧ second ≤ 60 := by omega
              split at h
              · next stripped _ _ =>
                split at h
                · cases h
                · next hne =>
                  cases h
                  refine ⟨[c0, c1], [c3, c4], [c6, c7], '.' :: stripped.takeWhile isAsciiDigit, hour, minute, second, ?_, hc.2, rfl, rfl, rfl,
                    hy, hmo, hd, hr.1, hr.2.1, hr.2.2, Or.inr ⟨_, rfl, hne, ?_, ?_⟩⟩
                  · simp only [List.cons_append, List.nil_append, List.takeWhile_append_dropWhile]
                  · intro c hc
                    exact isAsciiDigit_iff.1 (List.all_eq_true.1 (List.all_takeWhile) c hc)
                  · intro c hc hd
                    have := List.head?_dropWhile_not isAsciiDigit stripped
                    rw [hc] at this
                    simp only [isAsciiDigit_iff.2 hd] at this
                    cases this
              · next hnd =>
                cases h
                refine ⟨[c0, c1], [c3, c4], [c6, c7], [], hour, minute, second, by simp, hc.2, rfl, rfl, rfl,
                    hy, hmo, hd, hr.1, hr.2.1, hr.2.2, Or.inl ⟨rfl, ?_⟩⟩
                intro e
                cases rest with
                | nil => cases e
                | cons c r => cases e; exact hnd r rfl
          · cases h
  · rintro ⟨h, m, sec, f, hour, minute, second, rfl, ha, h2, h2', h2'', hy, hm, hd, r1, r2, r3, hf⟩
    obtain ⟨h0, h1, rfl⟩ := length_two h2
    obtain ⟨m0, m1, rfl⟩ := length_two h2'
    obtain ⟨s0, s1, rfl⟩ := length_two h2''
    unfold timeComponents
    rw [if_neg]
    · simp only [List.cons_append, List.nil_append, List.getElem?_cons_succ, List.getElem?_cons_zero, List.take_succ_cons, List.take_zero,
        List.drop_succ_cons, List.drop_zero, hy, hm, hd]
      rw [if_neg (by simp), if_neg (by omega)]
      rcases hf with ⟨rfl, hne⟩ | ⟨ds, rfl, hne, hdig, hnot⟩
      · rw [List.nil_append]
        split
        · exact absurd rfl hne
        · rfl
      · have e1 : (ds ++ rest).takeWhile isAsciiDigit = ds ∧ (ds ++ rest).dropWhile isAsciiDigit = rest := by
          have hr : rest.takeWhile isAsciiDigit = [] ∧ rest.dropWhile isAsciiDigit = rest := by
            cases rest with
            | nil => exact ⟨rfl, rfl⟩
            | cons c r =>
              have : isAsciiDigit c = false := by
                cases hb : isAsciiDigit c with
                | false => rfl
                | true => exact absurd (isAsciiDigit_iff.1 hb) (hnot c rfl)
              exact ⟨by rw [List.takeWhile_cons, this]; rfl, by rw [List.dropWhile_cons, this]; rfl⟩
          have ha := fun c hc => isAsciiDigit_iff.2 (hdig c hc)
          exact ⟨by rw [List.takeWhile_append_of_pos ha, hr.1, List.append_nil], by rw [List.dropWhile_append_of_pos ha, hr.2]⟩
        simp only [List.cons_append, e1.1, e1.2, if_neg hne]
    · rintro (e | e)
      · rw [utf8Len_ascii ha] at e
        simp only [List.length_append, List.length_cons, List.length_nil] at e
        omega
      · rw [ha] at e; cases e

/-- What the validator of offsets does. -/
theorem validTimezone_iff {s : Text} : validTimezone s = true ↔ s = ['Z'] ∨ s = ['z'] ∨ ∃ (c : Char) (h m : Text) (hour minute : Nat),
    s = c :: h ++ ':' :: m ∧ (c = '+' ∨ c = '-') ∧ isAscii s = true ∧ h.length = 2 ∧ m.length = 2 ∧ parseU32 h = some hour
    ∧ parseU32 m = some minute ∧ hour ≤ 23 ∧ minute ≤ 59 := by
  constructor
  · intro h
    unfold validTimezone at h
    split at h
    · cases h
    · next ha =>
      have ha : isAscii s = true := by
        cases hb : isAscii s with
        | true => rfl
        | false => exact absurd hb ha
      split at h
      · next hz => rcases hz with hz | hz
                   · exact Or.inl hz
                   · exact Or.inr (Or.inl hz)
      · split at h
        · next hz =>
          refine Or.inr (Or.inr ?_)
          match s, hz.2 with
          | [c0, c1, c2, c3, c4, c5], _ =>
            simp only [List.tail_cons, List.getElem?_cons_succ, List.getElem?_cons_zero, Option.some.injEq, List.take_succ_cons, List.take_zero,
              List.drop_succ_cons, List.drop_zero, Bool.and_eq_true, decide_eq_true_eq, List.head?_cons] at h hz
            obtain ⟨⟨h1, h2⟩, h3⟩ := h
            subst h1
            split at h2
            · next hour hh =>
              split at h3
              · next minute hm =>
                exact ⟨c0, [c1, c2], [c4, c5], hour, minute, rfl, hz.1, ha, rfl, rfl, hh, hm, of_decide_eq_true h2, of_decide_eq_true h3⟩
              · cases h3
            · cases h2
        · cases h
  · rintro (rfl | rfl | ⟨c, h, m, hour, minute, rfl, hc, ha, h2, h2', hh, hm, r1, r2⟩)
    · decide
    · decide
    · obtain ⟨h0, h1, rfl⟩ := length_two h2
      obtain ⟨m0, m1, rfl⟩ := length_two h2'
      unfold validTimezone
      rw [if_neg (by rw [ha]; simp), if_neg (by simp), if_pos ⟨by rcases hc with rfl | rfl <;> simp, rfl⟩]
      simp only [List.cons_append, List.nil_append, List.tail_cons, List.getElem?_cons_succ, List.getElem?_cons_zero, List.take_succ_cons,
        List.take_zero, List.drop_succ_cons, List.drop_zero, hh, hm, r1, r2, decide_true, Bool.and_true]

end Tombi.Formats
