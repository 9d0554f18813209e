import Verif.Proofs.VersionSort2
/-! Properties C22, C49 and C50: version sort is a consistent order that compares numbers by value. -/
namespace Tombi
open Spec VersionSort

/-- **C22**: version sort is a total preorder on all texts. -/
theorem C22_version_sort : TotalPreorder versionSort := versionSort_cmp.total

example : versionSort "v1.9".toList "v1.10".toList = .lt ∧ versionSort "v1.010".toList "v1.10".toList = .lt
    ∧ versionSort "a-b".toList "a_b".toList = .eq ∧ versionSort ">=1".toList "a".toList = .lt := by decide +kernel

theorem specDigit_iff {c : Char} : IsDigit c ↔ isAsciiDigit c = true := by
  rw [digit_range]; exact Iff.rfl

theorem numbersFit_fits {s : List Char} : NumbersFit s → Fits s :=
  fun h d hd hc => h d hd (fun c hx => specDigit_iff.mpr (hc c hx))

/-- **C49** as far as it holds: after a common text that does not end in a digit, texts are ordered by the numbers that
follow, whatever comes after the numbers, provided that the numbers are smaller than 2^64. -/
theorem C49_numbers_by_value_partial (p m n r q : List Char) (hf : NumbersFit p)
    (hp : ∀ t c, p = t ++ [c] → ¬ IsDigit c) (hm : m ≠ []) (hmd : ∀ c ∈ m, IsDigit c)
    (hn : n ≠ []) (hnd : ∀ c ∈ n, IsDigit c) (hr : ∀ c t, r = c :: t → ¬ IsDigit c)
    (hq : ∀ c t, q = c :: t → ¬ IsDigit c) (hlt : posValue 10 m < posValue 10 n) (hv : posValue 10 n < 2 ^ 64) :
    versionSort (p ++ m ++ r) (p ++ n ++ q) = .lt := by
  have neg : ∀ {c : Char}, ¬ IsDigit c → isAsciiDigit c = false := fun h =>
    Bool.eq_false_iff.mpr fun e => h (specDigit_iff.mpr e)
  rw [List.append_assoc, List.append_assoc]
  exact versionSort_number (numbersFit_fits hf) (fun t c h => neg (hp t c h)) hm
    (fun c h => specDigit_iff.mp (hmd c h)) hn (fun c h => specDigit_iff.mp (hnd c h)) (fun c t h => neg (hr c t h))
    (fun c t h => neg (hq c t h)) hlt hv

/-- the hypotheses are met by `v1.9-rc` and `v1.10` -/
example : (∀ t c, "v1.".toList = t ++ [c] → ¬ IsDigit c) ∧ posValue 10 "9".toList < posValue 10 "10".toList
    ∧ versionSort "v1.9-rc".toList "v1.10".toList = .lt := by
  refine ⟨fun t c h => ?_, by decide +kernel, by decide +kernel⟩
  have h2 := congrArg List.getLast? h
  rw [List.getLast?_concat, show "v1.".toList.getLast? = some '.' from by decide +kernel] at h2
  cases h2
  unfold IsDigit; decide

/-- **C49** is false of the code for large numbers: a number of 2^64 or more ends the comparison as if the text ended
there, so it sorts before smaller numbers and equals other large numbers. -/
theorem C49_numbers_by_value_false :
    versionSort "v99999999999999999999".toList "v1".toList = .lt
    ∧ versionSort "v99999999999999999999.1".toList "v88888888888888888888.2".toList = .eq := by decide +kernel

/-- **C50** as far as it holds: two texts compare equal exactly when they differ at most in hyphens and underscores,
provided that their numbers are smaller than 2^64. -/
theorem C50_equal_texts_partial (a b : List Char) (ha : NumbersFit a) (hb : NumbersFit b) :
    versionSort a b = .eq ↔ hyphensAsUnderscores a = hyphensAsUnderscores b := by
  constructor
  · exact versionSort_eq_blank (numbersFit_fits ha) (numbersFit_fits hb)
  · intro h
    rw [← versionSort_blank]
    show versionSort (hyphensAsUnderscores a) (hyphensAsUnderscores b) = .eq
    rw [h]
    exact versionSort_cmp.refl _

/-- **C50**, the part without a bound on the numbers: hyphens and underscores never matter. -/
theorem C50_hyphens (a b : List Char) :
    versionSort (hyphensAsUnderscores a) (hyphensAsUnderscores b) = versionSort a b := versionSort_blank a b

example : NumbersFit "a-1".toList := by
  intro d hd _
  have hl := hd.length_le
  have h : posValue 10 d < 10 ^ d.length := posValue_lt (fun c h => specDigit_iff.mp (‹∀ c ∈ d, IsDigit c› c h))
  have : d.length ≤ 3 := hl
  have := Nat.pow_le_pow_right (n := 10) (by decide) this
  omega

/-- **C50** is false of the code for large numbers. -/
theorem C50_equal_texts_false : versionSort "a18446744073709551616".toList "a18446744073709551617x".toList = .eq := by
  decide +kernel

end Tombi
