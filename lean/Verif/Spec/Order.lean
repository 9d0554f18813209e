import Verif.Spec.Numbers
/-! Specification: comparison functions that define a consistent order. -/
namespace Tombi.Spec

/-- A comparison is a total preorder: an element equals itself, exchanging the arguments reverses the result,
"not greater" is transitive, and equal elements are interchangeable. -/
structure TotalPreorder {α : Type} (cmp : α → α → Ordering) : Prop where
  refl : ∀ a, cmp a a = .eq
  swap : ∀ a b, cmp b a = (cmp a b).swap
  trans : ∀ a b c, cmp a b ≠ .gt → cmp b c ≠ .gt → cmp a c ≠ .gt
  congr : ∀ a b c, cmp a b = .eq → cmp a c = cmp b c

/-- `0` to `9` -/
def IsDigit (c : Char) : Prop := '0' ≤ c ∧ c ≤ '9'

/-- every number written in the text is smaller than 2^64 -/
def NumbersFit (s : List Char) : Prop := ∀ d, d <:+: s → (∀ c ∈ d, IsDigit c) → posValue 10 d < 2 ^ 64

/-- the text with hyphens read as underscores -/
def hyphensAsUnderscores (s : List Char) : List Char := s.map fun c => if c = '-' then '_' else c

end Tombi.Spec
