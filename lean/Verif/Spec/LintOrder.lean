import Verif.Model.LintOrder
/-! Specification for C43 and C64. -/
namespace Tombi.Spec.LintOrder
open Tombi.LintOrder
variable {κ ρ : Type}

/-- the item at position `i` has the first key `k` -/
def KeyAt (items : List (Option κ × ρ)) (i : Nat) (k : κ) : Prop := ∃ r, items[i]? = some (some k, r)

/-- the item at position `i` is a table that belongs to a group (the tables with the same first key) with a
table of another group between two of its members -/
def TableInterrupted (items : List (Option κ × ρ)) (i : Nat) : Prop :=
  ∃ k, KeyAt items i k ∧ ∃ a b c k', a < b ∧ b < c ∧ KeyAt items a k ∧ KeyAt items c k ∧ KeyAt items b k' ∧ k' ≠ k

/-- the item at position `i` belongs to a group with an item that does not belong to it between two members -/
def KeyInterrupted (items : List (Option κ × ρ)) (i : Nat) : Prop :=
  ∃ k, KeyAt items i k ∧ ∃ a b c, a < b ∧ b < c ∧ KeyAt items a k ∧ KeyAt items c k ∧ ¬ KeyAt items b k

/-- `reported` has the range of every item for which `P` holds, once each, in any order, and nothing else -/
def ReportsExactly (items : List (Option κ × ρ)) (P : Nat → Prop) (reported : List ρ) : Prop :=
  ∃ positions : List Nat, positions.Nodup ∧ (∀ i, i ∈ positions ↔ P i)
    ∧ reported.map some = positions.map fun i => items[i]?.map (·.2)

end Tombi.Spec.LintOrder
