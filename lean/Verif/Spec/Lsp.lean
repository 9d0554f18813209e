import Verif.Model.Lsp
/-! Specification for C42, C62 and C63. -/
namespace Tombi.Spec.Lsp
open Tombi.Lsp
variable {T V D : Type}

/-- handler `i` is that of a change to the text `t` with the version `v` -/
def Changes (procs : List (Proc T V D)) (i : Nat) (t : T) (v : Int) : Prop :=
  procs[i]? = some (.changeApply (some t) v)

/-- only changes, each with a text, requests for diagnostics, and handlers that still have to clear the cache -/
def OnlyChanges (procs : List (Proc T V D)) : Prop :=
  ∀ p ∈ procs, p = .diagnose ∨ (∃ b, p = .clear b) ∨ ∃ t v, p = .changeApply (some t) v

/-- no two changes have the same version -/
def DistinctVersions (procs : List (Proc T V D)) : Prop :=
  ∀ (i j : Nat) t t' v, Changes procs i t v → Changes procs j t' v → i = j

/-- every handler has finished -/
def Finished (s : State T V D) : Prop := ∀ p ∈ s.procs, p = .done

/-- of the changes, `i` is the one that is started last: every step of another change after the first step of
`i` belongs to one that had been started before -/
def StartedLast (procs : List (Proc T V D)) (schedule : List (Nat × Bool)) (i : Nat) : Prop :=
  ∃ pre b post, schedule = pre ++ (i, b) :: post ∧ i ∉ pre.map (·.1)
    ∧ ∀ j t v, Changes procs j t v → j ∈ post.map (·.1) → j = i ∨ j ∈ pre.map (·.1)

/-- the handlers are started in the order of their notifications -/
def StartedInOrder (schedule : List (Nat × Bool)) (n : Nat) : Prop :=
  ∀ pre i b post, schedule = pre ++ (i, b) :: post → ∀ j, j < i → i < n → j ∈ pre.map (·.1)

/-- the text of a version: that of the document at the start or that of a change -/
def TextOf (doc : Option (Doc T V)) (procs : List (Proc T V D)) (v : Option Int) (t : T) : Prop :=
  (∃ d, doc = some d ∧ d.version = v ∧ d.text = t) ∨ ∃ i w, v = some w ∧ Changes procs i t w

end Tombi.Spec.Lsp
