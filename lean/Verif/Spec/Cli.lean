import Verif.Model.Cli
/-!
What `tombi format` and `tombi lint` are to do with files, said without tasks and steps.
-/
namespace Tombi.Cli.Spec
open Tombi.Cli

/-- No operation on a file fails. -/
def NoFailure (sched : Schedule) : Prop := ∀ x ∈ sched, x.2 ≠ .fail

/-- Every task has come to its end. -/
def AllDone (s : State) : Prop := ∀ t ∈ s.tasks, t.stage = .finished

/-- The results of the tasks, in some order: tokio joins the tasks in the order in which they end. -/
def Joined (s : State) (rs : List Outcome) : Prop := (s.tasks.map Task.result).Perm (rs.map some)

/-- What a file should hold after `tombi format`: its formatted text; the old text when it has syntax errors. -/
def target (S : Setup) (f : Files) (p : Path) : Text := (S.format p (f p)).getD (f p)

/-- A file that is fully or partly written: the start of its formatted text, which is not the old text. -/
def PartlyWritten (S : Setup) (f : Files) (p : Path) (now : Text) : Prop :=
  ∃ out, S.format p (f p) = some out ∧ out ≠ f p ∧ now <+: out

/-- Nothing is to be reported about an entry: it is a file that tombi is not to look at, or it can be opened and it is
formatted (with `--check`), or can be formatted (without). -/
def Fine (S : Setup) (f : Files) : Entry → Prop
  | .found p => S.enabled p = true →
      S.opens p = true ∧ (if S.check then S.format p (f p) = some (f p) else ∃ out, S.format p (f p) = some out)
  | .skipped _ => True
  | .error => False

/-- Nothing is to be reported about an entry by `tombi lint`: it is a file that tombi is not to look at, or it can be opened and read and
there are at most warnings (with `--error-on-warnings`: no diagnostics at all). -/
def LintFine (S : Setup) (errorOnWarnings : Bool) (lint : Path → Option (List Level)) : Entry → Prop
  | .found p => S.enabled p = true →
      S.opens p = true ∧ ∃ ds, lint p = some ds ∧ ∀ d ∈ ds, d = .warning ∧ errorOnWarnings = false
  | .skipped _ => True
  | .error => False

end Tombi.Cli.Spec
