import Verif.Basic.Text
/-!
Model of `tombi format` and `tombi lint` (`rust/tombi-cli/src/app/command/format.rs` and `lint.rs`): one task for each file,
all of them running at the same time, each of them reading, emptying and writing its file in steps.

Parameters (`Setup`): the flag `--check`, which files an override switches off (`tombi_glob::get_format_options`, modelled in
`Verif/Model/Select.lean`), which files can be opened, and `Formatter::format` for a file (`Verif/Model/Editor.lean` has
`formatToml`); `none` is a text with syntax errors. A panic of the formatter is taken for `none` too: `JoinSet` hands it over
as an error of the task (`format.rs:264-267`), before the file is touched.

Simplifications: files hold characters, not bytes (`read_to_string` fails when the bytes are not UTF-8: event `fail`); every
file is opened before the first step (opening does not change a file); no other program writes to the files, and two paths
are two files (no links).
-/
namespace Tombi.Cli

abbrev Text := List Char
abbrev Path := List (List Char)

/-- The contents of the files; a path without a file is never opened. -/
abbrev Files := Path → Text

/-- `Files` after one file got other contents. -/
def Files.set (f : Files) (p : Path) (t : Text) : Files := fun q => if q = p then t else f q

/-- What does not change during a run of `tombi format` (`format.rs:107-153`). -/
structure Setup where
  check : Bool
  enabled : Path → Bool
  opens : Path → Bool
  format : Path → Text → Option Text

/-- The result of `format_file` (`format.rs:340-396`): `Ok(true)`, `Ok(false)` and `Err`. -/
inductive Outcome where
  | formatted | unchanged | failed
  deriving DecidableEq, Repr

/-- Where a task is in `format_file`: in `read_to_string` (`:354-357`) with what is read so far; in `reset` (`:375`, `:491-499`)
with the text to write; in `write_all` (`:378`, `:508-513`) with what is written and what is not; at the end. -/
inductive Stage where
  | reading (buf : Text)
  | resetting (out : Text)
  | writing (done rest : Text)
  | finished
  deriving DecidableEq, Repr

/-- A task and, when it is known, its result. -/
structure Task where
  path : Path
  stage : Stage
  result : Option Outcome
  deriving DecidableEq, Repr

/-- What happens next to a task: it goes on (reading or writing at most `n + 1` characters), an operation on its file fails,
or tokio takes over the rest of the text to write.

The last one is `tokio::fs::File::write_all`, which returns when the text is in a buffer of tokio; the buffer is written
later, and an error of that write is not reported to anyone unless there is a `flush`, which `format.rs` does not call. -/
inductive Event where
  | go (n : Nat)
  | fail
  | handOver
  deriving DecidableEq, Repr

/-- `format.rs:358-395`: what is done with the text that was read. -/
def afterRead (S : Setup) (p : Path) (source : Text) : Task :=
  match S.format p source with
  | none => ⟨p, .finished, some .failed⟩
  | some out =>
    if source = out then ⟨p, .finished, some .unchanged⟩
    else if S.check then ⟨p, .finished, some .failed⟩
    else ⟨p, .resetting out, none⟩

/-- `write(2)` at a position: what is between the end of the file and the position is filled with zeros. -/
def writeAt (t : Text) (pos : Nat) (chunk : Text) : Text :=
  (t ++ List.replicate (pos - t.length) '\x00').take pos ++ chunk ++ t.drop (pos + chunk.length)

/-- One step of `format_file` (`format.rs:340-396`). -/
def stepTask (S : Setup) (f : Files) (t : Task) (e : Event) : Files × Task :=
  match t.stage, e with
  | .reading buf, .go n =>
    if (f t.path).drop buf.length = [] then (f, afterRead S t.path buf)
    else (f, { t with stage := .reading (buf ++ ((f t.path).drop buf.length).take (n + 1)) })
  | .reading _, .fail => (f, { t with stage := .finished, result := some .failed })
  | .resetting out, .go _ => (f.set t.path [], { t with stage := .writing [] out })
  | .resetting _, .fail => (f, { t with stage := .finished, result := some .failed })
  | .writing _ [], .go _ => (f, { t with stage := .finished, result := some (t.result.getD .formatted) })
  | .writing done (c :: rest), .go n =>
    (f.set t.path (writeAt (f t.path) done.length ((c :: rest).take (n + 1))),
      { t with stage := .writing (done ++ (c :: rest).take (n + 1)) ((c :: rest).drop (n + 1)) })
  | .writing _ _, .fail => (f, { t with stage := .finished, result := some (t.result.getD .failed) })
  | .writing _ _, .handOver => (f, { t with result := some .formatted })
  | _, _ => (f, t)

structure State where
  files : Files
  tasks : List Task

/-- The task with number `i` does a step. -/
def State.step (S : Setup) (s : State) (i : Nat) (e : Event) : State :=
  match s.tasks[i]? with
  | none => s
  | some t => ⟨(stepTask S s.files t e).1, s.tasks.set i (stepTask S s.files t e).2⟩

/-- A schedule: which task does what. Every interleaving of the tasks is one, and so is every point where the program is
killed. -/
abbrev Schedule := List (Nat × Event)

def State.run (S : Setup) (s : State) (sched : Schedule) : State := sched.foldl (fun s x => s.step S x.1 x.2) s

/-- `FileSearchEntry` (`crates/tombi-glob/src/file_search.rs:13-18`). -/
inductive Entry where
  | found (p : Path)
  | skipped (p : Path)
  | error
  deriving DecidableEq, Repr

/-- `format.rs:190-249`: the files that get a task. -/
def spawned (S : Setup) : List Entry → List Path
  | [] => []
  | .found p :: es => if S.enabled p && S.opens p then p :: spawned S es else spawned S es
  | _ :: es => spawned S es

/-- The state when the tasks are spawned. -/
def start (f : Files) (ps : List Path) : State := ⟨f, ps.map fun p => ⟨p, .reading [], none⟩⟩

/-- `FormatRunSummary` (`format.rs:45-51`). -/
structure Summary where
  success : Nat := 0
  notNeeded : Nat := 0
  skipped : Nat := 0
  error : Nat := 0
  deriving DecidableEq, Repr

/-- `format.rs:190-249`: what is counted before the tasks are joined. -/
def Summary.entry (S : Setup) (m : Summary) : Entry → Summary
  | .found p =>
    if S.enabled p then if S.opens p then m else { m with error := m.error + 1 }
    else { m with notNeeded := m.notNeeded + 1 }
  | .skipped _ => { m with skipped := m.skipped + 1 }
  | .error => { m with error := m.error + 1 }

/-- `format.rs:251-269`: a task is joined. -/
def Summary.join (m : Summary) : Outcome → Summary
  | .formatted => { m with success := m.success + 1 }
  | .unchanged => { m with notNeeded := m.notNeeded + 1 }
  | .failed => { m with error := m.error + 1 }

/-- The summary after the tasks are joined in some order. -/
def summary (S : Setup) (es : List Entry) (results : List Outcome) : Summary :=
  results.foldl Summary.join (es.foldl (Summary.entry S) {})

/-- `format.rs:100-104` and `lint.rs:85-89`. -/
def Summary.exitCode (m : Summary) : Nat := if m.error > 0 then 1 else 0

/-- `format.rs:156-186` and `:289-338`: `tombi format -` writes a text to the standard output. -/
def formatStdin (check enabled : Bool) (format : Text → Option Text) (source : Text) : Text × Summary :=
  if enabled then
    match format source with
    | some out =>
      if check then ([], if source = out then { notNeeded := 1 } else { error := 1 })
      else (out, if source = out then { notNeeded := 1 } else { success := 1 })
    | none => (source, { error := 1 })
  else ([], { notNeeded := 1 })

/-- The level of a diagnostic (`tombi_diagnostic::Level`). -/
inductive Level where
  | warning | error
  deriving DecidableEq, Repr

/-- `lint.rs:249-296` (`lint_file`): did it go well? `diagnostics` is what `Linter::lint` reports, `none` a text that could not be
read. -/
def lintFile (errorOnWarnings : Bool) : Option (List Level) → Bool
  | none => false
  | some ds => if ds = [] then true else if errorOnWarnings then ds = [] else ds.all (· = .warning)

/-- `LintRunSummary` (`lint.rs:40-45`), with the fields of `Summary`. `lint.rs:165-236`: the tasks only read, so that their order
does not matter; `lint p` is what the linter says about a file. -/
def lintSummary (S : Setup) (errorOnWarnings : Bool) (lint : Path → Option (List Level)) : List Entry → Summary
  | [] => {}
  | e :: es =>
    let m := lintSummary S errorOnWarnings lint es
    match e with
    | .found p =>
      if S.enabled p then
        if S.opens p then
          if lintFile errorOnWarnings (lint p) then { m with success := m.success + 1 } else { m with error := m.error + 1 }
        else { m with error := m.error + 1 }
      else { m with success := m.success + 1 }
    | .skipped _ => { m with skipped := m.skipped + 1 }
    | .error => { m with error := m.error + 1 }

end Tombi.Cli
