/-!
Model of the handlers of `crates/tombi-lsp` that touch the store of open documents and the cache of
diagnostics: `handler/{did_open,did_change,did_save,did_close,did_change_watched_files,diagnostic}.rs`,
`diagnostic.rs`, `workspace_diagnostic.rs` and `workspace_diagnostic/cache.rs`, for one document.

The server runs handlers concurrently on one executor. A handler is a sequence of critical sections, each of
which holds a lock without awaiting; other handlers may run between any two of them. A handler is therefore a
state machine (`Proc`) whose steps are the critical sections, and a schedule says whose step is next.

The TOML version of a text (`text_document_toml_version`) and the diagnostics of a text and a TOML version
(`Linter::lint`) are parameters: functions of their arguments, for an unchanging configuration and schema store.
-/
namespace Tombi.Lsp

/-- `document.rs:8-32` (`DocumentSource`): the text, the version and the TOML version. The line index, the tree
and their errors are computed from the text and the TOML version whenever these are set (`:35-72`, `:82-112`). -/
structure Doc (T V : Type) where
  text : T
  version : Option Int
  toml : V
  deriving DecidableEq

/-- `diagnostic.rs:7-11` (`DiagnosticsResult`). -/
structure Result (D : Type) where
  diagnostics : D
  version : Option Int
  deriving DecidableEq

/-- Where a handler stands: what it will do with its next critical section. -/
inductive Proc (T V D : Type) where
  /-- `did_open.rs:24-27`: resolves the TOML version. -/
  | openResolve (text : T) (version : Int)
  /-- `did_open.rs:28-41`: inserts the document. -/
  | openInsert (text : T) (version : Int) (toml : V)
  /-- `did_change.rs:33-50`: applies the change; the text is that of the last change without a range
  (`:16-24`), if there is one. -/
  | changeApply (text : Option T) (version : Int)
  /-- `did_change.rs:52-56`: clears the cache. -/
  | changeClear (text : Option T) (version : Int) (previous : V) (publish : Bool)
  /-- `did_change.rs:60-65`: resolves the TOML version of the new text. -/
  | changeResolve (text : Option T) (version : Int) (previous : V) (publish : Bool)
  /-- `did_change.rs:66-74`: applies the new TOML version unless the document has changed again. -/
  | changeRefine (text : T) (version : Int) (toml : V) (publish : Bool)
  /-- `did_open.rs:44-49`, `did_change.rs:77-82`, `did_save.rs:33-37`, `did_change_watched_files.rs:77-82`:
  clears the cache, and then publishes diagnostics or not. -/
  | clear (publish : Bool)
  /-- `did_save.rs:15-32`: sets the text that came with the notification. The lock is held while the TOML
  version is resolved, so this is one step. Whether diagnostics are published is a parameter. -/
  | save (text : Option T) (publish : Bool)
  /-- `did_close.rs:13-19`: the document has no version any more. -/
  | close
  /-- `did_close.rs:21-25`: tells the cache. -/
  | closeCache
  /-- `workspace_diagnostic.rs:133-144`: resolves the TOML version of the content of a file that the watcher
  reports as created or changed. -/
  | fileResolve (content : T) (created : Bool)
  /-- `workspace_diagnostic.rs:147-163`: updates or inserts the document unless it is open. -/
  | fileUpsert (content : T) (toml : V) (created : Bool)
  /-- `did_change_watched_files.rs:32-35`: removes the document. -/
  | delete
  /-- `did_change_watched_files.rs:46-50`: removes the diagnostics. -/
  | untrack
  /-- `diagnostic.rs:17-24`: looks into the cache. -/
  | diagnose
  /-- `diagnostic.rs:25-43`: compares the version of the cached result with that of the document. -/
  | diagCached (result : Result D)
  /-- `diagnostic.rs:78-90`: takes a copy of the document and lints it. -/
  | diagCompute
  /-- `diagnostic.rs:128-140`: stores the result unless the document has another version by now. -/
  | diagStore (result : Result D)
  | done
  deriving DecidableEq

/-- The shared state: the document, the cached result, the handlers, and the results reported so far, the
newest first. -/
structure State (T V D : Type) where
  doc : Option (Doc T V)
  cache : Option (Result D)
  procs : List (Proc T V D)
  reports : List (Result D)

/-- What is the same in all steps: how the TOML version of a text is found, how a text is linted, whether
diagnostics are pushed (`backend.rs:160-163`), and whether the document is one of the workspace
(`workspace_diagnostic/cache.rs:5`). -/
structure Env (T V D : Type) where
  resolve : T → V
  lint : T → V → D
  push : Bool
  tracked : Bool

variable {T V D : Type}

/-- `did_change.rs:84-87` (`push_diagnostics`, `handler/diagnostic.rs:36-39`): what a handler does last. -/
def afterwards (E : Env T V D) (publish : Bool) : Proc T V D := if publish && E.push then .diagnose else .done

/-- `did_change_watched_files.rs:52-85`: after the update the cache is cleared for a changed file, and left as
it is for a created one (`track`, `workspace_diagnostic/cache.rs:40-45`). -/
def afterUpsert (E : Env T V D) (created : Bool) : Proc T V D := if created then afterwards E true else .clear true

/-- `diagnostic.rs:33-38`, `:131-133`: the version of the document, if there is one. -/
def currentVersion (doc : Option (Doc T V)) : Option Int := doc.bind (·.version)

/-- `workspace_diagnostic/cache.rs:57-71` (`close`). -/
def closeResult (E : Env T V D) (cache : Option (Result D)) : Option (Result D) :=
  if E.tracked then cache.map fun r => { r with version := none } else none

/-- The effect of one step of a handler: the next state of the handler, the document, the cache, and the
results it reports. `busy` says that another handler holds the lock of the documents, which only matters to
`try_read` (`diagnostic.rs:79`, `:130`). -/
def step [DecidableEq V] (E : Env T V D) (busy : Bool) (doc : Option (Doc T V)) (cache : Option (Result D)) :
    Proc T V D → Proc T V D × Option (Doc T V) × Option (Result D) × List (Result D)
  | .openResolve text version => (.openInsert text version (E.resolve text), doc, cache, [])
  | .openInsert text version toml => (.clear true, some ⟨text, some version, toml⟩, cache, [])
  | .changeApply text version =>
    match doc with
    | none => (.done, none, cache, [])
    | some d =>
      (.changeClear text version d.toml (match d.version with | none => true | some v => decide (v < version)),
        some ⟨text.getD d.text, some version, d.toml⟩, cache, [])
  | .changeClear text version previous publish => (.changeResolve text version previous publish, doc, none, [])
  | .changeResolve text version previous publish =>
    match text with
    | none => (afterwards E publish, doc, cache, [])
    | some t =>
      if E.resolve t ≠ previous then (.changeRefine t version (E.resolve t) publish, doc, cache, [])
      else (afterwards E publish, doc, cache, [])
  | .changeRefine text version toml publish =>
    match doc with
    | none => (.done, none, cache, [])
    | some d =>
      if d.version ≠ some version then (.done, some d, cache, [])
      else (.clear publish, some ⟨text, d.version, toml⟩, cache, [])
  | .clear publish => (afterwards E publish, doc, none, [])
  | .save text publish =>
    match text, doc with
    | some t, some d => (.clear publish, some ⟨t, d.version, E.resolve t⟩, cache, [])
    | _, _ => (.clear publish, doc, cache, [])
  | .close => (.closeCache, doc.map fun d => { d with version := none }, cache, [])
  | .closeCache => (.done, doc, closeResult E cache, [])
  | .fileResolve content created => (.fileUpsert content (E.resolve content) created, doc, cache, [])
  | .fileUpsert content toml created =>
    match doc with
    | some d =>
      if d.version.isSome then (afterUpsert E created, some d, cache, [])
      else (afterUpsert E created, some ⟨content, d.version, toml⟩, cache, [])
    | none => (afterUpsert E created, some ⟨content, none, toml⟩, cache, [])
  | .delete => (.untrack, none, cache, [])
  | .untrack => (.done, doc, none, [])
  | .diagnose =>
    match cache with
    | some r => (.diagCached r, doc, some r, [])
    | none => (.diagCompute, doc, none, [])
  | .diagCached r =>
    if r.version = currentVersion doc then (.done, doc, cache, [r]) else (.diagCompute, doc, cache, [])
  | .diagCompute =>
    if busy then (.done, doc, cache, [])
    else match doc with
      | none => (.done, none, cache, [])
      | some d => (.diagStore ⟨E.lint d.text d.toml, d.version⟩, some d, cache, [])
  | .diagStore r =>
    if !busy && decide (currentVersion doc = r.version) then (.done, doc, some r, [r])
    else (.done, doc, cache, [r])
  | .done => (.done, doc, cache, [])

/-- One step of handler `i`; nothing happens when there is no such handler. -/
def stepAt [DecidableEq V] (E : Env T V D) (s : State T V D) (i : Nat) (busy : Bool) : State T V D :=
  match s.procs[i]? with
  | none => s
  | some p =>
    let r := step E busy s.doc s.cache p
    { doc := r.2.1, cache := r.2.2.1, procs := s.procs.set i r.1, reports := r.2.2.2 ++ s.reports }

/-- A schedule: whose step is next, and whether the lock of the documents is held by somebody else. -/
def run [DecidableEq V] (E : Env T V D) (s : State T V D) (schedule : List (Nat × Bool)) : State T V D :=
  schedule.foldl (fun s x => stepAt E s x.1 x.2) s

end Tombi.Lsp
