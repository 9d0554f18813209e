import Verif.Model.Cli
/-!
Model of `crates/tombi-glob/src`: which files `tombi format` and `tombi lint` take (`file_search.rs`, `walk_dir.rs`, `pattern.rs`), whether the
language server looks at a file (`file_match.rs`), and which settings a file gets (`lib.rs`, `crates/tombi-config/src/lib.rs`, `format.rs`,
`lint.rs`).

Parameters (`World`): what the file system says, the crate `ignore` (which files there are below a directory that ignore files do not
hide), `fast_glob::glob_match`, `Path::canonicalize` and the parser of `std::path`. A path is the list of its components; the
first component of an absolute path is empty. Paths are UTF-8, the separator is `/`.
-/
namespace Tombi.Cli

structure World where
  glob : Text → Text → Bool
  isFile : Path → Bool
  isDir : Path → Bool
  /-- the files `ignore::WalkBuilder` hands over (`walk_dir.rs:67-97`, with the filter for VCS directories); the flag is `respect_ignore_files` -/
  walk : Path → Bool → List Path
  canon : Path → Option Path
  pathOf : Text → Path

/-- `FilesOptions` (`crates/tombi-config/src/files.rs:10-30`); the default of `include` is `["**/*.toml"]`. -/
structure FilesOptions where
  incl : Option (List Text)
  excl : Option (List Text)
  respectIgnore : Bool := true

/-- `Path::to_string_lossy`. -/
def pathText : Path → Text
  | [] => []
  | [c] => c
  | c :: d :: cs => c ++ '/' :: pathText (d :: cs)

/-- `Path::strip_prefix`. -/
def stripPath : Path → Path → Option Path
  | p, [] => some p
  | [], _ :: _ => none
  | c :: p, d :: q => if c = d then stripPath p q else none

/-- `pattern.rs:9-15` (`path_for_patterns`). -/
def pathForPatterns (p root : Path) : Text :=
  match stripPath p root with
  | some r => pathText r
  | none => pathText p

/-- `pattern.rs:18-26` (`matches_any_pattern`): empty patterns are left out. -/
def matchesAny (W : World) (t : Text) (patterns : List Text) : Bool :=
  (patterns.filter fun g => !g.isEmpty).any fun g => W.glob g t

/-- `walk_dir.rs:12-20`. -/
def isVcsDir (p : Path) : Bool :=
  match p.getLast? with
  | some n => [".git", ".hg", ".svn", ".bzr", ".jj", ".sl"].any fun v => v.toList = n
  | none => false

/-- `walk_dir.rs:101-120`: does the walker take a file? -/
def walkTakes (W : World) (root : Path) (o : FilesOptions) (p : Path) : Bool :=
  ((o.incl.getD []).isEmpty || matchesAny W (pathForPatterns p root) (o.incl.getD [])) &&
    !matchesAny W (pathForPatterns p root) (o.excl.getD [])

/-- `file_search.rs:123-137` (`search_pattern_matched_paths`) and `walk_dir.rs:47-137` (`WalkDir::walk`). The order of the files is not fixed: the
walker has several threads. -/
def searchMatched (W : World) (root : Path) (o : FilesOptions) : List Entry :=
  if W.isDir root then
    if isVcsDir root then [] else ((W.walk root o.respectIgnore).filter (walkTakes W root o)).map .found
  else [.error]

/-- `file_search.rs:144-152` (`is_glob_pattern`). -/
def isGlob (t : Text) : Bool := t.any fun c => c = '*' || c = '?' || c = '[' || c = ']'

/-- `file_search.rs:66-105`: one argument of the command line. -/
def searchArgument (W : World) (root : Path) (o : FilesOptions) (a : Text) : List Entry :=
  if isGlob a then searchMatched W root { o with incl := some [a] }
  else if W.isFile (W.pathOf a) then
    if (o.excl.map fun g => matchesAny W (pathForPatterns (W.pathOf a) root) g).getD false then [.skipped (W.pathOf a)]
    else [.found (W.pathOf a)]
  else if W.isDir (W.pathOf a) then searchMatched W (W.pathOf a) o
  else [.error]

/-- `file_search.rs:27-35` and `:38-108` (`FileSearch::new`): `none` is the standard input. `root` is the directory of the settings, or `.`. -/
def fileSearch (W : World) (root : Path) (o : FilesOptions) (args : List Text) : Option (List Entry) :=
  match args with
  | [] => some (searchMatched W root o)
  | [a] => if a = ['-'] then none else some (searchArgument W root o a)
  | _ => some (args.flatMap (searchArgument W root o))

/-- `crates/tombi-config/src/level.rs:13-23` (`config_base_dir`). -/
def configBaseDir (config : Path) : Option Path :=
  match config.getLast? with
  | none => none
  | some n =>
    if n = "tombi.toml".toList ∧ config.dropLast.getLast? = some ".config".toList then some config.dropLast.dropLast
    else some config.dropLast

/-- `lib.rs:100-133` and `file_match.rs:56-76` (`relative_document_text_path`). -/
def relativeText (W : World) (p : Path) (config : Option Path) : Text :=
  match config with
  | none => pathText p
  | some c =>
    match configBaseDir ((W.canon c).getD c) with
    | some d => (match stripPath p d with | some r => pathText r | none => pathText p)
    | none => pathText p

/-- `file_match.rs:6-11`. -/
inductive MatchResult where
  | matched | includeNotMatched | excludeMatched
  deriving DecidableEq

/-- `file_match.rs:13-52` (`matches_file_patterns`): does the language server look at a file? -/
def matchesFilePatterns (W : World) (p : Path) (config : Option Path) (o : FilesOptions) : MatchResult :=
  let t := relativeText W ((W.canon p).getD p) config
  if (o.incl.map fun gs => gs.any fun g => W.glob g t).getD true then
    if (o.excl.map fun gs => gs.any fun g => W.glob g t).getD false then .excludeMatched else .matched
  else .includeNotMatched

/-! ### settings -/

/-- The rules of `FormatRules` (`crates/tombi-config/src/format.rs:35-302`). -/
inductive FormatRule where
  | arrayBracketSpaceWidth | arrayCommaSpaceWidth | commentStyle | dateTimeDelimiter | groupBlankLinesLimit | indentStyle
  | indentSubTables | indentTableKeyValuePairs | indentWidth | inlineTableBraceSpaceWidth | inlineTableCommaSpaceWidth
  | keyValueEqualsSignAlignment | keyQuoteStyle | stringQuoteStyle | trailingCommentAlignment | keyValueEqualsSignSpaceWidth
  | lineEnding | lineWidth | tableBlankLines | trailingCommentSpaceWidth
  deriving DecidableEq

/-- The rules of `LintRules` (`crates/tombi-config/src/lint.rs`). -/
inductive LintRule where
  | keyEmpty | dottedKeysOutOfOrder | tablesOutOfOrder
  deriving DecidableEq

/-- Rules with their values, as they are written in the settings: a rule may be absent. -/
abbrev Rules (ρ : Type) := ρ → Option Text

/-- `crates/tombi-config/src/format.rs:306-351` and `lint.rs:76-87` (`merge`): `self.x.or(override_rules.x)` for every rule `x`. -/
def Rules.merge {ρ : Type} (self over : Rules ρ) : Rules ρ := fun x => (self x).or (over x)

/-- `OverrideFormatOptions` and `OverrideLintOptions` (`overrides.rs:49-69`). -/
structure OverrideOptions (ρ : Type) where
  enabled : Option Bool
  rules : Option (Rules ρ)

/-- `OverrideItem` (`overrides.rs:10-41`), for formatting or for linting. -/
structure OverrideItem (ρ : Type) where
  incl : List Text
  excl : Option (List Text)
  options : Option (OverrideOptions ρ)

/-- `lib.rs:70-103` (`matches_override_files`). -/
def matchesOverride {ρ : Type} (W : World) (p : Path) (config : Option Path) (o : OverrideItem ρ) : Bool :=
  let t := relativeText W ((W.canon p).getD p) config
  (o.incl.any fun g => W.glob g t) && !((o.excl.getD []).any fun g => W.glob g t)

/-- `crates/tombi-config/src/lib.rs:161-194` (`merge_format`, `merge_lint`). -/
def mergeRules {ρ : Type} (base : Option (Rules ρ)) (over : Option (OverrideOptions ρ)) : Rules ρ :=
  match over.bind OverrideOptions.rules with
  | some r => (base.getD fun _ => none).merge r
  | none => base.getD fun _ => none

/-- The loop over the overrides in `get_format_options` and `get_lint_options` (`lib.rs:17-68`). -/
def firstOverride {ρ : Type} (W : World) (base : Option (Rules ρ)) (p : Path) (config : Option Path) :
    List (OverrideItem ρ) → Option (Rules ρ)
  | [] => some (mergeRules base none)
  | o :: os =>
    if matchesOverride W p config o then
      match o.options with
      | some f => if f.enabled = some false then none else some (mergeRules base (some f))
      | none => some (mergeRules base none)
    else firstOverride W base p config os

/-- `get_format_options` (`lib.rs:17-43`) and `get_lint_options` (`:45-68`): the rules for a file; `none` when an override switches them off. -/
def getOptions {ρ : Type} (W : World) (base : Option (Rules ρ)) (overrides : Option (List (OverrideItem ρ))) (p : Option Path)
    (config : Option Path) : Option (Rules ρ) :=
  match p with
  | some p => firstOverride W base p config (overrides.getD [])
  | none => some (mergeRules base none)

end Tombi.Cli
