/-!
Which configuration applies: `rust/serde_tombi/src/config.rs`, and the configurations the language server keeps
(`crates/tombi-lsp/src/config_manager.rs`).

Simplifications: paths are lists of names from the root; the text of a file is an arbitrary type `T`, and reading a configuration from it is a
parameter (C78 treats the deserialisation); Linux only (the places of macOS and Windows, `config.rs:226-250`, are left out); of the schema
stores only whether they could be reloaded is modelled; the requests of the editor are handled one after the other.
-/
namespace Tombi.ConfigFile

/-- A name in a path. -/
abbrev Name := List Char
/-- A path, from the root. -/
abbrev Path := List Name

/-- The files: `none` for no file, `some none` for a file that cannot be read. -/
abbrev Disk (T : Type) := Path → Option (Option T)

/-- The configuration in a text (`config.rs:17-33`), that in `[tool.tombi]` (`:42-55`), the default, `$XDG_CONFIG_HOME` and the home directory. -/
structure Env (T C : Type) where
  parse : T → Option C
  parsePyproject : T → Option (Option C)
  default : C
  xdg : Option Path
  home : Option Path

/-- `tombi-config/src/lib.rs:34-37`. -/
def dotTombi : Name := ".tombi.toml".toList
/-- The same. -/
def tombi : Name := "tombi.toml".toList
/-- The same. -/
def configToml : Name := "config.toml".toList
/-- The same. -/
def pyproject : Name := "pyproject.toml".toList

/-- `tombi-config/src/error.rs`. -/
inductive ReadError where
  | notFound | readFailed | parseFailed | unsupported
  deriving DecidableEq, Repr

/-- `config.rs:85-120` (`try_from_path`). -/
def tryFromPath {T C : Type} (env : Env T C) (disk : Disk T) (path : Path) : Except ReadError (Option C) :=
  match disk path with
  | none => .error .notFound
  | some none => .error .readFailed
  | some (some t) =>
    match path.getLast? with
    | none => .error .unsupported
    | some n =>
      if n = dotTombi ∨ n = tombi ∨ n = configToml then
        match env.parse t with
        | some c => .ok (some c)
        | none => .error .parseFailed
      else if n = pyproject then
        match env.parsePyproject t with
        | some r => .ok r
        | none => .error .parseFailed
      else .error .unsupported

/-- `tombi-config/src/level.rs:5-11`. -/
inductive Level where
  | project | user | system | default
  deriving DecidableEq, Repr

/-- What `load_with_path_and_level` gives; `panic` is one of its `unreachable!`. -/
inductive Outcome (C : Type) where
  | found (config : C) (path : Option Path) (level : Level)
  | panic
  deriving DecidableEq, Repr

/-- `config.rs:127-152`: the loop over the files of a directory. -/
def tryFiles {T C : Type} (env : Env T C) (disk : Disk T) : List Path → Option (Outcome C)
  | [] => none
  | p :: ps =>
    if (disk p).isSome then
      match tryFromPath env disk p with
      | .ok (some c) => some (.found c (some p) .project)
      | .ok none => some .panic
      | .error _ => tryFiles env disk ps
    else tryFiles env disk ps

/-- `config.rs:127-175`: one directory. -/
def inDirectory {T C : Type} (env : Env T C) (disk : Disk T) (dir : Path) : Option (Outcome C) :=
  match tryFiles env disk [dir ++ [dotTombi], dir ++ [tombi], dir ++ [".config".toList] ++ [tombi]] with
  | some o => some o
  | none =>
    let p := dir ++ [pyproject]
    if (disk p).isSome then
      match tryFromPath env disk p with
      | .ok (some c) => some (.found c (some p) .project)
      | _ => none
    else none

/-- `config.rs:126-180`: the loop over the directories, whose names are here the last first. -/
def searchUp {T C : Type} (env : Env T C) (disk : Disk T) : List Name → Option (Outcome C)
  | [] => inDirectory env disk []
  | n :: ns =>
    match inDirectory env disk (n :: ns).reverse with
    | some o => some o
    | none => searchUp env disk ns

/-- `config.rs:217-257` (`get_user_or_system_tombi_config_path_and_level`): the places. -/
def userPlaces {T C : Type} (env : Env T C) : List (Path × Level) :=
  (match env.xdg with
    | some d => [(d ++ ["tombi".toList] ++ [configToml], .user)]
    | none => []) ++
  (match env.home with
    | some d => [(d ++ [".config".toList] ++ ["tombi".toList] ++ [configToml], .user)]
    | none => []) ++
  [(["etc".toList, "tombi".toList, configToml], .system)]

/-- `config.rs:122-197` (`load_with_path_and_level`). -/
def load {T C : Type} (env : Env T C) (disk : Disk T) (dir : Option Path) : Outcome C :=
  match dir.bind fun d => searchUp env disk d.reverse with
  | some o => o
  | none =>
    match (userPlaces env).find? fun p => (disk p.1).isSome with
    | some (p, level) =>
      match tryFromPath env disk p with
      | .ok (some c) => .found c (some p) level
      | _ => .panic
    | none => .found env.default none .default

/-! ### The language server -/

/-- `config_manager.rs:35-50` (`ConfigManager`): which configuration file belongs to a document, the configuration of a file, and the
configuration without a file. The first entry of a list counts. -/
structure Manager (C : Type) where
  sources : List (Path × Path)
  stores : List (Path × C)
  default : Option C
  deriving DecidableEq, Repr

/-- `config_manager.rs:60-99` (`new`); `none` if `load` panics. -/
def Manager.new {T C : Type} (env : Env T C) (disk : Disk T) (cwd : Option Path) : Option (Manager C) :=
  match load env disk cwd with
  | .found c (some p) _ => some ⟨[], [(p, c)], none⟩
  | .found c none _ => some ⟨[], [], some c⟩
  | .panic => none

/-- `config_manager.rs:192-222` (`default_config_schema_store`). -/
def Manager.getDefault {T C : Type} (env : Env T C) (m : Manager C) : Manager C × (C × Option Path) :=
  match m.default with
  | some c => (m, (c, none))
  | none => ({ m with default := some env.default }, (env.default, none))

/-- `config_manager.rs:162-168`. -/
def Manager.stored {T C : Type} (env : Env T C) (m : Manager C) (p : Path) : Manager C × (C × Option Path) :=
  match m.stores.lookup p with
  | some c => (m, (c, some p))
  | none => m.getDefault env

/-- `Path::parent`. -/
def parent (p : Path) : Option Path := if p = [] then none else some p.dropLast

/-- `config_manager.rs:114-169` (`config_schema_store_for_file`); `none` if `load` panics. -/
def Manager.configFor {T C : Type} (env : Env T C) (disk : Disk T) (m : Manager C) (file : Path) : Manager C × Option (C × Option Path) :=
  match m.sources.lookup file with
  | some p =>
    let r := m.stored env p
    (r.1, some r.2)
  | none =>
    match load env disk (parent file) with
    | .found c (some p) _ =>
      let m' : Manager C := { m with
        sources := (file, p) :: m.sources
        stores := match m.stores.lookup p with
          | some _ => m.stores
          | none => (p, c) :: m.stores }
      let r := m'.stored env p
      (r.1, some r.2)
    | .found _ none _ =>
      let r := m.getDefault env
      (r.1, some r.2)
    | .panic => (m, none)

/-- `handler/update_config.rs:5-46` with `config_manager.rs:171-190` (`update_config_with_path`); `reloaded` tells whether the schemas could be
reloaded. -/
def Manager.update {T C : Type} (env : Env T C) (disk : Disk T) (m : Manager C) (path : Path) (reloaded : Bool) : Manager C :=
  match tryFromPath env disk path with
  | .ok (some c) =>
    if reloaded then { m with stores := (path, c) :: m.stores }
    else match m.stores.lookup path with
      | some _ => m
      | none => { m with stores := (path, c) :: m.stores }
  | _ => m

/-- What happens: the files change, a request needs the configuration of a document, the editor asks to update a configuration file
(`tombi/updateConfig`), or sends its settings (`config_manager.rs:339-356`, `update_editor_config`). -/
inductive Event (T C : Type) where
  | files (disk : Disk T)
  | request (file : Path)
  | update (path : Path) (reloaded : Bool)
  | settings (config : C)

/-- The files and the configurations the server keeps. -/
structure State (T C : Type) where
  disk : Disk T
  manager : Manager C

/-- One event. -/
def State.step {T C : Type} (env : Env T C) (s : State T C) : Event T C → State T C
  | .files d => { s with disk := d }
  | .request f => { s with manager := (s.manager.configFor env s.disk f).1 }
  | .update p r => { s with manager := s.manager.update env s.disk p r }
  | .settings c => { s with manager := { s.manager with default := some c } }

/-- The events one after the other. -/
def State.run {T C : Type} (env : Env T C) (s : State T C) (es : List (Event T C)) : State T C := es.foldl (fun s e => s.step env e) s

end Tombi.ConfigFile
