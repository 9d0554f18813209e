import Verif.Model.ConfigFile
/-! Specification: the configuration nearest to a directory. -/
namespace Tombi.ConfigFile

variable {T C : Type}

/-- Where the configuration of a directory may be, in the order of precedence. -/
def places : List Path := [[".tombi.toml".toList], ["tombi.toml".toList], [".config".toList, "tombi.toml".toList], ["pyproject.toml".toList]]

/-- The file holds the configuration: it is there, can be read, and its text, or the table `[tool.tombi]` of a `pyproject.toml`, is a
configuration. -/
def Holds (env : Env T C) (disk : Disk T) (path : Path) (c : C) : Prop :=
  ∃ t, disk path = some (some t) ∧
    ((∃ d, path = d ++ ["pyproject.toml".toList]) → env.parsePyproject t = some (some c)) ∧
    ((¬ ∃ d, path = d ++ ["pyproject.toml".toList]) → env.parse t = some c)

/-- The file `path` holds the configuration `c`, it belongs to the directory or one above it, and no directory in between, nor a place of
precedence in the same directory, holds a configuration. -/
def Nearest (env : Env T C) (disk : Disk T) (dir path : Path) (c : C) : Prop :=
  Holds env disk path c ∧ ∃ d, ∃ (i : Nat), ∃ place, d <+: dir ∧ places[i]? = some place ∧ path = d ++ place ∧
    (∀ d' : Path, d' <+: dir → d.length < d'.length → ∀ q ∈ places, ∀ c', ¬ Holds env disk (d' ++ q) c') ∧
    (∀ j q, j < i → places[j]? = some q → ∀ c', ¬ Holds env disk (d ++ q) c')

/-- No directory from here upwards has a configuration. -/
def NoProject (env : Env T C) (disk : Disk T) (dir : Path) : Prop :=
  ∀ d : Path, d <+: dir → ∀ q ∈ places, ∀ c, ¬ Holds env disk (d ++ q) c

/-- Where the configurations of the user and of the system are, in the order of precedence. -/
def commonPlaces (env : Env T C) : List (Path × Level) :=
  (env.xdg.toList.map fun d => (d ++ ["tombi".toList, "config.toml".toList], Level.user)) ++
  (env.home.toList.map fun d => (d ++ [".config".toList, "tombi".toList, "config.toml".toList], Level.user)) ++
  [(["etc".toList, "tombi".toList, "config.toml".toList], Level.system)]

/-- The first of these files that is there. -/
def FirstThere (disk : Disk T) (ps : List (Path × Level)) (p : Path) (l : Level) : Prop :=
  ∃ pre post, ps = pre ++ (p, l) :: post ∧ disk p ≠ none ∧ ∀ q ∈ pre, disk q.1 = none

/-- The directory a file is in; the root is in none. -/
def directoryOf (file : Path) : Option Path :=
  match file.reverse with
  | [] => none
  | _ :: names => some names.reverse

end Tombi.ConfigFile
