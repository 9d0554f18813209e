import Verif.Basic.Text
/-!
Model of `crates/tombi-cache/src/lib.rs` (the cache of downloaded files, on a Unix machine) and of the loading
of remote schemas through it (`crates/tombi-schema-store/src/store.rs`).

The file system below the cache directory is a partial map from paths (lists of names) to nodes. The operations
of `tokio::fs` are modelled by their documented effect when no other process writes there; times are numbers of
nanoseconds; the text of a file is the decoding of its bytes by a parameter `utf8`.
-/
namespace Tombi.Cache

abbrev Bytes := List UInt8
abbrev Name := List Char
abbrev Path := List Name

/-! ### The file system -/

/-- a directory, or a file with its bytes and the time of its last modification -/
inductive Node where
  | dir
  | file (bytes : Bytes) (modified : Nat)
  deriving DecidableEq

abbrev FS := Path → Option Node

/-- The cache directory exists (`lib.rs:185-193`, `ensure_cache_dir`) and is empty. -/
def emptyFS : FS := fun p => if p = [] then some .dir else none

/-- `std::path::Path::is_file`. -/
def isFile (fs : FS) (p : Path) : Bool :=
  match fs p with
  | some (.file _ _) => true
  | _ => false

/-- `tokio::fs::create_dir_all`: `none` is a failure, when one of the directories is a file. -/
def createDirAll (fs : FS) (p : Path) : Option FS :=
  if (List.range (p.length + 1)).any fun n => isFile fs (p.take n) then none
  else some fun q => if q.isPrefixOf p then some .dir else fs q

/-- `tokio::fs::write` at time `now`: `none` is a failure, when the path is a directory or its parent is not. -/
def writeFile (fs : FS) (p : Path) (bytes : Bytes) (now : Nat) : Option FS :=
  match fs p, fs p.dropLast with
  | some .dir, _ => none
  | _, some .dir => some fun q => if q = p then some (.file bytes now) else fs q
  | _, _ => none

/-! ### Paths -/

/-- `tombi_uri::Uri` (`url::Url`): the parts the cache looks at, and in `rest` all others (user, port, query,
fragment). `segments` is the path split at its slashes: `[""]` for `/`. The parser of `url` removes `.` and
`..` segments; a segment has no slash. -/
structure Uri where
  scheme : Name
  host : Option Name
  segments : List Name
  rest : List Char := []
  deriving DecidableEq

/-- `Url::path` of a URI with an authority. -/
def Uri.path (u : Uri) : List Char := (u.segments.map fun s => '/' :: s).flatten

def dotJson : List Char := ['.', 'j', 's', 'o', 'n']
def http : Name := ['h', 't', 't', 'p']
def https : Name := ['h', 't', 't', 'p', 's']

/-- `lib.rs:5` (`CACHE_INDEX_FILE_NAME`). -/
def indexFileName : Name := ['_', '_', 'i', 'n', 'd', 'e', 'x', '_', '_', '.', 'j', 's', 'o', 'n']

/-- `lib.rs:35-54` (`get_cache_file_path`), relative to the cache directory. `PathBuf::push` of an empty segment
adds only a slash, which makes no difference below the cache directory; `is_file` is false for a path with a
slash at its end, but that only happens for schemes that are not cached. -/
def cachePath (u : Uri) : Path :=
  [u.scheme] ++ u.host.toList ++ u.segments.filter (fun s => s ≠ [])
    ++ (if (u.scheme = http ∨ u.scheme = https) ∧ ¬ dotJson.isSuffixOf u.path then [indexFileName] else [])

/-! ### Reading and writing -/

/-- `options.rs:1-5` (`Options`); durations in nanoseconds. -/
structure Options where
  noCache : Option Bool
  cacheTtl : Option Nat
  deriving DecidableEq

/-- `error.rs`: the failures in use. -/
inductive CacheError where
  | readFailed | saveFailed | noParent
  deriving DecidableEq

/-- `lib.rs:76-78`: the time to live; `dflt` is that of `Options::default()` (`options.rs:7-17`), which depends
on the environment variable `TOMBI_CACHE_TTL`. -/
def ttlOf (dflt : Option Nat) (options : Option Options) : Option Nat :=
  match options with
  | some o => o.cacheTtl
  | none => dflt

/-- `lib.rs:67-71`: `options.and_then(|options| options.no_cache).unwrap_or_default()`. -/
def isDisabled (options : Option Options) : Bool := (options.bind (·.noCache)).getD false

/-- `lib.rs:79-88`: the file modified at `modified` is too old at `now`. `SystemTime::elapsed` fails when the
modification time lies in the future, and the file is not too old then. -/
def tooOld (ttl : Option Nat) (modified now : Nat) : Bool :=
  match ttl with
  | some ttl => decide (modified ≤ now ∧ now - modified > ttl)
  | none => false

/-- `lib.rs:62-101` (`read_from_cache`) at time `now`. -/
def readFromCache (utf8 : Bytes → Option (List Char)) (dflt : Option Nat) (fs : FS) (now : Nat)
    (path : Option Path) (options : Option Options) : Except CacheError (Option (List Char)) :=
  if isDisabled options then .ok none
  else match path with
    | none => .ok none
    | some p =>
      match fs p with
      | some (.file bytes modified) =>
        if tooOld (ttlOf dflt options) modified now then .ok none
        else match utf8 bytes with
          | some text => .ok (some text)
          | none => .error .readFailed
      | _ => .ok none

/-- `lib.rs:111-141` (`save_to_cache`) at time `now`: the result and the file system after it. -/
def saveToCache (fs : FS) (now : Nat) (path : Option Path) (bytes : Bytes) : Except CacheError Unit × FS :=
  match path with
  | none => (.ok (), fs)
  | some p =>
    if isFile fs p then
      match writeFile fs p bytes now with
      | none => (.error .saveFailed, fs)
      | some fs' => (.ok (), fs')
    else if p = [] then (.error .noParent, fs)
    else
      match createDirAll fs p.dropLast with
      | none => (.error .saveFailed, fs)
      | some fs1 =>
        match writeFile fs1 p bytes now with
        | none => (.error .saveFailed, fs1)
        | some fs' => (.ok (), fs')

/-- `lib.rs:111-141` (`save_to_cache`) when the process ends while `tokio::fs::write`, which first truncates
the file, has written the first `k` bytes: the file system that is left. -/
def interruptedSave (fs : FS) (now : Nat) (path : Option Path) (bytes : Bytes) (k : Nat) : FS :=
  (saveToCache fs now path (bytes.take k)).2

/-- `lib.rs:152-175` (`refresh_cache`): every directory in the cache directory is removed with all that is in
it; files in the cache directory itself are kept. -/
def refreshCache (fs : FS) : FS
  | [] => fs []
  | c :: p => if fs [c] = some .dir then none else fs (c :: p)

/-! ### Remote schemas -/

/-- The outcome of `fetch_schema_value`: a schema, nothing, or an error. -/
inductive Loaded (α : Type) where
  | schema (a : α)
  | nothing
  | fetchFailed
  | parseFailed
  deriving DecidableEq

/-- `store.rs:1283-1308` (`load_json_schema_from_cache`) as its callers see it (`Ok(Some(schema_value))` or
not); `parse` is the JSON parser. -/
def loadFromCache {α : Type} (utf8 : Bytes → Option (List Char)) (parse : List Char → Option α)
    (dflt : Option Nat) (fs : FS) (now : Nat) (path : Path) (options : Option Options) : Option α :=
  match readFromCache utf8 dflt fs now (some path) options with
  | .ok (some text) => parse text
  | _ => none

/-- `store.rs:1263-1281` (`load_json_schema_from_cache_ignoring_ttl`). -/
def loadIgnoringTtl {α : Type} (utf8 : Bytes → Option (List Char)) (parse : List Char → Option α)
    (dflt : Option Nat) (fs : FS) (now : Nat) (path : Path) (options : Option Options) : Option α :=
  let o : Options := options.getD ⟨none, dflt⟩
  loadFromCache utf8 parse dflt fs now path (some ⟨o.noCache, none⟩)

/-- What a load does: its result, the URIs it asked the network for, and the file system after it. -/
structure Load (α : Type) where
  result : Loaded α
  requests : List Uri
  fs : FS

/-- `store.rs:445-505` (the branch for `http` and `https` of `fetch_schema_value`; that of
`load_catalog_from_uri`, `:269-331`, is the same with other names). `net` is the HTTP client: the bytes of the
answer, or `none` for a failure; the JSON of an answer is parsed from its text. -/
def loadRemote {α : Type} (utf8 : Bytes → Option (List Char)) (parse : List Char → Option α)
    (dflt : Option Nat) (offline : Bool) (options : Option Options) (net : Uri → Option Bytes)
    (fs : FS) (now : Nat) (u : Uri) : Load α :=
  match loadFromCache utf8 parse dflt fs now (cachePath u) options with
  | some a => ⟨.schema a, [], fs⟩
  | none =>
    if offline then
      match loadIgnoringTtl utf8 parse dflt fs now (cachePath u) options with
      | some a => ⟨.schema a, [], fs⟩
      | none => ⟨.nothing, [], fs⟩
    else
      match net u with
      | none =>
        match loadIgnoringTtl utf8 parse dflt fs now (cachePath u) options with
        | some a => ⟨.schema a, [u], fs⟩
        | none => ⟨.fetchFailed, [u], fs⟩
      | some bytes =>
        let fs' := (saveToCache fs now (some (cachePath u)) bytes).2
        match (utf8 bytes).bind parse with
        | some a => ⟨.schema a, [u], fs'⟩
        | none => ⟨.parseFailed, [u], fs'⟩

end Tombi.Cache
