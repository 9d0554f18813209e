import Verif.Model.TomlText
/-!
Model of `crates/tombi-accessor/src/{accessor,schema_accessor,pattern_accessor}.rs`: paths into a document,
their printed form and the two parsers; and of the choice among overrides by pattern
(`crates/tombi-schema-store/src/schema.rs`).
-/
namespace Tombi.Accessor
open TomlText

/-! ### std -/

/-- the decimal digits of a number, most significant last; `fuel` is more than their number -/
def digitsRev : Nat → Nat → List Char
  | 0, _ => []
  | fuel + 1, n => Char.ofNat (48 + n % 10) :: (if n / 10 = 0 then [] else digitsRev fuel (n / 10))

/-- `format!("{n}")` for a `usize`. -/
def showNat (n : Nat) : List Char := (digitsRev (n + 1) n).reverse

/-- the optional sign of an unsigned number -/
def dropPlus : List Char → List Char
  | '+' :: ds => ds
  | ds => ds

/-- `str::parse::<usize>` on a 64-bit machine: one leading `+` is accepted, the empty text and a lone sign
are not; `none` is any error. The overflow test is made at the end, which gives the same result. -/
def usizeFromStr (s : List Char) : Option Nat :=
  if dropPlus s = [] then none
  else match radixLoop 10 0 (dropPlus s) with
    | some n => if n < 2 ^ 64 then some n else none
    | none => none

/-! ### accessors -/

/-- `accessor.rs:6-9` (`Accessor`). -/
inductive Accessor where
  | key (k : List Char)
  | index (i : Nat)
  deriving DecidableEq, Repr

/-- `schema_accessor.rs:8-12` (`SchemaAccessor`). -/
inductive SchemaAccessor where
  | key (k : List Char)
  | anyIndex
  | index (i : Nat)
  deriving DecidableEq, Repr

/-- `pattern_accessor.rs:7-12` (`PatternAccessor`). -/
inductive PatternAccessor where
  | key (k : List Char)
  | anyKey
  | anyIndex
  | index (i : Nat)
  deriving DecidableEq, Repr

/-- `accessor.rs:38-45`: `Display` of one `Accessor`. -/
def Accessor.show : Accessor → List Char
  | .key k => toKeyString k
  | .index i => '[' :: showNat i ++ [']']

/-- `schema_accessor.rs:134-142`: `Display` of one `SchemaAccessor`. -/
def SchemaAccessor.show : SchemaAccessor → List Char
  | .key k => toKeyString k
  | .anyIndex => ['[', '*', ']']
  | .index i => '[' :: showNat i ++ [']']

/-- `pattern_accessor.rs:153-162`: `Display` of one `PatternAccessor`. -/
def PatternAccessor.show : PatternAccessor → List Char
  | .key k => toKeyString k
  | .anyKey => ['*']
  | .anyIndex => ['[', '*', ']']
  | .index i => '[' :: showNat i ++ [']']

/-- `accessor.rs:122-127`: what the loop writes for one further accessor. -/
def Accessor.showNext : Accessor → List Char
  | .key k => '.' :: (Accessor.key k).show
  | a => a.show

/-- `schema_accessor.rs:208-213`. -/
def SchemaAccessor.showNext : SchemaAccessor → List Char
  | .key k => '.' :: (SchemaAccessor.key k).show
  | a => a.show

/-- `pattern_accessor.rs:140-147`. -/
def PatternAccessor.showNext : PatternAccessor → List Char
  | .key k => '.' :: (PatternAccessor.key k).show
  | .anyKey => '.' :: PatternAccessor.anyKey.show
  | a => a.show

/-- `accessor.rs:116-132`: `Display` of `Accessors`. -/
def showAccessors : List Accessor → List Char
  | [] => []
  | a :: as => a.show ++ (as.map Accessor.showNext).flatten

/-- `schema_accessor.rs:202-217`: `Display` of `SchemaAccessors`. -/
def showSchema : List SchemaAccessor → List Char
  | [] => []
  | a :: as => a.show ++ (as.map SchemaAccessor.showNext).flatten

/-- `pattern_accessor.rs:135-151`: `Display` of `PatternAccessors`. -/
def showPattern : List PatternAccessor → List Char
  | [] => []
  | a :: as => a.show ++ (as.map PatternAccessor.showNext).flatten

/-- `schema_accessor.rs:123-130`: `From<&Accessor> for SchemaAccessor`. -/
def SchemaAccessor.of : Accessor → SchemaAccessor
  | .key k => .key k
  | .index i => .index i

/-- `pattern_accessor.rs:164-176`: `From<&[Accessor]> for PatternAccessors`, one item. -/
def PatternAccessor.of : Accessor → PatternAccessor
  | .key k => .key k
  | .index i => .index i

/-! ### `SchemaAccessor::parse` -/

/-- Where the loops of a parser stand: in the main loop with the text in `current_key`, in the loop that
reads `index_str`, or in the loop of `parse_quoted_key` with its quote, the flag `escaped` and the characters
from the opening quote on. -/
inductive Mode where
  | key (current : List Char)
  | index (indexStr : List Char)
  | quoted (quote : Char) (escaped : Bool) (text : List Char)

/-- `schema_accessor.rs:56-59`, `:77-80`, `:89-91`: pushes `current_key` unless it is empty. -/
def flushSchema (current : List Char) (accessors : List SchemaAccessor) : List SchemaAccessor :=
  if current = [] then accessors else accessors ++ [.key current]

/-- `schema_accessor.rs:69-75`: what an index text means. -/
def schemaIndex (indexStr : List Char) : Option SchemaAccessor :=
  if indexStr = ['*'] then some .anyIndex
  else match usizeFromStr indexStr with
    | some i => some (.index i)
    | none => none

/-- `schema_accessor.rs:52-93`: the loops of `SchemaAccessor::parse`. The inner `while` loop (`:61-68`) is
the mode `index`; the mode `quoted` is not used. -/
def schemaLoop : Mode → List SchemaAccessor → List Char → Option (List SchemaAccessor)
  | .key current, accessors, [] => some (flushSchema current accessors)
  | .key current, accessors, c :: cs =>
    if c = '[' then schemaLoop (.index []) (flushSchema current accessors) cs
    else if c = '.' then schemaLoop (.key []) (flushSchema current accessors) cs
    else schemaLoop (.key (current ++ [c])) accessors cs
  | .index indexStr, accessors, c :: cs =>
    if c = ']' then
      match schemaIndex indexStr with
      | some a => schemaLoop (.key []) (accessors ++ [a]) cs
      | none => none
    else schemaLoop (.index (indexStr ++ [c])) accessors cs
  | .index _, _, [] => none
  | .quoted _ _ _, _, _ => none

/-- `schema_accessor.rs:41-94` (`SchemaAccessor::parse`). -/
def parseSchema (path : List Char) : Option (List SchemaAccessor) :=
  if path = [] then none else schemaLoop (.key []) [] path

/-! ### `PatternAccessor::parse` -/

/-- `pattern_accessor.rs:83-89` (`parse_key_or_wildcard`). -/
def parseKeyOrWildcard (key : List Char) : PatternAccessor :=
  if key = ['*'] then .anyKey else .key key

/-- `pattern_accessor.rs:29-32`, `:54-57`, `:64-66`: pushes `current_key` unless it is empty. -/
def flushPattern (current : List Char) (accessors : List PatternAccessor) : List PatternAccessor :=
  if current = [] then accessors else accessors ++ [parseKeyOrWildcard current]

/-- `pattern_accessor.rs:42-48`: what an index text means. -/
def patternIndex (indexStr : List Char) : Option PatternAccessor :=
  if indexStr = ['*'] then some .anyIndex
  else match usizeFromStr indexStr with
    | some i => some (.index i)
    | none => none

/-- `pattern_accessor.rs:104-110`: the key of a complete quoted text. A panic of the decoding functions is
`none` too; it does not happen, because the text has a quote at both ends (`decodeQuoted_no_panic`). -/
def decodeQuoted (quote : Char) (text : List Char) : Option (List Char) :=
  if quote = '"' then
    match tryFromBasicString text .V1_0_0 with
    | some (.ok s) => some s
    | _ => none
  else if quote = '\'' then
    match tryFromLiteralString text with
    | some (.ok s) => some s
    | _ => none
  else none

/-- `pattern_accessor.rs:22-69` and `:91-119`: the loops of `PatternAccessor::parse` and of
`parse_quoted_key`. -/
def patternLoop : Mode → List PatternAccessor → List Char → Option (List PatternAccessor)
  | .key current, accessors, [] => some (flushPattern current accessors)
  | .key current, accessors, c :: cs =>
    if c = '[' then patternLoop (.index []) (flushPattern current accessors) cs
    else if (c = '\'' ∨ c = '"') ∧ current = [] then patternLoop (.quoted c false [c]) accessors cs
    else if c = '.' then patternLoop (.key []) (flushPattern current accessors) cs
    else patternLoop (.key (current ++ [c])) accessors cs
  | .index indexStr, accessors, c :: cs =>
    if c = ']' then
      match patternIndex indexStr with
      | some a => patternLoop (.key []) (accessors ++ [a]) cs
      | none => none
    else patternLoop (.index (indexStr ++ [c])) accessors cs
  | .index _, _, [] => none
  | .quoted quote escaped text, accessors, c :: cs =>
    if quote = '"' ∧ c = '\\' ∧ escaped = false then patternLoop (.quoted quote true (text ++ [c])) accessors cs
    else if c = quote ∧ escaped = false then
      match decodeQuoted quote (text ++ [c]) with
      | some k => patternLoop (.key []) (accessors ++ [.key k]) cs
      | none => none
    else patternLoop (.quoted quote false (text ++ [c])) accessors cs
  | .quoted _ _ _, _, [] => none

/-- `pattern_accessor.rs:15-70` (`PatternAccessor::parse`). -/
def parsePattern (path : List Char) : Option (List PatternAccessor) :=
  if path = [] then none else patternLoop (.key []) [] path

/-! ### Markdown -/

/-- `str::split(|ch| ch != '`')` followed by the length of every part (`schema_accessor.rs:246-247`); `run`
is the length of the part being read. -/
def backtickRuns : Nat → List Char → List Nat
  | run, [] => [run]
  | run, c :: cs => if c = '`' then backtickRuns (run + 1) cs else run :: backtickRuns 0 cs

/-- `Iterator::max` followed by `unwrap_or(0)` (`schema_accessor.rs:248-249`). -/
def maxLen : List Nat → Nat
  | [] => 0
  | n :: ns => max n (maxLen ns)

/-- `schema_accessor.rs:239-257`: `Display` of `MarkdownSchemaAccessors`. -/
def showMarkdown (accessors : List SchemaAccessor) : List Char :=
  if accessors = [] then ['r', 'o', 'o', 't', ' ', 't', 'a', 'b', 'l', 'e']
  else
    let rendered := showSchema accessors
    let fence := List.replicate (maxLen (backtickRuns 0 rendered) + 1) '`'
    fence ++ rendered ++ fence

/-! ### choice by pattern -/

/-- `crates/tombi-schema-store/src/schema.rs:156-178`: the loop of `pattern_match_score`. -/
def scoreLoop : Nat → List PatternAccessor → List Accessor → Option Nat
  | exact, .key e :: ps, .key a :: as => if e ≠ a then none else scoreLoop (exact + 1) ps as
  | exact, .anyKey :: ps, .key _ :: as => scoreLoop exact ps as
  | exact, .anyIndex :: ps, .index _ :: as => scoreLoop exact ps as
  | exact, .index e :: ps, .index a :: as => if e ≠ a then none else scoreLoop (exact + 1) ps as
  | exact, [], _ => some exact
  | exact, _, [] => some exact
  | _, _, _ => none

/-- `schema.rs:149-181` (`pattern_match_score`). -/
def patternMatchScore (pattern : List PatternAccessor) (accessors : List Accessor) : Option Nat :=
  if pattern.length ≠ accessors.length then none else scoreLoop 0 pattern accessors

/-- `schema.rs:183-206` (`find_best_pattern_match`): the loop with the best item and score so far. -/
def bestLoop {α : Type} (pattern : α → List PatternAccessor) (accessors : List Accessor) :
    Option (α × Nat) → List α → Option (α × Nat)
  | best, [] => best
  | best, item :: items =>
    match patternMatchScore (pattern item) accessors with
    | none => bestLoop pattern accessors best items
    | some score =>
      match best with
      | none => bestLoop pattern accessors (some (item, score)) items
      | some (b, bestScore) =>
        if score > bestScore then bestLoop pattern accessors (some (item, score)) items
        else bestLoop pattern accessors (some (b, bestScore)) items

/-- `schema.rs:183-206` (`find_best_pattern_match`), used by `OrderOverrides::find` (`:112-116`) and
`DeprecatedOverrides::find` (`:85-89`). -/
def findBest {α : Type} (pattern : α → List PatternAccessor) (items : List α) (accessors : List Accessor) :
    Option α :=
  (bestLoop pattern accessors none items).map (·.1)

/-- `crates/tombi-schema-store/src/schema/schema_context.rs:349-361`: the choice of the sub-schema for a path
(`get_subschema`) among the entries of the link map in their order. -/
def findSubschema {β : Type} (links : List (List PatternAccessor × β)) (accessors : List Accessor) : Option β :=
  let candidates := links.filterMap fun (pattern, link) =>
    (patternMatchScore pattern accessors).map fun score => (score, link)
  (candidates.foldl (fun best candidate => match best with
    | some b => if b.1 ≥ candidate.1 then some b else some candidate
    | none => some candidate) none).map (·.2)

/-- `crates/tombi-schema-store/src/store.rs:1385-1391` (`parse_override_target`). -/
def parseOverrideTarget (target : List Char) : Option (List PatternAccessor) :=
  if target = [] then some [] else parsePattern target

end Tombi.Accessor
