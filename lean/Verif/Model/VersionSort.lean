import Verif.Model.Lexer
/-!
Model of `crates/tombi-version-sort/src/lib.rs`. The iterator's state (`ident`, byte index `start`) is
represented by the remaining text; all indices of the code are character boundaries. `str::cmp` compares
UTF-8 bytes, which is the order of the code points. `usize` has 64 bits.
-/
namespace Tombi.VersionSort

/-- `lib.rs:150-165` (`VersionChunk`). -/
inductive Chunk
  | underscore
  | hyphen
  | versionOp (s : List Char)
  | str (s : List Char)
  | number (value zeros : Nat) (source : List Char)
  deriving DecidableEq, Repr

/-- `lib.rs:105-107`: the version operators, in the order they are tried. -/
def operators : List (List Char) :=
  ["===".toList, ">=".toList, "<=".toList, "==".toList, "!=".toList, "~=".toList, "~>".toList, ">".toList,
   "<".toList, "=".toList, "^".toList, "~".toList]

/-- `lib.rs:103-113` (`check_version_operator_at`): the operator at the start of the remaining text. -/
def versionOperator (s : List Char) : Option (List Char) := operators.find? fun op => op.isPrefixOf s

/-- `source.parse::<usize>()` on digits: the accumulated value, `none` on overflow. -/
def parseUsize (acc : Nat) : List Char → Option Nat
  | [] => some acc
  | c :: cs =>
    let n := acc * 10 + (c.toNat - '0'.toNat)
    if n < 2 ^ 64 then parseUsize n cs else none

/-- `lib.rs:15-51` (`parse_numeric_chunk`): the digits at the start of the text. `none`: the number does not fit
`usize`, and the iterator ends. -/
def numericChunk (s : List Char) : Option (Chunk × List Char) :=
  let source := s.takeWhile isAsciiDigit
  let zeros := (source.takeWhile (· == '0')).length
  match parseUsize 0 source with
  | some value => some (.number value zeros source, s.dropWhile isAsciiDigit)
  | none => none

/-- `lib.rs:58-79` (`parse_str_chunk`): the loop over the characters after the first one; it stops before `_`,
`-`, a digit or an operator. -/
def strRun : List Char → List Char × List Char
  | [] => ([], [])
  | c :: cs =>
    if c = '_' ∨ c = '-' ∨ isAsciiDigit c = true ∨ (versionOperator (c :: cs)).isSome then ([], c :: cs)
    else (c :: (strRun cs).1, (strRun cs).2)

/-- `lib.rs:119-145` (`Iterator::next`) with `parse_str_chunk` (`lib.rs:53-101`); its `str_part` is never empty
because `next` looks for an operator at the first character. -/
def next : List Char → Option (Chunk × List Char)
  | [] => none
  | c :: cs =>
    if c = '_' then some (.underscore, cs)
    else if c = '-' then some (.hyphen, cs)
    else if isAsciiDigit c then numericChunk (c :: cs)
    else match versionOperator (c :: cs) with
      | some op => some (.versionOp op, (c :: cs).drop op.length)
      | none => some (.str (c :: (strRun cs).1), (strRun cs).2)

/-- All chunks until the iterator ends. Every chunk takes at least one character, so the length of the text
bounds their number (`next_shorter`). -/
def chunkLoop : Nat → List Char → List Chunk
  | 0, _ => []
  | fuel + 1, s =>
    match next s with
    | none => []
    | some (c, r) => c :: chunkLoop fuel r

def chunks (s : List Char) : List Chunk := chunkLoop s.length s

/-- `str::cmp`. -/
def cmpText : List Char → List Char → Ordering
  | [], [] => .eq
  | [], _ :: _ => .lt
  | _ :: _, [] => .gt
  | a :: as, b :: bs => (compare a.toNat b.toNat).then (cmpText as bs)

/-- `lib.rs:169-173` (`MoreLeadingZeros`). -/
inductive MoreLeadingZeros
  | left | right | equal
  deriving DecidableEq

/-- `lib.rs:183-252`: the loop over both iterators (`zip_longest`) and the final decision. -/
def sortLoop : MoreLeadingZeros → List Chunk → List Chunk → Ordering
  | .equal, [], [] => .eq
  | .left, [], [] => .lt
  | .right, [], [] => .gt
  | _, _ :: _, [] => .gt
  | _, [], _ :: _ => .lt
  | z, a :: as, b :: bs =>
    match a, b with
    | .versionOp ca, .versionOp cb => (cmpText ca cb).then (sortLoop z as bs)
    | .versionOp _, _ => .lt
    | _, .versionOp _ => .gt
    | .underscore, .underscore | .underscore, .hyphen | .hyphen, .underscore | .hyphen, .hyphen => sortLoop z as bs
    | .underscore, _ | .hyphen, _ => .lt
    | _, .underscore | _, .hyphen => .gt
    | .str ca, .str cb => (cmpText ca cb).then (sortLoop z as bs)
    | .str ca, .number _ _ cb => (cmpText ca cb).then (sortLoop z as bs)
    | .number _ _ ca, .str cb => (cmpText ca cb).then (sortLoop z as bs)
    | .number va lza _, .number vb lzb _ =>
      match compare va vb with
      | .eq =>
        if lza = lzb then sortLoop z as bs
        else if z = .equal ∧ lza > lzb then sortLoop .left as bs
        else if z = .equal ∧ lza < lzb then sortLoop .right as bs
        else sortLoop z as bs
      | order => order

/-- `lib.rs:178-253` (`version_sort`). -/
def versionSort (a b : List Char) : Ordering := sortLoop .equal (chunks a) (chunks b)

end Tombi.VersionSort
