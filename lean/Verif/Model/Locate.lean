import Verif.Model.Tree
import Verif.Model.TextOps
/-! The token under the cursor: `SyntaxNode::token_at_position` (`crates/tombi-rg-tree/src/cursor.rs`) and `ancestors_at_position`
(`crates/tombi-ast/src/algo.rs`). -/
namespace Tombi.Locate

/-- `crates/tombi-rg-tree/src/utility_types.rs:87-95` (`TokenAtOffset`). -/
inductive AtOffset (α : Type) where
  | none
  | single (a : α)
  | between (a b : α)
  deriving DecidableEq, Repr

/-- `utility_types.rs:125-141`: `TokenAtOffset` as an iterator. -/
def AtOffset.toList {α : Type} : AtOffset α → List α
  | .none => []
  | .single a => [a]
  | .between a b => [a, b]

/-- A `SyntaxToken`: the green token and its place, as the indices of the children from the root to it. -/
structure Leaf where
  path : List Nat
  kind : SyntaxKind
  text : List Char
  range : Range
  deriving DecidableEq, Repr

mutual
/-- `text_relative_position`: `green/token.rs:107-110` of a token, `green/node.rs:247-258` of a node. -/
def relPos (G : Segmenter) : Green → RelPosition
  | .token _ text => RelPosition.of G text
  | .node _ children => relPoss G ⟨0, 0⟩ children
/-- `green/node.rs:247-258`: the sum of the positions of the children; `before` is the sum of those before. -/
def relPoss (G : Segmenter) (before : RelPosition) : List Green → RelPosition
  | [] => before
  | c :: cs => relPoss G (before.add (relPos G c)) cs
end

/-- `cursor.rs:426-429` (`range`), of an element that starts at `start`. -/
def rangeAt (G : Segmenter) (start : Position) (g : Green) : Range := Range.new start (start.add (relPos G g))

/-- `crates/tombi-text/src/range.rs:47-50` (`is_empty`). -/
def emptyRange (r : Range) : Bool := r.start == r.stop

/-- `cursor.rs:949-953`: the filter of the children. -/
def touched (r : Range) (p : Position) : Bool := !emptyRange r && (r.start.le p && p.le r.stop)

/-- `cursor.rs:959-971`: what becomes of the tokens found in the first two children. `unwrap` of no child and `unreachable!` are
panics. -/
def combine : List (Except Abort (AtOffset Leaf)) → Except Abort (AtOffset Leaf)
  | [] => .error .panic
  | [left] => left
  | left :: right :: _ =>
    match left, right with
    | .ok (.single a), .ok (.single b) => .ok (.between a b)
    | .error e, _ => .error e
    | .ok _, .error e => .error e
    | .ok _, .ok _ => .error .panic

mutual
/-- `cursor.rs:939-975`, `:1261-1267` (`token_at_position`) of an element at `path` that starts at `start`. The `debug_assert!`s are not
modelled (release builds). The position of a child is that of the parent plus the relative position of the child (`:1240-1260`,
`:735-760`). -/
def tokenAt (G : Segmenter) (p : Position) (path : List Nat) (start : Position) : Green → Except Abort (AtOffset Leaf)
  | .token kind text => .ok (.single ⟨path, kind, text, rangeAt G start (.token kind text)⟩)
  | .node kind children =>
    if emptyRange (rangeAt G start (.node kind children)) then .ok .none
    else combine (tokenAtChildren G p path start ⟨0, 0⟩ 0 children)
/-- The results of the children that pass the filter. Only the first two are looked at. -/
def tokenAtChildren (G : Segmenter) (p : Position) (path : List Nat) (start : Position) (before : RelPosition) (i : Nat) :
    List Green → List (Except Abort (AtOffset Leaf))
  | [] => []
  | c :: cs =>
    let rest := tokenAtChildren G p path start (before.add (relPos G c)) (i + 1) cs
    if touched (rangeAt G (start.add before) c) p then tokenAt G p (path ++ [i]) (start.add before) c :: rest else rest
end

/-- `cursor.rs:939-975` (`token_at_position`) of the root. -/
def tokenAtPosition (G : Segmenter) (root : Green) (p : Position) : Except Abort (AtOffset Leaf) :=
  tokenAt G p [] Position.zero root

/-! ### the nodes around the cursor -/

/-- A `SyntaxNode`: its place, and the length of its span. -/
structure NodeRef where
  path : List Nat
  kind : SyntaxKind
  length : Nat
  deriving DecidableEq, Repr

mutual
/-- `text_len` in bytes: `green/token.rs:102-105`, `green/node.rs:246-254`. -/
def textLen : Green → Nat
  | .token _ text => utf8Len text
  | .node _ children => textLens children
def textLens : List Green → Nat
  | [] => 0
  | c :: cs => textLen c + textLens cs
end

/-- `SyntaxToken::parent_ancestors` (`cursor.rs:1111-1114`): the nodes from the parent of a token to the root. `path` is the
rest of the path of the token, `here` the place of the node. -/
def ancestorsOf (here : List Nat) : Green → List Nat → List NodeRef
  | .token _ _, _ => []
  | .node _ _, [] => []
  | .node kind children, i :: path =>
    (match children[i]? with
      | some c => ancestorsOf (here ++ [i]) c path
      | none => []) ++ [⟨here, kind, textLen (.node kind children)⟩]

/-- `itertools::kmerge_by` of two iterators with the order `<=` of `crates/tombi-ast/src/algo.rs:37`: `top` is the iterator at the top
of the heap. The next element is the head of `top`; then the other iterator goes to the top if its head is `<=` the new head. -/
def mergeLoop (top other : List NodeRef) : List NodeRef :=
  match top, other with
  | [], ys => ys
  | x :: xs, [] => x :: xs
  | [x], y :: ys => x :: y :: ys
  | x :: x' :: xs, y :: ys =>
    if y.length ≤ x'.length then x :: mergeLoop (y :: ys) (x' :: xs) else x :: mergeLoop (x' :: xs) (y :: ys)
termination_by top.length + other.length

/-- `itertools::kmerge_by` of the iterators of a `TokenAtOffset`: with two of them the heap is built first. -/
def mergeBy : AtOffset (List NodeRef) → List NodeRef
  | .none => []
  | .single xs => xs
  | .between xs ys =>
    match xs, ys with
    | x :: xs, y :: ys => if y.length ≤ x.length then mergeLoop (y :: ys) (x :: xs) else mergeLoop (x :: xs) (y :: ys)
    | xs, ys => xs ++ ys

/-- `itertools::dedup_by(|a, b| a == b)`: equal neighbours are one. Nodes are equal when their green
node and their offset are (`cursor.rs:316-322`, `:1280-1285`); here, when their places are, which is the same for nodes with a text. -/
def dedup : List NodeRef → List NodeRef
  | [] => []
  | [x] => [x]
  | x :: y :: rest => if x.path = y.path then dedup (x :: rest) else x :: dedup (y :: rest)
termination_by xs => xs.length

/-- `crates/tombi-ast/src/algo.rs:30-39` (`ancestors_at_position`). -/
def ancestorsAtPosition (G : Segmenter) (root : Green) (p : Position) : Except Abort (List NodeRef) :=
  match tokenAtPosition G root p with
  | .error e => .error e
  | .ok r =>
    .ok (dedup (mergeBy (match r with
      | .none => .none
      | .single a => .single (ancestorsOf [] root a.path)
      | .between a b => .between (ancestorsOf [] root a.path) (ancestorsOf [] root b.path))))

end Tombi.Locate
