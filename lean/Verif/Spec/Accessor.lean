import Verif.Model.Accessor
/-! Specification for C40, C59 and C60: readable keys, Markdown code spans, matching of patterns. -/
namespace Tombi.Spec.Accessor
open Tombi.Accessor

/-- a text of the form `${...}`, which is printed as it is -/
def Placeholder (k : List Char) : Prop := ∃ m, k = ['$', '{'] ++ m ++ ['}']

/-- A TOML bare key: a non-empty text of ASCII letters, digits, underscores and dashes. -/
def Bare (k : List Char) : Prop :=
  k ≠ [] ∧ ∀ c ∈ k, ('a' ≤ c ∧ c ≤ 'z') ∨ ('A' ≤ c ∧ c ≤ 'Z') ∨ ('0' ≤ c ∧ c ≤ '9') ∨ c = '_' ∨ c = '-'

/-- a control character that is written as an escape TOML 1.0 does not have: NUL, BEL, VT, ESC -/
def NoEscape (c : Char) : Prop := c = '\x00' ∨ c = '\x07' ∨ c = '\x0b' ∨ c = '\x1b'

/-- The CommonMark rule for code spans: `text` is a code span with content `content`, whose fences have `n`
backticks. The fences are not longer than `n` (the content does not start or end with a backtick), the first
possible closing fence is the last one, and no blank is stripped. -/
structure CodeSpan (n : Nat) (content text : List Char) : Prop where
  text : text = List.replicate n '`' ++ content ++ List.replicate n '`'
  fence : 0 < n
  nonempty : content ≠ []
  first : content.head? ≠ some '`' ∧ content.head? ≠ some ' '
  last : content.getLast? ≠ some '`'
  inside : ∀ pre post, content ≠ pre ++ List.replicate n '`' ++ post

/-- one item of a pattern covers one step of a path -/
inductive Covers : PatternAccessor → Accessor → Prop
  | key (k) : Covers (.key k) (.key k)
  | anyKey (k) : Covers .anyKey (.key k)
  | index (i) : Covers (.index i) (.index i)
  | anyIndex (i) : Covers .anyIndex (.index i)

/-- a pattern matches a path: same length, every item covers its step -/
def Matches (p : List PatternAccessor) (path : List Accessor) : Prop :=
  p.length = path.length ∧ ∀ (i : Nat) (x : PatternAccessor) (a : Accessor),
    p[i]? = some x → path[i]? = some a → Covers x a

/-- the number of items that are no wildcards -/
def exactItems (p : List PatternAccessor) : Nat :=
  (p.filter fun x => x ≠ .anyKey ∧ x ≠ .anyIndex).length

/-- the item at position `i` is the first of the most specific ones matching `path` -/
def Best {α : Type} (pattern : α → List PatternAccessor) (items : List α) (path : List Accessor) (i : Nat) : Prop :=
  ∃ x, items[i]? = some x ∧ Matches (pattern x) path
    ∧ ∀ (j : Nat) (y : α), items[j]? = some y → Matches (pattern y) path →
      exactItems (pattern y) ≤ exactItems (pattern x)
        ∧ (j < i → exactItems (pattern y) < exactItems (pattern x))

end Tombi.Spec.Accessor
