import Verif.Proofs.DocStrip
import Verif.Spec.Formatter
/-! Facts about the documents that `docOf` reads from trees without syntax errors. -/
namespace Tombi.Formatter
open SyntaxKind

/-- What stands before an element of a body: nothing, a dangling comment group, or an item. -/
inductive Prev where
  | start | dangling | item
  deriving DecidableEq, Repr

/-- a key-value pair -/
def Node.isPair : Node → Bool
  | .pair .. => true
  | _ => false

/-- the blank lines before the first item of a group -/
def FirstOk (prev : Prev) : Option Nat → Prop
  | none => prev = .item
  | some n => (prev ≠ .start → 1 ≤ n) ∧ n ≤ 255

mutual
/-- a value or a key-value pair at nesting depth `d` -/
def Node.WF (d : Nat) : Node → Prop
  | .lit _ k _ _ => View.isLiteral k = true
  | .array _ _ b _ => d < maxRecursionDepth ∧ b.WF false (d + 1) .start
  | .table _ _ b _ => d < maxRecursionDepth ∧ b.WF true (d + 1) .start
  | .pair _ ks _ v => ks ≠ [] ∧ v.isPair = false ∧ v.leading = [] ∧ v.WF d
/-- the groups of an array, of an inline table or of a table (`pairs`) -/
def Body.WF (pairs : Bool) (d : Nat) (prev : Prev) : Body → Prop
  | .nil => True
  | .dangling n cs rest => cs ≠ [] ∧ (prev = .dangling → 1 ≤ n) ∧ n ≤ 255 ∧ rest.WF pairs d .dangling
  | .item first n _ rest => n.isPair = pairs ∧ n.WF d ∧ FirstOk prev first ∧ rest.WF pairs d .item
end

/-- what stands before the end of the body -/
def Body.last (prev : Prev) : Body → Prev
  | .nil => prev
  | .dangling _ _ rest => rest.last .dangling
  | .item _ _ _ rest => rest.last .item

structure Section.WF (s : Section) : Prop where
  header : s.header ≠ []
  body : s.body.WF true 0 .start

structure Doc.WF (doc : Doc) : Prop where
  body : doc.body.WF true 0 .start
  sections : ∀ s ∈ doc.sections, s.WF
  first : ∀ s ∈ doc.sections.head?, (doc.body.last .start = .dangling → 1 ≤ s.blank) ∧ s.blank ≤ 255

end Tombi.Formatter
