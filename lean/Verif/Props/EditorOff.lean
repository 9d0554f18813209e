import Verif.Proofs.EditorKept
import Verif.Props.EditorOrder
/-! Property C81: items stay in their table or array, and where sorting is turned off they stay in their order. -/
namespace Tombi.Editing
open SyntaxKind
open Tombi.Formatter (Node Body Section Doc Comma Text Env TomlSource docOf formatDoc)
open Tombi.Reading (Scalar headComments sampleEnv)
open Tombi.Spec

variable {S : Type}

/-- **C81**: when a source without syntax errors is formatted with any schema, settings and comment directives, the document that is
printed has the items of the source: each item of a table or an array is an item of the same table or array, and the items of a table or
an array for which comments (or settings, but for inline tables) turn sorting off are in the order of the source. If comments turn it off
for the document, the headers are in the order of the source, too. Missing: how comment directives and settings are read. -/
theorem C81_off_partial {w : EditWorld S} {fuel : Nat} {schema : Option S} {E : Env} {src : Text} {p : Parsed} (hp : parse E.G src = .ok p)
    {out : Text} (hout : formatSorted w fuel schema E src = .ok (some out)) :
    ∃ d, out = formatDoc E d ∧
      SortedBody w (TableOff w (headComments (docOf p.tree).body)) (docOf p.tree).body d.body ∧
      (∀ s' ∈ d.sections, ∃ s ∈ (docOf p.tree).sections, SortedSection w s s') ∧
      (CommentOff w (headComments (docOf p.tree).body) → d.sections.map (·.header) = (docOf p.tree).sections.map (·.header)) := by
  unfold formatSorted at hout
  rw [hp] at hout
  simp only at hout
  split at hout
  · cases hd : sortTree w fuel E.version schema p.tree with
    | error e => rw [hd] at hout; cases hout
    | ok d =>
      rw [hd] at hout
      simp only [Except.ok.injEq, Option.some.injEq] at hout
      exact ⟨d, hout.symm, sortTree_moved hd⟩
  · cases hout

/-! ### a concrete case -/

/-- The schema of C80, with comments that turn sorting off. -/
def packageOff : EditWorld Place :=
  { packageSchema with tableDirective := fun cs => if cs.contains "# off".toList then some ⟨true, none⟩ else none }

/-- In one of two tables, sorting is turned off. -/
theorem package_off : formatSorted packageOff 30 (some .document) sampleEnv "# off\n[d]\nx=1\na=3\n[p]\nv=1\nn=2\n".toList =
    .ok (some "[p]\nn = 2\nv = 1\n\n# off\n[d]\nx = 1\na = 3\n".toList) := by decide +kernel

/-- The hypotheses of the theorem hold of it, and there is a table where sorting is turned off. -/
example : ∃ (p : Parsed) (d : Doc), parse charSegmenter "# off\n[d]\nx=1\na=3\n[p]\nv=1\nn=2\n".toList = .ok p ∧
    (∃ s ∈ (docOf p.tree).sections, TableOff packageOff (sectionComments s)) ∧
    ∀ s' ∈ d.sections, ∃ s ∈ (docOf p.tree).sections, SortedSection packageOff s s' := by
  have h : (parse charSegmenter "# off\n[d]\nx=1\na=3\n[p]\nv=1\nn=2\n".toList).toOption.map (fun p =>
      (docOf p.tree).sections.any fun s => (packageOff.tableDirective (sectionComments s)).any (·.disabled)) = some true := by decide +kernel
  cases hp : parse charSegmenter "# off\n[d]\nx=1\na=3\n[p]\nv=1\nn=2\n".toList with
  | error e => rw [hp] at h; cases h
  | ok p =>
    rw [hp] at h
    simp only [Except.toOption, Option.map_some, Option.some.injEq, List.any_eq_true] at h
    obtain ⟨s, hs, ho⟩ := h
    obtain ⟨d, -, -, hd, -⟩ := C81_off_partial (E := sampleEnv) hp package_off
    refine ⟨p, d, rfl, ⟨s, hs, .inl ?_⟩, hd⟩
    cases hx : packageOff.tableDirective (sectionComments s) with
    | none => rw [hx] at ho; cases ho
    | some o => rw [hx] at ho; exact ⟨o, hx, by simpa using ho⟩

end Tombi.Editing
