import Verif.Proofs.FileLex
/-! Texts of the TOML grammar are parsed without errors. -/
namespace Tombi.TomlFile
open SyntaxKind
open Tombi.Formatter

mutual
theorem valOf_bare : (n : Node) → valOf n.bare = valOf n
  | .lit .. => by simp [Node.bare, valOf]
  | .array _ _ b _ => by simp [Node.bare, valOf, valsOf_bare b]
  | .table _ _ b _ => by simp [Node.bare, valOf, pairsOf_bare b]
  | .pair _ _ _ _ => by simp [Node.bare, valOf]
theorem valsOf_bare : (b : Body) → valsOf b.bare = valsOf b
  | .nil => by simp [Body.bare]
  | .dangling _ _ b => by simp [Body.bare, valsOf, valsOf_bare b]
  | .item _ n _ b => by simp [Body.bare, valsOf, valsOf_bare b, valOf_bare n]
theorem pairsOf_bare : (b : Body) → pairsOf b.bare = pairsOf b
  | .nil => by simp [Body.bare]
  | .dangling _ _ b => by simp [Body.bare, pairsOf, pairsOf_bare b]
  | .item _ (.pair _ _ _ v) _ b => by simp [Body.bare, Node.bare, pairsOf, pairsOf_bare b, valOf_bare v]
  | .item _ (.lit ..) _ b => by simp [Body.bare, Node.bare, pairsOf, pairsOf_bare b]
  | .item _ (.array ..) _ b => by simp [Body.bare, Node.bare, pairsOf, pairsOf_bare b]
  | .item _ (.table ..) _ b => by simp [Body.bare, Node.bare, pairsOf, pairsOf_bare b]
end

theorem fileOf_bare (d : Doc) : fileOf d.bare = fileOf d := by
  simp [fileOf, Doc.bare, pairsOf_bare, secOf, Section.bare]

theorem file_parses (G : Segmenter) {f : File} {t : Text} (h : FileText Words.usual f t) (hn : f.Nested maxRecursionDepth)
    (hlen : utf8Len t < 2 ^ 28) : Parseable G t ∧ ∃ p, parse G t = .ok p ∧ p.errors = [] ∧ fileOf (docOf p.tree) = f := by
  obtain ⟨h0, r, h1, h2, w, d, -, hd, hb⟩ := parse_of_pieces (G := G) hlen (lex_lines h)
    (fun w hw => by
      have hv : ∀ x ∈ List.head? [(⟨EOF, [], false⟩ : VTok)], ¬ IsDotted x := by
        intro x hx
        simp only [List.head?_cons, Option.mem_def, Option.some.injEq] at hx
        subst hx
        exact not_dotted (k := EOF) rfl (by decide)
      obtain ⟨h3, h4⟩ := hw.2 [⟨EOF, [], false⟩] hv (.cons (by decide) trivial)
      exact h4.of_head h3)
    (doc' := fun _ d => fileOf d = f)
    (fun w hw => by
      obtain ⟨cs, v', m0, h3, h4⟩ := doc_root (f := f) (Nat.le_refl _) hw.1 hn
      exact ⟨_, h4, cs, v', m0, h3, rfl⟩)
  refine ⟨h0, r, h1, h2, ?_⟩
  rw [← fileOf_bare, hb, fileOf_bare, hd]

end Tombi.TomlFile
