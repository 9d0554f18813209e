import Verif.Proofs.Depth
/-! C09: values that are nested too deep are reported. -/
namespace Tombi
open SyntaxKind Spec

/-- **C09 (partial)**: a source that has more than 128 brackets and braces open at some place is not accepted silently: the parser reports
an error. Missing: sources that are not `Parseable`, where the parser does not end normally. -/
theorem C09_deep_reported_partial (G : Segmenter) (src : List Char) (h : Parseable G src) (l : Lexed) (hl : lex G src = .ok l)
    (hd : DeeperThan 128 l.tokens) (r : Parsed) (hr : parse G src = .ok r) : r.errors ≠ [] := fun he =>
  Formatter.accepted_low h hr he hl hd

/-! ### Concrete cases -/

/-- `a=[[…]]` with `n` brackets -/
def nestedDoc (n : Nat) : List Char := "a=".toList ++ List.replicate n '[' ++ List.replicate n ']'

theorem deeper_of_check {G : Segmenter} {src : List Char} {n k : Nat}
    (h : (lex G src).toOption.map (fun l => decide ((l.tokens.take k).countP closes + n < (l.tokens.take k).countP opens)) = some true) :
    ∃ l, lex G src = .ok l ∧ DeeperThan n l.tokens := by
  cases hl : lex G src with
  | error e => rw [hl] at h; cases h
  | ok l =>
    rw [hl] at h
    simp only [Except.toOption, Option.map_some, Option.some.injEq, decide_eq_true_eq] at h
    exact ⟨l, rfl, l.tokens.take k, l.tokens.drop k, (List.take_append_drop _ _).symm, h⟩

/-- 129 brackets: the hypotheses of `C09_deep_reported_partial` hold. -/
example : Parseable charSegmenter (nestedDoc 129) ∧ ∃ l, lex charSegmenter (nestedDoc 129) = .ok l ∧ DeeperThan 128 l.tokens :=
  ⟨parseable_of_check (by decide +kernel), deeper_of_check (k := 131) (by decide +kernel)⟩

end Tombi
