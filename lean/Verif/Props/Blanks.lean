import Verif.Proofs.ViewMask
import Verif.Spec.Blanks
import Verif.Props.Parser
/-!
C67: blanks between tokens do not matter.
-/
namespace Tombi
open SyntaxKind View

theorem signs_mask (src : List Char) (ts : List Token) :
    (mask (viewOf src ts)).map (fun t => (t.kind, t.text, t.joint)) = signs src ts := by
  induction ts with
  | nil => rfl
  | cons t ts ih =>
    by_cases ht : t.kind.isTrivia = true
    · have : t.kind = WHITESPACE := trivia_iff.mp ht
      rw [viewOf, if_pos ht, signs, if_pos this, ih]
    · have : t.kind ≠ WHITESPACE := fun h => ht (trivia_iff.mpr h)
      rw [viewOf, if_neg ht, signs, if_neg this, mask, List.map_cons, ih]
      congr 3
      cases ts with
      | nil => rfl
      | cons u us =>
        by_cases hu : u.kind.isTrivia = true
        · have hu' : u.kind = WHITESPACE := trivia_iff.mp hu
          simp only [jointBefore, doubled, hu']
          rw [show (!WHITESPACE.isTrivia) = false from rfl, Bool.false_and]
          symm
          rw [Bool.eq_false_iff]
          intro h
          simp only [Bool.and_eq_true, beq_iff_eq] at h
          exact this h.1.symm
        · have hd' : hd (viewOf src (u :: us)) = u.kind := by rw [viewOf, if_neg hu]; rfl
          simp only [jointBefore, hd', doubled, matters, hu]
          rw [Bool.eq_iff_iff]
          simp only [Bool.and_eq_true, Bool.or_eq_true, beq_iff_eq, Bool.not_eq_true']
          constructor
          · rintro ⟨-, h, h'⟩; exact ⟨h.symm, h'⟩
          · rintro ⟨h, h'⟩; exact ⟨by simp, h.symm, h'⟩

theorem mask_inj {u v : View} (h : u.map (fun t => (t.kind, t.text, t.joint)) = v.map (fun t => (t.kind, t.text, t.joint))) :
    u = v := by
  induction u generalizing v with
  | nil => cases v with
    | nil => rfl
    | cons => cases h
  | cons a u ih => cases v with
    | nil => cases h
    | cons b v =>
      simp only [List.map_cons, List.cons.injEq, Prod.mk.injEq] at h
      obtain ⟨⟨h1, h2, h3⟩, h4⟩ := h
      rw [ih h4]
      cases a; cases b
      simp_all

/-- **C67 (partial)**: spaces and tabs between tokens do not matter. Two documents that the lexer accepts and that have
the same tokens apart from blanks (where two brackets that touch are a mark of their own) are both accepted or both
rejected by the parser, and when they are accepted their syntax trees are the same apart from blanks. Missing: documents
that are not `Parseable`, where the claim is false (`C08_parse_total_false`). -/
theorem C67_blanks_partial (G : Segmenter) (a b : List Char) (ha : Parseable G a) (hb : Parseable G b)
    (la lb : Lexed) (hla : lex G a = .ok la) (hlb : lex G b = .ok lb) (hea : la.errors = []) (heb : lb.errors = [])
    (h : signs a la.tokens = signs b lb.tokens) (ra rb : Parsed) (hra : parse G a = .ok ra) (hrb : parse G b = .ok rb) :
    (ra.errors = [] ↔ rb.errors = []) ∧ (ra.errors = [] → strip ra.tree = strip rb.tree) := by
  obtain ⟨l, r, h1, h2, h3⟩ := parse_view G a ha.1 ha.2
  rw [hla] at h1; rw [hra] at h2; cases h1; cases h2
  obtain ⟨l', r', h1, h2, h3'⟩ := parse_view G b hb.1 hb.2
  rw [hlb] at h1; rw [hrb] at h2; cases h1; cases h2
  have e : mask (viewOf a la.tokens) = mask (viewOf b lb.tokens) :=
    mask_inj ((signs_mask a la.tokens).trans (h.trans (signs_mask b lb.tokens).symm))
  have k1 := h3 (8 * (la.tokens.length + 2) + 8 * (lb.tokens.length + 2)) (by omega)
  have k2 := h3' (8 * (la.tokens.length + 2) + 8 * (lb.tokens.length + 2)) (by omega)
  generalize 8 * (la.tokens.length + 2) + 8 * (lb.tokens.length + 2) = m at k1 k2
  have b1 := Blind.root m (viewOf a la.tokens)
  have b2 := Blind.root m (viewOf b lb.tokens)
  rw [e] at b1
  rw [b1] at b2
  cases r1 : rootV m (viewOf a la.tokens) with
  | none =>
    cases r2 : rootV m (viewOf b lb.tokens) with
    | none =>
      rw [r1] at k1; rw [r2] at k2
      obtain ⟨x, xs, k1⟩ := k1
      obtain ⟨y, ys, k2⟩ := k2
      rw [k1, k2]
      simp
    | some y => rw [r1, r2] at b2; cases b2
  | some x =>
    cases r2 : rootV m (viewOf b lb.tokens) with
    | none => rw [r1, r2] at b2; cases b2
    | some y =>
      rw [r1, r2] at b2
      rw [r1] at k1; rw [r2] at k2
      obtain ⟨k1, -, D, cs, q1, q2, q3, -⟩ := k1
      obtain ⟨k2, -, D', cs', q1', q2', q3', -⟩ := k2
      rw [hea] at k1
      rw [heb] at k2
      refine ⟨by rw [k1, k2], fun _ => ?_⟩
      rw [q2, q2', strip, strip, q3, q3']
      have : x.1 = y.1 := by simpa using congrArg (fun z => z.map Prod.fst) b2
      rw [q1, q1'] at this
      cases this
      rfl

/-- Two documents that differ in blanks. -/
def spaced : List Char × List Char := ("[[a]]\nk=[[1,2],{}]#c\n".toList, "\t[[ a ]]  \n k = [[1 ,2 ] ,\t{ } ] #c\n".toList)

/-- Concrete case for C67: two such documents, both accepted. -/
example : Parseable charSegmenter spaced.1 ∧ Parseable charSegmenter spaced.2 :=
  ⟨parseable_of_check (by decide +kernel), parseable_of_check (by decide +kernel)⟩

example : (do
    let l ← (lex charSegmenter spaced.1).toOption
    let l' ← (lex charSegmenter spaced.2).toOption
    let r ← (parse charSegmenter spaced.1).toOption
    let r' ← (parse charSegmenter spaced.2).toOption
    some (l.errors.length, l'.errors.length, decide (signs spaced.1 l.tokens = signs spaced.2 l'.tokens),
      r.errors.length, r'.errors.length)) = some (0, 0, true, 0, 0) := by decide +kernel
end Tombi
