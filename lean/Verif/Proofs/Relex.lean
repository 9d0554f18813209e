import Verif.Proofs.FormatRead3
import Verif.Proofs.LexAccept
import Verif.Proofs.DocRead
import Verif.Spec.FormatWords
/-! Lexing a text piece by piece: from the words at its head to the tokens that the lexer returns. -/
namespace Tombi
open SyntaxKind View

/-- The first token of `lit ++ post` is `lit`, of kind `k`. -/
def Heads (k : SyntaxKind) (lit post : List Char) : Prop :=
  ∀ c : Cursor, c.rest = lit ++ post → ∃ c1, Adv c c1 lit ∧ c.advanceToken.1 = (c1.ok k).1

theorem Accepts.heads {k : SyntaxKind} {lit post : List Char} (h : Accepts k lit post) : Heads k lit post := by
  intro c hc
  obtain ⟨c1, h1, h2⟩ := h c hc
  exact ⟨c1, h1, by rw [h2]⟩

/-- The pieces of a text that starts with a token. -/
theorem pieces_head {k : SyntaxKind} {lit post : List Char} (hne : lit ≠ []) (ha : Heads k lit post) {qs : List Piece}
    (h : PiecesOk [] qs) (ht : texts qs = lit ++ post) :
    ∃ qs', qs = ⟨k, lit, none⟩ :: qs' ∧ PiecesOk [] qs' ∧ texts qs' = post := by
  cases qs with
  | nil =>
    have : lit = [] := by
      have := congrArg List.length ht
      simp at this
      exact List.length_eq_zero_iff.mp (by omega)
    exact absurd this hne
  | cons p qs =>
    obtain ⟨⟨-, c, c', hc, hso, hsp, hadv⟩, h2⟩ := h
    rw [List.append_nil] at hc
    rw [texts_cons] at ht
    obtain ⟨c1, hA, hadv'⟩ := ha c (by rw [hc, ht])
    rw [hadv] at hadv'
    simp only [Cursor.ok, Cursor.popSpanRange, Piece.step] at hadv'
    cases he : p.err with
    | some e => rw [he] at hadv'; cases hadv'
    | none =>
      rw [he] at hadv'
      simp only [LexStep.tok.injEq, Piece.token, Token.mk.injEq, Span.mk.injEq] at hadv'
      have hoff := hadv'.2.1.2
      rw [hA.off] at hoff
      obtain ⟨e1, e2⟩ := append_inj_utf8 ht (by omega)
      refine ⟨qs, ?_, h2, e2⟩
      congr 1
      cases p
      simp only at he e1 hadv'
      rw [he, e1, hadv'.1]

/-- One token can be cut off again. -/
theorem piece_ok {k : SyntaxKind} {lit post : List Char} (hne : lit ≠ []) (ha : Heads k lit post)
    (hs : Shape k lit post) : Piece.Ok ⟨k, lit, none⟩ post := by
  have hk : k ≠ INVALID_TOKEN ∧ k ≠ EOF := by
    constructor <;> rintro rfl <;> exact hs
  refine ⟨⟨hne, hk.1, hk.2, hs⟩, ?_⟩
  obtain ⟨c1, hA, hadv⟩ := ha (Cursor.new (lit ++ post)) rfl
  refine ⟨Cursor.new (lit ++ post), (Cursor.new (lit ++ post)).advanceToken.2, rfl, rfl, rfl, ?_⟩
  rw [Prod.ext_iff]
  refine ⟨?_, rfl⟩
  rw [hadv]
  simp only [Cursor.ok, Piece.step, Piece.token, Cursor.popSpanRange]
  rw [hA.off, hA.pos, hA.startOff, hA.startPos]
  show LexStep.tok ⟨k, _, Range.new Position.zero (advPos Position.zero lit)⟩ = _
  rw [Range.new_adv]
  rfl

/-- The tokens of a text without its blanks satisfy `S`, and there are no lexical errors. -/
def LexV (T : List Char) (S : View → Prop) : Prop :=
  ∀ qs, PiecesOk [] qs → texts qs = T → (∀ p ∈ qs, p.err = none) ∧ ∃ w, viewPs qs = w ++ [⟨EOF, [], false⟩] ∧ S w

theorem lexV_nil : LexV [] (fun w => w = []) := by
  intro qs h ht
  cases qs with
  | nil => exact ⟨(fun p hp => by cases hp), [], rfl, rfl⟩
  | cons p qs =>
    exfalso
    rw [texts_cons, List.append_eq_nil_iff] at ht
    exact h.1.1.1 ht.1

theorem LexV.imp {T : List Char} {S S' : View → Prop} (h : LexV T S) (hS : ∀ w, S w → S' w) : LexV T S' := by
  intro qs hq ht
  obtain ⟨h1, w, h2, h3⟩ := h qs hq ht
  exact ⟨h1, w, h2, hS w h3⟩

theorem LexV.tok {k : SyntaxKind} {lit T : List Char} {S : View → Prop} (hne : lit ≠ []) (hk : k.isTrivia = false)
    (ha : Heads k lit T) (h : LexV T S) : LexV (lit ++ T) (fun w => ∃ j w', w = ⟨k, lit, j⟩ :: w' ∧ S w') := by
  intro qs hq ht
  obtain ⟨qs', rfl, h2, h3⟩ := pieces_head hne ha hq ht
  obtain ⟨h4, w, h5, h6⟩ := h qs' h2 h3
  refine ⟨?_, ⟨k, lit, jointPs qs'⟩ :: w, ?_, _, w, rfl, h6⟩
  · intro p hp
    rcases List.mem_cons.mp hp with rfl | hp
    · rfl
    · exact h4 p hp
  · rw [viewPs, if_neg (by simp [hk]), h5]
    rfl

/-- Two tokens that touch. -/
theorem LexV.tok2 {k : SyntaxKind} {lit T : List Char} {S : View → Prop} (hne : lit ≠ []) (hk : k.isTrivia = false)
    (ha : Heads k lit (lit ++ T)) (hb : Heads k lit T) (h : LexV T S) :
    LexV (lit ++ (lit ++ T)) (fun w => ∃ j w', w = ⟨k, lit, true⟩ :: ⟨k, lit, j⟩ :: w' ∧ S w') := by
  intro qs hq ht
  obtain ⟨qs', rfl, h2, h3⟩ := pieces_head hne ha hq ht
  obtain ⟨qs'', rfl, h2', h3'⟩ := pieces_head hne hb h2 h3
  obtain ⟨h4, w, h5, h6⟩ := h qs'' h2' h3'
  refine ⟨?_, ⟨k, lit, true⟩ :: ⟨k, lit, jointPs qs''⟩ :: w, ?_, _, w, rfl, h6⟩
  · intro p hp
    rcases List.mem_cons.mp hp with rfl | hp
    · rfl
    · rcases List.mem_cons.mp hp with rfl | hp
      · rfl
      · exact h4 p hp
  · rw [viewPs, if_neg (by simp [hk]), viewPs, if_neg (by simp [hk]), h5]
    simp [jointPs, hk]

/-! ### blanks -/

theorem mem_takeWhile_true {p : Char → Bool} {l : List Char} {x : Char} (h : x ∈ l.takeWhile p) : p x = true := by
  induction l with
  | nil => cases h
  | cons y l ih =>
    rw [List.takeWhile_cons] at h
    split at h
    · rename_i hy
      rcases List.mem_cons.mp h with rfl | h
      · exact hy
      · exact ih h
    · cases h

theorem heads_blank {c : Char} {w post : List Char} (hc : isWhitespace c = true) (hw : ∀ x ∈ w, isWhitespace x = true)
    (hp : ∀ x r, post = x :: r → isWhitespace x = false) : Heads WHITESPACE (c :: w) post := by
  intro cu hr
  rw [List.cons_append] at hr
  obtain ⟨h1, h2, h3⟩ := Adv.bump_cons hr
  obtain ⟨h4, h5⟩ := Adv.eatWhile isWhitespace cu.bump
  have ht : cu.bump.rest.takeWhile isWhitespace = w := by rw [h2]; exact takeWhile_exact hw hp
  rw [ht] at h4
  refine ⟨_, by simpa using h1.trans h4, ?_⟩
  rw [advance_cons hr]
  unfold Cursor.dispatch
  rw [h3, if_pos hc]
  rfl

/-- A blank in front changes nothing. -/
theorem LexV.blank {c : Char} {T : List Char} {S : View → Prop} (hc : isWhitespace c = true) (h : LexV T S) : LexV (c :: T) S := by
  intro qs hq ht
  have hsplit := List.takeWhile_append_dropWhile (p := isWhitespace) (l := T)
  have hdrop : ∀ x r, T.dropWhile isWhitespace = x :: r → isWhitespace x = false := by
    intro x r hx
    have := List.head?_dropWhile_not (p := isWhitespace) T
    rw [hx] at this
    simpa using this
  have hall : ∀ x ∈ T.takeWhile isWhitespace, isWhitespace x = true := by
    intro x hx
    exact mem_takeWhile_true hx
  obtain ⟨qs', rfl, h2, h3⟩ := pieces_head (by simp) (heads_blank hc hall hdrop) hq (by rw [ht, List.cons_append, hsplit])
  cases hT : T.takeWhile isWhitespace with
  | nil =>
    rw [hT, List.nil_append] at hsplit
    rw [hsplit] at h3
    obtain ⟨h4, w, h5, h6⟩ := h qs' h2 h3
    refine ⟨?_, w, ?_, h6⟩
    · intro p hp
      rcases List.mem_cons.mp hp with rfl | hp
      · rfl
      · exact h4 p hp
    · rw [viewPs, if_pos (by simp [SyntaxKind.isTrivia])]
      exact h5
  | cons d ds =>
    have hd : isWhitespace d = true := hall d (by simp [hT])
    have hds : ∀ x ∈ ds, isWhitespace x = true := fun x hx => hall x (by simp [hT, hx])
    have hheads := heads_blank hd hds hdrop
    have hok : Piece.Ok ⟨WHITESPACE, d :: ds, none⟩ (T.dropWhile isWhitespace) :=
      piece_ok (by simp) hheads ⟨by simp, by
        intro x hx
        rcases List.mem_cons.mp hx with rfl | hx
        · exact hd
        · exact hds x hx, hdrop⟩
    obtain ⟨h4, w, h5, h6⟩ := h (⟨WHITESPACE, d :: ds, none⟩ :: qs') ⟨by rw [List.append_nil, h3]; exact hok, h2⟩
      (by rw [texts_cons, h3, ← hT, hsplit])
    refine ⟨?_, w, ?_, h6⟩
    · intro p hp
      rcases List.mem_cons.mp hp with rfl | hp
      · rfl
      · exact h4 p (by simp [hp])
    · rw [viewPs, if_pos (by simp [SyntaxKind.isTrivia])]
      rw [viewPs, if_pos (by simp [SyntaxKind.isTrivia])] at h5
      exact h5

theorem LexV.blanks {u T : List Char} {S : View → Prop} (hu : ∀ c ∈ u, isWhitespace c = true) (h : LexV T S) : LexV (u ++ T) S := by
  induction u with
  | nil => exact h
  | cons c u ih => exact (ih fun x hx => hu x (by simp [hx])).blank (hu c (by simp))

/-! ### line breaks, comments and marks -/

theorem heads_lineBreak {le : List Char} (h : IsLineEnding le) (post : List Char) : Heads LINE_BREAK le post := by
  intro cu hr
  rcases h with rfl | rfl
  · obtain ⟨h1, h2, h3⟩ := Adv.bump_cons hr
    refine ⟨_, h1, ?_⟩
    rw [advance_cons hr]
    unfold Cursor.dispatch
    rw [h3]
    simp only [show isWhitespace '\n' = false by decide, show isLineBreak '\n' = true by decide, Bool.false_eq_true, if_false, if_true]
    unfold Cursor.lineBreak
    rw [h3, if_neg (by decide)]
  · obtain ⟨h1, h2, h3⟩ := Adv.bump_cons hr
    obtain ⟨h4, h5⟩ := Adv.eatN 1 cu.bump
    rw [h2] at h4
    refine ⟨_, h1.trans h4, ?_⟩
    rw [advance_cons hr]
    unfold Cursor.dispatch
    rw [h3]
    simp only [show isWhitespace '\r' = false by decide, show isLineBreak '\r' = true by decide, Bool.false_eq_true, if_false, if_true]
    unfold Cursor.lineBreak
    rw [h3, if_pos rfl, if_pos (by rw [Cursor.peek_one, h2]; rfl)]
    rfl

theorem heads_comment {t post : List Char} (ht : ∀ c ∈ t, isLineBreak c = false)
    (hp : ∀ c r, post = c :: r → isLineBreak c = true) : Heads COMMENT ('#' :: t) post := by
  intro cu hr
  rw [List.cons_append] at hr
  obtain ⟨h1, h2, h3⟩ := Adv.bump_cons hr
  obtain ⟨h4, h5⟩ := Adv.eatWhile (fun x => !(x == '\n' || x == '\r')) cu.bump
  have hw : cu.bump.rest.takeWhile (fun x => !(x == '\n' || x == '\r')) = t := by
    rw [h2]
    refine takeWhile_exact ?_ ?_
    · intro x hx
      have := ht x hx
      simp only [isLineBreak, Bool.or_eq_false_iff] at this
      simp [this.1, this.2]
    · intro x r hx
      have := hp x r hx
      simp only [isLineBreak, Bool.or_eq_true] at this
      simp only [Bool.not_eq_false', Bool.or_eq_true]
      exact this.symm
  rw [hw] at h4
  refine ⟨_, (show '#' :: t = ['#'] ++ t from rfl) ▸ h1.trans h4, ?_⟩
  rw [advance_cons hr]
  unfold Cursor.dispatch
  rw [h3]
  simp only [show isWhitespace '#' = false by decide, show isLineBreak '#' = false by decide, Bool.false_eq_true, if_false, if_true]
  rfl

/-- The texts of the marks. -/
def markChar : SyntaxKind → Option Char
  | BRACE_START => some '{'
  | BRACE_END => some '}'
  | BRACKET_START => some '['
  | BRACKET_END => some ']'
  | COMMA => some ','
  | DOT => some '.'
  | EQUAL => some '='
  | _ => none

theorem heads_mark {k : SyntaxKind} {x : Char} (h : markChar k = some x) (post : List Char) : Heads k [x] post := by
  intro cu hr
  obtain ⟨h1, h2, h3⟩ := Adv.bump_cons hr
  refine ⟨_, h1, ?_⟩
  rw [advance_cons hr]
  unfold Cursor.dispatch
  rw [h3]
  revert h
  cases k <;> simp only [markChar, reduceCtorEq, false_implies, Option.some.injEq] <;> (rintro rfl; rfl)

end Tombi
