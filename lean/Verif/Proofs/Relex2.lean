import Verif.Proofs.Relex
/-! Lexing what the formatter has written: the tokens are those that the pieces stand for. -/
namespace Tombi.Formatter
open SyntaxKind
open Tombi.Format (AstKey)

/-- A text after which any word is complete. -/
def Stop (post : Text) : Prop := DelimPost post ∧ ∀ x r, post = ' ' :: x :: r → isAsciiDigit x = false

/-- The kinds of the pieces of keys. -/
def isKeyKind (k : SyntaxKind) : Bool := k == BARE_KEY || k == BASIC_STRING || k == LITERAL_STRING

/-- The kinds of punctuation marks. -/
def isMark (k : SyntaxKind) : Bool := (markChar k).isSome || k == DOUBLE_BRACKET_START || k == DOUBLE_BRACKET_END

/-- The text of a punctuation mark. -/
def markOf : SyntaxKind → Text
  | COMMA => [',']
  | k => markText k

/-- A text that does not start with a brace. -/
def NoBrace (post : Text) : Prop := ∀ c r, post = c :: r → c ≠ '{' ∧ c ≠ '}'

/-- A token of kind `k'` is read as a word of kind `k`. -/
def ReadAs (k k' : SyntaxKind) (t : Text) : Prop :=
  (if k = BARE_KEY then ∀ j, ReadsBare ⟨k', t, j⟩ else k' = k) ∧ k'.isTrivia = false

/-- A written word is lexed as it is, before whatever the formatter writes behind it. -/
structure WordLex (k : SyntaxKind) (t : Text) : Prop where
  ne : t ≠ []
  reads : ∃ k', ReadAs k k' t ∧ ∀ post, Stop post → (k = BARE_KEY → NoBrace post) → Accepts k' t post

/-- A written key is lexed as it is before a dot. -/
def DotLex (k : SyntaxKind) (t : Text) : Prop := ∃ k', ReadAs k k' t ∧ ∀ post, Accepts k' t ('.' :: post)

/-- The text of a piece can be lexed. -/
def TextOk : Piece → Prop
  | .comment t => ∃ u, t = '#' :: u ∧ ∀ c ∈ u, isLineBreak c = false
  | .token k t => isMark k = true ∨ WordLex k t
  | _ => True

/-- Marks that may follow a word. -/
def closes (k : SyntaxKind) : Bool :=
  k == COMMA || k == EQUAL || k == BRACKET_END || k == BRACE_END || k == DOUBLE_BRACKET_END

/-- The pieces start with something that ends a word, or a bare key. -/
def Stops (bare : Bool) : List Piece → Prop
  | [] => True
  | .blank _ :: ps => Stops bare ps
  | .newline :: _ => True
  | .comment _ :: _ => True
  | .token k _ :: _ => closes k = true ∧ (bare = true → k ≠ BRACE_END)

/-- Every word is followed by something that ends it, or by a dot if it is a key; blanks are blank, marks are marks. -/
def Adj : List Piece → Prop
  | [] => True
  | .blank t :: ps => (∀ c ∈ t, isWhitespace c = true) ∧ Adj ps
  | .newline :: ps => Adj ps
  | .comment _ :: ps => Adj ps
  | .token k t :: ps =>
    (if isMark k then t = markOf k
      else Stops (k == BARE_KEY) ps ∨ (DotLex k t ∧ ∃ ps', ps = .token DOT ['.'] :: ps')) ∧ Adj ps

/-- A text that starts with blanks and then something that ends a word. -/
theorem stop_of {u T : Text} (hu : ∀ c ∈ u, isWhitespace c = true)
    (hT : ∀ c r, T = c :: r → isTokenSeparator c = true ∧ isWhitespace c = false) : Stop (u ++ T) := by
  have hsep : ∀ c, isWhitespace c = true → isTokenSeparator c = true := by
    intro c hc
    simp only [isWhitespace, Bool.or_eq_true, beq_iff_eq] at hc
    rcases hc with rfl | rfl <;> decide
  have hdig : ∀ c, isTokenSeparator c = true → isAsciiDigit c = false := by
    intro c hc
    simp only [isTokenSeparator, Bool.or_eq_true, beq_iff_eq] at hc
    rcases hc with (((((((((((rfl | rfl) | rfl) | rfl) | rfl) | rfl) | rfl) | rfl) | rfl) | rfl) | rfl) | rfl) <;> decide
  constructor
  · intro c r h
    cases u with
    | nil => exact (hT c r h).1
    | cons d u =>
      simp only [List.cons_append, List.cons.injEq] at h
      obtain ⟨rfl, -⟩ := h
      exact hsep d (hu d (by simp))
  · intro x r h
    cases u with
    | nil =>
      have := (hT ' ' (x :: r) h).2
      simp [isWhitespace] at this
    | cons d u =>
      simp only [List.cons_append, List.cons.injEq] at h
      obtain ⟨rfl, h⟩ := h
      cases u with
      | nil => exact hdig x (hT x r h).1
      | cons e u =>
        simp only [List.cons_append, List.cons.injEq] at h
        obtain ⟨rfl, -⟩ := h
        exact hdig e (hsep e (hu e (by simp)))

theorem lineEnding_head {le : Text} (h : IsLineEnding le) : ∃ c r, le = c :: r ∧ isLineBreak c = true := by
  rcases h with rfl | rfl
  · exact ⟨'\n', [], rfl, by decide⟩
  · exact ⟨'\r', ['\n'], rfl, by decide⟩

theorem lb_sep {c : Char} (h : isLineBreak c = true) : isTokenSeparator c = true ∧ isWhitespace c = false := by
  simp only [isLineBreak, Bool.or_eq_true, beq_iff_eq] at h
  rcases h with rfl | rfl <;> decide

@[simp] theorem textOf_nil (le : Text) : textOf le [] = [] := rfl
@[simp] theorem textOf_cons (le : Text) (p : Piece) (ps : List Piece) : textOf le (p :: ps) = p.text le ++ textOf le ps := rfl

theorem lb_brace {c : Char} (h : isLineBreak c = true) : c ≠ '{' ∧ c ≠ '}' := by
  simp only [isLineBreak, Bool.or_eq_true, beq_iff_eq] at h
  rcases h with rfl | rfl <;> decide

/-- The text of pieces that end a word. -/
theorem stops_text {le : Text} (hle : IsLineEnding le) {b : Bool} {ps : List Piece} (h : Stops b ps) (ha : Adj ps)
    (ht : ∀ p ∈ ps, TextOk p) : ∃ u T, textOf le ps ++ le = u ++ T ∧ (∀ c ∈ u, isWhitespace c = true) ∧
      ∀ c r, T = c :: r → (isTokenSeparator c = true ∧ isWhitespace c = false) ∧ (b = true → c ≠ '{' ∧ c ≠ '}') := by
  obtain ⟨lc, lr, hl, hlb⟩ := lineEnding_head hle
  induction ps with
  | nil =>
    refine ⟨[], le, rfl, (fun c hc => by cases hc), ?_⟩
    intro c r hc
    rw [hl] at hc
    simp only [List.cons.injEq] at hc
    rw [← hc.1]
    exact ⟨lb_sep hlb, fun _ => lb_brace hlb⟩
  | cons p ps ih =>
    cases p with
    | blank t =>
      obtain ⟨u, T, h1, h2, h3⟩ := ih h ha.2 fun q hq => ht q (by simp [hq])
      refine ⟨t ++ u, T, ?_, ?_, h3⟩
      · rw [textOf_cons, Piece.text, List.append_assoc, h1, List.append_assoc]
      · intro c hc
        rcases List.mem_append.mp hc with hc | hc
        · exact ha.1 c hc
        · exact h2 c hc
    | newline =>
      refine ⟨[], _, rfl, (fun c hc => by cases hc), ?_⟩
      intro c r hc
      have hc : le ++ textOf le ps ++ le = c :: r := hc
      rw [hl, List.cons_append, List.cons_append] at hc
      rw [← (List.cons.inj hc).1]
      exact ⟨lb_sep hlb, fun _ => lb_brace hlb⟩
    | comment t =>
      obtain ⟨v, rfl, -⟩ := ht (.comment t) (by simp)
      refine ⟨[], _, rfl, (fun c hc => by cases hc), ?_⟩
      intro c r hc
      have hc : '#' :: (v ++ textOf le ps ++ le) = c :: r := hc
      rw [← (List.cons.inj hc).1]
      exact ⟨by decide, fun _ => by decide⟩
    | token k t =>
      have hc : closes k = true := h.1
      have hb : b = true → k ≠ BRACE_END := h.2
      refine ⟨[], _, rfl, (fun c hc => by cases hc), ?_⟩
      intro c r hx
      rw [textOf_cons, Piece.text] at hx
      have ht := ha.1
      have hm : isMark k = true := by revert hc; cases k <;> decide
      rw [if_pos hm] at ht
      rw [ht] at hx
      revert hc hx hb
      cases k <;> simp only [closes, markOf, markText, List.cons_append] <;>
        first
        | (intro h; exact absurd h (by decide))
        | (rintro - - ⟨rfl, -⟩; exact ⟨by decide, fun _ => by decide⟩)
        | (rintro - hb ⟨rfl, -⟩; exact ⟨by decide, fun e => absurd rfl (hb e)⟩)

/-- Blanks are no braces. -/
theorem noBrace_of {u T : Text} (hu : ∀ c ∈ u, isWhitespace c = true) (hT : ∀ c r, T = c :: r → c ≠ '{' ∧ c ≠ '}') :
    NoBrace (u ++ T) := by
  intro c r h
  cases u with
  | nil => exact hT c r h
  | cons d u =>
    rw [← (List.cons.inj h).1]
    have := hu d (by simp)
    simp only [isWhitespace, Bool.or_eq_true, beq_iff_eq] at this
    rcases this with rfl | rfl <;> decide

theorem showAll {ps : List Piece} {w : View} {p : Piece} {a : View} (h1 : Show1 p a) (h2 : Shows ps w) :
    Shows (p :: ps) (a ++ w) := ⟨a, w, rfl, h1, h2⟩

/-- Lexing what the formatter has written gives the tokens that the pieces stand for. -/
theorem relex {le : Text} (hle : IsLineEnding le) (ps : List Piece) (ha : Adj ps) (hc : Closed ps)
    (ht : ∀ p ∈ ps, TextOk p) :
    LexV (textOf le ps ++ le) (fun w => ∃ w0 y, w = w0 ++ [y] ∧ y.kind = LINE_BREAK ∧ Shows ps w0) := by
  have hlene : le ≠ [] := by obtain ⟨c, r, h, -⟩ := lineEnding_head hle; simp [h]
  induction ps with
  | nil =>
    have := lexV_nil.tok hlene (k := LINE_BREAK) (by decide) (heads_lineBreak hle [])
    rw [List.append_nil] at this
    refine LexV.imp (T := le) this ?_
    rintro w ⟨j, w', rfl, rfl⟩
    exact ⟨[], _, rfl, rfl, rfl⟩
  | cons p ps ih =>
    have htp := ht p (by simp)
    have htl : ∀ q ∈ ps, TextOk q := fun q hq => ht q (by simp [hq])
    rw [textOf_cons, List.append_assoc]
    cases p with
    | blank t =>
      refine ((ih ha.2 hc htl).blanks ha.1).imp ?_
      rintro w ⟨w0, y, rfl, hy, hw⟩
      exact ⟨w0, y, rfl, hy, showAll (a := []) rfl hw⟩
    | newline =>
      refine LexV.imp ((ih ha hc htl).tok hlene (k := LINE_BREAK) (by decide) (heads_lineBreak hle _)) ?_
      rintro w ⟨j, w', rfl, w0, y, rfl, hy, hw⟩
      exact ⟨_ :: w0, y, rfl, hy, showAll (a := [_]) ⟨_, rfl, rfl⟩ hw⟩
    | comment t =>
      obtain ⟨u, rfl, hu⟩ := htp
      have hh : Heads COMMENT ('#' :: u) (textOf le ps ++ le) := by
        refine heads_comment hu ?_
        intro c r h
        obtain ⟨lc, lr, hl, hlb⟩ := lineEnding_head hle
        have : ∃ r', textOf le ps ++ le = le ++ r' := by
          rcases hc.1 with rfl | hn
          · exact ⟨[], by simp⟩
          · cases ps with
            | nil => cases hn
            | cons q ps =>
              simp only [List.head?_cons, Option.some.injEq] at hn
              subst hn
              exact ⟨_, by rw [textOf_cons, Piece.text, List.append_assoc]⟩
        obtain ⟨r', hr'⟩ := this
        rw [hr', hl] at h
        simp only [List.cons_append, List.cons.injEq] at h
        rw [← h.1]
        exact hlb
      refine LexV.imp ((ih ha hc.2 htl).tok (lit := '#' :: u) (by simp) (k := COMMENT) (by decide) hh) ?_
      rintro w ⟨j, w', rfl, w0, y, rfl, hy, hw⟩
      exact ⟨_ :: w0, y, rfl, hy, showAll (a := [_]) ⟨_, rfl, rfl, rfl⟩ hw⟩
    | token k t =>
      obtain ⟨ha1, ha2⟩ := ha
      have ih := ih ha2 hc htl
      by_cases hm : isMark k = true
      · rw [if_pos hm] at ha1
        subst ha1
        by_cases hk1 : k = DOUBLE_BRACKET_START
        · subst hk1
          refine LexV.imp (ih.tok2 (lit := ['[']) (k := BRACKET_START) (by simp) (by decide) (heads_mark rfl _) (heads_mark rfl _)) ?_
          rintro w ⟨j, w', rfl, w0, y, rfl, hy, hw⟩
          refine ⟨_ :: _ :: w0, y, rfl, hy, showAll (a := [_, _]) ?_ hw⟩
          exact ⟨_, _, rfl, rfl, rfl, rfl⟩
        by_cases hk2 : k = DOUBLE_BRACKET_END
        · subst hk2
          refine LexV.imp (ih.tok2 (lit := [']']) (k := BRACKET_END) (by simp) (by decide) (heads_mark rfl _) (heads_mark rfl _)) ?_
          rintro w ⟨j, w', rfl, w0, y, rfl, hy, hw⟩
          refine ⟨_ :: _ :: w0, y, rfl, hy, showAll (a := [_, _]) ?_ hw⟩
          exact ⟨_, _, rfl, rfl, rfl, rfl⟩
        · have hmc : ∃ x, markChar k = some x ∧ markOf k = [x] ∧ k.isTrivia = false ∧ k ≠ BARE_KEY := by
            revert hm hk1 hk2
            cases k <;> simp [isMark, markChar, markOf, markText, SyntaxKind.isTrivia]
          obtain ⟨x, h1, h2, h3, h4⟩ := hmc
          have hh := heads_mark h1 (textOf le ps ++ le)
          refine LexV.imp (ih.tok (lit := markOf k) (k := k) (by simp [h2]) h3 (by rw [h2]; exact hh)) ?_
          rintro w ⟨j, w', rfl, w0, y, rfl, hy, hw⟩
          refine ⟨_ :: w0, y, rfl, hy, showAll (a := [_]) ?_ hw⟩
          simp only [Show1]
          rw [if_neg hk1, if_neg hk2, if_neg h4]
          exact ⟨_, rfl, rfl, rfl⟩
      · rw [if_neg hm] at ha1
        obtain ⟨hne, k0, hk0, hs⟩ := htp.resolve_left hm
        have hh : ∃ k', ReadAs k k' t ∧ Heads k' t (textOf le ps ++ le) := by
          rcases ha1 with ha1 | ⟨⟨k', hk', hd⟩, ps', rfl⟩
          · obtain ⟨u, T, h1, h2, h3⟩ := stops_text hle ha1 ha2 htl
            rw [h1]
            refine ⟨k0, hk0, (hs _ (stop_of h2 fun c r e => (h3 c r e).1) ?_).heads⟩
            rintro rfl
            exact noBrace_of h2 fun c r e => (h3 c r e).2 rfl
          · exact ⟨k', hk', (hd _).heads⟩
        obtain ⟨k', ⟨hk', htr⟩, hh⟩ := hh
        refine LexV.imp (ih.tok hne htr hh) ?_
        rintro w ⟨j, w', rfl, w0, y, rfl, hy, hw⟩
        refine ⟨_ :: w0, y, rfl, hy, showAll (a := [_]) ?_ hw⟩
        simp only [Show1]
        have hk1 : k ≠ DOUBLE_BRACKET_START := by rintro rfl; exact hm rfl
        have hk2 : k ≠ DOUBLE_BRACKET_END := by rintro rfl; exact hm rfl
        rw [if_neg hk1, if_neg hk2]
        split
        · rename_i hb
          rw [if_pos hb] at hk'
          exact ⟨_, rfl, rfl, hk' j⟩
        · rename_i hb
          rw [if_neg hb] at hk'
          exact ⟨_, rfl, hk', rfl⟩

end Tombi.Formatter
