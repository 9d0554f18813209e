import Verif.Proofs.JsonDecode
/-! Which texts become which tokens, and the token list seen from a place in the text. -/
namespace Tombi.Json
open Tombi.Spec.Json

/-! ### scanning a known text -/

/-- what may follow a number -/
def SepHead (s : List Char) : Prop := ∀ c t, s = c :: t → isSep c = true

theorem takeWhile_sep {w s : List Char} (hw : ∀ c ∈ w, isSep c = false) (hs : SepHead s) :
    (w ++ s).takeWhile (fun x => !isSep x) = w := by
  rw [List.takeWhile_append_of_pos (by intro c hc; simp [hw c hc])]
  cases s with
  | nil => simp
  | cons c t => simp [hs c t rfl]

theorem cut_number {x : Char} {xs s : List Char} (h : TombiNumber (x :: xs)) (hs : SepHead s) :
    cut x (xs ++ s) = (.ok .NUMBER, xs) := by
  have hch := number_chars h
  obtain ⟨y, ys, hy, hx⟩ := number_head h
  cases hy
  have hne : ∀ d : Char, isSep d = true → x ≠ d := by
    rintro d hd rfl
    rw [hch x (by simp)] at hd
    cases hd
  have hws : ¬ isWhitespace x = true := by
    have := hch x (by simp)
    unfold isSep at this
    simp only [Bool.or_eq_false_iff] at this
    simp [this.1.1.1.1.1.1.1.1.1]
  have hlb : ¬ isLineBreak x = true := by
    have := hch x (by simp)
    unfold isSep at this
    simp only [Bool.or_eq_false_iff] at this
    simp [this.1.1.1.1.1.1.1.1.2]
  unfold cut
  rw [if_neg hws, if_neg hlb, if_neg (hne _ (by decide)), if_neg (hne _ (by decide)),
    if_neg (hne _ (by decide)), if_neg (hne _ (by decide)), if_neg (hne _ (by decide)),
    if_neg (hne _ (by decide)), if_neg (hne _ (by decide)), if_pos hx]
  simp only []
  rw [takeWhile_sep (fun c hc => hch c (by simp [hc])) hs,
    if_pos ((number_iff fun hc => by
      have := hch _ hc
      rw [isSep_colon] at this
      cases this).mpr h)]

theorem cut_string {b : List Char} (h : StringBody b) (s : List Char) :
    cut '"' (b ++ '"' :: s) = (.ok .STRING, b ++ ['"']) := by
  have := strCut_body h s
  unfold cut
  rw [if_neg (by decide), if_neg (by decide), if_neg (by decide), if_neg (by decide),
    if_neg (by decide), if_neg (by decide), if_neg (by decide), if_neg (by decide), if_pos rfl, this]

/-- cutting off one token -/
theorem piecesOf_tok {x : Char} {w s : List Char} {r : Res} (h : cut x (w ++ s) = (r, w)) :
    piecesOf (x :: (w ++ s)) = ⟨r, x :: w⟩ :: piecesOf s := by
  rw [piecesOf_cons, h]
  simp

theorem piecesOf_number {w s : List Char} (h : TombiNumber w) (hs : SepHead s) :
    piecesOf (w ++ s) = ⟨.ok .NUMBER, w⟩ :: piecesOf s := by
  obtain ⟨x, xs, rfl, -⟩ := number_head h
  exact piecesOf_tok (cut_number h hs)

theorem piecesOf_string {b : List Char} (h : StringBody b) (s : List Char) :
    piecesOf ('"' :: (b ++ '"' :: s)) = ⟨.ok .STRING, '"' :: (b ++ ['"'])⟩ :: piecesOf s := by
  have := cut_string h s
  have h2 : b ++ '"' :: s = (b ++ ['"']) ++ s := by simp
  rw [h2] at this ⊢
  exact piecesOf_tok this

theorem piecesOf_true (s : List Char) :
    piecesOf (['t', 'r', 'u', 'e'] ++ s) = ⟨.ok .BOOLEAN, ['t', 'r', 'u', 'e']⟩ :: piecesOf s :=
  piecesOf_tok (x := 't') (w := ['r', 'u', 'e']) rfl

theorem piecesOf_false (s : List Char) :
    piecesOf (['f', 'a', 'l', 's', 'e'] ++ s)
      = ⟨.ok .BOOLEAN, ['f', 'a', 'l', 's', 'e']⟩ :: piecesOf s :=
  piecesOf_tok (x := 'f') (w := ['a', 'l', 's', 'e']) rfl

theorem piecesOf_null (s : List Char) :
    piecesOf (['n', 'u', 'l', 'l'] ++ s) = ⟨.ok .NULL, ['n', 'u', 'l', 'l']⟩ :: piecesOf s :=
  piecesOf_tok (x := 'n') (w := ['u', 'l', 'l']) rfl

theorem piecesOf_punct (s : List Char) :
    piecesOf ('[' :: s) = ⟨.ok .BRACKET_START, ['[']⟩ :: piecesOf s
    ∧ piecesOf (']' :: s) = ⟨.ok .BRACKET_END, [']']⟩ :: piecesOf s
    ∧ piecesOf ('{' :: s) = ⟨.ok .BRACE_START, ['{']⟩ :: piecesOf s
    ∧ piecesOf ('}' :: s) = ⟨.ok .BRACE_END, ['}']⟩ :: piecesOf s
    ∧ piecesOf (',' :: s) = ⟨.ok .COMMA, [',']⟩ :: piecesOf s
    ∧ piecesOf (':' :: s) = ⟨.ok .COLON, [':']⟩ :: piecesOf s := by
  refine ⟨?_, ?_, ?_, ?_, ?_, ?_⟩ <;> exact piecesOf_tok (w := []) rfl

/-! ### the tokens from a place on -/

/-- The tokens of the pieces `ps` standing after the text `pre`, and the final `EOF`. -/
def view (pre : List Char) : List Piece → List Token
  | [] => [⟨.EOF, ⟨utf8Len pre, utf8Len pre⟩, ⟨advPos Position.zero pre, advPos Position.zero pre⟩⟩]
  | p :: ps => p.token (utf8Len pre) (advPos Position.zero pre) :: view (pre ++ p.text) ps

theorem view_eq (pre : List Char) (ps : List Piece) :
    toks (utf8Len pre) (advPos Position.zero pre) ps
      ++ [⟨.EOF, ⟨utf8Len (pre ++ texts ps), utf8Len (pre ++ texts ps)⟩,
          ⟨advPos Position.zero (pre ++ texts ps), advPos Position.zero (pre ++ texts ps)⟩⟩]
      = view pre ps := by
  induction ps generalizing pre with
  | nil => simp [toks, view]
  | cons p ps ih =>
    have := ih (pre ++ p.text)
    rw [utf8Len_append, advPos_append] at this
    simp only [toks, view, texts_cons, List.cons_append, ← List.append_assoc]
    rw [this]

theorem lex_view (G : Segmenter) (src : List Char) :
    ∃ es, lex G src = .ok ⟨view [] (piecesOf src), es⟩ := by
  have := view_eq [] (piecesOf src)
  simp only [List.nil_append, texts_piecesOf] at this
  rw [lex_eq, ← this]
  exact ⟨_, rfl⟩

theorem slice_view {src pre : List Char} {p : Piece} {ps : List Piece}
    (h : src = pre ++ texts (p :: ps)) (off : Nat) (pos : Position) (ho : off = utf8Len pre) :
    slice src (p.token off pos) = .ok p.text := by
  unfold slice Piece.token
  have := byteSlice_append pre p.text (texts ps)
  rw [ho, h, texts_cons, ← List.append_assoc]
  simp only []
  rw [this]

/-- a piece that blanks are skipped over -/
def Piece.trivia (p : Piece) : Bool := p.kind.isTrivia

/-- the pieces after leading trivia -/
def skipP : List Piece → List Piece
  | [] => []
  | p :: ps => if p.trivia then skipP ps else p :: ps

/-- Pieces whose texts have the shape of their kinds. -/
def Good (ps : List Piece) : Prop := ∀ p ∈ ps, ∀ k, p.res = .ok k → KShape k p.text

theorem good_piecesOf (s : List Char) : Good (piecesOf s) := by
  have key : ∀ n s, Good (pieces n s) := by
    intro n
    induction n with
    | zero => intro s p hp; simp [pieces] at hp
    | succ n ih =>
      intro s
      cases s with
      | nil => intro p hp; simp [pieces] at hp
      | cons x xs =>
        intro p hp k hk
        simp only [pieces, List.mem_cons] at hp
        rcases hp with rfl | hp
        · exact cut_shape hk
        · exact ih _ p hp k hk
  exact key _ _

theorem Good.tail {p : Piece} {ps : List Piece} (h : Good (p :: ps)) : Good ps :=
  fun q hq => h q (by simp [hq])

theorem Piece.kind_ok {p : Piece} {k : Kind} (h : p.kind = k) (hk : k ≠ .INVALID_TOKEN) :
    p.res = .ok k := by
  unfold Piece.kind at h
  split at h
  · next h' => rw [h', h]
  · exact absurd h.symm hk

/-- a piece is never an end of file -/
theorem Good.not_eof {p : Piece} {ps : List Piece} (h : Good (p :: ps)) : p.kind ≠ .EOF := by
  intro hk
  exact h p (by simp) .EOF (Piece.kind_ok hk (by decide))

theorem Good.ws {p : Piece} {ps : List Piece} (h : Good (p :: ps)) (ht : p.trivia = true) :
    TombiWs p.text := by
  unfold Piece.trivia at ht
  cases hk : p.kind <;> rw [hk] at ht <;> first | (simp [Kind.isTrivia] at ht; done) | skip
  · exact TombiWs.blanks (h p (by simp) _ (Piece.kind_ok hk (by decide)))
  · rcases h p (by simp) _ (Piece.kind_ok hk (by decide)) with h | ⟨n, h⟩
    · rw [h]; exact .crlf _ .nil
    · rw [h]
      have := TombiWs.lf n [] .nil
      simpa using this

/-- Skipping trivia skips white space. -/
theorem skip_view (pre : List Char) (ps : List Piece) (h : Good ps) :
    ∃ w, TombiWs w ∧ texts ps = w ++ texts (skipP ps)
      ∧ skipTrivia (view pre ps) = view (pre ++ w) (skipP ps) ∧ Good (skipP ps)
      ∧ (skipP ps).length ≤ ps.length := by
  induction ps generalizing pre with
  | nil => exact ⟨[], .nil, rfl, by simp [view, skipTrivia, skipP, Kind.isTrivia], h, Nat.le_refl _⟩
  | cons p ps ih =>
    unfold skipP
    by_cases ht : p.trivia = true
    · obtain ⟨w, h1, h2, h3, h4, h5⟩ := ih (pre ++ p.text) h.tail
      rw [if_pos ht]
      refine ⟨p.text ++ w, TombiWs.append (h.ws ht) h1, by simp [h2], ?_, h4, by simp; omega⟩
      rw [← List.append_assoc, ← h3, view, skipTrivia]
      exact if_pos ht
    · rw [if_neg ht]
      refine ⟨[], .nil, rfl, ?_, h, Nat.le_refl _⟩
      rw [List.append_nil, view, skipTrivia]
      exact if_neg ht

theorem skipP_skipP (ps : List Piece) : skipP (skipP ps) = skipP ps := by
  induction ps with
  | nil => rfl
  | cons p ps ih =>
    by_cases ht : p.trivia = true
    · simp only [skipP, if_pos ht, ih]
    · simp only [skipP, if_neg ht]

/-! ### scanning white space -/

/-- what may follow white space that is not itself white space -/
def NotWsHead (s : List Char) : Prop := ∀ c t, s = c :: t → isWs c = false

theorem trivia_cut {x : Char} {xs : List Char} (h : isWs x = false) :
    (Piece.mk (cut x xs).1 (x :: (cut x xs).2)).trivia = false := by
  cases hr : (cut x xs).1 with
  | error e => rfl
  | ok k =>
    have hs := cut_shape hr
    simp only [Piece.trivia, Piece.kind]
    cases k <;> first | rfl | skip
    · have := hs x (by simp)
      simp [isWs, this] at h
    · rcases hs with hs | ⟨n, hs⟩
      · simp at hs; rw [hs.1] at h; simp [isWs] at h; exact absurd h.2 (by decide)
      · simp at hs; rw [hs.1] at h; simp [isWs] at h; exact absurd h.2 (by decide)

theorem skipP_notWs {s : List Char} (h : NotWsHead s) : skipP (piecesOf s) = piecesOf s := by
  cases s with
  | nil => rfl
  | cons x xs =>
    rw [piecesOf_cons, skipP, if_neg (by rw [trivia_cut (h x xs rfl)]; simp)]

theorem takeWhile_append_stop {p : Char → Bool} {w s : List Char}
    (hs : ∀ c t, s = c :: t → p c = false) : (w ++ s).takeWhile p = w.takeWhile p := by
  induction w with
  | nil =>
    cases s with
    | nil => rfl
    | cons c t => simp [hs c t rfl]
  | cons x w ih =>
    simp only [List.cons_append, List.takeWhile_cons]
    rw [ih]

theorem drop_takeWhile (p : Char → Bool) (w : List Char) :
    w.drop (w.takeWhile p).length = w.dropWhile p := by
  induction w with
  | nil => rfl
  | cons x w ih =>
    simp only [List.takeWhile_cons, List.dropWhile_cons]
    split
    · simp [ih]
    · rfl

theorem drop_takeWhile_append (p : Char → Bool) (w s : List Char) :
    (w ++ s).drop (w.takeWhile p).length = w.dropWhile p ++ s := by
  rw [List.drop_append_of_le_length (by
    have := (List.takeWhile_prefix p (l := w)).length_le
    exact this), drop_takeWhile]

/-- White space before something else is skipped entirely. -/
theorem skipP_ws {s : List Char} (hs : NotWsHead s) (n : Nat) (w : List Char) (hn : w.length ≤ n)
    (hw : TombiWs w) : skipP (piecesOf (w ++ s)) = piecesOf s := by
  have hblank : ∀ c t, s = c :: t → isWhitespace c = false := by
    intro c t h
    have := hs c t h
    simp [isWs] at this
    exact this.1
  have hcr : ∀ c t, s = c :: t → (c == '\r') = false := by
    intro c t h
    have := hs c t h
    rw [beq_eq_false_iff_ne]
    rintro rfl
    exact absurd this (by decide)
  induction n generalizing w with
  | zero =>
    simp at hn
    subst hn
    exact skipP_notWs hs
  | succ n ih =>
    cases hw with
    | nil => exact skipP_notWs hs
    | space v hv =>
      have hc : cut ' ' (v ++ s) = (.ok .WHITESPACE, v.takeWhile isWhitespace) := by
        unfold cut
        rw [if_pos (by decide), takeWhile_append_stop hblank]
      rw [List.cons_append, piecesOf_cons, hc, skipP, if_pos (by rfl)]
      simp only []
      rw [drop_takeWhile_append]
      refine ih _ ?_ (TombiWs.dropBlanks hv)
      have := (List.dropWhile_suffix isWhitespace (l := v)).length_le
      simp at hn; omega
    | tab v hv =>
      have hc : cut '\t' (v ++ s) = (.ok .WHITESPACE, v.takeWhile isWhitespace) := by
        unfold cut
        rw [if_pos (by decide), takeWhile_append_stop hblank]
      rw [List.cons_append, piecesOf_cons, hc, skipP, if_pos (by rfl)]
      simp only []
      rw [drop_takeWhile_append]
      refine ih _ ?_ (TombiWs.dropBlanks hv)
      have := (List.dropWhile_suffix isWhitespace (l := v)).length_le
      simp at hn; omega
    | crlf v hv =>
      have hc : cut '\r' ('\n' :: (v ++ s)) = (.ok .LINE_BREAK, ['\n']) := by
        unfold cut
        rw [if_neg (by decide), if_pos (by decide), if_pos rfl, if_pos (by rfl)]
        rfl
      simp only [List.cons_append]
      rw [piecesOf_cons, hc, skipP, if_pos (by rfl)]
      exact ih v (by simp at hn; omega) hv
    | lf m v hv =>
      have h0 : List.replicate m '\r' ++ v ++ s = (List.replicate m '\r' ++ v) ++ s := rfl
      have hc : cut '\n' ((List.replicate m '\r' ++ v) ++ s)
          = (.ok .LINE_BREAK, (List.replicate m '\r' ++ v).takeWhile (· == '\r')) := by
        unfold cut
        rw [if_neg (by decide), if_pos (by decide), if_neg (by decide), takeWhile_append_stop hcr]
      rw [List.cons_append, piecesOf_cons, hc, skipP, if_pos (by rfl)]
      simp only []
      rw [drop_takeWhile_append]
      have hdw : (List.replicate m '\r' ++ v).dropWhile (· == '\r') = v.dropWhile (· == '\r') := by
        rw [List.dropWhile_append_of_pos (by intro c hc; simp at hc; simp [hc.2])]
      rw [hdw]
      refine ih _ ?_ (TombiWs.dropCrs hv)
      have := (List.dropWhile_suffix (· == '\r') (l := v)).length_le
      simp at hn; omega

/-- White space before something else is skipped, at the tokens. -/
theorem skip_ws (pre : List Char) {w s : List Char} (hw : TombiWs w) (hs : NotWsHead s) :
    skipTrivia (view pre (piecesOf (w ++ s))) = view (pre ++ w) (piecesOf s) := by
  obtain ⟨w', h1, h2, h3, -, -⟩ := skip_view pre (piecesOf (w ++ s)) (good_piecesOf _)
  rw [skipP_ws hs w.length w (Nat.le_refl _) hw] at h2 h3
  rw [texts_piecesOf, texts_piecesOf] at h2
  have := List.append_cancel_right h2
  rw [h3, this]

theorem skipTrivia_idem (ts : List Token) : skipTrivia (skipTrivia ts) = skipTrivia ts := by
  induction ts with
  | nil => rfl
  | cons t ts ih =>
    by_cases h : t.kind.isTrivia = true
    · simp only [skipTrivia, if_pos h, ih]
    · simp only [skipTrivia, if_neg h]

end Tombi.Json
