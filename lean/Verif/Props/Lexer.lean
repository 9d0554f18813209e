import Verif.Spec.Source
import Verif.Proofs.LexLoop
/-! Properties C01, C02, C03, C06 and C44: tokens, positions, errors, blanks, joint bits. -/
namespace Tombi
open Spec

/-- The segmenter that cuts a text into single characters: used to state concrete cases. -/
def charSegmenter : Segmenter where
  graphemes s := s.map (fun c => [c])
  flatten_graphemes s := by induction s <;> simp_all
  ne_nil s := by simp

theorem toks_tiles (off : Nat) (pos : Position) (after : List Char) (ps : List Piece)
    (h : PiecesOk after ps) :
    Tiles off ((toks off pos ps).map Token.span) (off + utf8Len (texts ps)) := by
  induction ps generalizing off pos with
  | nil => exact .nil _
  | cons p ps ih =>
    have := utf8Len_pos h.1.1.1
    have h2 := ih (off + utf8Len p.text) (advPos pos p.text) h.2
    simp only [toks, List.map_cons, texts_cons, utf8Len_append]
    rw [← Nat.add_assoc]
    exact .cons _ _ _ _ (by omega) h2

theorem toks_slices (pre : List Char) (pos : Position) (ps : List Piece) (post : List Char) :
    (toks (utf8Len pre) pos ps).mapM
        (fun t => byteSlice t.span.start t.span.stop (pre ++ texts ps ++ post))
      = some (ps.map Piece.text) := by
  induction ps generalizing pre pos with
  | nil => rfl
  | cons p ps ih =>
    have h1 : byteSlice (utf8Len pre) (utf8Len pre + utf8Len p.text)
        (pre ++ texts (p :: ps) ++ post) = some p.text := by
      have := byteSlice_append pre p.text (texts ps ++ post)
      simpa using this
    have h2 := ih (pre ++ p.text) (advPos pos p.text)
    rw [utf8Len_append] at h2
    have h3 : pre ++ p.text ++ texts ps ++ post = pre ++ texts (p :: ps) ++ post := by simp
    rw [h3] at h2
    rw [toks, List.mapM_cons]
    simp only [Piece.token]
    rw [h1]
    simp only [Option.bind_eq_bind, Option.bind_some]
    rw [h2]
    rfl

theorem toks_kind (off : Nat) (pos : Position) (after : List Char) (ps : List Piece)
    (h : PiecesOk after ps) : ∀ t ∈ toks off pos ps, t.kind ≠ .EOF := by
  intro t ht
  obtain ⟨a, p, b, rfl, rfl⟩ := mem_toks ht
  have := (h.get).1.2
  show p.kind ≠ .EOF
  cases he : p.err with
  | none => rw [he] at this; exact this.2.1
  | some e =>
    rw [he] at this
    have h3 : p.kind = .INVALID_TOKEN := this
    rw [h3]
    decide

theorem flatten_texts (ps : List Piece) : (ps.map Piece.text).flatten = texts ps := by
  induction ps with
  | nil => rfl
  | cons p ps ih => simp [ih]

/-- **C01.** `lex` returns for every source; the tokens before the last one tile the source from
byte 0 to its length with non-empty spans; slicing the source at these spans never fails and
concatenating the slices gives the source; the last token is an empty `EOF` at the end, and no other
token is an `EOF`. -/
theorem C01_lex_lossless (G : Segmenter) (src : List Char) :
    ∃ l toks eof slices, lex G src = .ok l ∧ l.tokens = toks ++ [eof]
      ∧ eof.kind = .EOF ∧ eof.span = ⟨utf8Len src, utf8Len src⟩
      ∧ (∀ t ∈ toks, t.kind ≠ .EOF)
      ∧ Tiles 0 (toks.map Token.span) (utf8Len src)
      ∧ toks.mapM (fun t => byteSlice t.span.start t.span.stop src) = some slices
      ∧ slices.flatten = src := by
  obtain ⟨ps, l, h1, h2, h3, h4, -⟩ := lexWith_spec G src (src.length + 1) (by omega)
  refine ⟨l, _, _, ps.map Piece.text, h1, h4, rfl, rfl, toks_kind _ _ _ _ h3, ?_, ?_, ?_⟩
  · have := toks_tiles 0 Position.zero [] ps h3
    rw [h2] at this
    simpa using this
  · have := toks_slices [] Position.zero ps []
    simpa [h2] using this
  · rw [flatten_texts, h2]

/-- Concrete case for C01: a broken document with a multi-byte character. -/
example : (lex charSegmenter "é = \x01\n[".toList).map (fun l => l.tokens.map Token.span)
    = .ok [⟨0, 2⟩, ⟨2, 3⟩, ⟨3, 4⟩, ⟨4, 5⟩, ⟨5, 6⟩, ⟨6, 7⟩, ⟨7, 8⟩, ⟨8, 8⟩] := by decide +kernel

theorem columnOf_snoc (w : List Char) (c : Char) :
    columnOf (w ++ [c]) = if c = '\n' then 0 else columnOf w + 1 := by
  unfold columnOf
  rw [List.reverse_append]
  simp only [List.reverse_cons, List.reverse_nil, List.nil_append, List.singleton_append,
    List.takeWhile_cons]
  split <;> simp_all

theorem advPos_zero (w : List Char) : advPos Position.zero w = posOf w := by
  suffices H : ∀ w : List Char, advPos Position.zero w.reverse = posOf w.reverse by
    simpa using H w.reverse
  intro w
  induction w with
  | nil => rfl
  | cons c w ih =>
    rw [List.reverse_cons, advPos_append, ih]
    simp only [advPos_cons, advPos_nil, posOf, Position.add, RelPosition.ofChar, columnOf_snoc]
    unfold lineOf
    rw [List.count_append]
    by_cases h : c = '\n'
    · simp [h]
    · simp [h]

/-- **C02.** Every token of `lex` covers some text `mid` between `pre` and `post`, and its range
goes from the line/column of the end of `pre` to the line/column of the end of `pre ++ mid`. -/
theorem C02_token_positions (G : Segmenter) (src : List Char) (l : Lexed) (h : lex G src = .ok l)
    (t : Token) (ht : t ∈ l.tokens) :
    ∃ pre mid post, Covers t pre mid post src ∧ t.range = ⟨posOf pre, posOf (pre ++ mid)⟩
      ∧ t.range.start.le t.range.stop = true := by
  by_cases hk : t.kind = .EOF
  · obtain ⟨ps, l', h1, h2, h3, h4, -⟩ := lexWith_spec G src (src.length + 1) (by omega)
    have : l = l' := by
      have h' : lexWith G (src.length + 1) src = .ok l := h
      rw [h1] at h'
      exact (Except.ok.inj h').symm
    subst this
    rw [h4] at ht
    simp only [List.mem_append, List.mem_singleton] at ht
    rcases ht with ht | rfl
    · exact absurd hk (toks_kind _ _ _ _ h3 t ht)
    · refine ⟨src, [], [], ⟨by simp, rfl, by simp⟩, ?_, Position.le_refl _⟩
      simp [advPos_zero]
  · obtain ⟨pre, p, post, h1, h2, rfl⟩ := lex_piece h ht hk
    refine ⟨pre, p.text, post, ⟨h1, rfl, by simp [Piece.token]⟩, ?_, le_advPos _ _⟩
    show Range.mk _ _ = _
    rw [← advPos_append, advPos_zero, advPos_zero]

/-- Concrete case for C02: a multi-line string, then a token on the third line. -/
example : (lex charSegmenter "a=\"\"\"\né\n\"\"\"]".toList).map (fun l => l.tokens.map Token.range)
    = .ok [⟨⟨0, 0⟩, ⟨0, 1⟩⟩, ⟨⟨0, 1⟩, ⟨0, 2⟩⟩, ⟨⟨0, 2⟩, ⟨2, 3⟩⟩, ⟨⟨2, 3⟩, ⟨2, 4⟩⟩, ⟨⟨2, 4⟩, ⟨2, 4⟩⟩] := by
  decide +kernel

/-- the span and range of a token -/
def Token.place (t : Token) : Span × Range := (t.span, t.range)
/-- the span and range of an error -/
def LexError.place (e : LexError) : Span × Range := (e.span, e.range)

theorem errs_places (off : Nat) (pos : Position) (after : List Char) (ps : List Piece)
    (h : PiecesOk after ps) :
    (errs off pos ps).map LexError.place
      = ((toks off pos ps).filter (fun t => t.kind = .INVALID_TOKEN)).map Token.place := by
  induction ps generalizing off pos with
  | nil => rfl
  | cons p ps ih =>
    have h2 := ih (off + utf8Len p.text) (advPos pos p.text) h.2
    have hp := h.1.1.2
    simp only [errs, toks, List.map_append, h2]
    cases he : p.err with
    | none =>
      rw [he] at hp
      have hp1 : p.kind ≠ .INVALID_TOKEN := hp.1
      simp [Piece.error, he, Piece.token, hp1]
    | some e =>
      rw [he] at hp
      have hp1 : p.kind = .INVALID_TOKEN := hp
      simp [Piece.error, he, Piece.token, hp1, LexError.place, Token.place]

/-- **C03.** The token loop of `lex` needs at most one step per character and one more: with any
larger budget it returns the same result. So `lex` terminates. -/
theorem C03_lex_terminates (G : Segmenter) (src : List Char) (fuel : Nat)
    (hf : src.length + 1 ≤ fuel) : ∃ l, lexWith G fuel src = .ok l ∧ lex G src = .ok l := by
  have mono : ∀ (n : Nat) (c : Cursor) (s : LexState) (r : Cursor × LexState),
      lexLoop n c s = .ok r → lexLoop (n + 1) c s = .ok r := by
    intro n
    induction n with
    | zero => intro c s r h; simp [lexLoop] at h
    | succ n ih =>
      intro c s r h
      unfold lexLoop at h ⊢
      generalize c.advanceToken = a at h ⊢
      rcases a with ⟨a, c'⟩
      cases a with
      | panic => simp at h
      | tok t =>
        simp only [] at h ⊢
        split
        · next hk => rw [if_pos hk] at h; exact h
        · next hk =>
          rw [if_neg hk] at h
          cases hs : s.onToken t with
          | error e => rw [hs] at h; simp at h
          | ok s' => rw [hs] at h; exact ih _ _ _ h
      | err e =>
        simp only [] at h ⊢
        cases hs : s.onError e with
        | error e => rw [hs] at h; simp at h
        | ok s' => rw [hs] at h; exact ih _ _ _ h
  have step : ∀ k l, lexWith G (src.length + 1) src = .ok l →
      lexWith G (src.length + 1 + k) src = .ok l := by
    intro k l h
    unfold lexWith at h ⊢
    have : ∀ k r, lexLoop (src.length + 1) (Cursor.new src) LexState.init = .ok r →
        lexLoop (src.length + 1 + k) (Cursor.new src) LexState.init = .ok r := by
      intro k r hr
      induction k with
      | zero => exact hr
      | succ k ih => exact mono _ _ _ _ ih
    cases hl : lexLoop (src.length + 1) (Cursor.new src) LexState.init with
    | error e => rw [hl] at h; simp at h
    | ok r => rw [hl] at h; rw [this k r hl]; exact h
  obtain ⟨ps, l, h1, -⟩ := lexWith_spec G src (src.length + 1) (by omega)
  refine ⟨l, ?_, h1⟩
  have := step (fuel - (src.length + 1)) l h1
  rwa [show src.length + 1 + (fuel - (src.length + 1)) = fuel by omega] at this

/-- **C03.** The errors are, in order, exactly those of the `INVALID_TOKEN` tokens: same spans, same
ranges, same number. -/
theorem C03_errors_are_invalid_tokens (G : Segmenter) (src : List Char) (l : Lexed)
    (h : lex G src = .ok l) :
    l.errors.map LexError.place
      = (l.tokens.filter (fun t => t.kind = .INVALID_TOKEN)).map Token.place := by
  obtain ⟨ps, l', h1, h2, h3, h4, h5, -⟩ := lexWith_spec G src (src.length + 1) (by omega)
  have : l = l' := by
    have h' : lexWith G (src.length + 1) src = .ok l := h
    rw [h1] at h'
    exact (Except.ok.inj h').symm
  subst this
  rw [h4, h5, errs_places _ _ _ _ h3, List.filter_append]
  simp

/-- Concrete case for C03: two errors. -/
example : (lex charSegmenter "a = 'x\n@".toList).map (fun l => (l.errors, l.tokens.map Token.kind))
    = .ok ([⟨.InvalidLiteralString, ⟨4, 6⟩, ⟨⟨0, 4⟩, ⟨0, 6⟩⟩⟩, ⟨.InvalidToken, ⟨7, 8⟩, ⟨⟨1, 0⟩, ⟨1, 1⟩⟩⟩],
      [.BARE_KEY, .WHITESPACE, .EQUAL, .WHITESPACE, .INVALID_TOKEN, .LINE_BREAK, .INVALID_TOKEN, .EOF]) := by
  decide +kernel

theorem isLineBreak_false {c : Char} : isLineBreak c = false ↔ c ≠ '\r' ∧ c ≠ '\n' := by
  simp [isLineBreak]
theorem isLineBreak_true {c : Char} : isLineBreak c = true ↔ c = '\r' ∨ c = '\n' := by
  simp [isLineBreak]

/-- shape of a token from the piece it comes from -/
theorem lex_shape {G : Segmenter} {src : List Char} {l : Lexed} (h : lex G src = .ok l) {t : Token}
    (ht : t ∈ l.tokens) (hk : t.kind ≠ .EOF) (hi : t.kind ≠ .INVALID_TOKEN) :
    ∃ pre mid post, Covers t pre mid post src ∧ Shape t.kind mid post := by
  obtain ⟨pre, p, post, h1, h2, rfl⟩ := lex_piece h ht hk
  refine ⟨pre, p.text, post, ⟨h1, rfl, by simp [Piece.token]⟩, ?_⟩
  have := h2.1.2
  cases he : p.err with
  | none => rw [he] at this; exact this.2.2
  | some e => rw [he] at this; exact absurd this hi

/-- **C06.** A `COMMENT` is `#` and everything up to, not including, the next CR or LF. -/
theorem C06_comment (G : Segmenter) (src : List Char) (l : Lexed) (h : lex G src = .ok l)
    (t : Token) (ht : t ∈ l.tokens) (hk : t.kind = .COMMENT) :
    ∃ pre body post, Covers t pre ('#' :: body) post src
      ∧ '\r' ∉ body ∧ '\n' ∉ body
      ∧ (post = [] ∨ post.head? = some '\r' ∨ post.head? = some '\n') := by
  obtain ⟨pre, mid, post, h1, h2⟩ := lex_shape h ht (by simp [hk]) (by simp [hk])
  rw [hk] at h2
  obtain ⟨body, rfl, hb, ha⟩ := h2
  refine ⟨pre, body, post, h1, ?_, ?_, ?_⟩
  · intro hm; exact (isLineBreak_false.mp (hb _ hm)).1 rfl
  · intro hm; exact (isLineBreak_false.mp (hb _ hm)).2 rfl
  · cases post with
    | nil => simp
    | cons c r => rcases isLineBreak_true.mp (ha c r rfl) with rfl | rfl <;> simp

/-- **C06.** A `LINE_BREAK` is LF or CRLF. -/
theorem C06_line_break (G : Segmenter) (src : List Char) (l : Lexed) (h : lex G src = .ok l)
    (t : Token) (ht : t ∈ l.tokens) (hk : t.kind = .LINE_BREAK) :
    ∃ pre mid post, Covers t pre mid post src ∧ (mid = ['\n'] ∨ mid = ['\r', '\n']) := by
  obtain ⟨pre, mid, post, h1, h2⟩ := lex_shape h ht (by simp [hk]) (by simp [hk])
  rw [hk] at h2
  exact ⟨pre, mid, post, h1, h2⟩

/-- **C06.** A `WHITESPACE` is a non-empty run of spaces and tabs that is not followed by another
one. -/
theorem C06_whitespace (G : Segmenter) (src : List Char) (l : Lexed) (h : lex G src = .ok l)
    (t : Token) (ht : t ∈ l.tokens) (hk : t.kind = .WHITESPACE) :
    ∃ pre mid post, Covers t pre mid post src ∧ mid ≠ [] ∧ (∀ c ∈ mid, c = ' ' ∨ c = '\t')
      ∧ (∀ c, post.head? = some c → c ≠ ' ' ∧ c ≠ '\t') := by
  obtain ⟨pre, mid, post, h1, h2⟩ := lex_shape h ht (by simp [hk]) (by simp [hk])
  rw [hk] at h2
  refine ⟨pre, mid, post, h1, h2.1, ?_, ?_⟩
  · intro c hc; simpa [isWhitespace] using h2.2.1 c hc
  · intro c hc
    cases post with
    | nil => simp at hc
    | cons d r =>
      simp at hc
      subst hc
      simpa [isWhitespace] using h2.2.2 d r rfl

/-- Concrete case for C06. -/
example : (lex charSegmenter "a \t# x'\"\r\n#\n".toList).map (fun l => l.tokens.map (fun t => (t.kind, t.span)))
    = .ok [(.BARE_KEY, ⟨0, 1⟩), (.WHITESPACE, ⟨1, 3⟩), (.COMMENT, ⟨3, 8⟩), (.LINE_BREAK, ⟨8, 10⟩),
        (.COMMENT, ⟨10, 11⟩), (.LINE_BREAK, ⟨11, 12⟩), (.EOF, ⟨12, 12⟩)] := by decide +kernel

theorem anyCrlf_iff (ps : List Piece) (after : List Char) (h : PiecesOk after ps) :
    anyCrlf ps = true ↔ ∃ a p b, ps = a ++ p :: b ∧ p.kind = .LINE_BREAK ∧ p.text = ['\r', '\n'] := by
  unfold anyCrlf
  rw [List.any_eq_true]
  constructor
  · rintro ⟨p, hp, hc⟩
    obtain ⟨a, b, rfl⟩ := List.append_of_mem hp
    simp [Piece.isCrlf] at hc
    exact ⟨a, p, b, rfl, hc.1, hc.2⟩
  · rintro ⟨a, p, b, rfl, h1, h2⟩
    exact ⟨p, by simp, by simp [Piece.isCrlf, h1, h2]⟩

/-- **C06.** The detected line ending is CRLF exactly when some line break token is a CRLF. -/
theorem C06_line_ending (G : Segmenter) (src : List Char) (l : Lexed) (h : lex G src = .ok l) :
    l.lineEnding = .crlf ↔
      ∃ t ∈ l.tokens, t.kind = .LINE_BREAK
        ∧ byteSlice t.span.start t.span.stop src = some ['\r', '\n'] := by
  obtain ⟨ps, l', h1, h2, h3, h4, -, -, h7⟩ := lexWith_spec G src (src.length + 1) (by omega)
  have : l = l' := by
    have h' : lexWith G (src.length + 1) src = .ok l := h
    rw [h1] at h'
    exact (Except.ok.inj h').symm
  subst this
  have hcr : l.lineEnding = .crlf ↔ anyCrlf ps = true := by
    rw [h7]; split <;> simp_all
  rw [hcr, anyCrlf_iff ps [] h3, h4]
  have hslice : ∀ (a : List Piece) (p : Piece) (b : List Piece), ps = a ++ p :: b →
      byteSlice (utf8Len (texts a)) (utf8Len (texts a) + utf8Len p.text) src = some p.text := by
    intro a p b hab
    have := byteSlice_append (texts a) p.text (texts b)
    rw [← h2, hab, texts_append]
    simpa using this
  constructor
  · rintro ⟨a, p, b, hab, hk, ht⟩
    refine ⟨p.token (utf8Len (texts a)) (advPos Position.zero (texts a)), ?_, hk, ?_⟩
    · rw [hab, toks_append]
      simp [toks]
    · rw [← ht]; exact hslice a p b hab
  · rintro ⟨t, ht, hk, hb⟩
    simp only [List.mem_append, List.mem_singleton] at ht
    rcases ht with ht | rfl
    · obtain ⟨a, p, b, hab, rfl⟩ := mem_toks ht
      refine ⟨a, p, b, hab, hk, ?_⟩
      simp only [Piece.token, Nat.zero_add] at hb
      rw [hslice a p b hab] at hb
      exact Option.some.inj hb
    · simp at hk

theorem isTrivia_iff (k : SyntaxKind) : k.isTrivia = true ↔ blank k := by
  unfold blank
  cases k <;> simp [SyntaxKind.isTrivia]

theorem toks_getElem? (off : Nat) (pos : Position) (ps : List Piece) (n : Nat) :
    ((toks off pos ps)[n]?).map Token.kind = (ps[n]?).map Piece.kind := by
  induction ps generalizing off pos n with
  | nil => rfl
  | cons p ps ih =>
    cases n with
    | zero => rfl
    | succ n => simp only [toks, List.getElem?_cons_succ]; exact ih _ _ n

/-- **C44.** For the index `n` of any token but the final `EOF`, `is_joint(n)` does not fail, and it is
true exactly when both token `n` and token `n + 1` are neither blank nor the final `EOF`. (Consecutive
tokens always touch, by C01.) -/
theorem C44_joint_bits (G : Segmenter) (src : List Char) (l : Lexed) (h : lex G src = .ok l) (n : Nat)
    (hn : n + 1 < l.tokens.length) :
    ∃ b, l.isJoint n = some b ∧
      (b = true ↔ ∃ t u, l.tokens[n]? = some t ∧ l.tokens[n + 1]? = some u
        ∧ ¬ blank t.kind ∧ ¬ blank u.kind ∧ u.kind ≠ .EOF) := by
  obtain ⟨ps, l', h1, h2, h3, h4, h5, h6, -⟩ := lexWith_spec G src (src.length + 1) (by omega)
  have : l = l' := by
    have h' : lexWith G (src.length + 1) src = .ok l := h
    rw [h1] at h'
    exact (Except.ok.inj h').symm
  subst this
  have hlen : (toks 0 Position.zero ps).length = ps.length := toks_length _ _ _
  rw [h4] at hn
  simp only [List.length_append, hlen, List.length_cons, List.length_nil] at hn
  have hidx : n / 64 < l.joints.length := by rw [h6.len]; omega
  refine ⟨jointBit l.joints n, ?_, ?_⟩
  · unfold Lexed.isJoint bitIndex jointBit
    rw [List.getElem?_eq_getElem hidx, List.getD_eq_getElem?_getD, List.getElem?_eq_getElem hidx]
    rfl
  · rw [h6.bits n, h4]
    have hnlt : n < ps.length := by omega
    obtain ⟨p, hp⟩ : ∃ p, ps[n]? = some p := ⟨_, List.getElem?_eq_getElem hnlt⟩
    have hT : (toks 0 Position.zero ps ++ [(⟨.EOF, ⟨utf8Len src, utf8Len src⟩,
        ⟨advPos Position.zero src, advPos Position.zero src⟩⟩ : Token)])[n]?
        = (toks 0 Position.zero ps)[n]? := List.getElem?_append_left (by omega)
    have hk := toks_getElem? 0 Position.zero ps n
    rw [hp] at hk
    obtain ⟨t, ht, htk⟩ := Option.map_eq_some_iff.mp hk
    rw [hT, ht]
    unfold touching
    rw [hp]
    rcases Nat.lt_or_ge (n + 1) ps.length with hlt | hge
    · obtain ⟨q, hq⟩ : ∃ q, ps[n + 1]? = some q := ⟨_, List.getElem?_eq_getElem hlt⟩
      have hk' := toks_getElem? 0 Position.zero ps (n + 1)
      rw [hq] at hk'
      obtain ⟨u, hu, huk⟩ := Option.map_eq_some_iff.mp hk'
      rw [List.getElem?_append_left (by omega), hu, hq]
      have hune : u.kind ≠ .EOF := toks_kind _ _ _ _ h3 u (List.mem_of_getElem? hu)
      simp only [Bool.and_eq_true, Bool.not_eq_true', ← Bool.not_eq_true, isTrivia_iff]
      constructor
      · rintro ⟨h1, h2⟩
        exact ⟨t, u, rfl, rfl, by rw [htk]; exact h1, by rw [huk]; exact h2, hune⟩
      · rintro ⟨t', u', h1, h2, h3, h4, -⟩
        cases h1; cases h2
        rw [htk] at h3; rw [huk] at h4
        exact ⟨h3, h4⟩
    · have hq : ps[n + 1]? = none := List.getElem?_eq_none hge
      rw [hq]
      have he : n + 1 = ps.length := by omega
      rw [List.getElem?_append_right (by omega), hlen, he]
      simp

/-- Concrete case for C44: `[[` is joint, `[ [` is not. -/
example : (lex charSegmenter "[[ [".toList).map (fun l => (l.isJoint 0, l.isJoint 1, l.isJoint 2, l.isJoint 3))
    = .ok (some true, some false, some false, some false) := by decide +kernel

end Tombi
