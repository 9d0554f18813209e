import Verif.Proofs.JsonRender
/-!
C35, C36, C37 and C57: reading JSON schemas. The lexer of `tombi-json-lexer` and the parser of
`tombi-json`.
-/
namespace Tombi.Json
open Tombi.Spec Tombi.Spec.Json

/-! ## C35: lexing is lossless -/

theorem toks_tiles (off : Nat) (pos : Position) (ps : List Piece) (h : ∀ p ∈ ps, p.text ≠ []) :
    Tiles off ((toks off pos ps).map Token.span) (off + utf8Len (texts ps)) := by
  induction ps generalizing off pos with
  | nil => exact .nil _
  | cons p ps ih =>
    have := utf8Len_pos (h p (by simp))
    have h2 := ih (off + utf8Len p.text) (advPos pos p.text) (fun q hq => h q (by simp [hq]))
    simp only [toks, List.map_cons, texts_cons, utf8Len_append]
    rw [← Nat.add_assoc]
    exact .cons _ _ _ _ (by omega) h2

theorem toks_slices (pre : List Char) (pos : Position) (ps : List Piece) :
    (toks (utf8Len pre) pos ps).mapM
        (fun t => byteSlice t.span.start t.span.stop (pre ++ texts ps))
      = some (ps.map Piece.text) := by
  induction ps generalizing pre pos with
  | nil => rfl
  | cons p ps ih =>
    have h1 : byteSlice (utf8Len pre) (utf8Len pre + utf8Len p.text) (pre ++ texts (p :: ps))
        = some p.text := by
      have := byteSlice_append pre p.text (texts ps)
      simpa using this
    have h2 := ih (pre ++ p.text) (advPos pos p.text)
    rw [utf8Len_append] at h2
    have h3 : pre ++ p.text ++ texts ps = pre ++ texts (p :: ps) := by simp
    rw [h3] at h2
    simp only [toks, Piece.token, List.mapM_cons, h1, h2, List.map_cons]
    rfl

theorem pieces_nonempty (n : Nat) (s : List Char) : ∀ p ∈ pieces n s, p.text ≠ [] := by
  induction n generalizing s with
  | zero => simp [pieces]
  | succ n ih =>
    cases s with
    | nil => simp [pieces]
    | cons x xs =>
      intro p hp
      simp only [pieces, List.mem_cons] at hp
      rcases hp with rfl | hp
      · simp
      · exact ih _ p hp

theorem flatten_texts (ps : List Piece) : (ps.map Piece.text).flatten = texts ps := by
  induction ps with
  | nil => rfl
  | cons p ps ih => simp [ih]

theorem toks_mem (pre : List Char) (ps : List Piece) {t : Token}
    (h : t ∈ toks (utf8Len pre) (advPos Position.zero pre) ps) :
    ∃ a p b, ps = a ++ p :: b
      ∧ t = p.token (utf8Len (pre ++ texts a)) (advPos Position.zero (pre ++ texts a)) := by
  induction ps generalizing pre with
  | nil => simp [toks] at h
  | cons p ps ih =>
    simp only [toks, List.mem_cons] at h
    rcases h with rfl | h
    · exact ⟨[], p, ps, rfl, by simp⟩
    · have h' : t ∈ toks (utf8Len (pre ++ p.text)) (advPos Position.zero (pre ++ p.text)) ps := by
        rw [utf8Len_append, advPos_append]; exact h
      obtain ⟨a, q, b, h1, h2⟩ := ih (pre ++ p.text) h'
      exact ⟨p :: a, q, b, by simp [h1], by rw [h2]; simp⟩

theorem texts_append (a b : List Piece) : texts (a ++ b) = texts a ++ texts b := by
  induction a with
  | nil => rfl
  | cons p a ih => simp [ih]

/-- **C35 (lossless).** For every text the JSON lexer succeeds, whatever the segmentation of
characters; its tokens are non-empty, touch each other, start at the start of the text, end at its
end, spell the text, and are followed by one empty `EOF` token. -/
theorem C35_json_lex_lossless (G : Segmenter) (src : List Char) :
    ∃ l toks eof slices, lex G src = .ok l ∧ l.tokens = toks ++ [eof]
      ∧ eof.kind = .EOF ∧ eof.span = ⟨utf8Len src, utf8Len src⟩
      ∧ (∀ t ∈ toks, t.kind ≠ .EOF)
      ∧ Tiles 0 (toks.map Token.span) (utf8Len src)
      ∧ toks.mapM (fun t => byteSlice t.span.start t.span.stop src) = some slices
      ∧ slices.flatten = src := by
  refine ⟨_, _, _, (piecesOf src).map Piece.text, lex_eq G src, rfl, rfl, rfl, ?_, ?_, ?_, ?_⟩
  · intro t ht
    obtain ⟨a, p, b, h1, rfl⟩ := toks_mem [] (piecesOf src) ht
    have hg := good_piecesOf src
    rw [h1] at hg
    exact Good.not_eof (ps := b) (fun q hq => hg q (by
      simp only [List.mem_append]; exact .inr hq))
  · have := toks_tiles 0 Position.zero (piecesOf src) (pieces_nonempty _ _)
    rw [texts_piecesOf] at this
    simpa using this
  · have := toks_slices [] Position.zero (piecesOf src)
    simpa [texts_piecesOf] using this
  · rw [flatten_texts, texts_piecesOf]

/-- **C35 (positions).** Every token covers a part of the text, and its line and column range is
that of the part. -/
theorem C35_json_token_positions (G : Segmenter) (src : List Char) (l : Lexed)
    (h : lex G src = .ok l) (t : Token) (ht : t ∈ l.tokens) :
    ∃ pre mid post, Covers t pre mid post src ∧ t.range = ⟨posOf pre, posOf (pre ++ mid)⟩ := by
  rw [lex_eq] at h
  cases h
  simp only [List.mem_append, List.mem_singleton] at ht
  rcases ht with ht | rfl
  · obtain ⟨a, p, b, h1, rfl⟩ := toks_mem [] (piecesOf src) ht
    have hs := texts_piecesOf src
    rw [h1, texts_append, texts_cons] at hs
    refine ⟨texts a, p.text, texts b, ⟨?_, ?_, ?_⟩, ?_⟩
    · rw [← hs]; simp
    · simp [Piece.token]
    · simp [Piece.token]
    · have := token_range p (texts a)
      simpa using this
  · refine ⟨src, [], [], ⟨by simp, rfl, by simp⟩, ?_⟩
    simp only [List.append_nil]
    rw [advPos_zero]

/-- **C35 (errors).** The reported errors are exactly the invalid tokens, in order. -/
theorem C35_json_lex_errors (G : Segmenter) (src : List Char) (l : Lexed) (h : lex G src = .ok l) :
    l.errors.map (fun e => (e.span, e.range))
      = (l.tokens.filter (fun t => t.kind = .INVALID_TOKEN)).map (fun t => (t.span, t.range)) := by
  rw [lex_eq] at h
  cases h
  have key : ∀ (ps : List Piece), Good ps → ∀ off pos,
      (errs off pos ps).map (fun e => (e.span, e.range))
      = ((toks off pos ps).filter (fun t => t.kind = .INVALID_TOKEN)).map
        (fun t => (t.span, t.range)) := by
    intro ps
    induction ps with
    | nil => intro _ off pos; rfl
    | cons p ps ih =>
      intro hg off pos
      have hp := hg p (by simp)
      simp only [errs, toks, List.map_append, List.filter_cons]
      rw [ih hg.tail]
      cases hr : p.res with
      | ok k =>
        have hk : ¬ (p.token off pos).kind = .INVALID_TOKEN := by
          intro hk
          have hk' : k = .INVALID_TOKEN := by
            simp only [Piece.token, Piece.kind, hr] at hk
            exact hk
          rw [hk'] at hr
          exact hp _ hr
        rw [if_neg (by simpa using hk)]
        simp [Piece.errors, hr]
      | error e =>
        have hk : (p.token off pos).kind = .INVALID_TOKEN := by simp [Piece.token, Piece.kind, hr]
        rw [if_pos (by simpa using hk)]
        simp [Piece.errors, hr, Piece.token]
  simp only [List.filter_append]
  rw [key _ (good_piecesOf src)]
  simp

/-- Concrete case for C35: an invalid token between good ones. -/
example : (lex charSegmenter "{\"a\" @ 1}".toList).map (fun l => l.tokens.map Token.kind)
    = .ok [.BRACE_START, .STRING, .WHITESPACE, .INVALID_TOKEN, .BRACE_END, .EOF] := by
  decide +kernel

/-! ## C37: parsing -/

/-- The parser on the tokens of the text. -/
theorem parse_eq (G : Segmenter) (src : List Char) :
    parse G src = parseTokens src (view [] (piecesOf src)) := by
  obtain ⟨es, h⟩ := lex_view G src
  unfold parse
  rw [h]

theorem view_length (pre : List Char) (ps : List Piece) : (view pre ps).length = ps.length + 1 := by
  induction ps generalizing pre with
  | nil => rfl
  | cons p ps ih => simp [view, ih]

theorem parse_sound_doc (G : Segmenter) (src : List Char) :
    match parse G src with
    | .error e => errOk e
    | .ok node => Document tombi node.toVal src ∧ nesting node.toVal ≤ 128 ∧ KeysDistinct node.toVal
        ∧ Everywhere (InPlace src) node := by
  rw [parse_eq]
  unfold parseTokens
  obtain ⟨w, h1, h2, h3, h4, h5⟩ := skip_view [] (piecesOf src) (good_piecesOf src)
  rw [h3, view_length]
  have hs := (parse_sound src (2 * ((piecesOf src).length + 1) + 2)).1 0 ([] ++ w)
    (skipP (piecesOf src)) (by omega) (by rw [List.nil_append, ← h2, texts_piecesOf]) h4
    (by omega)
  generalize parseValue src (2 * ((piecesOf src).length + 1) + 2) 0
    (view ([] ++ w) (skipP (piecesOf src))) = res at hs
  cases res with
  | error e => exact hs
  | ok r =>
    obtain ⟨node, rest⟩ := r
    obtain ⟨t, w2, ps', hP⟩ := hs
    simp only []
    obtain ⟨w3, k1, k2, k3, k4, k5⟩ := skip_view ([] ++ w ++ t ++ w2) ps' hP.good
    rw [hP.rest, k3]
    cases hq : skipP ps' with
    | nil =>
      rw [hq] at k2
      simp only [view]
      rw [if_pos trivial]
      refine ⟨⟨w, t, w2 ++ w3, ?_, h1, hP.value, TombiWs.append hP.ws k1⟩, ?_, hP.keys, hP.inside⟩
      · rw [← texts_piecesOf src, h2, hP.texts, k2]; simp
      · have := hP.nest; omega
    | cons q qs =>
      rw [hq] at k4
      have := Good.not_eof k4
      simp only [view]
      rw [if_neg (by rw [token_kind]; exact this)]
      simp [errOk]

/-- **C37 (exact).** The parser accepts a text, with value `v`, exactly when it is a JSON text of
`v` (in tombi's dialect of RFC 8259, see `Spec.Json`), nests at most 128 levels deep and has no
duplicate keys. -/
theorem C37_json_exact (G : Segmenter) (src : List Char) (v : Val) :
    (∃ node, parse G src = .ok node ∧ node.toVal = v)
      ↔ Document tombi v src ∧ nesting v ≤ 128 ∧ KeysDistinct v := by
  constructor
  · rintro ⟨node, h, rfl⟩
    have := parse_sound_doc G src
    rw [h] at this
    exact ⟨this.1, this.2.1, this.2.2.1⟩
  · rintro ⟨⟨a, t, b, hsrc, ha, hv, hb⟩, hn, hk⟩
    rw [parse_eq]
    unfold parseTokens
    obtain ⟨c, r, ht, hc, -⟩ := value_head hv
    have hnw : NotWsHead (t ++ b) := by rw [ht]; exact notWs_cons _ hc
    have hsep : SepHead b := by
      have := sepHead_ws hb (s := []) (by intro c t h; cases h)
      simpa using this
    have l1 := len_ws ha hnw
    obtain ⟨node, hr, hval⟩ := ((reads t.length).1 v t (Nat.le_refl _) hv src
      (2 * (view [] (piecesOf src)).length + 2) 0 ([] ++ a) b (by rw [hsrc]; simp) hsep (by omega)
      hk).2 (by rw [view_length, hsrc]; omega)
    refine ⟨node, ?_, hval⟩
    have hsk : skipTrivia (view [] (piecesOf src)) = view ([] ++ a) (piecesOf (t ++ b)) := by
      rw [hsrc]; exact skip_ws [] ha hnw
    have hsk2 := skip_ws ([] ++ a ++ t) hb (s := []) (by intro c t h; cases h)
    rw [List.append_nil] at hsk2
    rw [hsk, hr]
    simp only []
    rw [skipTrivia_idem, hsk2, piecesOf_nil, view]
    simp

/-- **C37 (total).** On every text the parser returns a value or one of its documented errors: it
does not panic (slicing, popping) and it stops. -/
theorem C37_json_total (G : Segmenter) (src : List Char) :
    (∃ node, parse G src = .ok node) ∨ ∃ e, parse G src = .error e ∧ e ≠ .panic ∧ e ≠ .outOfFuel := by
  have := parse_sound_doc G src
  cases h : parse G src with
  | ok node => exact .inl ⟨node, rfl⟩
  | error e => rw [h] at this; exact .inr ⟨e, rfl, this.1, this.2⟩

/-- **C37 (ranges).** Every value in the result, at any depth, has the range of a JSON text of it in
the source. -/
theorem C37_json_ranges (G : Segmenter) (src : List Char) (node : Node)
    (h : parse G src = .ok node) : Everywhere (InPlace src) node := by
  have := parse_sound_doc G src
  rw [h] at this
  exact this.2.2.2

/-- The texts of a result, to compare results by. -/
def shown (r : Except Err Node) : Except Err (List Char) := r.map fun n => render n.toVal

/-- Concrete case for C37: nested values with white space are read. -/
example : shown (parse charSegmenter "{ \"a\" : [1, true],\n\"b\\u0041\" : null }".toList)
    = .ok "{\"a\":[1,true],\"bA\":null}".toList := by
  decide +kernel

/-- Duplicate keys are rejected. -/
example : shown (parse charSegmenter "{\"a\":1,\"\\u0061\":2}".toList)
    = .error (.duplicateKey ['a']) := by decide +kernel

/-- A text has at most one value. -/
theorem C37_json_unambiguous (v v' : Val) (src : List Char) (h : Document tombi v src)
    (h' : Document tombi v' src) (hn : nesting v ≤ 128) (hn' : nesting v' ≤ 128)
    (hk : KeysDistinct v) (hk' : KeysDistinct v') : v = v' := by
  obtain ⟨n, h1, h2⟩ := (C37_json_exact charSegmenter src v).mpr ⟨h, hn, hk⟩
  obtain ⟨n', h1', h2'⟩ := (C37_json_exact charSegmenter src v').mpr ⟨h', hn', hk'⟩
  rw [h1] at h1'
  cases h1'
  rw [← h2, ← h2']

/-- **C37 (standard texts).** Every JSON text of RFC 8259 whose carriage returns stand before line
feeds, which nests at most 128 levels and has no duplicate keys, is read as the value the standard
gives it. -/
theorem C37_json_reads_standard_partial (G : Segmenter) (src : List Char) (v : Val)
    (h : Document rfcLines v src) (hn : nesting v ≤ 128) (hk : KeysDistinct v) :
    ∃ node, parse G src = .ok node ∧ node.toVal = v := by
  refine (C37_json_exact G src v).mpr ⟨?_, hn, hk⟩
  obtain ⟨a, t, b, h1, h2, h3, h4⟩ := h
  exact ⟨a, t, b, h1, rfcLines_ws h2, rfcLines_value h3, rfcLines_ws h4⟩

/-- The restriction is needed: RFC 8259 allows a lone carriage return as white space. -/
theorem C37_json_carriage_return_false :
    Document rfc (.num ['1']) ['\r', '1']
      ∧ ¬ ∃ node, parse charSegmenter ['\r', '1'] = .ok node := by
  refine ⟨⟨['\r'], ['1'], [], rfl, ?_, .num _ ?_, ?_⟩, ?_⟩
  · intro c hc; simp at hc; simp [hc]
  · exact ⟨[], ['1'], [], [], ⟨rfl, .inl rfl, ⟨by simp, by intro c hc; simp at hc; subst hc; exact ⟨by decide, by decide⟩⟩,
      .inl rfl, .inl rfl⟩, ⟨by simp, by intro c hc; simp at hc; subst hc; exact ⟨by decide, by decide⟩⟩, by simp⟩
  · intro c hc; simp at hc
  · rintro ⟨n, h⟩
    have : shown (parse charSegmenter ['\r', '1']) = .error .invalidValue := by decide +kernel
    rw [h] at this
    cases this

/-- **C37 (round trip).** Printing a value whose numbers are JSON numbers as JSON text and parsing
the text gives the value, if it nests at most 128 levels and has no duplicate keys. -/
theorem C37_json_roundtrip (G : Segmenter) (v : Val) (hnum : RfcNumbers v) (hn : nesting v ≤ 128)
    (hk : KeysDistinct v) : ∃ node, parse G (render v) = .ok node ∧ node.toVal = v :=
  C37_json_reads_standard_partial G _ v
    ⟨[], render v, [], by simp, ⟨by intro c hc; simp at hc, by intro a b h; simp at h⟩,
      render_value v hnum, ⟨by intro c hc; simp at hc, by intro a b h; simp at h⟩⟩ hn hk

/-- Deeper nesting is rejected. -/
theorem C37_json_too_deep (G : Segmenter) (src : List Char) (v : Val) (h : 128 < nesting v) :
    ¬ ∃ node, parse G src = .ok node ∧ node.toVal = v := by
  intro h'
  have := ((C37_json_exact G src v).mp h').2.1
  omega

/-- Duplicate keys are rejected, at any depth. -/
theorem C37_json_duplicate_keys (G : Segmenter) (src : List Char) (v : Val) (h : ¬ KeysDistinct v) :
    ¬ ∃ node, parse G src = .ok node ∧ node.toVal = v := fun h' =>
  h ((C37_json_exact G src v).mp h').2.2

/-- Concrete case: a value with a text to escape meets the hypotheses of the round trip. -/
example : RfcNumbers (.obj [(['"', '\n'], .arr [.num ['1'], .str ['\x01']])])
    ∧ KeysDistinct (.obj [(['"', '\n'], .arr [.num ['1'], .str ['\x01']])]) := by
  refine ⟨⟨⟨?_, trivial, trivial⟩, trivial⟩, ⟨by decide, ⟨trivial, trivial, trivial⟩, trivial⟩⟩
  exact ⟨[], ['1'], [], [], ⟨rfl, .inl rfl, ⟨by simp, by intro c hc; simp at hc; subst hc; exact ⟨by decide, by decide⟩⟩,
    .inl rfl, .inl rfl⟩, ⟨by simp, by intro c hc; simp at hc; subst hc; exact ⟨by decide, by decide⟩⟩, by simp⟩

/-- The printer of the code (`Display for ValueNode`) does not print JSON: keys are not quoted, so
what it prints for an object is rejected. -/
theorem C37_json_display_false :
    ∃ (src : List Char) (node : Node), parse charSegmenter src = .ok node
      ∧ ¬ ∃ node', parse charSegmenter node.toVal.display = .ok node' := by
  have h1 : shown (parse charSegmenter "{\"a\":1}".toList) = .ok "{\"a\":1}".toList := by
    decide +kernel
  cases h : parse charSegmenter "{\"a\":1}".toList with
  | error e => rw [h] at h1; cases h1
  | ok node =>
    refine ⟨_, node, h, ?_⟩
    have h2 : ((parse charSegmenter "{\"a\":1}".toList).map fun n => n.toVal.display)
        = .ok "{a: 1}".toList := by decide +kernel
    rw [h] at h2
    have h3 : node.toVal.display = "{a: 1}".toList := Except.ok.inj h2
    rw [h3]
    rintro ⟨n, hn⟩
    have h4 : shown (parse charSegmenter "{a: 1}".toList)
        = .error (.unexpectedToken .STRING .INVALID_TOKEN) := by decide +kernel
    rw [hn] at h4
    cases h4

/-- Texts that RFC 8259 excludes are accepted: a comma before a bracket, leading zeros. -/
theorem C37_json_accepts_more_false :
    shown (parse charSegmenter "[1,]".toList) = .ok "[1]".toList
      ∧ shown (parse charSegmenter "00.5".toList) = .ok "00.5".toList := by
  constructor <;> decide +kernel

/-! ## C36: strings -/

/-- **C36 (exact).** A text between quotes is read as the string `s` exactly when RFC 8259 says that
it stands for `s`; in particular control characters, unknown escapes and lone surrogates are
rejected, and pairs of surrogates give one character. -/
theorem C36_json_string_exact (G : Segmenter) (b s : List Char) :
    (∃ node, parse G ('"' :: (b ++ ['"'])) = .ok node ∧ node.toVal = .str s) ↔ Decodes b s := by
  rw [C37_json_exact]
  constructor
  · rintro ⟨⟨a, t, w, h1, h2, h3, h4⟩, -, -⟩
    cases h3 with
    | str b' _ hd =>
      cases a with
      | cons x a =>
        simp at h1
        have := TombiWs.chars h2 x (by simp)
        rw [← h1.1] at this
        exact absurd this (by decide)
      | nil =>
        simp at h1
        have : w = [] := by
          cases hw : w.reverse with
          | nil => simpa using hw
          | cons x xs =>
            have hx : x ∈ w := by rw [← List.mem_reverse, hw]; simp
            have := TombiWs.chars h4 x hx
            have h5 := congrArg List.reverse h1
            simp [hw] at h5
            rw [← h5.1] at this
            exact absurd this (by decide)
        subst this
        have := List.append_cancel_right h1
        rw [this]
        exact hd
  · intro hd
    exact ⟨⟨[], _, [], by simp, TombiWs.nil, .str b s hd, TombiWs.nil⟩, by simp [nesting], trivial⟩

/-- **C36 (keys).** The same for keys of objects. -/
theorem C36_json_key (G : Segmenter) (b k : List Char) (h : Decodes b k) :
    ∃ node, parse G ('{' :: '"' :: (b ++ ['"', ':', '0', '}'])) = .ok node
      ∧ node.toVal = .obj [(k, .num ['0'])] := by
  rw [C37_json_exact]
  have hz : TombiNumber ['0'] :=
    ⟨[], ['0'], [], [], ⟨rfl, .inl rfl, ⟨by simp, by intro c hc; simp at hc; subst hc; exact ⟨by decide, by decide⟩⟩,
      .inl rfl, .inl rfl⟩, .inl ⟨⟨by simp, by intro c hc; simp at hc; subst hc; exact ⟨by decide, by decide⟩⟩, .inl rfl⟩⟩
  refine ⟨⟨[], _, [], ?_, TombiWs.nil, .obj [(k, .num ['0'])] _ (.one [] _ [] k _ TombiWs.nil
    (.mk k b [] [] ['0'] _ h TombiWs.nil TombiWs.nil (.num _ hz)) TombiWs.nil), TombiWs.nil⟩, ?_, ?_⟩
  · simp
  · simp [nesting, nestingMembers]
  · exact ⟨by simp, trivial, trivial⟩

/-- A body stands for at most one text. -/
theorem C36_json_string_unique (b s s' : List Char) (h : Decodes b s) (h' : Decodes b s') : s = s' := by
  have h1 := decodeLoop_complete h b.length (Nat.le_refl _)
  have h2 := decodeLoop_complete h' b.length (Nat.le_refl _)
  rw [h1] at h2
  exact Except.ok.inj h2

/-- Every text can be written as a string. -/
theorem C36_json_string_writable (G : Segmenter) (s : List Char) :
    ∃ node, parse G (renderString s) = .ok node ∧ node.toVal = .str s :=
  (C36_json_string_exact G _ s).mpr (render_decodes s)

/-- Concrete cases for C36: an escape, a pair of surrogates. -/
example : Decodes "\\n\\uD83D\\ude00".toList ['\n', '😀'] :=
  .escape 'n' '\n' _ _ (by decide) <|
    .pair ['D', '8', '3', 'D'] ['d', 'e', '0', '0'] 0xD83D 0xDE00 '😀' [] []
      ⟨'D', '8', '3', 'D', 13, 8, 3, 13, rfl, by decide, by decide, by decide, by decide, by decide⟩
      (by decide) (by decide)
      ⟨'d', 'e', '0', '0', 13, 14, 0, 0, rfl, by decide, by decide, by decide, by decide, by decide⟩
      (by decide) (by decide) (by decide) .nil

/-- Concrete case for C36: a lone surrogate is rejected. -/
example : shown (parse charSegmenter "\"\\ud83d\"".toList) = .error .invalidUnicodeCodePoint := by
  decide +kernel

/-! ## C57: integers -/

theorem digitsVal_decimal (ds : List Char) : digitsVal ds = decimal ds := by
  have key : ∀ n, ds.foldl (fun n d => n * 10 + (d.toNat - '0'.toNat)) n
      = n * 10 ^ ds.length + decimal ds := by
    induction ds with
    | nil => intro n; simp [decimal]
    | cons d ds ih =>
      intro n
      rw [List.foldl_cons, ih]
      simp only [decimal, List.length_cons, Nat.pow_succ, Nat.add_mul]
      rw [Nat.mul_assoc, Nat.mul_comm 10]
      omega
  have := key 0
  unfold digitsVal
  simpa using this

theorem round53_small (n : Nat) (h : n ≤ 2 ^ 53) : round53 n = n := by
  by_cases h2 : n = 2 ^ 53
  · subst h2; decide +kernel
  · have hl : n.log2 < 53 := by
      by_cases h0 : n = 0
      · subst h0; decide
      · exact (Nat.log2_lt h0).mpr (by omega)
    unfold round53
    have : n.log2 + 1 - 53 = 0 := by omega
    rw [this]
    simp
    omega

/-- **C57 (small integers).** An integer of magnitude at most `2^53` is read exactly, whatever its
leading zeros. -/
theorem C57_json_integer_exact_partial (ds : List Char) (hd : Digits ds) (hv : decimal ds ≤ 2 ^ 53) :
    readInteger ds = some (decimal ds : Int) ∧ readInteger ('-' :: ds) = some (-(decimal ds : Int)) := by
  have hne : ∀ rest, ds ≠ '-' :: rest := by
    rintro rest rfl
    exact absurd (hd.2 '-' (by simp)).1 (by decide)
  have hr : round53 (digitsVal ds) = decimal ds := by
    rw [digitsVal_decimal, round53_small _ hv]
  have h1 : ¬ (2 ^ 1024 ≤ decimal ds) := by
    intro h
    have : (2 : Nat) ^ 1024 ≤ 2 ^ 53 := Nat.le_trans h hv
    exact absurd this (by decide +kernel)
  have h2 : decimal ds ≤ 2 ^ 63 := Nat.le_trans hv (by decide)
  have h3 : decimal ds ≠ 2 ^ 63 := by
    intro h
    rw [h] at hv
    exact absurd hv (by decide)
  constructor
  · cases ds with
    | nil => exact absurd rfl hd.1
    | cons d ds =>
      have hdm : d ≠ '-' := fun h => hne ds (by rw [h])
      unfold readInteger
      split
      next neg es heq =>
      split at heq
      · next h => simp at h; exact absurd h.1 hdm
      · simp at heq
        obtain ⟨rfl, rfl⟩ := heq
        simp only [hr]
        rw [if_neg h1]
        simp [h2, h3]
  · unfold readInteger
    simp only [hr]
    rw [if_neg h1]
    simp [h2]

/-- Not every integer is: `2^53 + 1`, and `2^63` (which fits no `i64` and is read as `2^63 - 1`). -/
theorem C57_json_integer_exact_false :
    readInteger "9007199254740993".toList = some 9007199254740992
      ∧ readInteger "9223372036854775808".toList = some 9223372036854775807 := by
  constructor <;> decide +kernel

/-- An integer too large for a float is read as zero. -/
theorem C57_json_integer_overflow_false (ds : List Char) (hd : Digits ds)
    (hv : 2 ^ 1024 ≤ round53 (decimal ds)) : readInteger ds = some 0 := by
  cases ds with
  | nil => exact absurd rfl hd.1
  | cons d ds =>
    have hdm : d ≠ '-' := by
      rintro rfl
      exact absurd (hd.2 '-' (by simp)).1 (by decide)
    unfold readInteger
    split
    next neg es heq =>
    split at heq
    · next h => simp at h; exact absurd h.1 hdm
    · simp at heq
      rw [← heq.2, digitsVal_decimal, if_pos hv]

/-- Concrete case: an integer with a leading zero. -/
example : Digits ['0', '4', '2'] ∧ decimal ['0', '4', '2'] = 42 :=
  ⟨⟨by simp, by intro c hc; simp at hc; rcases hc with rfl | rfl | rfl <;> exact ⟨by decide, by decide⟩⟩, by decide⟩

end Tombi.Json
