import Verif.Proofs.LexStrings
import Verif.Props.Lexer
/-! Property C05: string tokens end where TOML says the string ends. -/
namespace Tombi
open Spec

/-- What C05 says of a literal `lit` followed by `post`: whatever stands before it, if a token starts
where the literal starts then that token has kind `k` and ends where the literal ends. -/
def LexedAs (k : SyntaxKind) (lit post : List Char) : Prop :=
  ∀ (G : Segmenter) (pre : List Char) (l : Lexed), lex G (pre ++ lit ++ post) = .ok l →
    ∀ t ∈ l.tokens, t.span.start = utf8Len pre → t.kind = k ∧ t.span.stop = utf8Len (pre ++ lit)

/-- **C05**, single-line basic strings. (The empty string must not be followed by a third quote, which
would open a multi-line string.) -/
theorem C05_basic_string (lit post : List Char) (h : BasicString lit)
    (hp : lit = ['"', '"'] → post.head? ≠ some '"') : LexedAs .BASIC_STRING lit post := by
  intro G pre l hl t ht hs
  have hne : lit ≠ [] := by obtain ⟨_, _, rfl⟩ := h; simp
  exact lex_accepts hne (accepts_basic h hp) hl ht hs

/-- **C05**, single-line literal strings. -/
theorem C05_literal_string (lit post : List Char) (h : LiteralString lit)
    (hp : lit = ['\'', '\''] → post.head? ≠ some '\'') : LexedAs .LITERAL_STRING lit post := by
  intro G pre l hl t ht hs
  have hne : lit ≠ [] := by obtain ⟨_, _, _, _, rfl⟩ := h; simp
  exact lex_accepts hne (accepts_literal h hp) hl ht hs

/-- **C05**, multi-line literal strings, not followed by one more quote. -/
theorem C05_multi_line_literal_string (lit post : List Char) (h : MultiLiteralString lit)
    (hp : post.head? ≠ some '\'') : LexedAs .MULTI_LINE_LITERAL_STRING lit post := by
  intro G pre l hl t ht hs
  have hne : lit ≠ [] := by obtain ⟨_, _, rfl⟩ := h; simp
  exact lex_accepts hne (accepts_multi_literal h hp) hl ht hs

/-- **C05**, multi-line basic strings whose last item is not an escaped backslash. What is missing: a
body ending in an escaped backslash, for which the claim is false (next theorem). -/
theorem C05_multi_line_basic_string_partial (items : List Item) (lit post : List Char)
    (h : MultiBasicString items lit) (hlast : items.getLast? ≠ some (.esc '\\'))
    (hp : post.head? ≠ some '"') : LexedAs .MULTI_LINE_BASIC_STRING lit post := by
  intro G pre l hl t ht hs
  have hne : lit ≠ [] := by obtain ⟨_, _, rfl⟩ := h; simp
  exact lex_accepts hne (accepts_multi_basic h hlast hp) hl ht hs

/-- The literal `"""\\"""`, a valid TOML string holding one backslash. -/
def escapedBackslashLit : List Char := "\"\"\"\\\\\"\"\"".toList

/-- **C05 is false** for a multi-line basic string that ends in an escaped backslash: `"""\\"""` is a
valid literal but the lexer rejects it. -/
theorem C05_multi_line_basic_string_false :
    MultiBasicString [.esc '\\'] escapedBackslashLit
      ∧ ¬ LexedAs .MULTI_LINE_BASIC_STRING escapedBackslashLit [] := by
  refine ⟨⟨by simp [Item.multi], by decide, by decide⟩, ?_⟩
  intro h
  have hl : lex charSegmenter escapedBackslashLit = .ok
      ⟨[⟨.INVALID_TOKEN, ⟨0, 8⟩, ⟨⟨0, 0⟩, ⟨0, 8⟩⟩⟩, ⟨.EOF, ⟨8, 8⟩, ⟨⟨0, 8⟩, ⟨0, 8⟩⟩⟩], [0],
        [⟨.InvalidMultilineBasicString, ⟨0, 8⟩, ⟨⟨0, 0⟩, ⟨0, 8⟩⟩⟩], .lf⟩ := by decide +kernel
  have := h charSegmenter [] _ (by simpa using hl) _ (List.mem_cons_self ..) rfl
  simp at this

/-- Concrete cases for C05: the hypotheses hold of real literals and the tokens are found. -/
example : BasicString "\"a\\\"\\\\\"".toList :=
  ⟨[.chr 'a', .esc '"', .esc '\\'], by simp [Item.single], by decide⟩
example : (lex charSegmenter "x=\"a\\\"\\\\\"\"".toList).map (fun l => l.tokens.map (fun t => (t.kind, t.span)))
    = .ok [(.BARE_KEY, ⟨0, 1⟩), (.EQUAL, ⟨1, 2⟩), (.BASIC_STRING, ⟨2, 9⟩), (.INVALID_TOKEN, ⟨9, 10⟩),
      (.EOF, ⟨10, 10⟩)] := by decide +kernel
example : LiteralString "'a\\'".toList := ⟨['a', '\\'], by decide, by decide, by decide, by decide⟩
example : MultiLiteralString "'''a''b'''''".toList :=
  ⟨"a''b''".toList, by decide, by decide⟩
example : MultiBasicString [.chr '\n', .esc '"', .quote, .quote, .esc '\\', .quote, .quote]
    "\"\"\"\n\\\"\"\"\\\\\"\"\"\"\"".toList := ⟨by simp [Item.multi], by decide, by decide⟩
example : (lex charSegmenter "'''a''b'''''#".toList).map (fun l => l.tokens.map (fun t => (t.kind, t.span)))
    = .ok [(.MULTI_LINE_LITERAL_STRING, ⟨0, 12⟩), (.COMMENT, ⟨12, 13⟩), (.EOF, ⟨13, 13⟩)] := by
  decide +kernel

/-- the items of a body scanned by the basic string loop -/
theorem BasicBody.items {body : List Char} (h : BasicBody body) :
    ∃ items, render items = body ∧ ∀ i ∈ items, ∃ c, i = .esc c ∨ (i = .chr c ∧ c ≠ '"' ∧ c ≠ '\\') := by
  generalize hn : body.length = n
  induction n using Nat.strongRecOn generalizing body with
  | ind n ih =>
    cases h with
    | nil => exact ⟨[], rfl, by simp⟩
    | esc e r he hr =>
      obtain ⟨is, h1, h2⟩ := ih r.length (by simp at hn; omega) hr rfl
      refine ⟨.esc e :: is, by simp [render, Item.text, h1], ?_⟩
      intro i hi
      simp at hi
      rcases hi with rfl | hi
      · exact ⟨e, Or.inl rfl⟩
      · exact h2 i hi
    | chr c r hc hb hl hr =>
      by_cases hbs : c = '\\'
      · obtain ⟨d, r', rfl, hd1, hd2⟩ := hb hbs
        subst hbs
        have hr' : BasicBody r' := by
          cases hr with
          | esc e _ _ _ => exact absurd rfl hd2
          | chr _ _ _ _ _ h => exact h
        obtain ⟨is, h1, h2⟩ := ih r'.length (by simp at hn; omega) hr' rfl
        refine ⟨.esc d :: is, by simp [render, Item.text, h1], ?_⟩
        intro i hi
        simp at hi
        rcases hi with rfl | hi
        · exact ⟨d, Or.inl rfl⟩
        · exact h2 i hi
      · obtain ⟨is, h1, h2⟩ := ih r.length (by simp at hn; omega) hr rfl
        refine ⟨.chr c :: is, by simp [render, Item.text, h1], ?_⟩
        intro i hi
        simp at hi
        rcases hi with rfl | hi
        · exact ⟨c, Or.inr ⟨rfl, hc, hbs⟩⟩
        · exact h2 i hi

/-- **C05**, the other direction for basic strings: the body of a `BASIC_STRING` token is a sequence
of escape pairs and characters other than quote and backslash, so the closing quote is the first
unescaped one. -/
theorem C05_basic_string_sound (G : Segmenter) (src : List Char) (l : Lexed) (h : lex G src = .ok l)
    (t : Token) (ht : t ∈ l.tokens) (hk : t.kind = .BASIC_STRING) :
    ∃ pre items post, Covers t pre ('"' :: (render items ++ ['"'])) post src
      ∧ ∀ i ∈ items, ∃ c, i = .esc c ∨ (i = .chr c ∧ c ≠ '"' ∧ c ≠ '\\') := by
  obtain ⟨pre, mid, post, h1, h2⟩ := lex_shape h ht (by simp [hk]) (by simp [hk])
  rw [hk] at h2
  obtain ⟨body, rfl, hb⟩ := h2
  obtain ⟨items, h3, h4⟩ := hb.items
  exact ⟨pre, items, post, by rw [h3]; exact h1, h4⟩

/-- **C05**, the other direction for literal strings. -/
theorem C05_literal_string_sound (G : Segmenter) (src : List Char) (l : Lexed) (h : lex G src = .ok l)
    (t : Token) (ht : t ∈ l.tokens) (hk : t.kind = .LITERAL_STRING) :
    ∃ pre body post, Covers t pre ('\'' :: (body ++ ['\''])) post src ∧ '\'' ∉ body := by
  obtain ⟨pre, mid, post, h1, h2⟩ := lex_shape h ht (by simp [hk]) (by simp [hk])
  rw [hk] at h2
  obtain ⟨body, rfl, hb, -⟩ := h2
  exact ⟨pre, body, post, h1, hb⟩

/-- Single-line string tokens may nevertheless hold a line feed, directly after the opening quote: a
deviation from TOML, where single-line strings cannot. -/
theorem C05_single_line_string_holds_newline :
    (lex charSegmenter "a=\"\nb\"".toList).map (fun l => l.tokens.map (fun t => (t.kind, t.span)))
      = .ok [(.BARE_KEY, ⟨0, 1⟩), (.EQUAL, ⟨1, 2⟩), (.BASIC_STRING, ⟨2, 6⟩), (.EOF, ⟨6, 6⟩)]
    ∧ (lex charSegmenter "a='\nb'".toList).map (fun l => l.tokens.map (fun t => (t.kind, t.span)))
      = .ok [(.BARE_KEY, ⟨0, 1⟩), (.EQUAL, ⟨1, 2⟩), (.LITERAL_STRING, ⟨2, 6⟩), (.EOF, ⟨6, 6⟩)] := by
  decide +kernel

end Tombi
