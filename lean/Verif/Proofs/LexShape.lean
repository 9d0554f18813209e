import Verif.Proofs.Cursor
/-!
What each token produced by the lexer looks like (`Shape`), and the proof that `advance_token`
always produces either a token of that shape or an error, by consuming text (`Emit`).
-/
namespace Tombi

/-- the following text starts with a token separator (or is empty) -/
def SepAfter (after : List Char) : Prop := isTokenSeparatorWithDot (after.headD eofChar) = true

/-- optional sign -/
def IsSign (s : List Char) : Prop := s = [] ∨ s = ['+'] ∨ s = ['-']

/-- interior of a single-line basic string as the lexer scans it -/
inductive BasicBody : List Char → Prop where
  | nil : BasicBody []
  | esc (e : Char) (r : List Char) : e = '"' ∨ e = '\\' → BasicBody r → BasicBody ('\\' :: e :: r)
  | chr (c : Char) (r : List Char) : c ≠ '"' →
      (c = '\\' → ∃ d r', r = d :: r' ∧ d ≠ '"' ∧ d ≠ '\\') →
      (∀ d r', r = d :: r' → isLineBreak d = false) → BasicBody r → BasicBody (c :: r)

/-- shape of a signed literal matched by a regular expression -/
def SignedRx (r : Rx) (text after : List Char) : Prop :=
  ∃ sign body, IsSign sign ∧ text = sign ++ body ∧ r.Lang body ∧ SepAfter after
    ∧ ∃ d w, body = d :: w ∧ isAsciiDigit d = true

/-- first characters a bare key token can have -/
def isKeyFirst (c : Char) : Bool :=
  isAsciiDigit c || c == '-' || inRange 'A' 'Z' c || inRange 'a' 'z' c || c == '_' || c == '$'
    || decide (0xA0 ≤ c.toNat)

/-- What is known about a non-error token: its text, and the text after it. -/
def Shape (k : SyntaxKind) (text after : List Char) : Prop :=
  match k with
  | .WHITESPACE => text ≠ [] ∧ (∀ c ∈ text, isWhitespace c = true)
      ∧ (∀ c r, after = c :: r → isWhitespace c = false)
  | .LINE_BREAK => text = ['\n'] ∨ text = ['\r', '\n']
  | .COMMENT => ∃ body, text = '#' :: body ∧ (∀ c ∈ body, isLineBreak c = false)
      ∧ (∀ c r, after = c :: r → isLineBreak c = true)
  | .BRACE_START => text = ['{']
  | .BRACE_END => text = ['}']
  | .BRACKET_START => text = ['[']
  | .BRACKET_END => text = [']']
  | .COMMA => text = [',']
  | .DOT => text = ['.']
  | .EQUAL => text = ['=']
  | .BOOLEAN => (text = ['t', 'r', 'u', 'e'] ∨ text = ['f', 'a', 'l', 's', 'e']) ∧ SepAfter after
  | .FLOAT => (∃ sign, IsSign sign ∧ (text = sign ++ ['i', 'n', 'f'] ∨ text = sign ++ ['n', 'a', 'n'])
        ∧ SepAfter after) ∨ SignedRx LexRx.float text after
  | .INTEGER_BIN => SignedRx LexRx.integerBin text after
  | .INTEGER_OCT => SignedRx LexRx.integerOct text after
  | .INTEGER_HEX => SignedRx LexRx.integerHex text after
  | .INTEGER_DEC => SignedRx LexRx.integerDec text after
  | .OFFSET_DATE_TIME => LexRx.offsetDateTime.Lang text ∧ SepAfter after ∧ ',' ∉ text.tail
  | .LOCAL_DATE_TIME => LexRx.localDateTime.Lang text ∧ SepAfter after ∧ ',' ∉ text.tail
  | .LOCAL_DATE => LexRx.localDate.Lang text ∧ SepAfter after
  | .LOCAL_TIME => LexRx.localTime.Lang text ∧ SepAfter after ∧ ',' ∉ text.tail
  | .BASIC_STRING => ∃ body, text = '"' :: body ++ ['"'] ∧ BasicBody body
  | .LITERAL_STRING => ∃ body, text = '\'' :: body ++ ['\''] ∧ '\'' ∉ body
      ∧ (∀ c ∈ body.tail, isLineBreak c = false)
  | .MULTI_LINE_BASIC_STRING => ∃ body n, 3 ≤ n ∧ n ≤ 5
      ∧ text = ['"', '"', '"'] ++ body ++ List.replicate n '"'
      ∧ (∀ c r, after = c :: r → c ≠ '"')
  | .MULTI_LINE_LITERAL_STRING => ∃ body n, 3 ≤ n ∧ n ≤ 5
      ∧ text = ['\'', '\'', '\''] ++ body ++ List.replicate n '\''
      ∧ (∀ c r, after = c :: r → c ≠ '\'')
  | .BARE_KEY => ∃ c w, text = c :: w ∧ isKeyFirst c = true ∧ (∀ d ∈ w, isKeyChar d = true)
      ∧ SepAfter after
  | _ => False

/-- The result of a sub-lexer started at cursor `c`, `pre` being the part of the token consumed
before. -/
inductive Emit (pre : List Char) (c : Cursor) : LexStep × Cursor → Prop where
  | ok (w : List Char) (c1 : Cursor) (k : SyntaxKind) : Adv c c1 w → k ≠ .LINE_BREAK →
      Shape k (pre ++ w) c1.rest → Emit pre c (c1.ok k)
  | lf (w : List Char) (c1 : Cursor) : Adv c c1 w → pre ++ w = ['\n'] →
      Emit pre c (c1.ok .LINE_BREAK)
  | crlf (w : List Char) (c1 : Cursor) : Adv c c1 w → pre ++ w = ['\r', '\n'] →
      Emit pre c (({ c1 with lineEnding := .crlf } : Cursor).ok .LINE_BREAK)
  | fail (w : List Char) (c1 : Cursor) (k : LexErrorKind) : Adv c c1 w →
      Emit pre c (c1.fail k)

theorem Emit.of_adv {pre : List Char} {c c1 : Cursor} {w : List Char} {r : LexStep × Cursor}
    (h : Adv c c1 w) (hr : Emit (pre ++ w) c1 r) : Emit pre c r := by
  cases hr with
  | ok w' c2 k h2 hk hs => exact .ok (w ++ w') c2 k (h.trans h2) hk (by rwa [← List.append_assoc])
  | lf w' c2 h2 hs => exact .lf (w ++ w') c2 (h.trans h2) (by rwa [← List.append_assoc])
  | crlf w' c2 h2 hs => exact .crlf (w ++ w') c2 (h.trans h2) (by rwa [← List.append_assoc])
  | fail w' c2 k h2 => exact .fail (w ++ w') c2 k (h.trans h2)

theorem mem_takeWhile {p : Char → Bool} {l : List Char} {c : Char} (h : c ∈ l.takeWhile p) :
    p c = true := by
  have := List.all_takeWhile (p := p) (l := l)
  exact (List.all_eq_true.mp this) c h

theorem head_dropWhile {p : Char → Bool} {l : List Char} {c : Char} {r : List Char}
    (h : l.dropWhile p = c :: r) : p c = false := by
  induction l with
  | nil => simp at h
  | cons x xs ih =>
    rw [List.dropWhile_cons] at h
    split at h
    · exact ih h
    · next hp => simp at h; rw [← h.1]; simpa using hp

theorem Emit.whitespace {c : Cursor} (h : isWhitespace c.cur = true) :
    Emit [c.cur] c c.whitespace := by
  obtain ⟨h1, h2⟩ := Adv.eatWhile isWhitespace c
  refine .ok _ _ _ h1 (by decide) ?_
  refine ⟨by simp, ?_, ?_⟩
  · intro d hd
    simp at hd
    rcases hd with rfl | hd
    · exact h
    · exact mem_takeWhile hd
  · intro d r hd
    rw [h2] at hd
    exact head_dropWhile hd

theorem Emit.lineComment {c : Cursor} (h : c.cur = '#') : Emit [c.cur] c c.lineComment := by
  obtain ⟨h1, h2⟩ := Adv.eatWhile (fun x => !(x == '\n' || x == '\r')) c
  refine .ok _ _ _ h1 (by decide) ⟨_, by rw [h]; rfl, ?_, ?_⟩
  · intro d hd
    have := mem_takeWhile hd
    simp only [isLineBreak]
    simp at this
    simp [this]
  · intro d r hd
    rw [h2] at hd
    have := head_dropWhile hd
    simp at this
    simp [isLineBreak]
    rw [or_comm]
    exact Classical.or_iff_not_imp_left.mpr this

theorem Emit.lineBreak {c : Cursor} (h : isLineBreak c.cur = true) :
    Emit [c.cur] c c.lineBreak := by
  unfold Cursor.lineBreak
  by_cases hr : c.cur = '\r'
  · rw [if_pos hr]
    by_cases hn : c.peek 1 = '\n'
    · rw [if_pos hn]
      obtain ⟨h1, h2⟩ := Adv.eatN 1 c
      refine .crlf _ _ h1 ?_
      rw [Cursor.peek_one] at hn
      cases hc : c.rest with
      | nil => rw [hc] at hn; simp [eofChar] at hn
      | cons x xs => rw [hc] at hn; simp at hn; simp [hr, hn]
    · rw [if_neg hn]
      exact .fail [] c _ (Adv.refl c)
  · rw [if_neg hr]
    have : c.cur = '\n' := by simpa [isLineBreak, hr] using h
    exact .lf [] c (Adv.refl c) (by simp [this])

theorem Emit.single {c : Cursor} {k : SyntaxKind} (hk : k ≠ .LINE_BREAK)
    (h : Shape k [c.cur] c.rest) : Emit [c.cur] c (c.ok k) :=
  .ok [] c k (Adv.refl c) hk (by simpa using h)

theorem Emit.eatFail (pre : List Char) (c : Cursor) (p : Char → Bool) (k : LexErrorKind) :
    Emit pre c ((c.eatWhile p).fail k) := .fail _ _ _ (Adv.eatWhile p c).1

/-! ### strings -/

theorem isLineBreak_peek {c : Cursor} {d : Char} {r : List Char} (h : c.rest = d :: r) :
    isLineBreak (c.peek 1) = isLineBreak d := by rw [Cursor.peek_one, h]; rfl

theorem Emit.basicStringLoop (l : List Char) (c : Cursor) (hl : c.rest = l) :
    (∃ w c1, Adv c c1 w ∧ Cursor.basicStringLoop l c = c1.fail .InvalidBasicString) ∨
    (∃ body c1, Adv c c1 (body ++ ['"']) ∧ Cursor.basicStringLoop l c = c1.ok .BASIC_STRING
      ∧ BasicBody body) := by
  induction hn : l.length using Nat.strongRecOn generalizing l c with
  | _ n ih =>
  cases l with
  | nil => exact Or.inl ⟨[], c.bump, (Adv.bump_nil hl).1, rfl⟩
  | cons x xs =>
    obtain ⟨h1, h2, h3⟩ := Adv.bump_cons hl
    unfold Cursor.basicStringLoop
    simp only []
    by_cases hq : x = '"'
    · subst hq
      rw [if_pos rfl]
      exact Or.inr ⟨[], c.bump, h1, rfl, .nil⟩
    · rw [if_neg hq]
      by_cases he : x = '\\' ∧ (c.bump.peek 1 = '"' ∨ c.bump.peek 1 = '\\')
      · rw [if_pos he]
        cases xs with
        | nil =>
          exfalso
          have := he.2
          rw [Cursor.peek_one, h2] at this
          simp [eofChar] at this
        | cons y ys =>
          obtain ⟨h4, h5, -⟩ := Adv.bump_cons h2
          have hy : y = '"' ∨ y = '\\' := by
            have := he.2
            rw [Cursor.peek_one, h2] at this
            simpa using this
          have h14 : Adv c c.bump.bump ([x, y]) := h1.trans h4
          rcases ih ys.length (by simp at hn; omega) ys c.bump.bump h5 rfl with ⟨w, c1, ha, hb⟩ | ⟨b, c1, ha, hb, hc⟩
          · exact Or.inl ⟨_, c1, h14.trans ha, hb⟩
          · refine Or.inr ⟨[x, y] ++ b, c1, ?_, hb, ?_⟩
            · rw [List.append_assoc]; exact h14.trans ha
            · rw [he.1]; exact .esc y b hy hc
      · rw [if_neg he]
        by_cases hb : isLineBreak (c.bump.peek 1) = true
        · rw [if_pos hb]
          exact Or.inl ⟨[x], c.bump, h1, rfl⟩
        · rw [if_neg hb]
          rcases ih xs.length (by simp at hn; omega) xs c.bump h2 rfl with ⟨w, c1, ha, hb'⟩ | ⟨b, c1, ha, hb', hc⟩
          · exact Or.inl ⟨_, c1, h1.trans ha, hb'⟩
          · refine Or.inr ⟨[x] ++ b, c1, ?_, hb', ?_⟩
            · rw [List.append_assoc]; exact h1.trans ha
            · have hrest : c.bump.rest = b ++ ['"'] ++ c1.rest := ha.rest
              refine .chr x b hq ?_ ?_ hc
              · intro hx
                cases b with
                | nil =>
                  exfalso
                  exact he ⟨hx, Or.inl (by rw [Cursor.peek_one, hrest]; rfl)⟩
                | cons d r =>
                  refine ⟨d, r, rfl, ?_, ?_⟩
                  · rintro rfl
                    exact he ⟨hx, Or.inl (by rw [Cursor.peek_one, hrest]; rfl)⟩
                  · rintro rfl
                    exact he ⟨hx, Or.inr (by rw [Cursor.peek_one, hrest]; rfl)⟩
              · intro d r hdr
                subst hdr
                rw [isLineBreak_peek (c := c.bump) (d := d) (r := r ++ ['"'] ++ c1.rest)
                  (by rw [hrest]; simp)] at hb
                simpa using hb

theorem Emit.basicString {c : Cursor} (h : c.cur = '"') : Emit [c.cur] c c.basicString := by
  rcases Emit.basicStringLoop c.rest c rfl with ⟨w, c1, h1, h2⟩ | ⟨b, c1, h1, h2, h3⟩
  · unfold Cursor.basicString; rw [h2]; exact .fail _ _ _ h1
  · unfold Cursor.basicString; rw [h2]
    refine .ok _ _ _ h1 (by decide) ⟨b, ?_, h3⟩
    rw [h]; simp

theorem Emit.literalStringLoop (l : List Char) (c : Cursor) (hl : c.rest = l) :
    (∃ w c1, Adv c c1 w ∧ Cursor.literalStringLoop l c = c1.fail .InvalidLiteralString) ∨
    (∃ body c1, Adv c c1 (body ++ ['\'']) ∧ Cursor.literalStringLoop l c = c1.ok .LITERAL_STRING
      ∧ '\'' ∉ body ∧ (∀ d ∈ body.tail, isLineBreak d = false)) := by
  induction l generalizing c with
  | nil => exact Or.inl ⟨[], c.bump, (Adv.bump_nil hl).1, rfl⟩
  | cons x xs ih =>
    obtain ⟨h1, h2, h3⟩ := Adv.bump_cons hl
    unfold Cursor.literalStringLoop
    simp only []
    by_cases hq : x = '\''
    · subst hq
      rw [if_pos rfl]
      exact Or.inr ⟨[], c.bump, h1, rfl, by simp, by simp⟩
    · rw [if_neg hq]
      by_cases hb : isLineBreak (c.bump.peek 1) = true
      · rw [if_pos hb]
        exact Or.inl ⟨[x], c.bump, h1, rfl⟩
      · rw [if_neg hb]
        rcases ih c.bump h2 with ⟨w, c1, ha, hb'⟩ | ⟨b, c1, ha, hb', hc, hd⟩
        · exact Or.inl ⟨_, c1, h1.trans ha, hb'⟩
        · refine Or.inr ⟨[x] ++ b, c1, ?_, hb', ?_, ?_⟩
          · rw [List.append_assoc]; exact h1.trans ha
          · simp; exact ⟨fun h => hq h.symm, hc⟩
          · have hrest : c.bump.rest = b ++ ['\''] ++ c1.rest := ha.rest
            intro d hd'
            simp at hd'
            cases b with
            | nil => simp at hd'
            | cons e r =>
              simp at hd'
              rcases hd' with rfl | hd'
              · rw [isLineBreak_peek (c := c.bump) (d := d) (r := r ++ ['\''] ++ c1.rest)
                  (by rw [hrest]; simp)] at hb
                simpa using hb
              · exact hd d (by simpa using hd')

theorem Emit.literalString {c : Cursor} (h : c.cur = '\'') : Emit [c.cur] c c.literalString := by
  rcases Emit.literalStringLoop c.rest c rfl with ⟨w, c1, h1, h2⟩ | ⟨b, c1, h1, h2, h3, h4⟩
  · unfold Cursor.literalString; rw [h2]; exact .fail _ _ _ h1
  · unfold Cursor.literalString; rw [h2]
    refine .ok _ _ _ h1 (by decide) ⟨b, ?_, h3, h4⟩
    rw [h]; simp

theorem takeWhile_eq_replicate (q : Char) (l : List Char) :
    l.takeWhile (· == q) = List.replicate (l.takeWhile (· == q)).length q := by
  rw [List.eq_replicate_iff]
  exact ⟨rfl, fun b hb => by simpa using mem_takeWhile hb⟩

theorem peek_two_of {c : Cursor} {q : Char} (hq : q ≠ eofChar) (h1 : c.peek 1 = q)
    (h2 : c.peek 2 = q) : ∃ r, c.rest = q :: q :: r := by
  unfold Cursor.peek at h1 h2
  match hc : c.rest with
  | [] => rw [hc] at h1; simp at h1; exact absurd h1.symm hq
  | [x] => rw [hc] at h2; simp at h2; exact absurd h2.symm hq
  | x :: y :: r => rw [hc] at h1 h2; simp at h1 h2; exact ⟨r, by rw [h1, h2]⟩

/-- closing delimiter of a multi-line string -/
theorem closing_quotes {c : Cursor} {q : Char} (hq : q ≠ eofChar) (hq8 : q.toNat < 128)
    (h1 : c.peek 1 = q) (h2 : c.peek 2 = q) :
    ∃ n, 2 ≤ n ∧ c.peekWhile (· == q) = List.replicate n q ∧ utf8Len (c.peekWhile (· == q)) = n
      ∧ Adv c (c.eatWhile (· == q)) (List.replicate n q)
      ∧ (∀ d r, (c.eatWhile (· == q)).rest = d :: r → d ≠ q) := by
  obtain ⟨r, hr⟩ := peek_two_of hq h1 h2
  obtain ⟨h3, h4⟩ := Adv.eatWhile (· == q) c
  refine ⟨(c.rest.takeWhile (· == q)).length, ?_, takeWhile_eq_replicate q c.rest, ?_, ?_, ?_⟩
  · rw [hr]; simp
  · unfold Cursor.peekWhile
    apply utf8Len_ascii
    intro d hd
    have := mem_takeWhile hd
    simp at this
    rw [this]; exact hq8
  · rw [← takeWhile_eq_replicate]; exact h3
  · intro d t hd
    rw [h4] at hd
    have := head_dropWhile hd
    simpa using this

theorem Emit.multiLineBasicStringLoop (l : List Char) (wq : Bool) (c : Cursor) (hl : c.rest = l) :
    (∃ w c1, Adv c c1 w ∧
      Cursor.multiLineBasicStringLoop l wq c = c1.fail .InvalidMultilineBasicString) ∨
    (∃ body n c1, Adv c c1 (body ++ List.replicate n '"') ∧ 3 ≤ n ∧ n ≤ 5
      ∧ Cursor.multiLineBasicStringLoop l wq c = c1.ok .MULTI_LINE_BASIC_STRING
      ∧ (∀ d r, c1.rest = d :: r → d ≠ '"')) := by
  induction l generalizing c wq with
  | nil => exact Or.inl ⟨[], c.bump, (Adv.bump_nil hl).1, rfl⟩
  | cons x xs ih =>
    obtain ⟨h1, h2, h3⟩ := Adv.bump_cons hl
    have step : ∀ b, (∃ w c1, Adv c c1 w ∧
          Cursor.multiLineBasicStringLoop xs b c.bump = c1.fail .InvalidMultilineBasicString) ∨
        (∃ body n c1, Adv c c1 (body ++ List.replicate n '"') ∧ 3 ≤ n ∧ n ≤ 5
          ∧ Cursor.multiLineBasicStringLoop xs b c.bump = c1.ok .MULTI_LINE_BASIC_STRING
          ∧ (∀ d r, c1.rest = d :: r → d ≠ '"')) := by
      intro b
      rcases ih b c.bump h2 with ⟨w, c1, ha, hb⟩ | ⟨body, n, c1, ha, hb⟩
      · exact Or.inl ⟨_, c1, h1.trans ha, hb⟩
      · exact Or.inr ⟨[x] ++ body, n, c1, by rw [List.append_assoc]; exact h1.trans ha, hb⟩
    unfold Cursor.multiLineBasicStringLoop
    simp only []
    split
    · next hc =>
      simp only [Bool.and_eq_true, beq_iff_eq] at hc
      obtain ⟨⟨⟨-, hcur⟩, hp1⟩, hp2⟩ := hc
      obtain ⟨n, hn, hpw, hlen, hadv, hafter⟩ :=
        closing_quotes (c := c.bump) (q := '"') (by decide) (by decide) hp1 hp2
      have hx : x = '"' := by rw [← h3, hcur]
      have hA : Adv c (c.bump.eatWhile (· == '"')) (List.replicate (n + 1) '"') := by
        have := h1.trans hadv
        rw [hx] at this
        exact this
      split
      · exact Or.inl ⟨_, _, hA, rfl⟩
      · next hle =>
        rw [hlen] at hle
        exact Or.inr ⟨[], n + 1, _, hA, by omega, by omega, rfl, hafter⟩
    · split
      · exact step true
      · exact step false

theorem Emit.multiLineLiteralStringLoop (l : List Char) (c : Cursor) (hl : c.rest = l) :
    (∃ w c1, Adv c c1 w ∧
      Cursor.multiLineLiteralStringLoop l c = c1.fail .InvalidMultilineLiteralString) ∨
    (∃ body n c1, Adv c c1 (body ++ List.replicate n '\'') ∧ 3 ≤ n ∧ n ≤ 5
      ∧ Cursor.multiLineLiteralStringLoop l c = c1.ok .MULTI_LINE_LITERAL_STRING
      ∧ (∀ d r, c1.rest = d :: r → d ≠ '\'')) := by
  induction l generalizing c with
  | nil => exact Or.inl ⟨[], c.bump, (Adv.bump_nil hl).1, rfl⟩
  | cons x xs ih =>
    obtain ⟨h1, h2, h3⟩ := Adv.bump_cons hl
    unfold Cursor.multiLineLiteralStringLoop
    simp only []
    split
    · next hc =>
      simp only [Bool.and_eq_true, beq_iff_eq] at hc
      obtain ⟨⟨hcur, hp1⟩, hp2⟩ := hc
      obtain ⟨n, hn, hpw, hlen, hadv, hafter⟩ :=
        closing_quotes (c := c.bump) (q := '\'') (by decide) (by decide) hp1 hp2
      have hx : x = '\'' := by rw [← h3, hcur]
      have hA : Adv c (c.bump.eatWhile (· == '\'')) (List.replicate (n + 1) '\'') := by
        have := h1.trans hadv
        rw [hx] at this
        exact this
      split
      · exact Or.inl ⟨_, _, hA, rfl⟩
      · next hle =>
        rw [hlen] at hle
        exact Or.inr ⟨[], n + 1, _, hA, by omega, by omega, rfl, hafter⟩
    · rcases ih c.bump h2 with ⟨w, c1, ha, hb⟩ | ⟨body, n, c1, ha, hb⟩
      · exact Or.inl ⟨_, c1, h1.trans ha, hb⟩
      · exact Or.inr ⟨[x] ++ body, n, c1, by rw [List.append_assoc]; exact h1.trans ha, hb⟩

theorem Emit.multiLineBasicString {c : Cursor} (h : c.matches ['"', '"', '"'] = true) :
    Emit [c.cur] c c.multiLineBasicString := by
  obtain ⟨hc, t, ht⟩ := (Cursor.matches_iff c '"' ['"', '"'] (by decide)).mp h
  obtain ⟨h1, h2⟩ := Adv.eatN 2 c
  rw [ht] at h1
  have h1 : Adv c (Cursor.eatN 2 c) ['"', '"'] := by simpa using h1
  unfold Cursor.multiLineBasicString
  rcases Emit.multiLineBasicStringLoop _ false (Cursor.eatN 2 c) rfl with
    ⟨w, c1, ha, hb⟩ | ⟨body, n, c1, ha, hb1, hb2, hb3, hb4⟩
  · rw [hb]; exact .fail _ _ _ (h1.trans ha)
  · rw [hb3]
    refine .ok _ _ _ (h1.trans ha) (by decide) ⟨body, n, hb1, hb2, ?_, hb4⟩
    rw [hc]; simp

theorem Emit.multiLineLiteralString {c : Cursor} (h : c.matches ['\'', '\'', '\''] = true) :
    Emit [c.cur] c c.multiLineLiteralString := by
  obtain ⟨hc, t, ht⟩ := (Cursor.matches_iff c '\'' ['\'', '\''] (by decide)).mp h
  obtain ⟨h1, h2⟩ := Adv.eatN 2 c
  rw [ht] at h1
  have h1 : Adv c (Cursor.eatN 2 c) ['\'', '\''] := by simpa using h1
  unfold Cursor.multiLineLiteralString
  rcases Emit.multiLineLiteralStringLoop _ (Cursor.eatN 2 c) rfl with
    ⟨w, c1, ha, hb⟩ | ⟨body, n, c1, ha, hb1, hb2, hb3, hb4⟩
  · rw [hb]; exact .fail _ _ _ (h1.trans ha)
  · rw [hb3]
    refine .ok _ _ _ (h1.trans ha) (by decide) ⟨body, n, hb1, hb2, ?_, hb4⟩
    rw [hc]; simp

end Tombi
