import Verif.Proofs.ParserMain
import Verif.Proofs.LexLoop
/-! What the lexer guarantees to the parser. -/
namespace Tombi

/-- an upper bound of the number of `c` in a matched text -/
def Rx.maxCount (c : Char) : Rx → Option Nat
  | .void => some 0
  | .eps => some 0
  | .cls rs => some (if Rx.inCls c rs then 1 else 0)
  | .cat a b => do return (← a.maxCount c) + (← b.maxCount c)
  | .alt a b => do return max (← a.maxCount c) (← b.maxCount c)
  | .star a => if a.maxCount c = some 0 then some 0 else none

theorem Rx.maxCount_lang {c : Char} {r : Rx} {n : Nat} (h : r.maxCount c = some n) {w : List Char}
    (hw : r.Lang w) : w.count c ≤ n := by
  induction r generalizing w n with
  | void => exact absurd hw (by simp [Lang])
  | eps => simp [Lang] at hw; simp [hw]
  | cls rs =>
    obtain ⟨d, rfl, hd⟩ := hw
    simp only [maxCount, Option.some.injEq] at h
    rw [← h]
    by_cases he : d = c
    · subst he; simp [hd]
    · simp [he]
  | cat a b iha ihb =>
    obtain ⟨u, v, rfl, hu, hv⟩ := hw
    simp only [maxCount] at h
    cases ha : a.maxCount c with
    | none => rw [ha] at h; cases h
    | some x =>
      cases hb : b.maxCount c with
      | none => rw [ha, hb] at h; cases h
      | some y =>
        rw [ha, hb] at h
        cases h
        rw [List.count_append]
        have := iha ha hu
        have := ihb hb hv
        omega
  | alt a b iha ihb =>
    simp only [maxCount] at h
    cases ha : a.maxCount c with
    | none => rw [ha] at h; cases h
    | some x =>
      cases hb : b.maxCount c with
      | none => rw [ha, hb] at h; cases h
      | some y =>
        rw [ha, hb] at h
        cases h
        rcases hw with hw | hw
        · have := iha ha hw; omega
        · have := ihb hb hw; omega
  | star a iha =>
    simp only [maxCount] at h
    split at h
    · next h0 =>
      cases h
      induction hw with
      | nil => simp
      | cons u v hu _ ih =>
        rw [List.count_append]
        have := iha h0 hu
        omega
    · cases h

theorem float_one_dot {w after : List Char} (h : Shape .FLOAT w after) : w.count '.' ≤ 1 := by
  have hs : ∀ {s : List Char}, IsSign s → s.count '.' = 0 := by
    intro s hs
    rcases hs with rfl | rfl | rfl <;> decide
  rcases h with ⟨s, h1, h2 | h2, _⟩ | ⟨s, body, h1, h2, h3, _⟩
  · rw [h2, List.count_append, hs h1]; decide
  · rw [h2, List.count_append, hs h1]; decide
  · rw [h2, List.count_append, hs h1]
    have := Rx.maxCount_lang (c := '.') (r := LexRx.float) (n := 1) (by decide +kernel) h3
    omega

theorem cut_toks (off : Nat) (pos : Position) (ps : List Piece) :
    Cut off (toks off pos ps) (ps.map Piece.text) := by
  induction ps generalizing off pos with
  | nil => rfl
  | cons p ps ih => exact ⟨p.text, ps.map Piece.text, rfl, rfl, ih _ _⟩

theorem flatten_map_text (ps : List Piece) : (ps.map Piece.text).flatten = texts ps := by
  induction ps with
  | nil => rfl
  | cons p ps ih => simp [ih]

theorem pieces_length {after : List Char} {ps : List Piece} (h : PiecesOk after ps) :
    ps.length ≤ (texts ps).length := by
  induction ps with
  | nil => simp
  | cons p ps ih =>
    have h1 := ih h.2
    have h2 : p.text ≠ [] := h.1.1.1
    have := List.length_pos_iff.mpr h2
    simp; omega

/-- the facts about the lexer's tokens the parser relies on -/
theorem lex_static (G : Segmenter) (src : List Char) :
    ∃ l, lex G src = .ok l ∧ l.tokens.length ≤ src.length + 1 ∧
      (∃ v e, l.tokens = v ++ [e] ∧ e.span.start = utf8Len src) ∧
      (FloatsAttached src l.tokens → Static src l.tokens) := by
  obtain ⟨ps, l, h1, h2, h3, h4, -⟩ := lexWith_spec G src (src.length + 1) (by omega)
  refine ⟨l, h1, ?_, ?_, ?_⟩
  · have := pieces_length h3
    rw [h4, List.length_append, toks_length, ← h2]
    simp; omega
  · exact ⟨_, _, h4, rfl⟩
  intro hatt
  have hmem : ∀ t ∈ toks 0 Position.zero ps, ∃ (pre : List Char) (p : Piece) (post : List Char), src = pre ++ p.text ++ post ∧ p.Ok post ∧
      t = p.token (utf8Len pre) (advPos Position.zero pre) := by
    intro t ht
    obtain ⟨a, p, b, rfl, rfl⟩ := mem_toks ht
    refine ⟨texts a, p, texts b, ?_, ?_, by simp⟩
    · rw [← h2, texts_append]; simp
    · have := h3.get; simpa using this
  have hkind : ∀ t ∈ toks 0 Position.zero ps, t.kind ≠ .EOF ∧ t.kind ≠ .DOUBLE_BRACKET_START ∧
      t.kind ≠ .DOUBLE_BRACKET_END ∧ t.kind ≠ .TOMBSTONE := by
    intro t ht
    obtain ⟨pre, p, post, _, hok, rfl⟩ := hmem t ht
    obtain ⟨⟨_, hok⟩, _⟩ := hok
    have hk : (p.token (utf8Len pre) (advPos Position.zero pre)).kind = p.kind := rfl
    rw [hk]
    cases he : p.err with
    | some e =>
      rw [he] at hok
      simp only [] at hok
      rw [hok]; decide
    | none =>
      rw [he] at hok
      obtain ⟨a, b, c⟩ := hok
      refine ⟨b, ?_, ?_, ?_⟩ <;> intro hx <;> rw [hx] at c <;> exact c
  refine ⟨⟨_, _, h4, rfl, fun t ht => (hkind t ht).1⟩, ?_, ?_, ?_, hatt⟩
  · intro t ht
    rw [h4] at ht
    rcases List.mem_append.mp ht with ht | ht
    · exact (hkind t ht).2
    · simp at ht; subst ht; exact ⟨by simp, by simp, by simp⟩
  · refine ⟨ps.map Piece.text ++ [[]], ?_, ?_⟩
    · rw [h4]
      refine Cut.append.mpr ⟨_, _, rfl, cut_toks _ _ _, ?_⟩
      rw [flatten_map_text, h2]
      exact ⟨[], [], rfl, by simp, rfl⟩
    · simp [flatten_map_text, h2]
  · intro t ht w hk hw
    rw [h4] at ht
    rcases List.mem_append.mp ht with ht | ht
    · obtain ⟨pre, p, post, hsrc, hok, rfl⟩ := hmem t ht
      have hw' : byteSlice (utf8Len pre) (utf8Len pre + utf8Len p.text) src = some w := hw
      rw [hsrc, byteSlice_append] at hw'
      cases hw'
      have hpk : p.kind = .FLOAT := hk
      obtain ⟨⟨_, hok⟩, _⟩ := hok
      cases he : p.err with
      | some e => rw [he] at hok; simp only [] at hok; rw [hok] at hpk; cases hpk
      | none =>
        rw [he] at hok
        have := hok.2.2
        rw [hpk] at this
        exact float_one_dot this
    · simp at ht; subst ht; cases hk

end Tombi
