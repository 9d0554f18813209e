import Verif.Proofs.Numbers
import Verif.Proofs.LexStrings
/-! Every number, boolean and date-time of the TOML grammar is accepted by the lexer. -/
namespace Tombi
open Rx Spec

namespace Rx
/-- every word of the language has a character satisfying `p` -/
def needs (p : Char → Bool) : Rx → Bool
  | .void => true
  | .eps => false
  | .cls rs => Rx.over p (.cls rs)
  | .cat a b => needs p a || needs p b
  | .alt a b => needs p a && needs p b
  | .star _ => false

theorem needs_lang {p : Char → Bool} {r : Rx} (h : r.needs p = true) {w : List Char} (hw : r.Lang w) :
    ∃ c ∈ w, p c = true := by
  induction r generalizing w with
  | void => exact absurd hw (by simp [Lang])
  | eps => simp [needs] at h
  | cls rs =>
    have h2 := Rx.over_lang (r := .cls rs) h hw
    obtain ⟨c, rfl, -⟩ := hw
    exact ⟨c, by simp, h2 c (by simp)⟩
  | cat a b iha ihb =>
    obtain ⟨u, v, rfl, h1, h2⟩ := hw
    simp only [needs, Bool.or_eq_true] at h
    rcases h with h | h
    · obtain ⟨c, hc, hp⟩ := iha h h1; exact ⟨c, by simp [hc], hp⟩
    · obtain ⟨c, hc, hp⟩ := ihb h h2; exact ⟨c, by simp [hc], hp⟩
  | alt a b iha ihb =>
    simp only [needs, Bool.and_eq_true] at h
    rcases hw with hw | hw
    · exact iha h.1 hw
    · exact ihb h.2 hw
  | star a _ => simp [needs] at h

theorem disjoint_of (p : Char → Bool) {r s : Rx} (hr : r.over p = true) (hs : s.needs (fun c => !p c) = true)
    {w : List Char} (h1 : r.Lang w) (h2 : s.Lang w) : False := by
  obtain ⟨c, hc, hp⟩ := needs_lang hs h2
  have := Rx.over_lang hr h1 c hc
  simp [this] at hp
end Rx

/-- a text after which a value is complete: nothing, or one of these characters -/
def DelimPost (post : List Char) : Prop :=
  ∀ c r, post = c :: r → isTokenSeparator c = true

theorem takeWhile_exact {p : Char → Bool} {w post : List Char} (hw : ∀ c ∈ w, p c = true)
    (hp : ∀ c r, post = c :: r → p c = false) : (w ++ post).takeWhile p = w := by
  induction w with
  | nil =>
    cases post with
    | nil => rfl
    | cons c r => simp [hp c r rfl]
  | cons x xs ih =>
    simp only [List.cons_append, List.takeWhile_cons, hw x (by simp), if_true]
    rw [ih (fun c hc => hw c (by simp [hc]))]

theorem line_exact {c : Cursor} {w post : List Char} (hr : c.rest = w ++ post)
    (hw : ∀ x ∈ w, isTokenSeparator x = false) (hp : DelimPost post) :
    c.peekWithCurrentWhile (fun x => !isTokenSeparator x) = c.cur :: w := by
  unfold Cursor.peekWithCurrentWhile
  rw [hr, takeWhile_exact]
  · intro x hx; simp [hw x hx]
  · intro x r hx; simp [hp x r hx]

theorem delim_sepAfter {post : List Char} (hp : DelimPost post) : SepAfter post := by
  cases post with
  | nil => rfl
  | cons c r => exact sep_imp_sepDot (hp c r rfl)

/-- characters of number literals are not separators -/
theorem over_nonsep {r : Rx} (h : r.over (fun x => !isTokenSeparator x) = true) {w : List Char} (hw : r.Lang w) :
    ∀ x ∈ w, isTokenSeparator x = false := by
  intro x hx
  have := Rx.over_lang h hw x hx
  simpa using this

/-- one arm of `number`, once the line is known -/
theorem arm_accept {r : Rx} (ha : r.charsBelow 128 = true) {c : Cursor} {w post : List Char} {k : SyntaxKind}
    {other : LexStep × Cursor}
    (hr : c.rest = w ++ post) (hp : DelimPost post) (hL : r.Lang (c.cur :: w)) :
    ∃ c1, Adv c c1 w ∧
      (if isTokenSeparatorWithDot ((c.eatMatch (utf8Len (c.cur :: w))).peek 1) = true
        then (c.eatMatch (utf8Len (c.cur :: w))).ok k else other) = c1.ok k := by
  rw [utf8Len_ascii (Rx.charsBelow_lang ha hL), List.length_cons]
  obtain ⟨h1, h2⟩ := eatMatch_exact hr
  refine ⟨_, h1, ?_⟩
  rw [if_pos]
  exact SepAfter.peek (by rw [h2]; exact delim_sepAfter hp)

/-- the alphabet of `LexRx.float` -/
def floatChar (c : Char) : Bool :=
  isAsciiDigit c || c == '_' || c == ':' || c == '.' || c == 'e' || c == 'E' || c == '+' || c == '-'
/-- the alphabet of `LexRx.integerDec` -/
def decChar (c : Char) : Bool := isAsciiDigit c || c == '_' || c == ':'

theorem bin_not_float {w : List Char} (h : LexRx.integerBin.Lang w) : ¬ LexRx.float.Lang w :=
  fun g => Rx.disjoint_of floatChar (by decide) (by decide) g h
theorem oct_not_float {w : List Char} (h : LexRx.integerOct.Lang w) : ¬ LexRx.float.Lang w :=
  fun g => Rx.disjoint_of floatChar (by decide) (by decide) g h
theorem hex_not_float {w : List Char} (h : LexRx.integerHex.Lang w) : ¬ LexRx.float.Lang w :=
  fun g => Rx.disjoint_of floatChar (by decide) (by decide) g h
theorem oct_not_bin {w : List Char} (h : LexRx.integerOct.Lang w) : ¬ LexRx.integerBin.Lang w :=
  fun g => Rx.disjoint_of (fun c => c != 'o' && c != 'x') (by decide) (by decide) g h
theorem hex_not_bin {w : List Char} (h : LexRx.integerHex.Lang w) : ¬ LexRx.integerBin.Lang w :=
  fun g => Rx.disjoint_of (fun c => c != 'o' && c != 'x') (by decide) (by decide) g h
theorem hex_not_oct {w : List Char} (h : LexRx.integerHex.Lang w) : ¬ LexRx.integerOct.Lang w :=
  fun g => Rx.disjoint_of (fun c => c != 'x') (by decide) (by decide) g h
theorem dec_not_float {w : List Char} (h : LexRx.integerDec.Lang w) : ¬ LexRx.float.Lang w :=
  fun g => Rx.disjoint_of decChar (by decide) (by decide) h g
theorem dec_not_bin {w : List Char} (h : LexRx.integerDec.Lang w) : ¬ LexRx.integerBin.Lang w :=
  fun g => Rx.disjoint_of decChar (by decide) (by decide) h g
theorem dec_not_oct {w : List Char} (h : LexRx.integerDec.Lang w) : ¬ LexRx.integerOct.Lang w :=
  fun g => Rx.disjoint_of decChar (by decide) (by decide) h g
theorem dec_not_hex {w : List Char} (h : LexRx.integerDec.Lang w) : ¬ LexRx.integerHex.Lang w :=
  fun g => Rx.disjoint_of decChar (by decide) (by decide) h g

/-- `number` recognises a word of each of its five languages, if it is in none of the earlier ones -/
theorem number_accept {c : Cursor} {w post : List Char} (hr : c.rest = w ++ post) (hp : DelimPost post)
    (hw : ∀ x ∈ w, isTokenSeparator x = false) {k : SyntaxKind}
    (h : (k = .FLOAT ∧ LexRx.float.Lang (c.cur :: w))
      ∨ (k = .INTEGER_BIN ∧ LexRx.integerBin.Lang (c.cur :: w))
      ∨ (k = .INTEGER_OCT ∧ LexRx.integerOct.Lang (c.cur :: w))
      ∨ (k = .INTEGER_HEX ∧ LexRx.integerHex.Lang (c.cur :: w))
      ∨ (k = .INTEGER_DEC ∧ LexRx.integerDec.Lang (c.cur :: w))) :
    c.isNumber = true ∧ ∃ c1, Adv c c1 w ∧ c.number = c1.ok k := by
  have hline := line_exact hr hw hp
  constructor
  · unfold Cursor.isNumber
    simp only [hline]
    rcases h with ⟨-, h⟩ | ⟨-, h⟩ | ⟨-, h⟩ | ⟨-, h⟩ | ⟨-, h⟩ <;> simp [Rx.findEnd_of_lang h]
  · unfold Cursor.number
    simp only [hline]
    rcases h with ⟨rfl, h⟩ | ⟨rfl, h⟩ | ⟨rfl, h⟩ | ⟨rfl, h⟩ | ⟨rfl, h⟩
    · rw [Rx.findEnd_of_lang h]
      exact arm_accept (by decide) hr hp h
    · rw [Rx.findEnd_none.mpr (bin_not_float h), Rx.findEnd_of_lang h]
      exact arm_accept (by decide) hr hp h
    · rw [Rx.findEnd_none.mpr (oct_not_float h), Rx.findEnd_none.mpr (oct_not_bin h), Rx.findEnd_of_lang h]
      exact arm_accept (by decide) hr hp h
    · rw [Rx.findEnd_none.mpr (hex_not_float h), Rx.findEnd_none.mpr (hex_not_bin h),
        Rx.findEnd_none.mpr (hex_not_oct h), Rx.findEnd_of_lang h]
      exact arm_accept (by decide) hr hp h
    · rw [Rx.findEnd_none.mpr (dec_not_float h), Rx.findEnd_none.mpr (dec_not_bin h),
        Rx.findEnd_none.mpr (dec_not_oct h), Rx.findEnd_none.mpr (dec_not_hex h), Rx.findEnd_of_lang h]
      exact arm_accept (by decide) hr hp h

/-! ### neither a date nor a time -/

theorem digit_lang {w : List Char} (h : LexRx.digit.Lang w) : ∃ c, w = [c] ∧ isAsciiDigit c = true := by
  obtain ⟨c, rfl, hc⟩ := h
  exact ⟨c, rfl, by simpa [inCls, isAsciiDigit, inRange] using hc⟩

/-- a text whose leading digits and underscores end neither before `-` nor before `:` -/
structure NumLike (t ip s : List Char) : Prop where
  eq : t = ip ++ s
  ip : ∀ c ∈ ip, isAsciiDigit c = true ∨ c = '_'
  s : ∀ c r, s = c :: r → isAsciiDigit c = false ∧ c ≠ '-' ∧ c ≠ ':'

theorem NumLike.five {ip s : List Char} {a b c d e : Char} {r : List Char}
    (hip : ∀ c ∈ ip, isAsciiDigit c = true ∨ c = '_')
    (hs : ∀ c r, s = c :: r → isAsciiDigit c = false ∧ c ≠ '-' ∧ c ≠ ':')
    (h : a :: b :: c :: d :: e :: r = ip ++ s)
    (ha : isAsciiDigit a = true) (hb : isAsciiDigit b = true)
    (hcd : (c = ':') ∨ (isAsciiDigit c = true ∧ isAsciiDigit d = true ∧ e = '-')) : False := by
  match ip, h, hip with
  | [], h, hip =>
    have := hs a _ h.symm
    simp [ha] at this
  | [_], h, hip =>
    simp at h
    have := hs b _ h.2.symm
    simp [hb] at this
  | [_, _], h, hip =>
    simp at h
    have := hs c _ h.2.2.symm
    rcases hcd with h | h
    · exact this.2.2 h
    · simp [h.1] at this
  | [x, y, z], h, hip =>
    simp at h
    have hz := hip z (by simp)
    have := hs d _ h.2.2.2.symm
    rcases hcd with h' | h'
    · rw [← h.2.2.1, h'] at hz; simp [isAsciiDigit, inRange] at hz
    · simp [h'.2.1] at this
  | [x, y, z, u], h, hip =>
    simp at h
    have hz := hip z (by simp)
    have := hs e _ h.2.2.2.2.symm
    rcases hcd with h' | h'
    · rw [← h.2.2.1, h'] at hz; simp [isAsciiDigit, inRange] at hz
    · exact this.2.1 h'.2.2
  | x :: y :: z :: u :: v :: rest, h, hip =>
    simp at h
    have hz := hip z (by simp)
    have hv := hip v (by simp)
    rcases hcd with h' | h'
    · rw [← h.2.2.1, h'] at hz; simp [isAsciiDigit, inRange] at hz
    · rw [← h.2.2.2.2.1, h'.2.2] at hv; simp [isAsciiDigit, inRange] at hv

theorem numLike_not_date {c : Cursor} {ip s : List Char} (h : NumLike (c.cur :: c.rest) ip s) :
    c.isDateTime = false := by
  rw [Bool.eq_false_iff]
  intro hd
  obtain ⟨d9, v, hr, -, hL⟩ := date_line hd
  obtain ⟨u1, v1, e1, h1, u2, v2, rfl, h2, -⟩ := hL
  obtain ⟨a1, b1, rfl, k1, a2, b2, rfl, k2, a3, b3, rfl, k3, a4, b4, rfl, k4, rfl⟩ := h1
  obtain ⟨x1, rfl, g1⟩ := digit_lang k1
  obtain ⟨x2, rfl, g2⟩ := digit_lang k2
  obtain ⟨x3, rfl, g3⟩ := digit_lang k3
  obtain ⟨x4, rfl, g4⟩ := digit_lang k4
  rw [lang_ch] at h2
  subst h2
  have he := h.eq
  rw [hr] at he
  have : c.cur :: (d9 ++ v) = x1 :: x2 :: x3 :: x4 :: '-' :: (v2 ++ v) := by
    rw [← List.cons_append, e1]; simp
  rw [this] at he
  exact NumLike.five h.ip h.s he g1 g2 (Or.inr ⟨g3, g4, rfl⟩)

theorem numLike_not_time {c : Cursor} {ip s : List Char} (h : NumLike (c.cur :: c.rest) ip s) :
    c.isTime = false := by
  unfold Cursor.isTime
  rw [Option.isSome_eq_false_iff, Option.isNone_iff_eq_none, Rx.findEnd_none]
  rintro ⟨u1, v1, e1, h1, u2, v2, rfl, h2, u3, v3, rfl, h3, -⟩
  obtain ⟨a1, b1, rfl, k1, a2, b2, rfl, k2, rfl⟩ := h1
  obtain ⟨a3, b3, rfl, k3, a4, b4, rfl, k4, rfl⟩ := h3
  obtain ⟨x1, rfl, g1⟩ := digit_lang k1
  obtain ⟨x2, rfl, g2⟩ := digit_lang k2
  obtain ⟨x3, rfl, g3⟩ := digit_lang k3
  obtain ⟨x4, rfl, g4⟩ := digit_lang k4
  rw [lang_ch] at h2
  subst h2
  have he := h.eq
  have : c.cur :: c.rest = x1 :: x2 :: ':' :: x3 :: x4 :: (v3 ++ c.rest.drop 4) := by
    unfold Cursor.peeksWithCurrent at e1
    have := congrArg (· ++ c.rest.drop 4) e1
    simp only [List.cons_append] at this
    rw [show (5 - 1) = 4 from rfl, List.take_append_drop] at this
    rw [this]; simp
  rw [this] at he
  exact NumLike.five h.ip h.s he g1 g2 (Or.inl rfl)

theorem digit_ne {c d : Char} (h : isAsciiDigit c = true) (hd : isAsciiDigit d = false) : c ≠ d := by
  rintro rfl; rw [h] at hd; simp at hd

theorem dispatch_digit {c : Cursor} (h : isAsciiDigit c.cur = true) : c.dispatch = c.digitArm := by
  unfold Cursor.dispatch
  have h1 : isWhitespace c.cur = false := by
    simp [isWhitespace, digit_ne h (d := ' ') (by decide), digit_ne h (d := '\t') (by decide)]
  have h2 : isLineBreak c.cur = false := by
    simp [isLineBreak, digit_ne h (d := '\r') (by decide), digit_ne h (d := '\n') (by decide)]
  rw [h1, h2]
  simp only [Bool.false_eq_true, if_false]
  rw [if_neg (digit_ne h (by decide)), if_neg (digit_ne h (by decide)), if_pos h]

/-- the words `number` recognises, with their kinds -/
inductive NumWord : SyntaxKind → List Char → Prop where
  | float {w} : LexRx.float.Lang w → NumWord .FLOAT w
  | bin {w} : LexRx.integerBin.Lang w → NumWord .INTEGER_BIN w
  | oct {w} : LexRx.integerOct.Lang w → NumWord .INTEGER_OCT w
  | hex {w} : LexRx.integerHex.Lang w → NumWord .INTEGER_HEX w
  | dec {w} : LexRx.integerDec.Lang w → NumWord .INTEGER_DEC w

theorem NumWord.nonsep {k : SyntaxKind} {w : List Char} (h : NumWord k w) :
    ∀ x ∈ w, isTokenSeparator x = false := by
  cases h with
  | float h => exact over_nonsep (by decide) h
  | bin h => exact over_nonsep (by decide) h
  | oct h => exact over_nonsep (by decide) h
  | hex h => exact over_nonsep (by decide) h
  | dec h => exact over_nonsep (by decide) h

theorem NumWord.number {k : SyntaxKind} {c : Cursor} {w post : List Char} (h : NumWord k (c.cur :: w))
    (hr : c.rest = w ++ post) (hp : DelimPost post) :
    c.isNumber = true ∧ ∃ c1, Adv c c1 w ∧ c.number = c1.ok k := by
  refine number_accept hr hp (fun x hx => h.nonsep x (by simp [hx])) ?_
  cases h with
  | float h => exact Or.inl ⟨rfl, h⟩
  | bin h => exact Or.inr (Or.inl ⟨rfl, h⟩)
  | oct h => exact Or.inr (Or.inr (Or.inl ⟨rfl, h⟩))
  | hex h => exact Or.inr (Or.inr (Or.inr (Or.inl ⟨rfl, h⟩)))
  | dec h => exact Or.inr (Or.inr (Or.inr (Or.inr ⟨rfl, h⟩)))

theorem dispatch_plus {c : Cursor} (h : c.cur = '+') : c.dispatch = c.plusArm := by
  unfold Cursor.dispatch
  rw [h]
  have h1 : isWhitespace '+' = false := by decide
  have h2 : isLineBreak '+' = false := by decide
  have h3 : isAsciiDigit '+' = false := by decide
  simp [h1, h2, h3]

theorem dispatch_minus {c : Cursor} (h : c.cur = '-') : c.dispatch = c.minusArm := by
  unfold Cursor.dispatch
  rw [h]
  have h1 : isWhitespace '-' = false := by decide
  have h2 : isLineBreak '-' = false := by decide
  have h3 : isAsciiDigit '-' = false := by decide
  simp [h1, h2, h3]

/-- a signed number word that starts with a digit, whose leading digits are not followed by `-` or `:` -/
theorem accepts_number {k : SyntaxKind} {sign : List Char} {d : Char} {w post : List Char}
    (hs : IsSign sign) (hd : isAsciiDigit d = true) (hw : NumWord k (d :: w)) (hp : DelimPost post)
    (hn : ∃ ip s, NumLike (d :: (w ++ post)) ip s) : Accepts k (sign ++ d :: w) post := by
  intro c hc
  rcases hs with rfl | rfl | rfl
  · have hc' : c.rest = d :: (w ++ post) := by simpa using hc
    obtain ⟨h1, h2, h3⟩ := Adv.bump_cons hc'
    have hw' : NumWord k (c.bump.cur :: w) := by rw [h3]; exact hw
    obtain ⟨hi, c1, h4, h5⟩ := hw'.number h2 hp
    refine ⟨c1, by simpa using h1.trans h4, ?_⟩
    rw [advance_cons hc', dispatch_digit (by rw [h3]; exact hd)]
    obtain ⟨ip, s, hn⟩ := hn
    have hn' : NumLike (c.bump.cur :: c.bump.rest) ip s := by rw [h3, h2]; exact hn
    unfold Cursor.digitArm
    rw [numLike_not_date hn', numLike_not_time hn', hi]
    simpa using h5
  · have hc' : c.rest = '+' :: d :: (w ++ post) := by simpa using hc
    obtain ⟨h1, h2, h3⟩ := Adv.bump_cons hc'
    obtain ⟨h1', h2', h3'⟩ := Adv.bump_cons h2
    have hw' : NumWord k (c.bump.bump.cur :: w) := by rw [h3']; exact hw
    obtain ⟨hi, c1, h4, h5⟩ := hw'.number h2' hp
    refine ⟨c1, by simpa using h1.trans (h1'.trans h4), ?_⟩
    rw [advance_cons hc', dispatch_plus h3]
    unfold Cursor.plusArm
    have hk1 : c.bump.bump.isKeyword ['i', 'n', 'f'] = false := by
      unfold Cursor.isKeyword Cursor.matches
      rw [h3']
      have : ('i' == d) = false := by simp [Ne.symm (digit_ne hd (d := 'i') (by decide))]
      simp [this]
    have hk2 : c.bump.bump.isKeyword ['n', 'a', 'n'] = false := by
      unfold Cursor.isKeyword Cursor.matches
      rw [h3']
      have : ('n' == d) = false := by simp [Ne.symm (digit_ne hd (d := 'n') (by decide))]
      simp [this]
    simp only [hk1, hk2, Bool.or_self, Bool.false_eq_true, if_false]
    rw [h3', hd]
    simpa using h5
  · have hc' : c.rest = '-' :: d :: (w ++ post) := by simpa using hc
    obtain ⟨h1, h2, h3⟩ := Adv.bump_cons hc'
    obtain ⟨h1', h2', h3'⟩ := Adv.bump_cons h2
    have hw' : NumWord k (c.bump.bump.cur :: w) := by rw [h3']; exact hw
    obtain ⟨hi, c1, h4, h5⟩ := hw'.number h2' hp
    refine ⟨c1, by simpa using h1.trans (h1'.trans h4), ?_⟩
    rw [advance_cons hc', dispatch_minus h3]
    unfold Cursor.minusArm
    have hp3 : ∀ x y z, x ≠ d → c.bump.peeks 3 ≠ [x, y, z] := by
      intro x y z hx he
      unfold Cursor.peeks at he
      rw [h2] at he
      simp at he
      exact hx he.1.symm
    rw [if_neg (by
      rintro ⟨h | h, -⟩
      · exact hp3 _ _ _ (Ne.symm (digit_ne hd (d := 'i') (by decide))) h
      · exact hp3 _ _ _ (Ne.symm (digit_ne hd (d := 'n') (by decide))) h)]
    rw [peek1_of h2, hd]
    simp only [if_true]
    rw [hi]
    simpa using h5

/-! ### inclusions, grammar to lexer -/

theorem tail_of_sep {x : Rx} {w : List Char} (h : (Rx.star (Toml.sep x)).Lang w) : (LexRx.tail x).Lang w := by
  refine StarL.mono (P := fun _ => True) (fun _ _ _ => ⟨trivial, trivial⟩) ?_ h trivial
  rintro w - (h | ⟨u, v, rfl, h1, h2⟩)
  · exact ⟨[], w, rfl, Or.inr rfl, [], w, rfl, Or.inr rfl, w, [], by simp, h, rfl⟩
  · exact ⟨[], u ++ v, rfl, Or.inr rfl, u, v, rfl, Or.inl h1, v, [], by simp, h2, rfl⟩

theorem hex_of_toml {w : List Char} (h : Toml.hexInt.Lang w) : LexRx.integerHex.Lang w := by
  obtain ⟨u1, v1, rfl, h1, u2, v2, rfl, h2, u3, v3, rfl, h3, u4, v4, rfl, h4, rfl⟩ := h
  exact ⟨u1, _, rfl, h1, u2, _, rfl, h2, u3, _, rfl, h3, u4, _, rfl, tail_of_sep h4, rfl⟩

theorem oct_of_toml {w : List Char} (h : Toml.octInt.Lang w) : LexRx.integerOct.Lang w := by
  obtain ⟨u1, v1, rfl, h1, u2, v2, rfl, h2, u3, v3, rfl, h3, u4, v4, rfl, h4, rfl⟩ := h
  exact ⟨u1, _, rfl, h1, u2, _, rfl, h2, u3, _, rfl, h3, u4, _, rfl, tail_of_sep h4, rfl⟩

theorem bin_of_01 {w : List Char} (h : Toml.digit01.Lang w) : LexRx.bin.Lang w := by
  obtain ⟨c, rfl, hc⟩ := h
  refine ⟨c, rfl, ?_⟩
  simp only [inCls, List.any_cons, List.any_nil, Bool.or_false, Bool.or_eq_true, Bool.and_eq_true,
    decide_eq_true_eq] at hc ⊢
  have h0 : ('0' : Char).toNat ≤ c.toNat := hc.1
  have h1 : c.toNat ≤ ('1' : Char).toNat := hc.2
  have : c.toNat = 48 ∨ c.toNat = 49 := by
    have e0 : ('0' : Char).toNat = 48 := rfl
    have e1 : ('1' : Char).toNat = 49 := rfl
    omega
  rcases this with h | h
  · left; have : c = '0' := Char.toNat_inj.mp h
    rw [this]; decide
  · right; right; have : c = '1' := Char.toNat_inj.mp h
    rw [this]; decide

theorem bin_of_toml {w : List Char} (h : Toml.binInt.Lang w) : LexRx.integerBin.Lang w := by
  obtain ⟨u1, v1, rfl, h1, u2, v2, rfl, h2, u3, v3, rfl, h3, u4, v4, rfl, h4, rfl⟩ := h
  refine ⟨u1, _, rfl, h1, u2, _, rfl, h2, u3, _, rfl, bin_of_01 h3, u4, _, rfl, tail_of_sep ?_, rfl⟩
  refine StarL.mono (P := fun _ => True) (fun _ _ _ => ⟨trivial, trivial⟩) ?_ h4 trivial
  rintro w - (h | ⟨u, v, rfl, h1, h2⟩)
  · exact Or.inl (bin_of_01 h)
  · exact Or.inr ⟨u, v, rfl, h1, bin_of_01 h2⟩

theorem toml_digit_lang {w : List Char} (h : Toml.digit.Lang w) : ∃ c, w = [c] ∧ isAsciiDigit c = true :=
  digit_lang h

theorem dec_of_toml {w : List Char} (h : Toml.unsignedDecInt.Lang w) :
    LexRx.integerDec.Lang w := by
  rcases h with h | ⟨u, v, rfl, h1, h2⟩
  · obtain ⟨c, rfl, hc⟩ := toml_digit_lang h
    by_cases h0 : c = '0'
    · right; rw [lang_ch, h0]
    · left
      refine ⟨[], [c], rfl, Or.inr rfl, [c], [], rfl, ⟨c, rfl, ?_⟩, [], [], rfl, StarL.nil, rfl⟩
      simp only [isAsciiDigit, inRange, Bool.and_eq_true, decide_eq_true_eq] at hc
      simp only [inCls, List.any_cons, List.any_nil, Bool.or_false, Bool.and_eq_true, decide_eq_true_eq]
      refine ⟨?_, hc.2⟩
      have h1 : ('0' : Char).toNat ≤ c.toNat := hc.1
      show ('1' : Char).toNat ≤ c.toNat
      have e0 : ('0' : Char).toNat = 48 := rfl
      have e1 : ('1' : Char).toNat = 49 := rfl
      have hne : c.toNat ≠ 48 := fun h => h0 (Char.toNat_inj.mp h)
      omega
  · left
    obtain ⟨a, b, rfl, h3, h4⟩ := h2
    refine ⟨[], _, rfl, Or.inr rfl, u, a ++ b, rfl, h1, a ++ b, [], by simp, ?_, rfl⟩
    exact tail_of_sep (StarL.cons a b h3 h4)

/-- digits and underscores -/
def isDigitU (c : Char) : Bool := isAsciiDigit c || c == '_'

theorem digitU_of {c : Char} (h : isDigitU c = true) : LexRx.digitU.Lang [c] := by
  refine ⟨c, rfl, ?_⟩
  simp only [isDigitU, isAsciiDigit, inRange, Bool.or_eq_true, Bool.and_eq_true, decide_eq_true_eq,
    beq_iff_eq] at h
  simp only [inCls, List.any_cons, List.any_nil, Bool.or_false, Bool.or_eq_true, Bool.and_eq_true,
    decide_eq_true_eq]
  rcases h with h | rfl
  · exact Or.inl h
  · right; decide

theorem plusDigitU_of {w : List Char} (hne : w ≠ []) (h : ∀ c ∈ w, isDigitU c = true) :
    (plus LexRx.digitU).Lang w := by
  have star : ∀ w : List Char, (∀ c ∈ w, isDigitU c = true) → StarL LexRx.digitU.Lang w := by
    intro w
    induction w with
    | nil => intro _; exact .nil
    | cons x xs ih =>
      intro h
      exact StarL.cons [x] xs (digitU_of (h x (by simp))) (ih (fun c hc => h c (by simp [hc])))
  cases w with
  | nil => exact absurd rfl hne
  | cons x xs => exact ⟨[x], xs, rfl, digitU_of (h x (by simp)), star xs (fun c hc => h c (by simp [hc]))⟩

theorem unsigned_chars {w : List Char} (h : Toml.unsignedDecInt.Lang w) :
    w ≠ [] ∧ ∀ c ∈ w, isDigitU c = true := by
  refine ⟨?_, Rx.over_lang (by decide) h⟩
  rintro rfl
  have := (Rx.nullable_iff Toml.unsignedDecInt).mpr h
  exact absurd this (by decide)

theorem zeroPrefixable_chars {w : List Char} (h : Toml.zeroPrefixableInt.Lang w) :
    w ≠ [] ∧ ∀ c ∈ w, isDigitU c = true := by
  refine ⟨?_, Rx.over_lang (by decide) h⟩
  rintro rfl
  have := (Rx.nullable_iff Toml.zeroPrefixableInt).mpr h
  exact absurd this (by decide)

theorem unsigned_head {w : List Char} (h : Toml.unsignedDecInt.Lang w) :
    ∃ d r, w = d :: r ∧ isAsciiDigit d = true := by
  rcases h with h | ⟨u, v, rfl, ⟨c, rfl, hc⟩, h2⟩
  · obtain ⟨c, rfl, hc⟩ := toml_digit_lang h
    exact ⟨c, [], rfl, hc⟩
  · refine ⟨c, v, rfl, ?_⟩
    simp [inCls] at hc
    simp [isAsciiDigit, inRange, hc.2]
    exact Char.le_trans (by decide) hc.1

/-- the unsigned part of a float of the grammar -/
def Toml.floatTail : Rx := .alt Toml.exp (.cat Toml.frac (opt Toml.exp))

theorem float_of_toml {a b : List Char} (h1 : Toml.unsignedDecInt.Lang a)
    (h2 : (Rx.alt Toml.exp (.cat Toml.frac (opt Toml.exp))).Lang b) : LexRx.float.Lang (a ++ b) := by
  have hexp : ∀ w, Toml.exp.Lang w → ∃ u1 u2 u3, w = u1 ++ (u2 ++ u3)
      ∧ (Rx.cls [('e', 'e'), ('E', 'E')]).Lang u1 ∧ (opt (.cls [('+', '+'), ('-', '-')])).Lang u2
      ∧ (plus LexRx.digitU).Lang u3 := by
    rintro w ⟨u1, v1, rfl, g1, u2, v2, rfl, g2, u3, v3, rfl, g3, rfl⟩
    have := zeroPrefixable_chars g3
    exact ⟨u1, u2, u3, by simp, g1, g2, plusDigitU_of this.1 this.2⟩
  have ha := unsigned_chars h1
  refine ⟨a, b, rfl, plusDigitU_of ha.1 ha.2, ?_⟩
  rcases h2 with h2 | ⟨u, v, rfl, ⟨p, q, rfl, k1, k2⟩, h3⟩
  · obtain ⟨u1, u2, u3, rfl, g1, g2, g3⟩ := hexp _ h2
    left
    exact ⟨[], _, rfl, Or.inr rfl, [], _, rfl, Or.inr rfl, u1, _, rfl, g1, u2, u3, rfl, g2, u3, [], by simp, g3, rfl⟩
  · have hq := zeroPrefixable_chars k2
    have hq' := plusDigitU_of hq.1 hq.2
    rcases h3 with h3 | rfl
    · obtain ⟨u1, u2, u3, rfl, g1, g2, g3⟩ := hexp _ h3
      left
      exact ⟨[], _, rfl, Or.inr rfl, p ++ q, u1 ++ (u2 ++ u3), by simp,
        Or.inl ⟨[], _, rfl, Or.inr rfl, p, q, rfl, k1, q, [], by simp, hq', rfl⟩,
        u1, _, rfl, g1, u2, u3, rfl, g2, u3, [], by simp, g3, rfl⟩
    · right
      exact ⟨p, q, by simp, k1, q, [], by simp, hq', rfl⟩

theorem isSign_of_toml {s : List Char} (h : Toml.sign.Lang s) : IsSign s := by
  rcases h with ⟨c, rfl, hc⟩ | rfl
  · simp only [inCls, List.any_cons, List.any_nil, Bool.or_false, Bool.or_eq_true, Bool.and_eq_true,
      decide_eq_true_eq] at hc
    rcases hc with h | h
    · rw [Char.le_antisymm h.2 h.1]; right; left; rfl
    · rw [Char.le_antisymm h.2 h.1]; right; right; rfl
  · exact Or.inl rfl

theorem sep_not_num {c : Char} (h : isTokenSeparator c = true) :
    isAsciiDigit c = false ∧ c ≠ '-' ∧ c ≠ ':' := by
  simp only [isTokenSeparator, Bool.or_eq_true, beq_iff_eq] at h
  rcases h with ((((((((((( h | h) | h) | h) | h) | h) | h) | h) | h) | h) | h) | h) <;> subst h <;> decide

theorem accepts_dec {lit post : List Char} (h : Toml.decInt.Lang lit) (hp : DelimPost post) :
    Accepts .INTEGER_DEC lit post := by
  obtain ⟨s, w, rfl, hs, hw⟩ := h
  obtain ⟨d, r, rfl, hd⟩ := unsigned_head hw
  refine accepts_number (isSign_of_toml hs) hd (.dec (dec_of_toml hw)) hp ⟨d :: r, post, rfl, ?_, ?_⟩
  · intro c hc; simpa [isDigitU] using (unsigned_chars hw).2 c hc
  · intro c r hc; exact sep_not_num (hp c r hc)

theorem accepts_prefixed {x : Char} {k : SyntaxKind} {w post : List Char}
    (hx : isAsciiDigit x = false ∧ x ≠ '-' ∧ x ≠ ':') (h : NumWord k ('0' :: x :: w)) (hp : DelimPost post) :
    Accepts k ('0' :: x :: w) post := by
  refine accepts_number (sign := []) (Or.inl rfl) (by decide) h hp ⟨['0'], x :: (w ++ post), rfl, ?_, ?_⟩
  · simp; decide
  · intro c r hc; simp at hc; rw [← hc.1]; exact hx

theorem accepts_hex {lit post : List Char} (h : Toml.hexInt.Lang lit) (hp : DelimPost post) :
    Accepts .INTEGER_HEX lit post := by
  have hL := hex_of_toml h
  obtain ⟨u1, v1, rfl, h1, u2, v2, rfl, h2, -⟩ := h
  rw [lang_ch] at h1 h2
  subst h1 h2
  exact accepts_prefixed (by decide) (.hex hL) hp

theorem accepts_oct {lit post : List Char} (h : Toml.octInt.Lang lit) (hp : DelimPost post) :
    Accepts .INTEGER_OCT lit post := by
  have hL := oct_of_toml h
  obtain ⟨u1, v1, rfl, h1, u2, v2, rfl, h2, -⟩ := h
  rw [lang_ch] at h1 h2
  subst h1 h2
  exact accepts_prefixed (by decide) (.oct hL) hp

theorem accepts_bin {lit post : List Char} (h : Toml.binInt.Lang lit) (hp : DelimPost post) :
    Accepts .INTEGER_BIN lit post := by
  have hL := bin_of_toml h
  obtain ⟨u1, v1, rfl, h1, u2, v2, rfl, h2, -⟩ := h
  rw [lang_ch] at h1 h2
  subst h1 h2
  exact accepts_prefixed (by decide) (.bin hL) hp

theorem floatTail_head {b : List Char} (h : (Rx.alt Toml.exp (.cat Toml.frac (opt Toml.exp))).Lang b) :
    ∃ x r, b = x :: r ∧ isAsciiDigit x = false ∧ x ≠ '-' ∧ x ≠ ':' := by
  rcases h with ⟨u1, v1, rfl, ⟨c, rfl, hc⟩, -⟩ | ⟨u, v, rfl, ⟨p, q, rfl, k1, k2⟩, h3⟩
  · simp only [inCls, List.any_cons, List.any_nil, Bool.or_false, Bool.or_eq_true, Bool.and_eq_true,
      decide_eq_true_eq] at hc
    rcases hc with h | h
    · rw [Char.le_antisymm h.2 h.1]; exact ⟨_, v1, rfl, by decide⟩
    · rw [Char.le_antisymm h.2 h.1]; exact ⟨_, v1, rfl, by decide⟩
  · rw [lang_ch] at k1
    subst k1
    exact ⟨'.', q ++ v, rfl, by decide⟩

theorem accepts_plain_float {lit post : List Char}
    (h : (Rx.cat Toml.decInt (.alt Toml.exp (.cat Toml.frac (opt Toml.exp)))).Lang lit)
    (hp : DelimPost post) : Accepts .FLOAT lit post := by
  obtain ⟨a, b, rfl, ⟨s, w, rfl, hs, hw⟩, hb⟩ := h
  obtain ⟨d, r, rfl, hd⟩ := unsigned_head hw
  have hL := float_of_toml hw hb
  obtain ⟨x, t, rfl, hx⟩ := floatTail_head hb
  have := accepts_number (w := r ++ x :: t) (isSign_of_toml hs) hd (.float (by simpa using hL)) hp
    ⟨d :: r, x :: (t ++ post), by simp, by
      intro c hc; simpa [isDigitU] using (unsigned_chars hw).2 c hc, by
      intro c r hc; simp at hc; rw [← hc.1]; exact hx⟩
  simpa using this

/-! ### words -/

theorem isKeyword_of {c : Cursor} {x : Char} {xs post : List Char} (hx : c.cur = x) (hr : c.rest = xs ++ post)
    (h0 : '\x00' ∉ xs) (ha : ∀ y ∈ x :: xs, y.toNat < 128) (hp : DelimPost post) :
    c.isKeyword (x :: xs) = true := by
  unfold Cursor.isKeyword
  rw [Bool.and_eq_true]
  refine ⟨(Cursor.matches_iff c x xs h0).mpr ⟨hx, by rw [hr]; exact ⟨post, rfl⟩⟩, ?_⟩
  rw [utf8Len_ascii ha]
  unfold Cursor.peek
  rw [hr]
  simp only [List.length_cons, Nat.add_sub_cancel]
  cases post with
  | nil => simp [List.getD_eq_getElem?_getD]; decide
  | cons d r =>
    simp [List.getD_eq_getElem?_getD]
    exact sep_imp_sepDot (hp d r rfl)

theorem eatN_exact {c : Cursor} {w t : List Char} (h : c.rest = w ++ t) :
    Adv c (Cursor.eatN w.length c) w := by
  have := (Adv.eatN w.length c).1
  rw [h] at this
  simpa using this

theorem dispatch_letter {c : Cursor} (h : inRange 'a' 'z' c.cur = true) : c.dispatch = c.wordArm := by
  have hne : ∀ d, inRange 'a' 'z' d = false → c.cur ≠ d := by
    intro d hd he; rw [he, hd] at h; simp at h
  unfold Cursor.dispatch
  have h1 : isWhitespace c.cur = false := by
    simp [isWhitespace, hne ' ' (by decide), hne '\t' (by decide)]
  have h2 : isLineBreak c.cur = false := by
    simp [isLineBreak, hne '\r' (by decide), hne '\n' (by decide)]
  have h3 : isAsciiDigit c.cur = false := by
    rw [Bool.eq_false_iff]
    intro hd
    simp only [inRange, isAsciiDigit, Bool.and_eq_true, decide_eq_true_eq] at h hd
    exact absurd (Char.le_trans h.1 hd.2) (by decide)
  rw [h1, h2, h3]
  simp only [Bool.false_eq_true, if_false]
  rw [if_neg (hne _ (by decide)), if_neg (hne _ (by decide)), if_neg (hne _ (by decide)), if_neg (hne _ (by decide)),
    if_neg (hne _ (by decide)), if_neg (hne _ (by decide)), if_neg (hne _ (by decide)), if_neg (hne _ (by decide)),
    if_neg (hne _ (by decide)), if_neg (hne _ (by decide)), if_neg (hne _ (by decide)), if_neg (hne _ (by decide)),
    h]
  simp

theorem not_keyword {c : Cursor} {x : Char} {xs : List Char} (h : x ≠ c.cur) : c.isKeyword (x :: xs) = false := by
  unfold Cursor.isKeyword Cursor.matches
  simp [h]

theorem lang_lit {w u : List Char} : (lit w).Lang u ↔ u = w := by
  induction w generalizing u with
  | nil => exact Iff.rfl
  | cons x xs ih =>
    constructor
    · rintro ⟨a, b, rfl, h1, h2⟩
      rw [lang_ch] at h1
      rw [h1, ih.mp h2]; rfl
    · rintro rfl
      exact ⟨[x], xs, rfl, lang_ch.mpr rfl, ih.mpr rfl⟩

theorem accepts_boolean {lit post : List Char} (h : Toml.boolean.Lang lit) (hp : DelimPost post) :
    Accepts .BOOLEAN lit post := by
  intro c hc
  rcases h with h | h
  · rw [lang_lit] at h
    subst h
    have hc' : c.rest = 't' :: (['r', 'u', 'e'] ++ post) := hc
    obtain ⟨h1, h2, h3⟩ := Adv.bump_cons hc'
    refine ⟨_, by simpa using h1.trans (eatN_exact h2), ?_⟩
    rw [advance_cons hc', dispatch_letter (by rw [h3]; decide)]
    unfold Cursor.wordArm
    rw [not_keyword (by rw [h3]; decide), not_keyword (by rw [h3]; decide),
      isKeyword_of h3 h2 (by decide) (by decide) hp]
    rfl
  · rw [lang_lit] at h
    subst h
    have hc' : c.rest = 'f' :: (['a', 'l', 's', 'e'] ++ post) := hc
    obtain ⟨h1, h2, h3⟩ := Adv.bump_cons hc'
    refine ⟨_, by simpa using h1.trans (eatN_exact h2), ?_⟩
    rw [advance_cons hc', dispatch_letter (by rw [h3]; decide)]
    unfold Cursor.wordArm
    rw [not_keyword (by rw [h3]; decide), not_keyword (by rw [h3]; decide), not_keyword (by rw [h3]; decide),
      isKeyword_of h3 h2 (by decide) (by decide) hp]
    rfl

theorem accepts_special {lit post : List Char} (h : Toml.specialFloat.Lang lit) (hp : DelimPost post) :
    Accepts .FLOAT lit post := by
  obtain ⟨s, w, rfl, hs, hw⟩ := h
  have hw' : ∃ x y z, w = [x, y, z] ∧ (([x, y, z] : List Char) = ['i', 'n', 'f'] ∨ [x, y, z] = ['n', 'a', 'n']) := by
    rcases hw with hw | hw <;> rw [lang_lit] at hw
    · exact ⟨_, _, _, hw, Or.inl rfl⟩
    · exact ⟨_, _, _, hw, Or.inr rfl⟩
  obtain ⟨x, y, z, rfl, hxyz⟩ := hw'
  have hkey : ∀ c : Cursor, c.cur = x → c.rest = [y, z] ++ post →
      (c.isKeyword ['i', 'n', 'f'] || c.isKeyword ['n', 'a', 'n']) = true := by
    intro c h1 h2
    rcases hxyz with h | h <;> simp only [List.cons.injEq, and_true] at h <;> obtain ⟨rfl, rfl, rfl⟩ := h
    · rw [isKeyword_of h1 h2 (by decide) (by decide) hp]; rfl
    · rw [isKeyword_of (x := 'n') h1 h2 (by decide) (by decide) hp]; simp
  intro c hc
  rcases isSign_of_toml hs with rfl | rfl | rfl
  · have hc' : c.rest = x :: ([y, z] ++ post) := hc
    obtain ⟨h1, h2, h3⟩ := Adv.bump_cons hc'
    refine ⟨_, by simpa using h1.trans (eatN_exact h2), ?_⟩
    rw [advance_cons hc', dispatch_letter (by
      rw [h3]; rcases hxyz with h | h <;> simp only [List.cons.injEq, and_true] at h <;> rw [h.1] <;> decide)]
    unfold Cursor.wordArm
    rw [hkey _ h3 h2]
    rfl
  · have hc' : c.rest = '+' :: (x :: ([y, z] ++ post)) := hc
    obtain ⟨h1, h2, h3⟩ := Adv.bump_cons hc'
    obtain ⟨h1', h2', h3'⟩ := Adv.bump_cons h2
    refine ⟨_, by simpa using h1.trans (h1'.trans (eatN_exact h2')), ?_⟩
    rw [advance_cons hc', dispatch_plus h3]
    unfold Cursor.plusArm
    simp only [hkey _ h3' h2']
    rfl
  · have hc' : c.rest = '-' :: ([x, y, z] ++ post) := hc
    obtain ⟨h1, h2, h3⟩ := Adv.bump_cons hc'
    refine ⟨_, by simpa using h1.trans (eatN_exact h2), ?_⟩
    rw [advance_cons hc', dispatch_minus h3]
    unfold Cursor.minusArm
    rw [if_pos]
    refine ⟨?_, ?_⟩
    · unfold Cursor.peeks
      rw [h2]
      simpa using hxyz
    · unfold Cursor.peek
      rw [h2]
      cases post with
      | nil => simp [List.getD_eq_getElem?_getD]; decide
      | cons d r =>
        simp [List.getD_eq_getElem?_getD]
        exact sep_imp_sepDot (hp d r rfl)

theorem accepts_float {lit post : List Char} (h : Toml.float.Lang lit) (hp : DelimPost post) :
    Accepts .FLOAT lit post := by
  rcases h with h | h
  · exact accepts_plain_float h hp
  · exact accepts_special h hp

/-! ### times -/

theorem time_of_toml {w : List Char} (h : Toml.partialTime.Lang w) : LexRx.time.Lang w := by
  obtain ⟨u1, v1, rfl, h1, u2, v2, rfl, h2, u3, v3, rfl, h3, u4, v4, rfl, h4, rfl⟩ := h
  rcases h4 with ⟨a1, b1, rfl, k1, a2, b2, rfl, k2, a3, b3, rfl, k3, rfl⟩ | rfl
  · refine ⟨u1, _, rfl, h1, u2, _, rfl, h2, u3, _, rfl, h3, a1 ++ a2, a3, by simp,
      Or.inl ⟨a1, _, rfl, k1, a2, [], by simp, k2, rfl⟩, a3, [], by simp, ?_, rfl⟩
    rcases k3 with ⟨p, q, rfl, g1, g2⟩ | rfl
    · left
      rw [lang_ch] at g1
      subst g1
      exact ⟨['.'], q, rfl, ⟨'.', rfl, by decide⟩, q, [], by simp, g2, rfl⟩
    · exact Or.inr rfl
  · exact ⟨u1, _, rfl, h1, u2, _, rfl, h2, u3, _, rfl, h3, [], [], rfl, Or.inr rfl, [], [], rfl, Or.inr rfl, rfl⟩

/-- the first five characters of a time -/
theorem time_head {w : List Char} (h : Toml.partialTime.Lang w) :
    ∃ a b d e r, w = a :: b :: ':' :: d :: e :: r ∧ isAsciiDigit a = true ∧ isAsciiDigit b = true
      ∧ isAsciiDigit d = true ∧ isAsciiDigit e = true := by
  obtain ⟨u1, v1, rfl, h1, u2, v2, rfl, h2, u3, v3, rfl, h3, -⟩ := h
  obtain ⟨a1, b1, rfl, k1, a2, b2, rfl, k2, rfl⟩ := h1
  obtain ⟨a3, b3, rfl, k3, a4, b4, rfl, k4, rfl⟩ := h3
  obtain ⟨x1, rfl, g1⟩ := digit_lang k1
  obtain ⟨x2, rfl, g2⟩ := digit_lang k2
  obtain ⟨x3, rfl, g3⟩ := digit_lang k3
  obtain ⟨x4, rfl, g4⟩ := digit_lang k4
  rw [lang_ch] at h2
  subst h2
  exact ⟨x1, x2, x3, x4, v3, rfl, g1, g2, g3, g4⟩

theorem digit_of {c : Char} (h : isAsciiDigit c = true) : LexRx.digit.Lang [c] := by
  refine ⟨c, rfl, ?_⟩
  simpa [isAsciiDigit, inRange, inCls] using h

/-- a text whose third character is a colon is no date -/
theorem colon_not_date {c : Cursor} {b : Char} {r : List Char} (h : c.rest = b :: ':' :: r) :
    c.isDateTime = false := by
  rw [Bool.eq_false_iff]
  intro hd
  obtain ⟨d9, v, hr, -, hL⟩ := date_line hd
  obtain ⟨u1, v1, e1, h1, -⟩ := hL
  obtain ⟨a1, b1, rfl, k1, a2, b2, rfl, k2, a3, b3, rfl, k3, -⟩ := h1
  obtain ⟨x1, rfl, g1⟩ := digit_lang k1
  obtain ⟨x2, rfl, g2⟩ := digit_lang k2
  obtain ⟨x3, rfl, g3⟩ := digit_lang k3
  rw [h] at hr
  simp only [List.cons_append, List.nil_append, List.cons.injEq] at e1
  rw [e1.2] at hr
  simp only [List.cons_append, List.cons.injEq] at hr
  rw [← hr.2.1] at g3
  exact absurd g3 (by decide)

theorem accepts_time {lit post : List Char} (h : Toml.partialTime.Lang lit) (hp : DelimPost post) :
    Accepts .LOCAL_TIME lit post := by
  intro c hc
  obtain ⟨a, b, d, e, r, rfl, ga, gb, gd, ge⟩ := time_head h
  have hL := time_of_toml h
  have hns : ∀ x ∈ a :: b :: ':' :: d :: e :: r, isTokenSeparator x = false := by
    have := Rx.over_lang (p := fun x => !isTokenSeparator x) (r := Toml.partialTime) (by decide) h
    intro x hx
    simpa using this x hx
  have hc' : c.rest = a :: (b :: ':' :: d :: e :: r ++ post) := by simpa using hc
  obtain ⟨h1, h2, h3⟩ := Adv.bump_cons hc'
  obtain ⟨h4, -⟩ := eatMatch_exact h2
  refine ⟨_, by simpa using h1.trans h4, ?_⟩
  rw [advance_cons hc', dispatch_digit (by rw [h3]; exact ga)]
  unfold Cursor.digitArm
  have hT : c.bump.isTime = true := by
    unfold Cursor.isTime Cursor.peeksWithCurrent
    rw [h3, h2]
    have : LexRx.time.Lang [a, b, ':', d, e] :=
      ⟨[a, b], _, rfl, ⟨[a], _, rfl, digit_of ga, [b], _, rfl, digit_of gb, rfl⟩, [':'], _, rfl, lang_ch.mpr rfl,
        [d, e], [], by simp, ⟨[d], _, rfl, digit_of gd, [e], _, rfl, digit_of ge, rfl⟩, [], [], rfl, Or.inr rfl,
        [], [], rfl, Or.inr rfl, rfl⟩
    simp only [List.cons_append, List.take_succ_cons, List.take_zero]
    rw [show LexRx.localTime = LexRx.time from rfl, Rx.findEnd_of_lang this]
    rfl
  rw [colon_not_date (by simpa using h2), hT]
  simp only [Bool.false_eq_true, if_false, if_true]
  unfold Cursor.time
  rw [line_exact h2 (fun x hx => hns x (by simp at hx ⊢; right; exact hx)) hp, h3]
  simp only []
  rw [show LexRx.localTime = LexRx.time from rfl, Rx.findEnd_of_lang hL,
    utf8Len_ascii (Rx.charsBelow_lang (r := LexRx.time) (by decide) hL), List.length_cons]
  simp

/-! ### date-times -/

theorem takeWhileIdx_exact {p : Nat → Char → Bool} {w post : List Char} {i : Nat}
    (hw : ∀ j (h : j < w.length), p (i + j) w[j] = true)
    (hp : ∀ c r, post = c :: r → p (i + w.length) c = false) :
    Cursor.takeWhileIdx p i (w ++ post) = w := by
  induction w generalizing i with
  | nil =>
    cases post with
    | nil => rfl
    | cons c r =>
      have := hp c r rfl
      simp at this
      simp [Cursor.takeWhileIdx, this]
  | cons x xs ih =>
    have h0 := hw 0 (by simp)
    simp at h0
    simp only [List.cons_append, Cursor.takeWhileIdx, h0, if_true]
    rw [ih]
    · intro j hj
      have := hw (j + 1) (by simpa using hj)
      simpa [Nat.add_assoc, Nat.add_comm 1 j] using this
    · intro c r hc
      have := hp c r hc
      simpa [Nat.add_assoc, Nat.add_comm 1] using this

theorem date_nonsep {w : List Char} (h : Toml.fullDate.Lang w) : ∀ x ∈ w, isTokenSeparator x = false := by
  intro x hx
  have := Rx.over_lang (p := fun x => !isTokenSeparator x) (r := Toml.fullDate) (by decide) h x hx
  simpa using this

theorem isDateTime_of {c : Cursor} {d9 v : List Char} (h : LexRx.date.Lang (c.cur :: d9)) (hr : c.rest = d9 ++ v) :
    c.isDateTime = true := by
  unfold Cursor.isDateTime
  rw [Rx.matchPrefix_iff]
  have hl : (c.cur :: d9).length = 10 := Rx.fixedLen_lang (by decide) h
  refine ⟨c.cur :: d9, [], ?_, h⟩
  unfold Cursor.peeksWithCurrent
  rw [hr]
  simp at hl
  simp [← hl]

/-- the line read by `date_time`, for a date, a delimiter and a tail -/
theorem dt_line {c : Cursor} {d9 tail post : List Char} {s : Char} (h9 : d9.length = 9)
    (hd : ∀ x ∈ d9, isTokenSeparator x = false) (hs : s = ' ' ∨ isTokenSeparator s = false)
    (ht : ∀ x ∈ tail, isTokenSeparator x = false) (hp : DelimPost post) (hr : c.rest = (d9 ++ s :: tail) ++ post) :
    c.peekWithCurrentWhileIdx (fun i x => (i == 10 && x == ' ') || !isTokenSeparator x)
      = c.cur :: (d9 ++ s :: tail) := by
  unfold Cursor.peekWithCurrentWhileIdx
  rw [hr, takeWhileIdx_exact]
  · intro j hj
    rw [List.getElem_append]
    split
    · next h =>
      simp [hd _ (List.getElem_mem h)]
    · next h =>
      rw [List.getElem_cons]
      split
      · next h' =>
        have : 1 + j = 10 := by omega
        rw [this]
        rcases hs with rfl | hs
        · simp
        · simp [hs]
      · simp [ht _ (List.getElem_mem _)]
  · intro x r hx
    have := hp x r hx
    simp only [this, Bool.not_true, Bool.or_false, Bool.and_eq_false_imp, beq_iff_eq]
    intro h
    simp at h
    omega

theorem delim_cases {w : List Char} (h : Toml.timeDelim.Lang w) :
    ∃ s, w = [s] ∧ (s = ' ' ∨ isTokenSeparator s = false) := by
  obtain ⟨s, rfl, hs⟩ := h
  refine ⟨s, rfl, ?_⟩
  simp only [inCls, List.any_cons, List.any_nil, Bool.or_false, Bool.or_eq_true, Bool.and_eq_true,
    decide_eq_true_eq] at hs
  rcases hs with h | h | h
  · rw [Char.le_antisymm h.2 h.1]; right; decide
  · rw [Char.le_antisymm h.2 h.1]; right; decide
  · left; exact Char.le_antisymm h.2 h.1

theorem local_not_offset {d s t : List Char} (hd : LexRx.date.Lang d) (hs : LexRx.dateTimeSep.Lang s)
    (ht : LexRx.time.Lang t) : ¬ LexRx.offsetDateTime.Lang (d ++ (s ++ (t ++ []))) := by
  rintro ⟨d', v1, e1, hd', s', v2, rfl, hs', t', v3, rfl, ht', z, v4, rfl, hz, rfl⟩
  have l1 : d.length = 10 := Rx.fixedLen_lang (by decide) hd
  have l2 : d'.length = 10 := Rx.fixedLen_lang (by decide) hd'
  obtain ⟨-, e2⟩ := List.append_inj e1 (by omega)
  have l3 : s.length = 1 := Rx.fixedLen_lang (by decide) hs
  have l4 : s'.length = 1 := Rx.fixedLen_lang (by decide) hs'
  obtain ⟨-, e3⟩ := List.append_inj e2 (by omega)
  obtain ⟨c, hc, hp⟩ := Rx.needs_lang (p := fun c => c == 'Z' || c == 'z' || c == '+' || c == '-')
    (r := LexRx.zone) (by decide) hz
  have := Rx.over_lang (p := fun c => !(c == 'Z' || c == 'z' || c == '+' || c == '-')) (r := LexRx.time)
    (by decide) ht c (by
      have : c ∈ t ++ [] := by rw [e3]; simp [hc]
      simpa using this)
  rw [hp] at this
  simp at this

theorem accepts_local_date_time {lit post : List Char} (h : Toml.localDateTime.Lang lit) (hp : DelimPost post) :
    Accepts .LOCAL_DATE_TIME lit post := by
  obtain ⟨d, v1, rfl, hd, s, v2, rfl, hs, t, v3, rfl, ht, rfl⟩ := h
  have hL : LexRx.localDateTime.Lang (d ++ (s ++ (t ++ []))) :=
    ⟨d, _, rfl, hd, s, _, rfl, hs, t, _, rfl, time_of_toml ht, rfl⟩
  have hno := local_not_offset (d := d) hd hs (time_of_toml ht)
  obtain ⟨s0, rfl, hs0⟩ := delim_cases hs
  have hdl : d.length = 10 := Rx.fixedLen_lang (r := LexRx.date) (by decide) hd
  cases d with
  | nil => simp at hdl
  | cons d0 d9 =>
    intro c hc
    have hc' : c.rest = d0 :: ((d9 ++ s0 :: t) ++ post) := by simpa using hc
    obtain ⟨h1, h2, h3⟩ := Adv.bump_cons hc'
    obtain ⟨h4, h5⟩ := eatMatch_exact h2
    refine ⟨_, by simpa using h1.trans h4, ?_⟩
    have hdd : isAsciiDigit d0 = true := by
      obtain ⟨u1, v1, e1, ⟨a1, b1, rfl, k1, -⟩, -⟩ := hd
      obtain ⟨x1, rfl, g1⟩ := digit_lang k1
      simp at e1
      rw [e1.1]; exact g1
    rw [advance_cons hc', dispatch_digit (by rw [h3]; exact hdd)]
    unfold Cursor.digitArm
    rw [isDateTime_of (d9 := d9) (v := s0 :: t ++ post) (by rw [h3]; exact hd) (by rw [h2]; simp)]
    simp only [if_true]
    unfold Cursor.dateTime
    rw [dt_line (by simpa using hdl) (fun x hx => date_nonsep hd x (by simp [hx])) hs0
      (over_nonsep (r := Toml.partialTime) (by decide) ht) hp h2, h3]
    have e : d0 :: (d9 ++ s0 :: t) = (d0 :: d9) ++ ([s0] ++ (t ++ [])) := by simp
    simp only []
    rw [e, Rx.findEnd_none.mpr hno, Rx.findEnd_of_lang hL]
    simp only []
    rw [utf8Len_ascii (Rx.charsBelow_lang (r := LexRx.localDateTime) (by decide) hL), ← e, List.length_cons]
    rw [if_pos (SepAfter.peek (by rw [h5]; exact delim_sepAfter hp))]
    simp

theorem accepts_offset_date_time {lit post : List Char} (h : Toml.offsetDateTime.Lang lit) (hp : DelimPost post) :
    Accepts .OFFSET_DATE_TIME lit post := by
  obtain ⟨d, v1, rfl, hd, s, v2, rfl, hs, t, v3, rfl, ht, z, v4, rfl, hz, rfl⟩ := h
  have hL : LexRx.offsetDateTime.Lang (d ++ (s ++ (t ++ (z ++ [])))) :=
    ⟨d, _, rfl, hd, s, _, rfl, hs, t, _, rfl, time_of_toml ht, z, _, rfl, hz, rfl⟩
  obtain ⟨s0, rfl, hs0⟩ := delim_cases hs
  have hdl : d.length = 10 := Rx.fixedLen_lang (r := LexRx.date) (by decide) hd
  cases d with
  | nil => simp at hdl
  | cons d0 d9 =>
    intro c hc
    have hc' : c.rest = d0 :: ((d9 ++ s0 :: (t ++ z)) ++ post) := by simpa using hc
    obtain ⟨h1, h2, h3⟩ := Adv.bump_cons hc'
    obtain ⟨h4, h5⟩ := eatMatch_exact h2
    refine ⟨_, by simpa using h1.trans h4, ?_⟩
    have hdd : isAsciiDigit d0 = true := by
      obtain ⟨u1, v1, e1, ⟨a1, b1, rfl, k1, -⟩, -⟩ := hd
      obtain ⟨x1, rfl, g1⟩ := digit_lang k1
      simp at e1
      rw [e1.1]; exact g1
    rw [advance_cons hc', dispatch_digit (by rw [h3]; exact hdd)]
    unfold Cursor.digitArm
    rw [isDateTime_of (d9 := d9) (v := s0 :: (t ++ z) ++ post) (by rw [h3]; exact hd) (by rw [h2]; simp)]
    simp only [if_true]
    unfold Cursor.dateTime
    rw [dt_line (by simpa using hdl) (fun x hx => date_nonsep hd x (by simp [hx])) hs0
      (by
        intro x hx
        rcases List.mem_append.mp hx with hx | hx
        · exact over_nonsep (r := Toml.partialTime) (by decide) ht x hx
        · exact over_nonsep (r := Toml.timeOffset) (by decide) hz x hx) hp h2, h3]
    have e : d0 :: (d9 ++ s0 :: (t ++ z)) = (d0 :: d9) ++ ([s0] ++ (t ++ (z ++ []))) := by simp
    simp only []
    rw [e, Rx.findEnd_of_lang hL]
    simp only []
    rw [utf8Len_ascii (Rx.charsBelow_lang (r := LexRx.offsetDateTime) (by decide) hL), ← e, List.length_cons]
    rw [if_pos (SepAfter.peek (by rw [h5]; exact delim_sepAfter hp))]
    simp

theorem digit_head_time {t : List Char} (h : LexRx.time.Lang t) : ∃ x r, t = x :: r ∧ isAsciiDigit x = true := by
  obtain ⟨u1, v1, rfl, ⟨a1, b1, rfl, k1, -⟩, -⟩ := h
  obtain ⟨x, rfl, g⟩ := digit_lang k1
  exact ⟨x, _, rfl, g⟩

/-- a date is not lexed as a date-time when it is not followed by a space and a digit -/
theorem date_not_date_time {d more : List Char} (hd : LexRx.date.Lang d)
    (hm : more = [] ∨ ∃ r, more = ' ' :: r ∧ ∀ x r', r = x :: r' → isAsciiDigit x = false) :
    ¬ LexRx.offsetDateTime.Lang (d ++ more) ∧ ¬ LexRx.localDateTime.Lang (d ++ more) := by
  have l1 : d.length = 10 := Rx.fixedLen_lang (by decide) hd
  have key : ∀ d' s' t' z, d ++ more = d' ++ (s' ++ (t' ++ z)) → LexRx.date.Lang d' → LexRx.dateTimeSep.Lang s' →
      LexRx.time.Lang t' → False := by
    intro d' s' t' z e1 hd' hs' ht'
    have l2 : d'.length = 10 := Rx.fixedLen_lang (by decide) hd'
    obtain ⟨-, e2⟩ := List.append_inj e1 (by omega)
    obtain ⟨s, rfl, -⟩ := hs'
    obtain ⟨x, r', rfl, hx⟩ := digit_head_time ht'
    rcases hm with rfl | ⟨r, rfl, hr⟩
    · simp at e2
    · simp at e2
      have := hr x _ e2.2
      rw [hx] at this; simp at this
  constructor
  · rintro ⟨d', v1, e1, hd', s', v2, rfl, hs', t', v3, rfl, ht', z, v4, rfl, hz, rfl⟩
    exact key _ _ _ _ e1 hd' hs' ht'
  · rintro ⟨d', v1, e1, hd', s', v2, rfl, hs', t', v3, rfl, ht', rfl⟩
    exact key _ _ _ _ e1 hd' hs' ht'

theorem dt_line_date {c : Cursor} {d9 post : List Char} (h9 : d9.length = 9)
    (hd : ∀ x ∈ d9, isTokenSeparator x = false) (hp : DelimPost post) (hr : c.rest = d9 ++ post)
    (hp2 : ∀ x r, post = ' ' :: x :: r → isAsciiDigit x = false) :
    ∃ more, c.peekWithCurrentWhileIdx (fun i x => (i == 10 && x == ' ') || !isTokenSeparator x)
        = (c.cur :: d9) ++ more
      ∧ (more = [] ∨ ∃ r, more = ' ' :: r ∧ ∀ x r', r = x :: r' → isAsciiDigit x = false) := by
  by_cases hsp : ∃ r, post = ' ' :: r
  · obtain ⟨r, rfl⟩ := hsp
    have e : r = r.takeWhile (fun x => !isTokenSeparator x) ++ r.dropWhile (fun x => !isTokenSeparator x) :=
      (List.takeWhile_append_dropWhile ..).symm
    refine ⟨' ' :: r.takeWhile (fun x => !isTokenSeparator x), ?_, Or.inr ⟨_, rfl, ?_⟩⟩
    · rw [dt_line (s := ' ') (tail := r.takeWhile (fun x => !isTokenSeparator x))
        (post := r.dropWhile (fun x => !isTokenSeparator x)) h9 hd (Or.inl rfl)]
      · simp
      · intro x hx
        have := mem_takeWhile hx
        simpa using this
      · intro x r' hx
        have := head_dropWhile hx
        simpa using this
      · rw [hr]; simp
    · intro x r' hx
      cases r with
      | nil => simp at hx
      | cons y ys =>
        rw [List.takeWhile_cons] at hx
        split at hx
        · simp at hx
          rw [← hx.1]; exact hp2 y ys rfl
        · simp at hx
  · refine ⟨[], ?_, Or.inl rfl⟩
    unfold Cursor.peekWithCurrentWhileIdx
    rw [hr, takeWhileIdx_exact]
    · simp
    · intro j hj
      simp [hd _ (List.getElem_mem hj)]
    · intro x r hx
      have := hp x r hx
      simp only [this, Bool.not_true, Bool.or_false, Bool.and_eq_false_imp, beq_iff_eq]
      intro _
      simp only [beq_eq_false_iff_ne]
      rintro rfl
      exact hsp ⟨r, hx⟩

theorem accepts_local_date {lit post : List Char} (h : Toml.fullDate.Lang lit) (hp : DelimPost post)
    (hp2 : ∀ x r, post = ' ' :: x :: r → isAsciiDigit x = false) :
    Accepts .LOCAL_DATE lit post := by
  have hdl : lit.length = 10 := Rx.fixedLen_lang (r := LexRx.date) (by decide) h
  cases lit with
  | nil => simp at hdl
  | cons d0 d9 =>
    intro c hc
    have hc' : c.rest = d0 :: (d9 ++ post) := by simpa using hc
    obtain ⟨h1, h2, h3⟩ := Adv.bump_cons hc'
    obtain ⟨h4, h5⟩ := eatMatch_exact h2
    refine ⟨_, by simpa using h1.trans h4, ?_⟩
    have hdd : isAsciiDigit d0 = true := by
      obtain ⟨u1, v1, e1, ⟨a1, b1, rfl, k1, -⟩, -⟩ := h
      obtain ⟨x1, rfl, g1⟩ := digit_lang k1
      simp at e1
      rw [e1.1]; exact g1
    rw [advance_cons hc', dispatch_digit (by rw [h3]; exact hdd)]
    unfold Cursor.digitArm
    rw [isDateTime_of (d9 := d9) (v := post) (by rw [h3]; exact h) h2]
    simp only [if_true]
    unfold Cursor.dateTime
    obtain ⟨more, hl, hm⟩ := dt_line_date (by simpa using hdl) (fun x hx => date_nonsep h x (by simp [hx])) hp h2 hp2
    rw [hl, h3]
    simp only []
    obtain ⟨n1, n2⟩ := date_not_date_time (d := d0 :: d9) h hm
    have hasc := Rx.charsBelow_lang (r := LexRx.date) (n := 128) (by decide) h
    rw [Rx.findEnd_none.mpr n1, Rx.findEnd_none.mpr n2]
    simp only []
    have hbt : byteTake 10 ((d0 :: d9) ++ more) = some (d0 :: d9) := by
      rw [← hdl, ← utf8Len_ascii hasc]
      exact byteTake_append _ _
    rw [hbt]
    simp only []
    rw [show LexRx.localDate = LexRx.date from rfl, Rx.findEnd_of_lang (r := LexRx.date) h, utf8Len_ascii hasc, List.length_cons]
    simp only []
    rw [if_pos (SepAfter.peek (by rw [h5]; exact delim_sepAfter hp))]

end Tombi
