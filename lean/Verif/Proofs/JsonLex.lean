import Verif.Model.Json
import Verif.Proofs.LexLoop
/-! The JSON lexer on texts, without positions: what each token is cut to. -/
namespace Tombi.Json

/-- outcome of a scan: a token kind, or an error -/
abbrev Res := Except LexErrorKind Kind

/-- the step for an outcome at a cursor -/
def emit (c : Cursor) : Res → Step × Cursor
  | .ok k => ok c k
  | .error e => fail c e

/-- the text consumed by `stringLoop`, and its outcome -/
def strCut : StrMode → Bool → List Char → Res × List Char
  | _, _, [] => (.error .InvalidString, [])
  | .plain, e, x :: xs =>
    if x = '"' then (if e then .error .InvalidString else .ok .STRING, [x])
    else if x.toNat ≤ 0x1F then ((strCut .plain true xs).1, x :: (strCut .plain true xs).2)
    else if x = '\\' then ((strCut .escape e xs).1, x :: (strCut .escape e xs).2)
    else ((strCut .plain e xs).1, x :: (strCut .plain e xs).2)
  | .escape, e, x :: xs =>
    if isSimpleEscape x then ((strCut .plain e xs).1, x :: (strCut .plain e xs).2)
    else if x = 'u' then ((strCut (.hex 3) e xs).1, x :: (strCut (.hex 3) e xs).2)
    else ((strCut .plain true xs).1, x :: (strCut .plain true xs).2)
  | .hex n, e, x :: xs =>
    if isHex x then
      match n with
      | 0 => ((strCut .plain e xs).1, x :: (strCut .plain e xs).2)
      | m + 1 => ((strCut (.hex m) e xs).1, x :: (strCut (.hex m) e xs).2)
    else ((strCut .plain true xs).1, x :: (strCut .plain true xs).2)

/-- the text of a run of non-separators after one more character -/
def junkCut : List Char → List Char
  | [] => []
  | x :: xs => x :: xs.takeWhile fun x => !isSep x

/-- the outcome of `dispatch` on the current character and the text after it, and what it consumes
of the latter -/
def cut (x : Char) (xs : List Char) : Res × List Char :=
  if isWhitespace x then (.ok .WHITESPACE, xs.takeWhile isWhitespace)
  else if isLineBreak x then
    if x = '\r' then
      if xs.headD eofChar = '\n' then (.ok .LINE_BREAK, xs.take 1)
      else (.error .InvalidLineBreak, [])
    else (.ok .LINE_BREAK, xs.takeWhile (· == '\r'))
  else if x = '{' then (.ok .BRACE_START, [])
  else if x = '}' then (.ok .BRACE_END, [])
  else if x = '[' then (.ok .BRACKET_START, [])
  else if x = ']' then (.ok .BRACKET_END, [])
  else if x = ',' then (.ok .COMMA, [])
  else if x = ':' then (.ok .COLON, [])
  else if x = '"' then strCut .plain false xs
  else if isAsciiDigit x || x == '-' then
    let w := xs.takeWhile fun x => !isSep x
    (if Rxs.float.matchAll (x :: w) || Rxs.integer.matchAll (x :: w) then .ok .NUMBER
      else .error .InvalidNumber, w)
  else if x = 't' then
    if xs.take 3 = ['r', 'u', 'e'] then (.ok .BOOLEAN, xs.take 3)
    else (.error .InvalidTrue, junkCut xs)
  else if x = 'f' then
    if xs.take 4 = ['a', 'l', 's', 'e'] then (.ok .BOOLEAN, xs.take 4)
    else (.error .InvalidFalse, junkCut xs)
  else if x = 'n' then
    if xs.take 3 = ['u', 'l', 'l'] then (.ok .NULL, xs.take 3)
    else (.error .InvalidNull, junkCut xs)
  else (.error .InvalidToken, junkCut xs)

theorem stringLoop_cut (m : StrMode) (e : Bool) (xs : List Char) (c : Cursor) (h : c.rest = xs) :
    ∃ c1, Adv c c1 (strCut m e xs).2 ∧ stringLoop m e xs c = emit c1 (strCut m e xs).1 := by
  induction xs generalizing m e c with
  | nil =>
    refine ⟨c.bump, (Adv.bump_nil h).1, ?_⟩
    cases m <;> rfl
  | cons x xs ih =>
    obtain ⟨h1, h2, -⟩ := Adv.bump_cons h
    have go : ∀ m' e', ∃ c1, Adv c c1 (x :: (strCut m' e' xs).2)
        ∧ stringLoop m' e' xs c.bump = emit c1 (strCut m' e' xs).1 := by
      intro m' e'
      obtain ⟨c1, h3, h4⟩ := ih m' e' c.bump h2
      exact ⟨c1, h1.trans h3, h4⟩
    cases m with
    | plain =>
      simp only [stringLoop, strCut]
      split
      · refine ⟨c.bump, h1, ?_⟩
        split <;> rfl
      · split
        · exact go _ _
        · split <;> exact go _ _
    | escape =>
      simp only [stringLoop, strCut]
      split
      · exact go _ _
      · split <;> exact go _ _
    | hex n =>
      simp only [stringLoop, strCut]
      split
      · cases n <;> exact go _ _
      · exact go _ _

theorem junk_cut (c : Cursor) (k : LexErrorKind) :
    ∃ c1, Adv c c1 (junkCut c.rest) ∧ junk c k = emit c1 (.error k) := by
  unfold junk
  refine ⟨_, ?_, rfl⟩
  cases h : c.rest with
  | nil =>
    have h1 := Adv.bump_nil h
    have h2 := (Adv.eatWhile (fun x => !isSep x) c.bump).1
    rw [h1.2.1] at h2
    exact h1.1.trans h2
  | cons x xs =>
    obtain ⟨h1, h2, -⟩ := Adv.bump_cons h
    have h3 := (Adv.eatWhile (fun x => !isSep x) c.bump).1
    rw [h2] at h3
    exact h1.trans h3

theorem matches_take (c : Cursor) (x : Char) (xs : List Char) (h0 : '\x00' ∉ xs) (hc : c.cur = x) :
    c.matches (x :: xs) = true ↔ c.rest.take xs.length = xs := by
  rw [Cursor.matches_iff c x xs h0]
  constructor
  · rintro ⟨-, t, ht⟩
    rw [ht, List.take_left']
    rfl
  · intro h
    refine ⟨hc, c.rest.drop xs.length, ?_⟩
    conv => lhs; rw [← List.take_append_drop xs.length c.rest]
    rw [h]

theorem charsBelow_float : Rxs.float.charsBelow 128 = true := by decide
theorem charsBelow_integer : Rxs.integer.charsBelow 128 = true := by decide

theorem number_cut (c : Cursor) :
    ∃ c1, Adv c c1 (c.rest.takeWhile fun x => !isSep x) ∧ number c = emit c1
      (if Rxs.float.matchAll (c.cur :: c.rest.takeWhile fun x => !isSep x)
          || Rxs.integer.matchAll (c.cur :: c.rest.takeWhile fun x => !isSep x)
        then .ok .NUMBER else .error .InvalidNumber) := by
  have key : ∀ r : Rx, r.charsBelow 128 = true → ∀ e,
      r.findEnd (c.cur :: c.rest.takeWhile fun x => !isSep x) = some e →
      Adv c (c.eatMatch e) (c.rest.takeWhile fun x => !isSep x)
        ∧ r.matchAll (c.cur :: c.rest.takeWhile fun x => !isSep x) = true := by
    intro r hr e he
    obtain ⟨h1, h2⟩ := Rx.findEnd_some he
    refine ⟨?_, (Rx.matchAll_iff _ _).mpr h1⟩
    have h3 := utf8Len_ascii (Rx.charsBelow_lang hr h1)
    have h4 := (Adv.eatMatch c e).1
    rw [h2, h3, List.length_cons, Nat.add_sub_cancel] at h4
    rw [h2, h3, List.length_cons]
    have h5 : c.rest.take (c.rest.takeWhile fun x => !isSep x).length
        = c.rest.takeWhile fun x => !isSep x := by
      have := List.takeWhile_append_dropWhile (p := fun x => !isSep x) (l := c.rest)
      conv => lhs; arg 2; rw [← this]
      rw [List.take_left']
      rfl
    rwa [h5] at h4
  have nokey : ∀ r : Rx, r.findEnd (c.cur :: c.rest.takeWhile fun x => !isSep x) = none →
      r.matchAll (c.cur :: c.rest.takeWhile fun x => !isSep x) = false := by
    intro r hr
    rw [Rx.findEnd_none] at hr
    rw [Bool.eq_false_iff]
    exact fun h => hr ((Rx.matchAll_iff _ _).mp h)
  unfold number Cursor.peekWithCurrentWhile
  simp only []
  split
  · next e he =>
    obtain ⟨h1, h2⟩ := key _ charsBelow_float _ he
    refine ⟨_, h1, ?_⟩
    rw [h2]
    rfl
  · next he =>
    have h0 := nokey _ he
    split
    · next e he' =>
      obtain ⟨h1, h2⟩ := key _ charsBelow_integer _ he'
      refine ⟨_, h1, ?_⟩
      rw [h2, Bool.or_true]
      rfl
    · next he' =>
      have h3 := nokey _ he'
      refine ⟨_, (Adv.eatWhile _ c).1, ?_⟩
      rw [h0, h3]
      rfl

/-- a step consumes and returns what a scan of the text says -/
def Agree (c : Cursor) (d : Step × Cursor) (r : Res × List Char) : Prop :=
  ∃ c1, Adv c c1 r.2 ∧ d = emit c1 r.1

theorem Agree.ite {c : Cursor} {p q : Prop} [Decidable p] [Decidable q] {d d' : Step × Cursor}
    {r r' : Res × List Char} (hpq : p ↔ q) (h1 : p → Agree c d r) (h2 : ¬ p → Agree c d' r') :
    Agree c (if p then d else d') (if q then r else r') := by
  by_cases h : p
  · rw [if_pos h, if_pos (hpq.mp h)]; exact h1 h
  · rw [if_neg h, if_neg (fun h' => h (hpq.mpr h'))]; exact h2 h

theorem lineBreak_cut (c : Cursor) :
    Agree c (lineBreak c) (if c.cur = '\r' then
      if c.rest.headD eofChar = '\n' then (.ok .LINE_BREAK, c.rest.take 1)
      else (.error .InvalidLineBreak, [])
    else (.ok .LINE_BREAK, c.rest.takeWhile (· == '\r'))) := by
  unfold lineBreak
  rw [Cursor.peek_one]
  refine Agree.ite Iff.rfl (fun _ => Agree.ite Iff.rfl (fun _ => ?_) fun _ => ?_) fun _ => ?_
  · exact ⟨_, (Adv.eatN 1 c).1, rfl⟩
  · exact ⟨_, Adv.refl c, rfl⟩
  · exact ⟨_, (Adv.eatWhile _ c).1, rfl⟩

/-- `dispatch` consumes and returns what `cut` says. -/
theorem dispatch_cut (c : Cursor) : Agree c (dispatch c) (cut c.cur c.rest) := by
  unfold dispatch cut
  have one : ∀ k : Kind, Agree c (ok c k) (.ok k, []) := fun k => ⟨_, Adv.refl c, rfl⟩
  refine Agree.ite Iff.rfl (fun _ => ⟨_, (Adv.eatWhile _ c).1, rfl⟩) fun _ => ?_
  refine Agree.ite Iff.rfl (fun _ => lineBreak_cut c) fun _ => ?_
  refine Agree.ite Iff.rfl (fun _ => one _) fun _ => ?_
  refine Agree.ite Iff.rfl (fun _ => one _) fun _ => ?_
  refine Agree.ite Iff.rfl (fun _ => one _) fun _ => ?_
  refine Agree.ite Iff.rfl (fun _ => one _) fun _ => ?_
  refine Agree.ite Iff.rfl (fun _ => one _) fun _ => ?_
  refine Agree.ite Iff.rfl (fun _ => one _) fun _ => ?_
  refine Agree.ite Iff.rfl (fun _ => stringLoop_cut _ _ _ _ rfl) fun _ => ?_
  refine Agree.ite Iff.rfl (fun _ => number_cut c) fun _ => ?_
  refine Agree.ite Iff.rfl (fun hc => ?_) fun _ => ?_
  · exact Agree.ite (matches_take c 't' ['r', 'u', 'e'] (by decide) hc)
      (fun _ => ⟨_, (Adv.eatN 3 c).1, rfl⟩) fun _ => junk_cut c _
  refine Agree.ite Iff.rfl (fun hc => ?_) fun _ => ?_
  · exact Agree.ite (matches_take c 'f' ['a', 'l', 's', 'e'] (by decide) hc)
      (fun _ => ⟨_, (Adv.eatN 4 c).1, rfl⟩) fun _ => junk_cut c _
  refine Agree.ite Iff.rfl (fun hc => ?_) fun _ => ?_
  · exact Agree.ite (matches_take c 'n' ['u', 'l', 'l'] (by decide) hc)
      (fun _ => ⟨_, (Adv.eatN 3 c).1, rfl⟩) fun _ => junk_cut c _
  · exact junk_cut c _

/-! ### the token loop -/

/-- A piece of the source that became one token; `err` is the error reported for it, if any. -/
structure Piece where
  res : Res
  text : List Char
  deriving DecidableEq, Repr

def Piece.kind (p : Piece) : Kind :=
  match p.res with
  | .ok k => k
  | .error _ => .INVALID_TOKEN

/-- the pieces of a text -/
def pieces : Nat → List Char → List Piece
  | 0, _ => []
  | _ + 1, [] => []
  | n + 1, x :: xs => ⟨(cut x xs).1, x :: (cut x xs).2⟩ :: pieces n (xs.drop (cut x xs).2.length)

def texts : List Piece → List Char
  | [] => []
  | p :: ps => p.text ++ texts ps

@[simp] theorem texts_nil : texts [] = [] := rfl
@[simp] theorem texts_cons (p : Piece) (ps : List Piece) : texts (p :: ps) = p.text ++ texts ps := rfl

theorem strCut_prefix (m : StrMode) (e : Bool) (xs : List Char) : (strCut m e xs).2 <+: xs := by
  induction xs generalizing m e with
  | nil => cases m <;> exact List.prefix_refl _
  | cons x xs ih =>
    cases m with
    | plain =>
      simp only [strCut]
      split
      · exact (List.cons_prefix_cons).mpr ⟨rfl, List.nil_prefix⟩
      · split
        · exact (List.cons_prefix_cons).mpr ⟨rfl, ih _ _⟩
        · split <;> exact (List.cons_prefix_cons).mpr ⟨rfl, ih _ _⟩
    | escape =>
      simp only [strCut]
      split
      · exact (List.cons_prefix_cons).mpr ⟨rfl, ih _ _⟩
      · split <;> exact (List.cons_prefix_cons).mpr ⟨rfl, ih _ _⟩
    | hex n =>
      simp only [strCut]
      split
      · cases n <;> exact (List.cons_prefix_cons).mpr ⟨rfl, ih _ _⟩
      · exact (List.cons_prefix_cons).mpr ⟨rfl, ih _ _⟩

theorem cut_prefix (x : Char) (xs : List Char) : (cut x xs).2 <+: xs := by
  -- run `dispatch` on a cursor standing there
  obtain ⟨c1, h, -⟩ := dispatch_cut ⟨xs, x, 0, Position.zero, 0, Position.zero, .lf⟩
  exact ⟨c1.rest, h.rest.symm⟩

theorem cut_append (x : Char) (xs : List Char) :
    xs = (cut x xs).2 ++ xs.drop (cut x xs).2.length := by
  obtain ⟨r, hr⟩ := cut_prefix x xs
  generalize (cut x xs).2 = w at hr
  subst hr
  rw [List.drop_left']
  rfl

theorem texts_pieces (n : Nat) (s : List Char) (h : s.length ≤ n) : texts (pieces n s) = s := by
  induction n generalizing s with
  | zero => simp at h; subst h; rfl
  | succ n ih =>
    cases s with
    | nil => rfl
    | cons x xs =>
      simp only [pieces, texts_cons]
      rw [ih]
      · rw [List.cons_append, ← cut_append]
      · simp at h; simp; omega

theorem pieces_fuel (n m : Nat) (s : List Char) (hn : s.length ≤ n) (hm : s.length ≤ m) :
    pieces n s = pieces m s := by
  induction n generalizing m s with
  | zero => simp at hn; subst hn; cases m <;> rfl
  | succ n ih =>
    cases s with
    | nil => cases m <;> rfl
    | cons x xs =>
      cases m with
      | zero => simp at hm
      | succ m =>
        simp only [pieces]
        rw [ih m]
        · simp at hn; simp; omega
        · simp at hm; simp; omega

/-- token of a piece placed at an offset and position -/
def Piece.token (p : Piece) (off : Nat) (pos : Position) : Token :=
  ⟨p.kind, ⟨off, off + utf8Len p.text⟩, ⟨pos, advPos pos p.text⟩⟩

/-- error of a piece placed at an offset and position -/
def Piece.errors (p : Piece) (off : Nat) (pos : Position) : List LexError :=
  match p.res with
  | .ok _ => []
  | .error k => [⟨k, ⟨off, off + utf8Len p.text⟩, ⟨pos, advPos pos p.text⟩⟩]

def toks (off : Nat) (pos : Position) : List Piece → List Token
  | [] => []
  | p :: ps => p.token off pos :: toks (off + utf8Len p.text) (advPos pos p.text) ps

def errs (off : Nat) (pos : Position) : List Piece → List LexError
  | [] => []
  | p :: ps => p.errors off pos ++ errs (off + utf8Len p.text) (advPos pos p.text) ps

theorem lexLoop_pieces (n : Nat) (c : Cursor) (s : LexState) (hs : c.startOff = c.off)
    (hp : c.startPos = c.pos) (hn : c.rest.length < n) (hso : s.lastOff = c.off)
    (hsp : s.lastPos = c.pos) :
    lexLoop n c s = .ok ⟨s.tokens ++ toks c.off c.pos (pieces n c.rest),
      s.errors ++ errs c.off c.pos (pieces n c.rest), c.off + utf8Len c.rest,
      advPos c.pos c.rest⟩ := by
  induction n generalizing c s with
  | zero => omega
  | succ n ih =>
    cases hr : c.rest with
    | nil =>
      simp only [lexLoop, advanceToken, hr, pieces, toks, errs, List.append_nil, utf8Len_nil,
        Nat.add_zero, advPos_nil]
      rw [← hso, ← hsp]
    | cons x xs =>
      obtain ⟨h1, h2, h3⟩ := Adv.bump_cons hr
      obtain ⟨c1, h4, h5⟩ := dispatch_cut c.bump
      rw [h2, h3] at h4 h5
      have hA := h1.trans h4
      have hrest : c1.rest = xs.drop (cut x xs).2.length := by
        have := h4.rest
        rw [h2] at this
        have h6 := cut_append x xs
        rw [this] at h6
        exact List.append_cancel_left (h6.trans (by rw [← this]))
      simp only [lexLoop, advanceToken, hr]
      rw [h5]
      have hlen : c1.rest.length < n := by
        rw [hrest]; rw [hr] at hn; simp at hn; simp; omega
      have htxt : x :: xs = ([x] ++ (cut x xs).2) ++ c1.rest := by
        rw [hrest, List.append_assoc, ← cut_append]; rfl
      have hrange : Range.new c1.startPos c1.pos = ⟨c.pos, advPos c.pos (x :: (cut x xs).2)⟩ := by
        rw [hA.startPos, hA.pos, hp]
        exact Range.new_adv _ _
      have hspan : Span.mk c1.startOff c1.off = ⟨c.off, c.off + utf8Len (x :: (cut x xs).2)⟩ := by
        rw [hA.startOff, hA.off, hs]
        rfl
      cases hres : (cut x xs).1 with
      | ok k =>
        simp only [emit, ok, Cursor.popSpanRange]
        rw [ih { c1 with startOff := c1.off, startPos := c1.pos } _ rfl rfl hlen rfl
          (by simp only [LexState.push]; rw [hrange]; exact hA.pos.symm)]
        simp only [LexState.push, pieces, toks, errs, Piece.token, Piece.errors, Piece.kind, hres,
          List.nil_append, List.append_assoc, List.singleton_append]
        rw [hrange, hspan, hrest]
        have ho : c1.off = c.off + utf8Len (x :: (cut x xs).2) := hA.off
        have hpos : c1.pos = advPos c.pos (x :: (cut x xs).2) := hA.pos
        rw [ho, hpos, ← advPos_append]
        congr 2
        · rw [htxt, hrest]; simp only [utf8Len_append, utf8Len_cons, utf8Len_nil]; omega
        · rw [htxt, hrest]; rfl
      | error e =>
        simp only [emit, fail, Cursor.popSpanRange]
        rw [ih { c1 with startOff := c1.off, startPos := c1.pos } _ rfl rfl hlen rfl
          (by simp only [LexState.push]; rw [hrange]; exact hA.pos.symm)]
        simp only [LexState.push, pieces, toks, errs, Piece.token, Piece.errors, Piece.kind, hres,
          List.append_assoc, List.singleton_append]
        rw [hrange, hspan, hrest]
        have ho : c1.off = c.off + utf8Len (x :: (cut x xs).2) := hA.off
        have hpos : c1.pos = advPos c.pos (x :: (cut x xs).2) := hA.pos
        rw [ho, hpos, ← advPos_append]
        congr 2
        · rw [htxt, hrest]; simp only [utf8Len_append, utf8Len_cons, utf8Len_nil]; omega
        · rw [htxt, hrest]; rfl

/-- The pieces of a whole text. -/
def piecesOf (s : List Char) : List Piece := pieces s.length s

theorem piecesOf_nil : piecesOf [] = [] := rfl

theorem piecesOf_cons (x : Char) (xs : List Char) :
    piecesOf (x :: xs)
      = ⟨(cut x xs).1, x :: (cut x xs).2⟩ :: piecesOf (xs.drop (cut x xs).2.length) := by
  unfold piecesOf
  simp only [List.length_cons, pieces]
  rw [pieces_fuel _ (xs.drop (cut x xs).2.length).length]
  · simp
  · exact Nat.le_refl _

theorem texts_piecesOf (s : List Char) : texts (piecesOf s) = s := texts_pieces _ _ (Nat.le_refl _)

/-- The whole lexer. -/
theorem lex_eq (G : Segmenter) (src : List Char) :
    lex G src = .ok ⟨toks 0 Position.zero (piecesOf src)
        ++ [⟨.EOF, ⟨utf8Len src, utf8Len src⟩,
            ⟨advPos Position.zero src, advPos Position.zero src⟩⟩],
      errs 0 Position.zero (piecesOf src)⟩ := by
  unfold lex
  rw [lexLoop_pieces (src.length + 1) (Cursor.new src) _ rfl rfl (Nat.lt_succ_self _) rfl rfl]
  have h0 : (Cursor.new src).rest = src := rfl
  have h1 : (Cursor.new src).off = 0 := rfl
  have h2 : (Cursor.new src).pos = Position.zero := rfl
  simp only [h0, h1, h2, Nat.zero_add, List.nil_append, lexFinish]
  have h3 : byteDrop (utf8Len src) src = some [] := by
    have := byteDrop_append src []
    simpa using this
  rw [h3]
  simp only []
  have h4 : RelPosition.of G [] = ⟨0, 0⟩ := by
    unfold RelPosition.of
    have h5 := G.flatten_graphemes []
    have h6 := G.ne_nil []
    cases hg : G.graphemes [] with
    | nil => rfl
    | cons g gs =>
      rw [hg] at h5 h6
      simp at h5 h6
      exact absurd h5.1.symm (fun h => h6.1 h.symm)
  rw [h4]
  have h5 : (advPos Position.zero src).add ⟨0, 0⟩ = advPos Position.zero src := by
    simp [Position.add]
  rw [h5]
  have h6 : Range.new (advPos Position.zero src) (advPos Position.zero src)
      = ⟨advPos Position.zero src, advPos Position.zero src⟩ := by
    unfold Range.new; rw [Position.le_refl]; rfl
  rw [h6, pieces_fuel (src.length + 1) src.length src (by omega) (Nat.le_refl _)]
  rfl

end Tombi.Json
