import Verif.Proofs.LexShape2
/-! The token loop of `lex`: the source is cut into pieces, each one token. -/
namespace Tombi

/-- A piece of the source that became one token; `err` is the error reported for it, if any. -/
structure Piece where
  kind : SyntaxKind
  text : List Char
  err : Option LexErrorKind
  deriving DecidableEq, Repr

/-- the concatenated texts -/
def texts : List Piece → List Char
  | [] => []
  | p :: ps => p.text ++ texts ps

@[simp] theorem texts_nil : texts [] = [] := rfl
@[simp] theorem texts_cons (p : Piece) (ps : List Piece) : texts (p :: ps) = p.text ++ texts ps := rfl
theorem texts_append (a b : List Piece) : texts (a ++ b) = texts a ++ texts b := by
  induction a with
  | nil => rfl
  | cons p ps ih => simp [ih]

/-- token of a piece placed at an offset and position -/
def Piece.token (p : Piece) (off : Nat) (pos : Position) : Token :=
  ⟨p.kind, ⟨off, off + utf8Len p.text⟩, ⟨pos, advPos pos p.text⟩⟩

/-- error of a piece placed at an offset and position -/
def Piece.error (p : Piece) (off : Nat) (pos : Position) : Option LexError :=
  p.err.map fun k => ⟨k, ⟨off, off + utf8Len p.text⟩, ⟨pos, advPos pos p.text⟩⟩

/-- tokens of pieces laid out one after the other -/
def toks (off : Nat) (pos : Position) : List Piece → List Token
  | [] => []
  | p :: ps => p.token off pos :: toks (off + utf8Len p.text) (advPos pos p.text) ps

/-- errors of pieces laid out one after the other -/
def errs (off : Nat) (pos : Position) : List Piece → List LexError
  | [] => []
  | p :: ps => (p.error off pos).toList ++ errs (off + utf8Len p.text) (advPos pos p.text) ps

theorem toks_append (off : Nat) (pos : Position) (a b : List Piece) :
    toks off pos (a ++ b) = toks off pos a ++ toks (off + utf8Len (texts a)) (advPos pos (texts a)) b := by
  induction a generalizing off pos with
  | nil => simp [toks]
  | cons p ps ih => simp [toks, ih, advPos_append, Nat.add_assoc]

theorem errs_append (off : Nat) (pos : Position) (a b : List Piece) :
    errs off pos (a ++ b) = errs off pos a ++ errs (off + utf8Len (texts a)) (advPos pos (texts a)) b := by
  induction a generalizing off pos with
  | nil => simp [errs]
  | cons p ps ih => simp [errs, ih, advPos_append, Nat.add_assoc]

theorem toks_length (off : Nat) (pos : Position) (ps : List Piece) :
    (toks off pos ps).length = ps.length := by
  induction ps generalizing off pos with
  | nil => rfl
  | cons p ps ih => simp [toks, ih]

/-- A piece is as it should be, given the text after it. -/
def Piece.Ok0 (p : Piece) (after : List Char) : Prop :=
  p.text ≠ [] ∧
  match p.err with
  | none => p.kind ≠ .INVALID_TOKEN ∧ p.kind ≠ .EOF ∧ Shape p.kind p.text after
  | some _ => p.kind = .INVALID_TOKEN

/-- result of one successful `advance_token` as a piece -/
def Piece.step (p : Piece) (off : Nat) (pos : Position) : LexStep :=
  match p.err with
  | none => .tok (p.token off pos)
  | some k => .err ⟨k, ⟨off, off + utf8Len p.text⟩, ⟨pos, advPos pos p.text⟩⟩

/-- The piece is what `advance_token` cuts off a text it starts at. -/
def Piece.Scan (p : Piece) (after : List Char) : Prop :=
  ∃ c c' : Cursor, c.rest = p.text ++ after ∧ c.startOff = c.off ∧ c.startPos = c.pos
    ∧ c.advanceToken = (p.step c.off c.pos, c')

def Piece.Ok (p : Piece) (after : List Char) : Prop := p.Ok0 after ∧ p.Scan after

def PiecesOk (after : List Char) : List Piece → Prop
  | [] => True
  | p :: ps => p.Ok (texts ps ++ after) ∧ PiecesOk after ps

theorem PiecesOk.snoc {after : List Char} {ps : List Piece} {p : Piece}
    (h : PiecesOk (p.text ++ after) ps) (hp : p.Ok after) : PiecesOk after (ps ++ [p]) := by
  induction ps with
  | nil => exact ⟨by simpa using hp, trivial⟩
  | cons q qs ih =>
    refine ⟨?_, ih h.2⟩
    have := h.1
    show q.Ok (texts (qs ++ [p]) ++ after)
    rw [texts_append]
    simpa using this

theorem PiecesOk.get {after : List Char} {a b : List Piece} {p : Piece}
    (h : PiecesOk after (a ++ p :: b)) : p.Ok (texts b ++ after) := by
  induction a with
  | nil => exact h.1
  | cons q qs ih => exact ih h.2

/-! ### positions only grow -/

theorem Position.le_refl (p : Position) : p.le p = true := by simp [Position.le]

theorem Position.le_trans {a b c : Position} (h1 : a.le b = true) (h2 : b.le c = true) :
    a.le c = true := by
  simp [Position.le] at *
  omega

theorem Position.le_add_ofChar (p : Position) (c : Char) :
    p.le (p.add (RelPosition.ofChar c)) = true := by
  unfold RelPosition.ofChar
  split <;> simp [Position.le, Position.add]

theorem le_advPos (p : Position) (w : List Char) : p.le (advPos p w) = true := by
  induction w generalizing p with
  | nil => exact Position.le_refl p
  | cons c cs ih => exact Position.le_trans (Position.le_add_ofChar p c) (ih _)

theorem Range.new_adv (p : Position) (w : List Char) :
    Range.new p (advPos p w) = ⟨p, advPos p w⟩ := by
  unfold Range.new
  rw [le_advPos]
  rfl

/-! ### one step -/

/-- is this piece a CRLF line break token? -/
def Piece.isCrlf (p : Piece) : Bool := p.kind == .LINE_BREAK && p.text == ['\r', '\n']

theorem advance_step {c : Cursor} (hne : c.rest ≠ []) (hs : c.startOff = c.off)
    (hp : c.startPos = c.pos) :
    ∃ (p : Piece) (c' : Cursor), c.advanceToken = (p.step c.off c.pos, c') ∧ c.rest = p.text ++ c'.rest
      ∧ c'.off = c.off + utf8Len p.text ∧ c'.pos = advPos c.pos p.text
      ∧ c'.startOff = c'.off ∧ c'.startPos = c'.pos ∧ p.Ok0 c'.rest
      ∧ c'.lineEnding = (if p.isCrlf then .crlf else c.lineEnding) := by
  unfold Cursor.advanceToken
  cases hr : c.rest with
  | nil => exact absurd hr hne
  | cons x xs =>
    obtain ⟨h1, h2, h3⟩ := Adv.bump_cons hr
    have hE := Emit.dispatch c.bump
    rw [h3] at hE
    simp only []
    generalize hres : c.bump.dispatch = res at hE
    have shape_ne : ∀ (k : SyntaxKind) (t a : List Char), Shape k t a →
        k ≠ .INVALID_TOKEN ∧ k ≠ .EOF := by
      intro k t a hk
      constructor
      · rintro rfl; exact hk
      · rintro rfl; exact hk
    cases hE with
    | ok w c1 k hA hk hS =>
      have hA' := h1.trans hA
      refine ⟨⟨k, [x] ++ w, none⟩, c1.popSpanRange.2, ?_, ?_, ?_, ?_, rfl, rfl, ?_, ?_⟩
      · simp only [Cursor.ok, Piece.step, Piece.token, Cursor.popSpanRange]
        rw [hA'.off, hA'.pos, hA'.startOff, hA'.startPos, hs, hp, Range.new_adv]
      · rw [← hr]; exact hA'.rest
      · exact hA'.off
      · exact hA'.pos
      · exact ⟨by simp, (shape_ne _ _ _ hS).1, (shape_ne _ _ _ hS).2, hS⟩
      · have : (Piece.isCrlf ⟨k, [x] ++ w, none⟩) = false := by
          simp [Piece.isCrlf, hk]
        rw [this]
        exact hA'.lineEnding
    | lf w c1 hA hS =>
      have hA' := h1.trans hA
      refine ⟨⟨.LINE_BREAK, [x] ++ w, none⟩, c1.popSpanRange.2, ?_, ?_, ?_, ?_, rfl, rfl, ?_, ?_⟩
      · simp only [Cursor.ok, Piece.step, Piece.token, Cursor.popSpanRange]
        rw [hA'.off, hA'.pos, hA'.startOff, hA'.startPos, hs, hp, Range.new_adv]
      · rw [← hr]; exact hA'.rest
      · exact hA'.off
      · exact hA'.pos
      · exact ⟨by simp, by simp, by simp, Or.inl hS⟩
      · have : (Piece.isCrlf ⟨.LINE_BREAK, [x] ++ w, none⟩) = false := by
          simp only [Piece.isCrlf]; rw [hS]; decide
        rw [this]
        exact hA'.lineEnding
    | crlf w c1 hA hS =>
      have hA' := h1.trans hA
      refine ⟨⟨.LINE_BREAK, [x] ++ w, none⟩, ({ c1 with lineEnding := .crlf } : Cursor).popSpanRange.2,
        ?_, ?_, ?_, ?_, rfl, rfl, ?_, ?_⟩
      · simp only [Cursor.ok, Piece.step, Piece.token, Cursor.popSpanRange]
        rw [hA'.off, hA'.pos, hA'.startOff, hA'.startPos, hs, hp, Range.new_adv]
      · rw [← hr]; exact hA'.rest
      · exact hA'.off
      · exact hA'.pos
      · exact ⟨by simp, by simp, by simp, Or.inr hS⟩
      · have : (Piece.isCrlf ⟨.LINE_BREAK, [x] ++ w, none⟩) = true := by
          simp only [Piece.isCrlf]; rw [hS]; decide
        rw [this]
        rfl
    | fail w c1 k hA =>
      have hA' := h1.trans hA
      refine ⟨⟨.INVALID_TOKEN, [x] ++ w, some k⟩, c1.popSpanRange.2, ?_, ?_, ?_, ?_, rfl, rfl, ?_, ?_⟩
      · simp only [Cursor.fail, Piece.step, Cursor.popSpanRange]
        rw [hA'.off, hA'.pos, hA'.startOff, hA'.startPos, hs, hp, Range.new_adv]
      · rw [← hr]; exact hA'.rest
      · exact hA'.off
      · exact hA'.pos
      · exact ⟨by simp, rfl⟩
      · have : (Piece.isCrlf ⟨.INVALID_TOKEN, [x] ++ w, some k⟩) = false := by
          simp [Piece.isCrlf]
        rw [this]
        exact hA'.lineEnding

theorem advance_eof {c : Cursor} (h : c.rest = []) :
    ∃ c', c.advanceToken = (.tok Token.eof, c') ∧ c'.lineEnding = c.lineEnding := by
  refine ⟨c.bump, ?_, (Adv.bump_nil h).1.lineEnding⟩
  unfold Cursor.advanceToken
  rw [h]

/-! ### joint bits -/

/-- the bit for token `n` -/
def jointBit (js : List Nat) (n : Nat) : Bool := (js.getD (n / 64) 0).testBit (n % 64)

/-- tokens `n` and `n+1` are both pieces that are not blank -/
def touching (ps : List Piece) (n : Nat) : Bool :=
  match ps[n]?, ps[n + 1]? with
  | some a, some b => !a.kind.isTrivia && !b.kind.isTrivia
  | _, _ => false

/-- Joint words: enough of them, and exactly the bits of touching tokens set. -/
structure JointsOk (js : List Nat) (ps : List Piece) : Prop where
  len : js.length = (ps.length + 63) / 64
  bits : ∀ n, jointBit js n = touching ps n

theorem testBit_or_one (w b m : Nat) : (w ||| (1 <<< b)).testBit m = (w.testBit m || m == b) := by
  rw [Nat.testBit_or, Nat.shiftLeft_eq, Nat.one_mul, Nat.testBit_two_pow]
  congr 1
  rw [Bool.eq_iff_iff]
  simp
  omega

theorem touching_append_lt {ps : List Piece} {p : Piece} {n : Nat} (h : n + 1 < ps.length) :
    touching (ps ++ [p]) n = touching ps n := by
  unfold touching
  rw [List.getElem?_append_left (by omega), List.getElem?_append_left (by omega)]

theorem touching_ge {ps : List Piece} {n : Nat} (h : ps.length ≤ n + 1) : touching ps n = false := by
  unfold touching
  have : ps[n + 1]? = none := List.getElem?_eq_none h
  rw [this]
  split <;> simp_all

theorem touching_append_last {ps : List Piece} {a p : Piece} :
    touching (ps ++ [a] ++ [p]) ps.length = (!a.kind.isTrivia && !p.kind.isTrivia) := by
  unfold touching
  simp

theorem JointsOk.nil : JointsOk [] [] := ⟨rfl, fun n => by simp [jointBit, touching]⟩

/-- pushing one more token (`push_result_token` after the optional `set_joint`) -/
def stepJoints (js : List Nat) (len : Nat) (set : Bool) : List Nat :=
  let js1 := if set then js.set ((len - 1) / 64) ((js.getD ((len - 1) / 64) 0) ||| (1 <<< ((len - 1) % 64))) else js
  if len % 64 = 0 then js1 ++ [0] else js1

theorem jointBit_append_zero (js : List Nat) (n : Nat) : jointBit (js ++ [0]) n = jointBit js n := by
  unfold jointBit
  rw [List.getD_eq_getElem?_getD, List.getD_eq_getElem?_getD]
  rcases Nat.lt_or_ge (n / 64) js.length with h | h
  · rw [List.getElem?_append_left h]
  · rw [List.getElem?_append_right h, List.getElem?_eq_none h]
    cases n / 64 - js.length <;> simp

theorem jointBit_set (js : List Nat) (k n : Nat) (hk : k / 64 < js.length) :
    jointBit (js.set (k / 64) ((js.getD (k / 64) 0) ||| (1 <<< (k % 64)))) n
      = (jointBit js n || n == k) := by
  unfold jointBit
  by_cases h : n / 64 = k / 64
  · rw [h, List.getD_eq_getElem?_getD, List.getElem?_set_self hk]
    simp only [Option.getD_some]
    rw [testBit_or_one]
    congr 1
    rw [Bool.eq_iff_iff]
    simp
    omega
  · rw [List.getD_eq_getElem?_getD, List.getElem?_set_ne (fun e => h e.symm),
      ← List.getD_eq_getElem?_getD]
    have : (n == k) = false := by
      simp
      rintro rfl
      exact h rfl
    rw [this, Bool.or_false]

theorem JointsOk.step {js : List Nat} {ps : List Piece} {p : Piece} (h : JointsOk js ps)
    (was : Bool) (hwas : was = match ps.getLast? with | none => false | some a => !a.kind.isTrivia) :
    JointsOk (stepJoints js ps.length (was && !p.kind.isTrivia)) (ps ++ [p]) := by
  rcases List.eq_nil_or_concat ps with rfl | ⟨qs, a, rfl⟩
  · simp at hwas
    subst hwas
    refine ⟨?_, fun n => ?_⟩
    · have := h.len
      simp at this
      simp [stepJoints, this]
    · have := h.len
      simp at this
      simp [stepJoints, this, jointBit]
      cases n / 64 <;> simp [touching]
  · simp only [List.concat_eq_append] at *
    have hlast : was = !a.kind.isTrivia := by simpa using hwas
    have hlen : (qs ++ [a]).length = qs.length + 1 := by simp
    have hidx : qs.length / 64 < js.length := by rw [h.len, hlen]; omega
    have key : ∀ js1 : List Nat, js1.length = js.length →
        (∀ n, jointBit js1 n = (jointBit js n || (was && !p.kind.isTrivia && n == qs.length))) →
        JointsOk (if (qs.length + 1) % 64 = 0 then js1 ++ [0] else js1) (qs ++ [a] ++ [p]) := by
      intro js1 hl hb
      have hbits : ∀ n, jointBit js1 n = touching (qs ++ [a] ++ [p]) n := by
        intro n
        rw [hb n, h.bits n]
        rcases Nat.lt_trichotomy n qs.length with hn | hn | hn
        · rw [touching_append_lt (ps := qs ++ [a]) (by rw [hlen]; omega)]
          have : (n == qs.length) = false := by simp; omega
          rw [this]; simp
        · subst hn
          rw [touching_append_last, touching_ge (by simp)]
          simp [hlast]
        · rw [touching_ge (by simp; omega), touching_ge (by simp; omega)]
          have : (n == qs.length) = false := by simp; omega
          rw [this]; simp
      split
      · next h64 =>
        refine ⟨?_, fun n => ?_⟩
        · simp [hl, h.len]; omega
        · rw [jointBit_append_zero]; exact hbits n
      · next h64 =>
        refine ⟨?_, hbits⟩
        rw [hl, h.len]; simp; omega
    unfold stepJoints
    rw [hlen]
    simp only [Nat.add_sub_cancel]
    by_cases hs : (was && !p.kind.isTrivia) = true
    · rw [if_pos hs]
      refine key _ (by simp) (fun n => ?_)
      rw [jointBit_set js qs.length n hidx, hs]
      simp
    · rw [if_neg hs]
      refine key _ rfl (fun n => ?_)
      have : (was && !p.kind.isTrivia) = false := by simpa using hs
      rw [this]; simp

/-! ### the loop -/

/-- State of the loop after the pieces `qs`. -/
structure StateOk (s : LexState) (qs : List Piece) : Prop where
  tokens : s.lexed.tokens = toks 0 Position.zero qs
  errors : s.lexed.errors = errs 0 Position.zero qs
  lastOff : s.lastOff = utf8Len (texts qs)
  lastPos : s.lastPos = advPos Position.zero (texts qs)
  was : s.wasJoint = match qs.getLast? with | none => false | some a => !a.kind.isTrivia
  joints : JointsOk s.lexed.joints qs

theorem StateOk.init : StateOk LexState.init [] := ⟨rfl, rfl, rfl, rfl, rfl, JointsOk.nil⟩

theorem setJoint_spec {l : Lexed} {qs : List Piece} (hl : l.tokens.length = qs.length)
    (hq : qs ≠ []) (hj : JointsOk l.joints qs) :
    l.setJoint = .ok { l with joints := (l.joints.set ((qs.length - 1) / 64)
        ((l.joints.getD ((qs.length - 1) / 64) 0) ||| (1 <<< ((qs.length - 1) % 64)))) } := by
  have hpos : 0 < qs.length := List.length_pos_iff.mpr hq
  have hidx : (qs.length - 1) / 64 < l.joints.length := by rw [hj.len]; omega
  unfold Lexed.setJoint bitIndex
  rw [hl, if_neg (by omega)]
  simp only []
  rw [List.getElem?_eq_getElem hidx, List.getD_eq_getElem?_getD, List.getElem?_eq_getElem hidx]
  rfl

theorem was_ne {qs : List Piece} {b : Bool} (h : b = true)
    (hw : b = match qs.getLast? with | none => false | some a => !a.kind.isTrivia) : qs ≠ [] := by
  rintro rfl
  rw [h] at hw
  simp at hw

/-- one iteration of the loop body -/
theorem state_step {s : LexState} {qs : List Piece} {p : Piece} (hs : StateOk s qs)
    (off : Nat) (pos : Position) (ho : off = utf8Len (texts qs))
    (hp : pos = advPos Position.zero (texts qs)) (hk : p.err ≠ none → p.kind = .INVALID_TOKEN) :
    ∃ s', (match p.step off pos with
        | .tok t => s.onToken t
        | .err e => s.onError e
        | .panic => .error .panic) = .ok s' ∧ StateOk s' (qs ++ [p]) := by
  have hlen : s.lexed.tokens.length = qs.length := by rw [hs.tokens, toks_length]
  have htoks : toks 0 Position.zero (qs ++ [p]) = s.lexed.tokens ++ [p.token off pos] := by
    rw [toks_append, hs.tokens, ho, hp]
    simp [toks]
  have herrs : errs 0 Position.zero (qs ++ [p]) = s.lexed.errors ++ (p.error off pos).toList := by
    rw [errs_append, hs.errors, ho, hp]
    simp [errs]
  have hoff : off + utf8Len p.text = utf8Len (texts (qs ++ [p])) := by
    rw [texts_append, ho]; simp
  have hpos : advPos pos p.text = advPos Position.zero (texts (qs ++ [p])) := by
    rw [texts_append, hp, ← advPos_append]; simp
  have hwas' : ∀ b : Bool, b = !p.kind.isTrivia →
      b = match (qs ++ [p]).getLast? with | none => false | some a => !a.kind.isTrivia := by
    intro b hb; simpa using hb
  have hJ := hs.joints.step (p := p) s.wasJoint hs.was
  have grow : ∀ (l : Lexed), l.tokens.length = qs.length → l.growJoints.joints =
      if qs.length % 64 = 0 then l.joints ++ [0] else l.joints := by
    intro l hl
    unfold Lexed.growJoints
    rw [hl]
    split <;> rfl
  cases he : p.err with
  | none =>
    have hstep : p.step off pos = .tok (p.token off pos) := by simp [Piece.step, he]
    have herr : p.error off pos = none := by simp [Piece.error, he]
    rw [hstep]
    simp only [LexState.onToken]
    by_cases ht : p.kind.isTrivia = true
    · have ht' : (p.token off pos).kind.isTrivia = true := ht
      rw [if_pos ht']
      refine ⟨_, rfl, ⟨?_, ?_, hoff, hpos, hwas' _ (by rw [ht]; rfl), ?_⟩⟩
      · rw [htoks]; rfl
      · rw [herrs, herr]; simp [Lexed.pushToken, Lexed.growJoints]; split <;> rfl
      · have : (s.lexed.pushToken (p.token off pos)).joints
            = stepJoints s.lexed.joints qs.length (s.wasJoint && !p.kind.isTrivia) := by
          unfold Lexed.pushToken stepJoints
          rw [ht]
          simp only [Bool.not_true, Bool.and_false]
          exact grow _ hlen
        rw [this]; exact hJ
    · have ht' : (p.token off pos).kind.isTrivia = false := by simpa [Piece.token] using ht
      have ht2 : p.kind.isTrivia = false := by simpa using ht
      rw [ht']
      simp only [Bool.false_eq_true, if_false]
      by_cases hw : s.wasJoint = true
      · rw [if_pos hw, setJoint_spec hlen (was_ne hw hs.was) hs.joints]
        refine ⟨_, rfl, ⟨?_, ?_, hoff, hpos, hwas' _ (by rw [ht2]; rfl), ?_⟩⟩
        · rw [htoks]; rfl
        · rw [herrs, herr]; simp [Lexed.pushToken, Lexed.growJoints]; split <;> rfl
        · rw [hw, ht2] at hJ
          unfold stepJoints at hJ
          simp only [Bool.not_false, Bool.and_true, if_true] at hJ
          unfold Lexed.pushToken
          simp only []
          rw [grow _ (by exact hlen)]
          exact hJ
      · rw [if_neg hw]
        refine ⟨_, rfl, ⟨?_, ?_, hoff, hpos, hwas' _ (by rw [ht2]; rfl), ?_⟩⟩
        · rw [htoks]; rfl
        · rw [herrs, herr]; simp [Lexed.pushToken, Lexed.growJoints]; split <;> rfl
        · have hw' : s.wasJoint = false := by simpa using hw
          rw [hw'] at hJ
          unfold stepJoints at hJ
          simp only [Bool.false_and, Bool.false_eq_true, if_false] at hJ
          unfold Lexed.pushToken
          simp only []
          rw [grow _ (by exact hlen)]
          exact hJ
  | some k =>
    have hkind := hk (by rw [he]; simp)
    have ht2 : p.kind.isTrivia = false := by rw [hkind]; rfl
    have hstep : p.step off pos = .err ⟨k, ⟨off, off + utf8Len p.text⟩, ⟨pos, advPos pos p.text⟩⟩ := by
      simp [Piece.step, he]
    have herr : p.error off pos = some ⟨k, ⟨off, off + utf8Len p.text⟩, ⟨pos, advPos pos p.text⟩⟩ := by
      simp [Piece.error, he]
    have htok : p.token off pos = ⟨.INVALID_TOKEN, ⟨off, off + utf8Len p.text⟩, ⟨pos, advPos pos p.text⟩⟩ := by
      simp [Piece.token, hkind]
    rw [hstep]
    simp only [LexState.onError]
    by_cases hw : s.wasJoint = true
    · rw [if_pos hw, setJoint_spec hlen (was_ne hw hs.was) hs.joints]
      refine ⟨_, rfl, ⟨?_, ?_, hoff, hpos, hwas' _ (by rw [ht2]; rfl), ?_⟩⟩
      · rw [htoks, htok]; rfl
      · rw [herrs, herr]; simp [Lexed.pushError]
      · rw [hw, ht2] at hJ
        unfold stepJoints at hJ
        simp only [Bool.not_false, Bool.and_true, if_true] at hJ
        unfold Lexed.pushError
        simp only []
        rw [grow _ (by exact hlen)]
        exact hJ
    · rw [if_neg hw]
      refine ⟨_, rfl, ⟨?_, ?_, hoff, hpos, hwas' _ (by rw [ht2]; rfl), ?_⟩⟩
      · rw [htoks, htok]; rfl
      · rw [herrs, herr]; simp [Lexed.pushError]
      · have hw' : s.wasJoint = false := by simpa using hw
        rw [hw'] at hJ
        unfold stepJoints at hJ
        simp only [Bool.false_and, Bool.false_eq_true, if_false] at hJ
        unfold Lexed.pushError
        simp only []
        rw [grow _ (by exact hlen)]
        exact hJ

/-- did a CRLF line break occur? -/
def anyCrlf (ps : List Piece) : Bool := ps.any Piece.isCrlf

theorem lexLoop_spec (fuel : Nat) (c : Cursor) (s : LexState) (qs : List Piece)
    (hfuel : c.rest.length < fuel) (hs : StateOk s qs)
    (hoff : c.off = utf8Len (texts qs)) (hpos : c.pos = advPos Position.zero (texts qs))
    (hso : c.startOff = c.off) (hsp : c.startPos = c.pos)
    (hqs : PiecesOk c.rest qs)
    (hle : c.lineEnding = if anyCrlf qs then .crlf else .lf) :
    ∃ c' s' ps, lexLoop fuel c s = .ok (c', s') ∧ texts ps = c.rest
      ∧ StateOk s' (qs ++ ps) ∧ PiecesOk [] (qs ++ ps)
      ∧ c'.lineEnding = if anyCrlf (qs ++ ps) then .crlf else .lf := by
  induction fuel generalizing c s qs with
  | zero => omega
  | succ n ih =>
    unfold lexLoop
    by_cases hr : c.rest = []
    · obtain ⟨c', h1, h2⟩ := advance_eof hr
      rw [h1]
      refine ⟨c', s, [], ?_, by rw [hr]; rfl, by simpa using hs, ?_, ?_⟩
      · simp [Token.eof]
      · rw [hr] at hqs; simpa using hqs
      · rw [h2, hle]; simp
    · obtain ⟨p, c', h1, h2, h3, h4, h5, h6, h7, h8⟩ := advance_step hr hso hsp
      rw [h1]
      obtain ⟨s', hs1, hs2⟩ := state_step (p := p) hs c.off c.pos hoff hpos (by
        intro hne
        have := h7.2
        cases he : p.err with
        | none => exact absurd he hne
        | some k => rw [he] at this; exact this)
      have hlt : c'.rest.length < n := by
        have := congrArg List.length h2
        have hp : 0 < p.text.length := List.length_pos_iff.mpr h7.1
        simp at this
        omega
      obtain ⟨c2, s2, ps, ha, hb, hc, hd, he⟩ := ih c' s' (qs ++ [p]) hlt hs2
        (by rw [h3, hoff, texts_append]; simp)
        (by rw [h4, hpos, texts_append, ← advPos_append]; simp)
        h5 h6
        (PiecesOk.snoc (by rw [← h2]; exact hqs) ⟨h7, c, c', h2, hso, hsp, h1⟩)
        (by
          rw [h8, hle]
          unfold anyCrlf
          rw [List.any_append]
          simp only [List.any_cons, List.any_nil, Bool.or_false]
          by_cases hx : p.isCrlf = true
          · rw [hx]; simp
          · have hx' : p.isCrlf = false := by simpa using hx
            rw [hx']; simp)
      refine ⟨c2, s2, p :: ps, ?_, by rw [h2, texts_cons, hb], by simpa using hc, by simpa using hd,
        by simpa using he⟩
      rw [← ha]
      cases hperr : p.err with
      | none =>
        have hstep : p.step c.off c.pos = .tok (p.token c.off c.pos) := by simp [Piece.step, hperr]
        rw [hstep] at hs1 ⊢
        simp only [] at hs1 ⊢
        have hne : (p.token c.off c.pos).kind ≠ .EOF := by
          have := h7.2
          rw [hperr] at this
          exact this.2.1
        rw [if_neg hne, hs1]
      | some k =>
        have hstep : p.step c.off c.pos = .err ⟨k, ⟨c.off, c.off + utf8Len p.text⟩, ⟨c.pos, advPos c.pos p.text⟩⟩ := by
          simp [Piece.step, hperr]
        rw [hstep] at hs1 ⊢
        simp only [] at hs1 ⊢
        rw [hs1]

theorem Segmenter.graphemes_nil (G : Segmenter) : G.graphemes [] = [] := by
  have h1 := G.flatten_graphemes []
  have h2 := G.ne_nil []
  cases h : G.graphemes [] with
  | nil => rfl
  | cons a l =>
    rw [h] at h1 h2
    simp at h1 h2
    exact absurd h1.1 h2.1

/-- The full description of `lex`: the source is the concatenation of the texts of pieces, the
result is the list of their tokens followed by an empty `EOF` token. -/
theorem lexWith_spec (G : Segmenter) (src : List Char) (fuel : Nat) (hf : src.length < fuel) :
    ∃ ps l, lexWith G fuel src = .ok l ∧ texts ps = src ∧ PiecesOk [] ps
      ∧ l.tokens = toks 0 Position.zero ps ++
          [⟨.EOF, ⟨utf8Len src, utf8Len src⟩, ⟨advPos Position.zero src, advPos Position.zero src⟩⟩]
      ∧ l.errors = errs 0 Position.zero ps
      ∧ JointsOk l.joints ps
      ∧ l.lineEnding = if anyCrlf ps then .crlf else .lf := by
  obtain ⟨c', s', ps, h1, h2, h3, h4, h5⟩ := lexLoop_spec fuel (Cursor.new src) LexState.init []
    hf StateOk.init rfl rfl rfl rfl trivial rfl
  simp only [List.nil_append] at h3 h4 h5
  have h2 : texts ps = src := h2
  have hbd : byteDrop s'.lastOff src = some [] := by
    rw [h3.lastOff, h2]
    have := byteDrop_append src []
    simpa using this
  have hrel : RelPosition.of G [] = ⟨0, 0⟩ := by simp [RelPosition.of, G.graphemes_nil]
  have hadd : Position.add (advPos Position.zero src) ⟨0, 0⟩ = advPos Position.zero src := by
    simp [Position.add]
  refine ⟨ps, { s'.lexed with
          lineEnding := c'.lineEnding
          tokens := s'.lexed.tokens ++
            [⟨.EOF, ⟨s'.lastOff, utf8Len src⟩,
              Range.new s'.lastPos (s'.lastPos.add (RelPosition.of G []))⟩] }, ?_, h2, h4, ?_, ?_, ?_, h5⟩
  · unfold lexWith
    rw [h1]
    simp only [lexFinish]
    rw [hbd]
  · simp only []
    rw [h3.tokens, h3.lastOff, h3.lastPos, h2, hrel, hadd]
    unfold Range.new
    rw [Position.le_refl]
    rfl
  · exact h3.errors
  · exact h3.joints

theorem append_inj_utf8 {a b c d : List Char} (h : a ++ b = c ++ d) (hl : utf8Len a = utf8Len c) :
    a = c ∧ b = d := by
  induction a generalizing c with
  | nil =>
    cases c with
    | nil => exact ⟨rfl, h⟩
    | cons x xs => have := utf8Len_pos (s := x :: xs) (by simp); simp at hl this; omega
  | cons x xs ih =>
    cases c with
    | nil => have := utf8Len_pos (s := x :: xs) (by simp); simp at hl this; omega
    | cons y ys =>
      simp only [List.cons_append, List.cons.injEq] at h
      obtain ⟨rfl, h⟩ := h
      simp at hl
      obtain ⟨rfl, rfl⟩ := ih h hl
      exact ⟨rfl, rfl⟩

theorem mem_toks {off : Nat} {pos : Position} {ps : List Piece} {t : Token} (h : t ∈ toks off pos ps) :
    ∃ a p b, ps = a ++ p :: b ∧ t = p.token (off + utf8Len (texts a)) (advPos pos (texts a)) := by
  induction ps generalizing off pos with
  | nil => simp [toks] at h
  | cons q qs ih =>
    simp only [toks, List.mem_cons] at h
    rcases h with rfl | h
    · exact ⟨[], q, qs, rfl, by simp⟩
    · obtain ⟨a, p, b, rfl, rfl⟩ := ih h
      exact ⟨q :: a, p, b, rfl, by simp [advPos_append, Nat.add_assoc]⟩

/-- Every token of `lex` other than the last one comes from one piece of the source. -/
theorem lex_piece {G : Segmenter} {src : List Char} {l : Lexed} (h : lex G src = .ok l) {t : Token}
    (ht : t ∈ l.tokens) (hk : t.kind ≠ .EOF) :
    ∃ (pre : List Char) (p : Piece) (post : List Char), src = pre ++ p.text ++ post ∧ p.Ok post
      ∧ t = p.token (utf8Len pre) (advPos Position.zero pre) := by
  obtain ⟨ps, l', h1, h2, h3, h4, -⟩ := lexWith_spec G src (src.length + 1) (by omega)
  have : l = l' := by
    have h' : lexWith G (src.length + 1) src = .ok l := h
    rw [h1] at h'
    exact (Except.ok.inj h').symm
  subst this
  rw [h4] at ht
  simp only [List.mem_append, List.mem_singleton] at ht
  rcases ht with ht | rfl
  · obtain ⟨a, p, b, rfl, rfl⟩ := mem_toks ht
    refine ⟨texts a, p, texts b, ?_, ?_, by simp⟩
    · rw [← h2, texts_append]; simp
    · have := h3.get; simpa using this
  · exact absurd rfl hk

/-- `advance_token` on a text starting with `lit`, before `post`, cuts off exactly `lit` as a `k`. -/
def Accepts (k : SyntaxKind) (lit post : List Char) : Prop :=
  ∀ c : Cursor, c.rest = lit ++ post → ∃ c1, Adv c c1 lit ∧ c.advanceToken = c1.ok k

theorem lex_accepts {G : Segmenter} {pre lit post : List Char} {k : SyntaxKind} {l : Lexed}
    (hne : lit ≠ []) (ha : Accepts k lit post) (h : lex G (pre ++ lit ++ post) = .ok l) {t : Token}
    (ht : t ∈ l.tokens) (hs : t.span.start = utf8Len pre) :
    t.kind = k ∧ t.span.stop = utf8Len (pre ++ lit) := by
  by_cases hk : t.kind = .EOF
  · -- the last token starts at the end
    obtain ⟨ps, l', h1, h2, h3, h4, -⟩ := lexWith_spec G (pre ++ lit ++ post) _ (Nat.lt_succ_self _)
    have : l = l' := by
      have h' : lexWith G ((pre ++ lit ++ post).length + 1) (pre ++ lit ++ post) = .ok l := h
      rw [h1] at h'
      exact (Except.ok.inj h').symm
    subst this
    rw [h4] at ht
    simp only [List.mem_append, List.mem_singleton] at ht
    rcases ht with ht | rfl
    · obtain ⟨a, p, b, rfl, rfl⟩ := mem_toks ht
      have := (h3.get).1.2
      cases he : p.err with
      | none => rw [he] at this; exact absurd hk this.2.1
      | some e =>
        rw [he] at this
        have hk' : p.kind = .EOF := hk
        rw [this] at hk'
        cases hk'
    · have := utf8Len_pos hne
      simp at hs
      omega
  · obtain ⟨pre', p, post', h1, h2, rfl⟩ := lex_piece h ht hk
    have hs' : utf8Len pre' = utf8Len pre := hs
    rw [List.append_assoc, List.append_assoc] at h1
    obtain ⟨rfl, h3⟩ := append_inj_utf8 h1 hs'.symm
    obtain ⟨c, c', hc, hso, hsp, hadv⟩ := h2.2
    obtain ⟨c1, hA, hadv'⟩ := ha c (by rw [hc, ← h3])
    rw [hadv'] at hadv
    have hstep := congrArg Prod.fst hadv
    simp only [Cursor.ok, Cursor.popSpanRange, Piece.step] at hstep
    cases he : p.err with
    | some e => rw [he] at hstep; cases hstep
    | none =>
      rw [he] at hstep
      simp only [LexStep.tok.injEq, Piece.token, Token.mk.injEq, Span.mk.injEq] at hstep
      refine ⟨hstep.1.symm, ?_⟩
      show utf8Len pre + utf8Len p.text = _
      have := hstep.2.1.2
      rw [hA.off] at this
      rw [utf8Len_append]
      omega

end Tombi
