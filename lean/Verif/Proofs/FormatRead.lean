import Verif.Proofs.ViewRead2
/-! What the formatter prints, as tokens, and how the parser on views reads it. -/
namespace Tombi.Formatter
open SyntaxKind
open Tombi.PM (NT)
open View (hd leaf isLead isSep dangLen isLiteral)
open Tombi.Format (AstKey)

/-! ### the tokens that pieces stand for -/

/-- The tokens that a piece stands for. -/
def Show1 : Piece → View → Prop
  | .blank _, w => w = []
  | .newline, w => ∃ x, w = [x] ∧ x.kind = LINE_BREAK
  | .comment t, w => ∃ x, w = [x] ∧ x.kind = COMMENT ∧ x.text = t
  | .token k t, w =>
    if k = DOUBLE_BRACKET_START then ∃ x y, w = [x, y] ∧ x.kind = BRACKET_START ∧ y.kind = BRACKET_START ∧ x.joint = true
    else if k = DOUBLE_BRACKET_END then ∃ x y, w = [x, y] ∧ x.kind = BRACKET_END ∧ y.kind = BRACKET_END ∧ x.joint = true
    else if k = BARE_KEY then ∃ x, w = [x] ∧ x.text = t ∧ ReadsBare x
    else ∃ x, w = [x] ∧ x.kind = k ∧ x.text = t

/-- The tokens that pieces stand for. -/
def Shows : List Piece → View → Prop
  | [], w => w = []
  | p :: ps, w => ∃ a b, w = a ++ b ∧ Show1 p a ∧ Shows ps b

theorem Shows.app {a b : List Piece} {w : View} (h : Shows (a ++ b) w) : ∃ w1 w2, w = w1 ++ w2 ∧ Shows a w1 ∧ Shows b w2 := by
  induction a generalizing w with
  | nil => exact ⟨[], w, rfl, rfl, h⟩
  | cons p a ih =>
    obtain ⟨x, y, rfl, h1, h2⟩ := h
    obtain ⟨w1, w2, rfl, h3, h4⟩ := ih h2
    exact ⟨x ++ w1, w2, (List.append_assoc ..).symm, ⟨x, w1, rfl, h1, h3⟩, h4⟩

theorem Shows.blank {t : Text} {ps : List Piece} {w : View} (h : Shows (.blank t :: ps) w) : Shows ps w := by
  obtain ⟨a, b, rfl, h1, h2⟩ := h
  have h1 : a = [] := h1
  subst h1
  exact h2

theorem Shows.indent {E : Env} {d : Nat} {ps : List Piece} {w : View} (h : Shows (E.indent d :: ps) w) : Shows ps w := by
  unfold Env.indent at h
  split at h
  · exact h.blank
  · exact h.blank

theorem Shows.spaces {n : Nat} {ps : List Piece} {w : View} (h : Shows (spaces n :: ps) w) : Shows ps w := h.blank

theorem Shows.writeIndent {E : Env} {d : Nat} {skip : Bool} {w : View} (h : Shows (E.writeIndent d skip) w) : w = [] := by
  unfold Env.writeIndent at h
  split at h
  · exact h
  · exact h.indent

theorem Shows.alignSpace {E : Env} {pre : List Piece} {al : Option Nat} {w : View} (h : Shows (E.alignSpace pre al) w) : w = [] := by
  cases al with
  | none => exact h
  | some n => exact h.spaces

theorem Shows.newline {ps : List Piece} {w : View} (h : Shows (.newline :: ps) w) :
    ∃ x w', w = x :: w' ∧ x.kind = LINE_BREAK ∧ Shows ps w' := by
  obtain ⟨a, b, rfl, ⟨x, rfl, hx⟩, h2⟩ := h
  exact ⟨x, b, rfl, hx, h2⟩

theorem Shows.comment {t : Text} {ps : List Piece} {w : View} (h : Shows (.comment t :: ps) w) :
    ∃ x w', w = x :: w' ∧ x.kind = COMMENT ∧ x.text = t ∧ Shows ps w' := by
  obtain ⟨a, b, rfl, ⟨x, rfl, hx, ht⟩, h2⟩ := h
  exact ⟨x, b, rfl, hx, ht, h2⟩

theorem Shows.token {k : SyntaxKind} {t : Text} {ps : List Piece} {w : View} (h : Shows (.token k t :: ps) w)
    (hk : k ≠ DOUBLE_BRACKET_START ∧ k ≠ DOUBLE_BRACKET_END ∧ k ≠ BARE_KEY) :
    ∃ x w', w = x :: w' ∧ x.kind = k ∧ x.text = t ∧ Shows ps w' := by
  obtain ⟨a, b, rfl, h1, h2⟩ := h
  simp only [Show1] at h1
  rw [if_neg hk.1, if_neg hk.2.1, if_neg hk.2.2] at h1
  obtain ⟨x, rfl, hx, ht⟩ := h1
  exact ⟨x, b, rfl, hx, ht, h2⟩

theorem Shows.newlines {n : Nat} {w : View} (h : Shows (List.replicate n .newline) w) : AllLb w ∧ w.length = n := by
  induction n generalizing w with
  | zero => have h : w = [] := h; subst h; exact ⟨(fun x hx => by cases hx), rfl⟩
  | succ n ih =>
    rw [List.replicate_succ] at h
    obtain ⟨x, w', rfl, hx, h⟩ := h.newline
    obtain ⟨h1, h2⟩ := ih h
    refine ⟨fun y hy => ?_, by simp [h2]⟩
    rcases List.mem_cons.mp hy with rfl | hy
    · exact hx
    · exact h1 y hy

/-! ### what is printed for the parts -/

/-- Leading comments, or the comments of a dangling group, as they are printed. -/
def Env.rl (E : Env) : List Text → List Text
  | [] => []
  | c :: cs => E.renderComment true c :: cs.map (E.renderComment false)

/-- A trailing comment as it is printed. -/
def Env.rt (E : Env) (c : Option Text) : Option Text := c.map (E.renderComment true)

/-- The comments of a comma as they are printed. -/
def Env.rc (E : Env) (c : Comma) : Comma := ⟨E.rl c.leading, E.rt c.trailing⟩

/-- A key as it is printed. -/
def Env.rk (E : Env) (k : AstKey) : AstKey :=
  match writtenKind (E.keyText k) (keyKind k) with
  | BASIC_STRING => .basic (E.keyText k)
  | LITERAL_STRING => .literal (E.keyText k)
  | _ => .bare (E.keyText k)

/-- The kind of a literal as it is printed. -/
def Env.litKind (E : Env) (k : SyntaxKind) (t : Text) : SyntaxKind := writtenKind (E.literalText k t) k

/-- Settings that keep comments and line breaks. -/
structure Env.Laid (E : Env) : Prop where
  skip : E.skipComment = false
  single : E.singleLine = false
  limit : 1 ≤ E.defs.groupBlankLinesLimit
  tables : 1 ≤ E.defs.tableBlankLines

theorem Shows.leadingRest {E : Env} {d : Nat} {cs : List Text} {w : View} (h : Shows (E.leadingRest d cs) w) :
    LeadW (cs.map (E.renderComment false)) w := by
  induction cs generalizing w with
  | nil => exact h
  | cons c cs ih =>
    rw [Env.leadingRest] at h
    obtain ⟨x, w1, rfl, hx, ht, h⟩ := h.indent.comment
    obtain ⟨y, w2, rfl, hy, h⟩ := h.newline
    exact ⟨x, y, w2, rfl, hx, ht, hy, ih h⟩

theorem Shows.leading {E : Env} (hE : E.skipComment = false) {d : Nat} {skip : Bool} {cs : List Text} {w : View}
    (h : Shows (E.leading d skip cs) w) : LeadW (E.rl cs) w := by
  unfold Env.leading at h
  rw [hE, if_neg (by decide)] at h
  cases cs with
  | nil => exact h
  | cons c cs =>
    obtain ⟨w0, w1, rfl, h1, h2⟩ := Shows.app (a := E.writeIndent d skip) h
    have := h1.writeIndent
    subst this
    obtain ⟨x, w2, rfl, hx, ht, h⟩ := h2.comment
    obtain ⟨y, w3, rfl, hy, h⟩ := h.newline
    exact ⟨x, y, w3, rfl, hx, ht, hy, h.leadingRest⟩

theorem Shows.trailingComment {E : Env} (hE : E.skipComment = false) {c : Text} {w : View} (h : Shows (E.trailingComment c) w) :
    TrailW (some (E.renderComment true c)) w := by
  unfold Env.trailingComment at h
  rw [hE, if_neg (by decide)] at h
  obtain ⟨x, w', rfl, hx, ht, h⟩ := h.spaces.comment
  have h : w' = [] := h
  subst h
  exact ⟨x, rfl, hx, ht⟩

theorem Shows.trailing {E : Env} (hE : E.skipComment = false) {pre : List Piece} {al : Option Nat} {tr : Option Text} {w : View}
    (h : Shows (E.trailing pre al tr) w) : TrailW (E.rt tr) w := by
  cases tr with
  | none => exact h
  | some c =>
    obtain ⟨w1, w2, rfl, h1, h2⟩ := Shows.app (a := E.alignSpace pre al) h
    have := h1.alignSpace
    subst this
    exact h2.trailingComment hE

theorem Shows.danglingRest {E : Env} {d : Nat} {cs : List Text} {x : VTok} {c : Text} (hx : x.kind = COMMENT) (ht : x.text = c) {w : View}
    (h : Shows (E.danglingRest d cs) w) : DangW (c :: cs.map (E.renderComment false)) (x :: w) := by
  induction cs generalizing w x c with
  | nil => have h : w = [] := h; subst h; exact ⟨x, rfl, hx, ht⟩
  | cons c' cs ih =>
    rw [Env.danglingRest] at h
    obtain ⟨y, w1, rfl, hy, h⟩ := h.newline
    obtain ⟨z, w2, rfl, hz, hzt, h⟩ := h.indent.comment
    exact ⟨x, y, z :: w2, rfl, hx, ht, hy, ih hz hzt h⟩

theorem Shows.danglingGroup {E : Env} (hE : E.skipComment = false) {d : Nat} {cs : List Text} (hcs : cs ≠ []) {w : View}
    (h : Shows (E.danglingGroup d cs) w) : DangW (E.rl cs) w := by
  unfold Env.danglingGroup at h
  rw [hE, if_neg (by decide)] at h
  cases cs with
  | nil => exact absurd rfl hcs
  | cons c cs =>
    obtain ⟨x, w', rfl, hx, ht, h⟩ := h.indent.comment
    exact h.danglingRest hx ht

theorem keyTok_show {E : Env} {k : AstKey} {a : View} (h : Show1 (E.key k) a) : ∃ x, a = [x] ∧ KeyTok (E.rk k) x := by
  unfold Env.key Show1 at h
  have hk : writtenKind (E.keyText k) (keyKind k) = BARE_KEY ∨ writtenKind (E.keyText k) (keyKind k) = BASIC_STRING ∨
      writtenKind (E.keyText k) (keyKind k) = LITERAL_STRING := by
    unfold writtenKind
    split
    · exact .inr (.inr rfl)
    · exact .inr (.inl rfl)
    · cases k <;> simp [keyKind]
  unfold Env.rk
  rcases hk with hk | hk | hk
  · rw [hk] at h ⊢
    obtain ⟨x, rfl, ht, hr⟩ := h
    exact ⟨x, rfl, ht, hr⟩
  · rw [hk] at h ⊢
    obtain ⟨x, rfl, ht, hr⟩ := h
    exact ⟨x, rfl, ht, hr⟩
  · rw [hk] at h ⊢
    obtain ⟨x, rfl, ht, hr⟩ := h
    exact ⟨x, rfl, ht, hr⟩

theorem Shows.keyList {E : Env} {ks : List AstKey} (hks : ks ≠ []) {w : View} (h : Shows (E.keyList ks) w) :
    KeysW (ks.map E.rk) w := by
  induction ks generalizing w with
  | nil => exact absurd rfl hks
  | cons k ks ih =>
    cases ks with
    | nil =>
      obtain ⟨a, b, rfl, h1, h2⟩ := h
      obtain ⟨x, rfl, hx⟩ := keyTok_show h1
      have h2 : b = [] := h2
      subst h2
      exact ⟨x, rfl, hx⟩
    | cons k' ks =>
      obtain ⟨a, b, rfl, h1, h2⟩ := h
      obtain ⟨x, rfl, hx⟩ := keyTok_show h1
      obtain ⟨y, w', rfl, hy, -, h3⟩ := Shows.token h2 (by decide)
      exact ⟨x, y, w', rfl, hx, hy, ih (by simp) h3⟩

theorem Shows.keys {E : Env} {ks : List AstKey} (hks : ks ≠ []) {eqw : Option Nat} {w : View} (h : Shows (E.keys ks eqw) w) :
    KeysW (ks.map E.rk) w := by
  unfold Env.keys at h
  cases eqw with
  | none => exact h.keyList hks
  | some n =>
    obtain ⟨w1, w2, rfl, h1, h2⟩ := Shows.app h
    have h2 : w2 = [] := h2.spaces
    subst h2
    rw [List.append_nil]
    exact h1.keyList hks

theorem litKind_literal {E : Env} {k : SyntaxKind} (hk : isLiteral k = true) (t : Text) : isLiteral (E.litKind k t) = true := by
  unfold Env.litKind writtenKind
  split
  · rfl
  · rfl
  · exact hk

theorem Shows.literal {E : Env} {k : SyntaxKind} {t : Text} (hk : isLiteral k = true) {ps : List Piece} {w : View}
    (h : Shows (E.literal k t :: ps) w) : ∃ x w', w = x :: w' ∧ x.kind = E.litKind k t ∧ x.text = E.literalText k t ∧ Shows ps w' := by
  refine Shows.token h ?_
  have := litKind_literal (E := E) hk t
  revert this
  show isLiteral (E.litKind k t) = true → E.litKind k t ≠ _ ∧ E.litKind k t ≠ _ ∧ E.litKind k t ≠ _
  cases E.litKind k t <;> decide

/-! ### what separates the elements of a body -/

/-- What stands before an element: `none` for an item that continues its group. -/
def Env.SepW (E : Env) (prev : Prev) (first : Option Nat) (p : View) : Prop :=
  AllLb p ∧ match first with
    | none => p.length = 1
    | some n => if prev = .start then p = [] else p.length = min n E.defs.groupBlankLinesLimit + 1

theorem Shows.separator {E : Env} {n : Nat} {w : View} (h : Shows (E.separator n) w) :
    AllLb w ∧ w.length = min n E.defs.groupBlankLinesLimit + 1 := by
  unfold Env.separator at h
  simp only at h
  split at h
  · rename_i h0
    rw [h0]
    exact Shows.newlines (n := 1) h
  · exact Shows.newlines h

theorem Shows.before {E : Env} {prev : Prev} {first : Option Nat} {w : View} (h : Shows (E.before (decide (prev ≠ .start)) first) w) :
    E.SepW prev first w := by
  cases first with
  | none => exact Shows.newlines (n := 1) h
  | some n =>
    unfold Env.before at h
    simp only at h
    by_cases hp : prev = .start
    · subst hp
      have h : w = [] := h
      subst h
      exact ⟨(fun x hx => by cases hx), by simp⟩
    · rw [if_pos (by simpa using hp)] at h
      have := h.separator
      refine ⟨this.1, ?_⟩
      simp only
      rw [if_neg hp]
      exact this.2

/-- Blank lines before a group as they are printed. -/
def Env.blank (E : Env) (prev : Prev) (n : Nat) : Nat := if prev = .start then 0 else min n E.defs.groupBlankLinesLimit

/-- What follows a body. -/
structure TailOk (G : Gram) (last : Prev) (T : View) : Prop where
  peek : G.end_.contains (hd (View.peek T)) = true
  comma : hd (View.peek T) ≠ COMMA
  dang : dangLen (skip T) = none
  item : last = .item → hd T ≠ COMMENT ∧ (G.line = true → TS_LINE_END.contains (hd T) = true)
  dangling : last = .dangling → DangEnd T

/-- The body that is read after `prev`. -/
def BodyRd (G : Gram) (d : Nat) (prev : Prev) (v : View) (b : Body) (k : Nat) (v' : View) : Prop :=
  match prev with
  | .start => ∀ br, br ≤ 1 → ∃ k', LoopRd G d v br b k' v' ∧ (b ≠ .nil → k' = k)
  | .dangling => DangEnd v ∧ LoopRd G d v 0 b k v'
  | .item => RestRd G d v b k v'

theorem split_lbs (T : View) : ∃ p, T = p ++ skip T ∧ AllLb p ∧ p.length = lbs T := by
  induction T with
  | nil => exact ⟨[], rfl, (fun x hx => by cases hx), rfl⟩
  | cons x T ih =>
    by_cases h : x.kind = LINE_BREAK
    · obtain ⟨p, h1, h2, h3⟩ := ih
      refine ⟨x :: p, ?_, ?_, ?_⟩
      · rw [skip, if_pos h, List.cons_append, ← h1]
      · intro y hy
        rcases List.mem_cons.mp hy with rfl | hy
        · exact h
        · exact h2 y hy
      · rw [lbs, if_pos h, List.length_cons, h3]
    · exact ⟨[], by rw [skip, if_neg h]; rfl, (fun x hx => by cases hx), by rw [lbs, if_neg h]; rfl⟩

theorem tail_loop {G : Gram} (hG : G.Ok) {d br : Nat} {last : Prev} {T : View} (hT : TailOk G last T) :
    LoopRd G d T br .nil (br + lbs T) (skip T) := by
  obtain ⟨p, h1, h2, h3⟩ := split_lbs T
  have := loop_lbs hG h2 (d := d) (br := br) (v := skip T) (v' := skip T) (b := .nil) (k := br + p.length)
    (loop_end' hG (hd_skip T) hT.dang (by rw [peek_skip]; exact hT.peek))
  rw [← h1, h3] at this
  exact this

theorem end_notFirst {G : Gram} (hG : G.Ok) {k : SyntaxKind} (h : G.end_.contains k = true) : G.first.contains k = false := by
  cases hf : G.first.contains k with
  | false => rfl
  | true => rw [(hG.first _ hf).2.2.2] at h; cases h

theorem step_nil {G : Gram} (hG : G.Ok) {d : Nat} {prev : Prev} {T : View} (hT : TailOk G prev T) :
    BodyRd G d prev T .nil (lbs T) (skip T) := by
  cases prev with
  | start => exact fun br _ => ⟨_, tail_loop hG hT, fun h => absurd rfl h⟩
  | dangling =>
    refine ⟨hT.dangling rfl, ?_⟩
    have := tail_loop hG (d := d) (br := 0) hT
    rwa [Nat.zero_add] at this
  | item =>
    have := tail_loop hG (d := d) (br := 0) hT
    rw [Nat.zero_add] at this
    exact rest_stop hG (hT.item rfl).1 hT.comma (hT.item rfl).2 (.inl (end_notFirst hG hT.peek)) this

theorem AllLb.hd {p : View} (h : AllLb p) (h1 : 1 ≤ p.length) (v : View) : View.hd (p ++ v) = LINE_BREAK := by
  cases p with
  | nil => simp at h1
  | cons x p => exact h x (by simp)

theorem AllLb.hd2 {p : View} (h : AllLb p) (h1 : 2 ≤ p.length) (v : View) : View.hd (p ++ v).tail = LINE_BREAK := by
  match p, h1 with
  | x :: y :: p, _ => exact h y (by simp)

theorem AllLb.dangEnd {p : View} (h : AllLb p) (h1 : 2 ≤ p.length) (v : View) : DangEnd (p ++ v) :=
  ⟨h.hd (by omega) v, by rw [h.hd2 h1 v]; decide⟩

theorem blankOf_succ {n : Nat} (h : n ≤ 255) : blankOf (0 + (n + 1)) = n := by
  unfold blankOf
  omega

theorem step_dangling {E : Env} (hE : E.Laid) {G : Gram} (hG : G.Ok) {d k n : Nat} {prev : Prev} {cs : List Text} {p w v v' : View}
    {b : Body} (hp : E.SepW prev (some n) p) (hn : prev = .dangling → 1 ≤ n) (hn' : n ≤ 255) (hw : DangW cs w)
    (h : BodyRd G d .dangling v b k v') :
    BodyRd G d prev (p ++ (w ++ v)) (.dangling (E.blank prev n) cs b) k v' := by
  obtain ⟨hde, hl⟩ := h
  obtain ⟨hp, hlen⟩ := hp
  simp only at hlen
  cases prev with
  | start =>
    rw [if_pos rfl] at hlen
    subst hlen
    intro br hbr
    refine ⟨k, ?_, fun _ => rfl⟩
    have := loop_dang' hG (br := br) hw hde hl
    have e : blankOf br = E.blank .start n := by
      unfold Env.blank blankOf
      rw [if_pos rfl]
      omega
    rw [e] at this
    exact this
  | dangling =>
    rw [if_neg (by decide)] at hlen
    have hl1 : 2 ≤ p.length := by have := hE.limit; have := hn rfl; omega
    refine ⟨hp.dangEnd hl1 _, loop_lbs hG hp ?_⟩
    have := loop_dang' hG (br := 0 + p.length) hw hde hl
    rw [hlen, blankOf_succ (by omega)] at this
    rw [hlen]
    exact this
  | item =>
    rw [if_neg (by decide)] at hlen
    have hpk : View.peek (p ++ (w ++ v)) = View.peek (w ++ v) := hp.peek _
    have hh := hw.peek hde
    rw [← hpk] at hh
    have hh1 := hp.hd (by omega) (w ++ v)
    refine rest_stop hG (by rw [hh1]; decide) ?_ (fun _ => by rw [hh1]; decide) (.inl ?_) (loop_lbs hG hp ?_)
    · rcases hh with h | h | h | h <;> rw [h] <;> decide
    · cases hf : G.first.contains (View.hd (View.peek (p ++ (w ++ v)))) with
      | false => rfl
      | true =>
        have h1 := hG.first _ hf
        rcases hh with h | h | h | h <;> rw [h] at h1
        · exact absurd h1.1 (by decide)
        · exact absurd h1.2.1 (by decide)
        · exact absurd h1.2.1 (by decide)
        · exact absurd h1.2.1 (by decide)
    · have := loop_dang' hG (br := 0 + p.length) hw hde hl
      rw [hlen, blankOf_succ (by omega)] at this
      rw [hlen]
      exact this

theorem step_item {E : Env} (hE : E.Laid) {G : Gram} (hG : G.Ok) {d k : Nat} {prev : Prev} {first : Option Nat} {p w v v' : View}
    {n : Node} {c : Option Comma} {b : Body} (hp : E.SepW prev first p) (hf : FirstOk prev first) (hi : ItemRd G d w n)
    (h : AfterRd G d v c b k v') : BodyRd G d prev (p ++ (w ++ v)) (.item (first.map (E.blank prev)) n c b) k v' := by
  obtain ⟨hp, hlen⟩ := hp
  cases first with
  | none =>
    have hf : prev = .item := hf
    subst hf
    have hlen : p.length = 1 := hlen
    have hne := hi.hd_ne hG v
    have hh := hp.hd (by omega) (w ++ v)
    have e : p ++ (w ++ v) = p ++ w ++ v := (List.append_assoc ..).symm
    rw [e] at hh ⊢
    refine rest_item hG hp hi ?_ (by rw [hh]; decide) (fun _ => by rw [hh]; decide) h
    match p, hlen with
    | [x], _ =>
      unfold isSep
      rw [Bool.and_eq_false_iff]
      right
      show TS_LINE_END.contains (hd (w ++ v)) = false
      cases hl : TS_LINE_END.contains (hd (w ++ v)) with
      | false => rfl
      | true =>
        rcases lineEnd_iff hl with h | h
        · exact absurd h hne.1
        · exact absurd h hne.2
  | some m =>
    obtain ⟨hf, hf'⟩ := hf
    simp only at hlen
    cases prev with
    | start =>
      rw [if_pos rfl] at hlen
      subst hlen
      intro br hbr
      refine ⟨k, ?_, fun _ => rfl⟩
      have := loop_item hG (br := br) hi h
      have e : blankOf br = E.blank .start m := by
        unfold Env.blank blankOf
        rw [if_pos rfl]
        omega
      rw [e] at this
      exact this
    | dangling =>
      rw [if_neg (by decide)] at hlen
      have hl1 : 2 ≤ p.length := by have := hE.limit; have := hf (by decide); omega
      refine ⟨hp.dangEnd hl1 _, loop_lbs hG hp ?_⟩
      have := loop_item hG (br := 0 + p.length) hi h
      rw [hlen, blankOf_succ (by omega)] at this
      rw [hlen]
      exact this
    | item =>
      rw [if_neg (by decide)] at hlen
      have hl1 : 2 ≤ p.length := by have := hE.limit; have := hf (by decide); omega
      have hh1 := hp.hd (by omega) (w ++ v)
      have hpk := hi.peek hG hp v
      rw [List.append_assoc] at hpk
      refine rest_stop hG (by rw [hh1]; decide) (hG.first _ hpk).2.2.1 (fun _ => by rw [hh1]; decide) (.inr ?_) (loop_lbs hG hp ?_)
      · unfold isSep
        rw [hh1, hp.hd2 hl1]
        decide
      · have := loop_item hG (br := 0 + p.length) hi h
        rw [hlen, blankOf_succ (by omega)] at this
        rw [hlen]
        exact this

end Tombi.Formatter
