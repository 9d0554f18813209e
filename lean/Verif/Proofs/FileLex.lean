import Verif.Proofs.FileRead2
import Verif.Proofs.WordLex
import Verif.Proofs.FormatAgain
/-! Texts of the TOML grammar are lexed into the tokens of the document. -/
namespace Tombi.TomlFile
open SyntaxKind
open Tombi.Format (AstKey)
open Tombi.Formatter

/-- The text `t` is lexed into tokens as `A` says, before any text as `F` says. -/
def Lx (t : Text) (A : View → Prop) (F : Text → Prop) : Prop :=
  ∀ T S, F T → LexV T S → LexV (t ++ T) (fun w => ∃ a w', w = a ++ w' ∧ A a ∧ S w')

def Any : Text → Prop := fun _ => True

theorem Lx.imp {t : Text} {A B : View → Prop} {F : Text → Prop} (h : Lx t A F) (hAB : ∀ a, A a → B a) : Lx t B F := by
  intro T S hT hS
  exact (h T S hT hS).imp fun w ⟨a, w', e, ha, hs⟩ => ⟨a, w', e, hAB a ha, hs⟩

theorem Lx.weak {t : Text} {A : View → Prop} {F F' : Text → Prop} (h : Lx t A F) (hF : ∀ T, F' T → F T) : Lx t A F' :=
  fun T S hT hS => h T S (hF T hT) hS

theorem Lx.seq {t t' : Text} {A A' : View → Prop} {F F' : Text → Prop} (h : Lx t A F) (h' : Lx t' A' F')
    (hF : ∀ T, F' T → F (t' ++ T)) : Lx (t ++ t') (fun w => ∃ a a', w = a ++ a' ∧ A a ∧ A' a') F' := by
  intro T S hT hS
  rw [List.append_assoc]
  refine (h _ _ (hF T hT) (h' T S hT hS)).imp ?_
  rintro w ⟨a, w1, rfl, ha, a', w', rfl, ha', hs⟩
  exact ⟨a ++ a', w', by simp, ⟨a, a', rfl, ha, ha'⟩, hs⟩

theorem lx_nil {F : Text → Prop} : Lx [] (fun w => w = []) F := by
  intro T S _ hS
  exact hS.imp fun w hw => ⟨[], w, rfl, rfl, hw⟩

theorem lx_tok {k : SyntaxKind} {t : Text} {F : Text → Prop} (hne : t ≠ []) (hk : k.isTrivia = false)
    (h : ∀ T, F T → Heads k t T) : Lx t (fun w => ∃ x : VTok, w = [x] ∧ x.kind = k ∧ x.text = t) F := by
  intro T S hT hS
  refine LexV.imp (hS.tok hne hk (h T hT)) ?_
  rintro w ⟨j, w', rfl, hs⟩
  exact ⟨[⟨k, t, j⟩], w', rfl, ⟨_, rfl, rfl, rfl⟩, hs⟩

theorem lx_mark {k : SyntaxKind} {c : Char} (h : markChar k = some c) (hk : k.isTrivia = false) :
    Lx [c] (fun w => ∃ x : VTok, w = [x] ∧ x.kind = k) Any :=
  (lx_tok (by simp) hk fun T _ => heads_mark h T).imp fun _ ⟨x, h1, h2, _⟩ => ⟨x, h1, h2⟩

theorem lx_pair {k : SyntaxKind} {c : Char} (h : markChar k = some c) (hk : k.isTrivia = false) :
    Lx [c, c] (fun w => ∃ x y : VTok, w = [x, y] ∧ x.kind = k ∧ y.kind = k ∧ x.joint = true) Any := by
  intro T S _ hS
  refine LexV.imp (hS.tok2 (lit := [c]) (by simp) hk (heads_mark h _) (heads_mark h _)) ?_
  rintro w ⟨j, w', rfl, hs⟩
  exact ⟨[⟨k, [c], true⟩, ⟨k, [c], j⟩], w', rfl, ⟨_, _, rfl, rfl, rfl, rfl⟩, hs⟩

/-! ### blanks, newlines, comments -/

theorem ws_blank {w : Text} (h : Ws w) : ∀ c ∈ w, isWhitespace c = true := by
  intro c hc
  rcases h c hc with rfl | rfl <;> decide

theorem lx_ws {w : Text} (h : Ws w) {F : Text → Prop} : Lx w (fun w => w = []) F := by
  intro T S _ hS
  exact (hS.blanks (ws_blank h)).imp fun w hw => ⟨[], w, rfl, rfl, hw⟩

theorem lx_newline {n : Text} (h : Newline n) : Lx n (fun w => ∃ y : VTok, w = [y] ∧ y.kind = LINE_BREAK) Any := by
  refine (lx_tok (k := LINE_BREAK) ?_ (by decide) fun T _ => heads_lineBreak h T).imp fun _ ⟨x, h1, h2, _⟩ => ⟨x, h1, h2⟩
  rcases h with rfl | rfl <;> simp

theorem newline_cons {n : Text} (h : Newline n) : ∃ c r, n = c :: r ∧ (c = '\n' ∨ c = '\r') := by
  rcases h with rfl | rfl
  · exact ⟨_, _, rfl, .inl rfl⟩
  · exact ⟨_, _, rfl, .inr rfl⟩

/-- Nothing, or a new line. -/
def AtLineEnd (T : Text) : Prop := ∀ c r, T = c :: r → isLineBreak c = true

theorem newline_lineEnd {n : Text} (h : Newline n) (T : Text) : AtLineEnd (n ++ T) := by
  obtain ⟨c, r, rfl, hc⟩ := newline_cons h
  rintro c' r' e
  rw [List.cons_append] at e
  rw [← (List.cons.inj e).1]
  rcases hc with rfl | rfl <;> decide

theorem lx_comment {c : Text} (h : Comment c) : Lx c (fun w => ∃ x : VTok, w = [x] ∧ x.kind = COMMENT ∧ x.text = c) AtLineEnd := by
  obtain ⟨u, rfl, hu⟩ := h
  refine lx_tok (by simp) (by decide) fun T hT => heads_comment ?_ hT
  intro x hx
  have := hu x hx
  rcases this with rfl | ⟨h1, h2⟩
  · decide
  · simp only [isLineBreak, Bool.or_eq_false_iff, beq_eq_false_iff_ne]
    constructor
    · rintro rfl; exact absurd h1 (by decide)
    · rintro rfl; exact absurd h1 (by decide)

theorem lx_optComment {c : Text} (h : OptComment c) : Lx c (fun w => ∃ tr, TrailW tr w) AtLineEnd := by
  rcases h with rfl | h
  · exact lx_nil.imp fun w hw => ⟨none, hw⟩
  · exact (lx_comment h).imp fun w ⟨x, h1, h2, h3⟩ => ⟨some c, x, h1, h2, h3⟩

theorem lx_gap {g : Text} (h : Gap g) : Lx g GapW Any := by
  induction h with
  | nil => exact lx_nil.imp fun w hw => by rw [hw]; exact .nil
  | @ws c g hc _ ih =>
    have := (lx_ws (F := Any) hc).seq ih (fun _ _ => trivial)
    exact this.imp fun w ⟨a, a', e, ha, ha'⟩ => by rw [e, ha]; exact ha'
  | newline hn _ ih =>
    refine ((lx_newline hn).seq ih fun _ _ => trivial).imp ?_
    rintro w ⟨a, a', rfl, ⟨y, rfl, hy⟩, ha'⟩
    exact .lb hy ha'
  | comment hc hn _ ih =>
    refine ((lx_comment hc).seq ((lx_newline hn).seq ih fun _ _ => trivial) fun T _ => ?_).imp ?_
    · rw [List.append_assoc]; exact newline_lineEnd hn _
    · rintro w ⟨a, a', rfl, ⟨x, rfl, hx, -⟩, a1, a2, rfl, ⟨y, rfl, hy⟩, ha'⟩
      exact .comment hx hy ha'

theorem lx_commentLines {g : Text} (h : CommentLines g) : Lx g (fun w => ∃ cs, LeadW cs w) Any := by
  induction h with
  | nil => exact lx_nil.imp fun w hw => ⟨[], hw⟩
  | @ws c g hc _ ih =>
    have := (lx_ws (F := Any) hc).seq ih (fun _ _ => trivial)
    exact this.imp fun w ⟨a, a', e, ha, ha'⟩ => by rw [e, ha]; exact ha'
  | comment hc hn _ ih =>
    refine ((lx_comment hc).seq ((lx_newline hn).seq ih fun _ _ => trivial) fun T _ => ?_).imp ?_
    · rw [List.append_assoc]; exact newline_lineEnd hn _
    · rintro w ⟨a, a', rfl, ⟨x, rfl, hx, -⟩, a1, a2, rfl, ⟨y, rfl, hy⟩, cs, hcs⟩
      exact ⟨x.text :: cs, x, y, a2, rfl, hx, rfl, hy, hcs⟩

theorem lx_blankFirst {g : Text} (h : BlankFirst g) : Lx g (fun w => ∃ p cs u, w = p ++ u ∧ AllLb p ∧ LeadW cs u) Any := by
  induction h with
  | lines h => exact (lx_commentLines h).imp fun w ⟨cs, hw⟩ => ⟨[], cs, w, rfl, (fun _ h => by cases h), hw⟩
  | @ws c g hc _ ih =>
    have := (lx_ws (F := Any) hc).seq ih (fun _ _ => trivial)
    exact this.imp fun w ⟨a, a', e, ha, ha'⟩ => by rw [e, ha]; exact ha'
  | newline hn _ ih =>
    refine ((lx_newline hn).seq ih fun _ _ => trivial).imp ?_
    rintro w ⟨a, a', rfl, ⟨y, rfl, hy⟩, p, cs, u, rfl, hp, hu⟩
    refine ⟨y :: p, cs, u, rfl, ?_, hu⟩
    intro z hz
    rcases List.mem_cons.mp hz with rfl | hz
    · exact hy
    · exact hp z hz

theorem lx_tight {g : Text} (h : TightGap g) : Lx g CommaGapW Any := by
  rcases h with h | ⟨w, c, n, g', hw, hc, hn, hg, rfl⟩
  · refine (lx_blankFirst h).imp ?_
    rintro w ⟨p, cs, u, rfl, hp, hu⟩
    by_cases h0 : p = [] ∧ u ≠ []
    · obtain ⟨rfl, hne⟩ := h0
      cases cs with
      | nil => exact absurd hu hne
      | cons c cs =>
        obtain ⟨x, y, u', rfl, hx, hc, hy, hu'⟩ := hu
        refine ⟨some c, [x], [y], cs, u', rfl, ⟨x, rfl, hx, hc⟩, ?_, hu', fun h => by cases h⟩
        intro z hz
        rw [List.mem_singleton.mp hz]; exact hy
    · refine ⟨none, [], p, cs, u, rfl, rfl, hp, hu, fun hp => ?_⟩
      by_cases hu : u = []
      · exact hu
      · exact absurd ⟨hp, hu⟩ h0
  · refine (((lx_ws (F := Any) hw).seq ((lx_comment hc).seq ((lx_newline hn).seq (lx_blankFirst hg) fun _ _ => trivial) fun T _ => ?_)
      fun _ _ => trivial)).imp ?_
    · rw [List.append_assoc]; exact newline_lineEnd hn _
    · rintro w ⟨a, a', rfl, rfl, a1, a2, rfl, ⟨x, rfl, hx, -⟩, a3, a4, rfl, ⟨y, rfl, hy⟩, p, cs, u, rfl, hp, hu⟩
      refine ⟨some x.text, [x], y :: p, cs, u, rfl, ⟨x, rfl, hx, rfl⟩, ?_, hu, fun h => by cases h⟩
      intro z hz
      rcases List.mem_cons.mp hz with rfl | hz
      · exact hy
      · exact hp z hz

/-! ### what follows a word -/

/-- A text that starts with something that ends a word and is no blank. -/
def Ends (T : Text) : Prop := ∀ c r, T = c :: r → isTokenSeparator c = true ∧ isWhitespace c = false

theorem ws_stop {w T : Text} (h : Ws w) (hT : Ends T) : Stop (w ++ T) := stop_of (ws_blank h) hT

theorem gap_ends {g : Text} (h : Gap g) {T : Text} (hT : Ends T) : Stop (g ++ T) := by
  have key : ∃ u g', g ++ T = u ++ g' ∧ Ws u ∧ Ends g' := by
    induction h with
    | nil => exact ⟨[], T, rfl, (fun _ h => by cases h), hT⟩
    | @ws c g hc _ ih =>
      obtain ⟨u, g', e, hu, hg⟩ := ih
      refine ⟨c :: u, g', by rw [List.cons_append, e, List.cons_append], ?_, hg⟩
      intro x hx
      rcases List.mem_cons.mp hx with rfl | hx
      · exact hc x (by simp)
      · exact hu x hx
    | newline hn _ _ =>
      refine ⟨[], _, rfl, (fun _ h => by cases h), ?_⟩
      obtain ⟨c, r, rfl, hc⟩ := newline_cons hn
      rintro c' r' e
      replace e : c' = _ := (List.cons.inj e).1.symm
      rw [e]
      rcases hc with rfl | rfl <;> decide
    | comment hc _ _ _ =>
      refine ⟨[], _, rfl, (fun _ h => by cases h), ?_⟩
      obtain ⟨u, rfl, -⟩ := hc
      rintro c' r' e
      replace e : c' = '#' := (List.cons.inj e).1.symm
      rw [e]
      decide
  obtain ⟨u, g', e, hu, hg⟩ := key
  rw [e]
  exact ws_stop hu hg

theorem commentLines_gap {g : Text} (h : CommentLines g) : Gap g := by
  induction h with
  | nil => exact .nil
  | ws hc _ ih => exact .ws hc ih
  | comment hc hn _ ih => exact .comment hc hn ih

theorem blankFirst_gap {g : Text} (h : BlankFirst g) : Gap g := by
  induction h with
  | lines h => exact commentLines_gap h
  | ws hc _ ih => exact .ws hc ih
  | newline hn _ ih => exact .newline hn ih

theorem ws_gap {w g : Text} (hw : Ws w) (hg : Gap g) : Gap (w ++ g) := by
  induction w with
  | nil => exact hg
  | cons c w ih =>
    exact .ws (fun x hx => by rw [List.mem_singleton.mp hx]; exact hw c (by simp)) (ih fun x hx => hw x (by simp [hx]))

theorem tight_gap {g : Text} (h : TightGap g) : Gap g := by
  rcases h with h | ⟨w, c, n, g', hw, hc, hn, hg, rfl⟩
  · exact blankFirst_gap h
  · exact ws_gap hw (.comment hc hn (blankFirst_gap hg))

theorem ends_char {c : Char} (h : isTokenSeparator c = true ∧ isWhitespace c = false) (T : Text) : Ends (c :: T) := by
  intro c' r e
  rw [← (List.cons.inj e).1]
  exact h

theorem lineEnd_ends {T : Text} (h : AtLineEnd T) : Ends T := by
  intro c r e
  have := h c r e
  simp only [isLineBreak, Bool.or_eq_true, beq_iff_eq] at this
  rcases this with rfl | rfl <;> decide

theorem optComment_ends {c : Text} (h : OptComment c) {T : Text} (hT : AtLineEnd T) : Ends (c ++ T) := by
  rcases h with rfl | ⟨u, rfl, -⟩
  · exact lineEnd_ends hT
  · exact ends_char (by decide) _

theorem ws_noBrace {w T : Text} (h : Ws w) (hT : ∀ c r, T = c :: r → c ≠ '{' ∧ c ≠ '}') : NoBrace (w ++ T) :=
  noBrace_of (ws_blank h) hT

theorem stop_ws_dot {a T : Text} (ha : Ws a) (hne : a ≠ []) : Stop (a ++ '.' :: T) := by
  cases a with
  | nil => exact absurd rfl hne
  | cons c a =>
    constructor
    · intro c' r e
      rw [List.cons_append] at e
      rw [← (List.cons.inj e).1]
      rcases ha c (by simp) with rfl | rfl <;> decide
    · intro x r e
      rw [List.cons_append] at e
      have e := (List.cons.inj e).2
      cases a with
      | nil => rw [← (List.cons.inj e).1]; decide
      | cons c' a =>
        rw [List.cons_append] at e
        rw [← (List.cons.inj e).1]
        rcases ha c' (by simp) with rfl | rfl <;> decide

/-! ### floats with dots

The lexer reads a dotted number as a float; the parser wants such a float to have something before it (`DotsApart`). -/

/-- Tokens that neither start nor end with a dotted float, and have no two of them side by side. -/
def Mild (a : View) : Prop := ∀ v, (∀ x ∈ v.head?, ¬ IsDotted x) → DotsApart false v →
  (∀ x ∈ (a ++ v).head?, ¬ IsDotted x) ∧ DotsApart false (a ++ v)

/-- Tokens without two dotted floats side by side. -/
def Calm (a : View) : Prop := ∀ v, (∀ x ∈ v.head?, ¬ IsDotted x) → DotsApart false v → DotsApart false (a ++ v)

theorem Mild.app {a b : View} (ha : Mild a) (hb : Mild b) : Mild (a ++ b) := by
  intro v h1 h2
  rw [List.append_assoc]
  obtain ⟨h3, h4⟩ := hb v h1 h2
  exact ha _ h3 h4

theorem Mild.calm {a : View} (h : Mild a) : Calm a := fun v h1 h2 => (h v h1 h2).2

theorem Calm.app {a b : View} (ha : Calm a) (hb : Mild b) : Calm (a ++ b) := by
  intro v h1 h2
  rw [List.append_assoc]
  obtain ⟨h3, h4⟩ := hb v h1 h2
  exact ha _ h3 h4

theorem Mild.app_calm {a b : View} {x : VTok} (hx : x.kind ≠ FLOAT) (ha : Mild a) (hb : Calm b) : Mild (a ++ x :: b) := by
  refine ha.app fun v h1 h2 => ⟨?_, .cons hx (hb v h1 h2)⟩
  intro y hy
  simp only [List.cons_append, List.head?_cons, Option.mem_def, Option.some.injEq] at hy
  subst hy
  exact fun h => hx h.1

theorem mild_nil : Mild [] := fun _ h1 h2 => ⟨h1, h2⟩

theorem mild_cons {x : VTok} {a : View} (hx : ¬ IsDotted x) (ha : Calm a) : Mild (x :: a) := by
  intro v h1 h2
  refine ⟨fun y hy => ?_, ⟨fun _ => hx, fun h => absurd h hx, fun _ => ha v h1 h2⟩⟩
  simp only [List.cons_append, List.head?_cons, Option.mem_def, Option.some.injEq] at hy
  subst hy
  exact hx

theorem calm_word (x : VTok) : Calm [x] := fun _ h1 h2 => DotsApart.word h1 h2

theorem mild_marks {a : View} (h : ∀ x ∈ a, x.kind ≠ FLOAT) : Mild a := by
  induction a with
  | nil => exact mild_nil
  | cons x a ih => exact mild_cons (fun hx => h x (by simp) hx.1) (ih fun y hy => h y (by simp [hy])).calm

theorem not_dotted {x : VTok} {k : SyntaxKind} (h : x.kind = k) (hk : k ≠ FLOAT) : ¬ IsDotted x := fun hx => hk (h ▸ hx.1)

theorem trail_mild {tr : Option Text} {w : View} (h : TrailW tr w) : Mild w := by
  cases tr with
  | none => have h : w = [] := h
            subst h; exact mild_nil
  | some c =>
    obtain ⟨x, rfl, hx, -⟩ := h
    exact mild_cons (not_dotted hx (by decide)) mild_nil.calm

theorem lb_not {y : VTok} (hy : y.kind = LINE_BREAK) : ¬ IsDotted y := not_dotted hy (by decide)

theorem allLb_mild {p : View} (h : AllLb p) : Mild p := mild_marks fun x hx => by rw [h x hx]; decide

theorem lead_mild {cs : List Text} {u : View} (h : LeadW cs u) : Mild u := by
  induction cs generalizing u with
  | nil => have h : u = [] := h
           subst h; exact mild_nil
  | cons c cs ih =>
    obtain ⟨x, y, u', rfl, hx, -, hy, hu⟩ := h
    exact mild_cons (not_dotted hx (by decide)) (mild_cons (lb_not hy) (ih hu).calm).calm

theorem gap_mild {g : View} (h : GapW g) : Mild g := by
  induction h with
  | nil => exact mild_nil
  | lb hy _ ih => exact mild_cons (lb_not hy) ih.calm
  | comment hx hy _ ih => exact mild_cons (not_dotted hx (by decide)) (mild_cons (lb_not hy) ih.calm).calm

theorem gap_calm {g a : View} (h : GapW g) (ha : Calm a) : Calm (g ++ a) := by
  induction h with
  | nil => exact ha
  | lb hy _ ih => exact (mild_cons (lb_not hy) ih).calm
  | comment hx hy _ ih => exact (mild_cons (not_dotted hx (by decide)) (mild_cons (lb_not hy) ih).calm).calm

theorem comma_mild {g : View} (h : CommaGapW g) : Mild g := by
  obtain ⟨tr, wt, p, cs, u, rfl, h1, h2, h3, -⟩ := h
  exact (trail_mild h1).app ((allLb_mild h2).app (lead_mild h3))

theorem head_mild {arr : Bool} {k : SyntaxKind} {w : View} (hk : k ≠ FLOAT) (h : HeadW arr k w) : Mild w := by
  cases arr with
  | false =>
    obtain ⟨x, rfl, hx⟩ := h
    exact mild_marks fun y hy => by rw [List.mem_singleton.mp hy, hx]; exact hk
  | true =>
    obtain ⟨x, y, rfl, hx, hy, -⟩ := h
    refine mild_marks fun z hz => ?_
    simp only [List.mem_cons, List.not_mem_nil, or_false] at hz
    rcases hz with rfl | rfl
    · rw [hx]; exact hk
    · rw [hy]; exact hk

/-! ### words -/

/-- A text after which any key is complete. -/
def KeyEnd (T : Text) : Prop := Stop T ∧ NoBrace T

theorem wordLex_tok {k : SyntaxKind} {t : Text} (h : WordLex k t) :
    ∃ k', ReadAs k k' t ∧ Lx t (fun w => ∃ x : VTok, w = [x] ∧ x.kind = k' ∧ x.text = t) (fun T => Stop T ∧ (k = BARE_KEY → NoBrace T)) := by
  obtain ⟨hne, k', hr, ha⟩ := h
  exact ⟨k', hr, lx_tok hne hr.2 fun T hT => (ha T hT.1 hT.2).heads⟩

/-- The token kind a key is lexed into when it stands alone. -/
def keyKind : AstKey → SyntaxKind
  | .bare _ => BARE_KEY
  | .basic _ => BASIC_STRING
  | .literal _ => LITERAL_STRING

theorem keyTok_of {k : AstKey} {k' : SyntaxKind} {x : VTok}
    (h : ReadAs (keyKind k) k' (keyText k))
    (hk : x.kind = k') (ht : x.text = keyText k) : KeyTok k x := by
  cases k with
  | bare t =>
    have := h.1
    simp only [keyKind, if_true] at this
    refine ⟨ht, ?_⟩
    have := this x.joint
    cases x
    simp only at hk ht
    subst hk ht
    exact this
  | basic t =>
    have := h.1
    rw [if_neg (by simp [keyKind])] at this
    exact ⟨hk.trans this, ht⟩
  | literal t =>
    have := h.1
    rw [if_neg (by simp [keyKind])] at this
    exact ⟨hk.trans this, ht⟩

theorem key_notDotted {k : AstKey} (h : Words.usual.key k) {x : VTok} (hx : KeyTok k x) : ¬ IsDotted x := by
  rintro ⟨h1, h2⟩
  cases k with
  | bare t =>
    rw [hx.1] at h2
    exact bare_noDot h.2.1 h2
  | basic t => rw [hx.1] at h1; exact absurd h1 (by decide)
  | literal t => rw [hx.1] at h1; exact absurd h1 (by decide)

theorem lx_key {k : AstKey} (h : Words.usual.key k) : Lx (keyText k) (fun w => ∃ x, w = [x] ∧ KeyTok k x) KeyEnd := by
  have : WordLex (keyKind k) (keyText k) := by
    cases k with
    | bare t => exact plain_wordLex h
    | basic t => exact basic_wordLex h
    | literal t => exact literal_wordLex h
  obtain ⟨k', hr, hl⟩ := wordLex_tok this
  exact (hl.weak fun T (hT : KeyEnd T) => ⟨hT.1, fun _ => hT.2⟩).imp fun w ⟨x, h1, h2, h3⟩ => ⟨x, h1, keyTok_of hr h2 h3⟩

theorem before_key {k : AstKey} (h : Words.usual.keyBeforeDot k) : Words.usual.key k := by
  cases k with
  | bare t => exact h.1
  | basic t => exact h
  | literal t => exact h

/-- A key directly before a dot. -/
theorem lx_key_dot {k : AstKey} (h : Words.usual.keyBeforeDot k) :
    Lx (keyText k) (fun w => ∃ x, w = [x] ∧ KeyTok k x) (fun T => ∃ r, T = '.' :: r) := by
  have hd : DotLex (keyKind k) (keyText k) := by
    cases k with
    | bare t => exact dotKey_dotLex h
    | basic t => exact basic_dotLex h
    | literal t => exact literal_dotLex h
  have hne : keyText k ≠ [] := by
    cases k with
    | bare t => exact (plain_wordLex h.1).ne
    | basic t => exact (basic_wordLex h).ne
    | literal t => exact (literal_wordLex h).ne
  obtain ⟨k', hr, ha⟩ := hd
  refine (lx_tok (k := k') hne hr.2 ?_).imp fun w ⟨x, h1, h2, h3⟩ => ⟨x, h1, keyTok_of hr h2 h3⟩
  rintro T ⟨r, rfl⟩
  exact (ha r).heads

theorem lx_keys {ks : List AstKey} {t : Text} (h : KeyText Words.usual ks t) : Lx t (fun w => KeysW ks w ∧ Mild w) KeyEnd := by
  induction h with
  | last h => exact (lx_key h).imp fun w ⟨x, hw, hx⟩ => ⟨⟨x, hw, hx⟩, by rw [hw]; exact mild_cons (key_notDotted h hx) mild_nil.calm⟩
  | @dot k ks a b t hk ha hb h ih =>
    have hrest := (lx_ws (F := Any) ha).seq ((lx_mark (k := DOT) rfl (by decide)).seq ((lx_ws (F := Any) hb).seq ih fun _ _ => trivial)
      fun _ _ => trivial) fun _ _ => trivial
    have hfirst : Lx (keyText k) (fun w => ∃ x, w = [x] ∧ KeyTok k x) (fun T => ∃ r, T = a ++ '.' :: r) := by
      by_cases hne : a = []
      · subst hne; exact lx_key_dot hk
      · refine (lx_key (before_key hk)).weak ?_
        rintro T ⟨r, rfl⟩
        refine ⟨stop_ws_dot ha hne, ws_noBrace ha ?_⟩
        intro c r' e
        rw [← (List.cons.inj e).1]
        decide
    refine (hfirst.seq hrest fun T _ => ⟨b ++ t ++ T, by simp⟩).imp ?_
    rintro w ⟨w0, w1, rfl, ⟨x, rfl, hx⟩, w2, w3, rfl, rfl, w4, w5, rfl, ⟨y, rfl, hy⟩, w6, w7, rfl, rfl, hw7, hm⟩
    refine ⟨?_, mild_cons (key_notDotted (before_key hk) hx) (mild_cons (not_dotted hy (by decide)) hm.calm).calm⟩
    cases h with
    | last _ => exact ⟨x, y, w7, rfl, hx, hy, hw7⟩
    | dot _ _ _ _ => exact ⟨x, y, w7, rfl, hx, hy, hw7⟩

/-! ### values -/

theorem literal_isLiteral {k : SyntaxKind} {t : Text} (h : TomlLiteral k t) : View.isLiteral k = true ∧ k ≠ BARE_KEY := by
  cases h <;> decide

theorem mark_stop {c : Char} (h : isTokenSeparator c = true ∧ isWhitespace c = false) {g : Text} (hg : Gap g) (T : Text) : Stop (g ++ c :: T) :=
  gap_ends hg (ends_char h T)

mutual
theorem lx_val (v : Val) (t : Text) (h : v.Text Words.usual t) : Lx t (fun w => ValW v w ∧ Calm w) Stop := by
  match v, h with
  | .lit k t', h =>
    rw [Val.Text] at h
    obtain ⟨h, rfl⟩ := h
    obtain ⟨h1, h2⟩ := literal_isLiteral h
    obtain ⟨k', hr, hl⟩ := wordLex_tok (lit_wordLex h)
    have hk := hr.1
    rw [if_neg h2] at hk
    subst hk
    refine (hl.weak fun T (hT : Stop T) => ⟨hT, fun e => absurd e h2⟩).imp ?_
    rintro w ⟨x, hx, hx1, hx2⟩
    rw [ValW]
    exact ⟨⟨h1, x, hx, hx1, hx2⟩, by rw [hx]; exact calm_word x⟩
  | .array items, h =>
    rw [Val.Text] at h
    obtain ⟨t', h', rfl⟩ := h
    have := (lx_mark (k := BRACKET_START) rfl (by decide)).seq ((lx_items items t' h' ']' (by decide)).seq
      (lx_mark (k := BRACKET_END) rfl (by decide)) fun T _ => ⟨T, rfl⟩) fun _ _ => trivial
    refine (this.weak fun _ _ => trivial).imp ?_
    rintro w ⟨a, a', rfl, ⟨o, rfl, ho⟩, a1, a2, rfl, ⟨ha1, hc⟩, e, rfl, he⟩
    rw [ValW]
    exact ⟨⟨o, a1, e, ho, he, rfl, ha1⟩, (mild_cons (not_dotted ho (by decide))
      (hc.app (mild_cons (not_dotted he (by decide)) mild_nil.calm))).calm⟩
  | .table pairs, h =>
    rw [Val.Text] at h
    obtain ⟨t', h', rfl⟩ := h
    have := (lx_mark (k := BRACE_START) rfl (by decide)).seq ((lx_pairs pairs t' h' '}' (by decide)).seq
      (lx_mark (k := BRACE_END) rfl (by decide)) fun T _ => ⟨T, rfl⟩) fun _ _ => trivial
    refine (this.weak fun _ _ => trivial).imp ?_
    rintro w ⟨a, a', rfl, ⟨o, rfl, ho⟩, a1, a2, rfl, ⟨ha1, hc⟩, e, rfl, he⟩
    rw [ValW]
    exact ⟨⟨o, a1, e, ho, he, rfl, ha1⟩, (mild_cons (not_dotted ho (by decide))
      (hc.app (mild_cons (not_dotted he (by decide)) mild_nil.calm))).calm⟩
theorem lx_pairText (p : Pair) (t : Text) (h : p.Text Words.usual t) : Lx t (fun w => PairW p w ∧ Mild w) Stop := by
  match p, h with
  | .mk ks v, h =>
    rw [Pair.Text] at h
    obtain ⟨k, a, b, t', hk, ha, hb, hv, rfl⟩ := h
    have := (lx_keys hk).seq ((lx_ws (F := Any) ha).seq ((lx_mark (k := EQUAL) rfl (by decide)).seq
      ((lx_ws (F := Any) hb).seq (lx_val v t' hv) fun _ _ => trivial) fun _ _ => trivial) fun _ _ => trivial) fun T _ => ?_
    · refine this.imp ?_
      rintro w ⟨a0, a1, rfl, ⟨h0, hm⟩, a2, a3, rfl, rfl, a4, a5, rfl, ⟨e, rfl, he⟩, a6, a7, rfl, rfl, h7, hc⟩
      rw [PairW]
      exact ⟨⟨a0, e, a7, h0, he, h7, rfl⟩, hm.app_calm (by rw [he]; decide) hc⟩
    · rw [List.append_assoc]
      refine ⟨ws_stop ha (ends_char (by decide) _), ws_noBrace ha ?_⟩
      intro c r e
      rw [← (List.cons.inj e).1]
      decide
theorem lx_items (items : List Val) (t : Text) (h : itemsText Words.usual items t) (c : Char)
    (hc : isTokenSeparator c = true ∧ isWhitespace c = false) : Lx t (fun w => itemsW items w ∧ Calm w) (fun T => ∃ r, T = c :: r) := by
  match items, h with
  | [], h =>
    rw [itemsText] at h
    refine ((lx_gap h).weak fun _ _ => trivial).imp ?_
    intro w hw
    rw [itemsW]; exact ⟨hw, (gap_mild hw).calm⟩
  | v :: rest, h =>
    rw [itemsText] at h
    obtain ⟨g, t1, g', hg, hv, h | h⟩ := h
    · obtain ⟨rfl, hg', rfl⟩ := h
      have hgap : Lx g' GapW (fun T => ∃ r, T = c :: r) := (lx_gap hg').weak fun _ _ => trivial
      have := (lx_gap hg).seq ((lx_val v t1 hv).seq hgap fun T hT => ?_) fun _ _ => trivial
      · refine this.imp ?_
        rintro w ⟨a, a1, rfl, ha, a2, a3, rfl, ⟨h2, hc⟩, h3⟩
        rw [itemsW]
        exact ⟨⟨a, a2, a3, ha, h2, .inl ⟨rfl, h3, rfl⟩⟩, gap_calm ha (hc.app (gap_mild h3))⟩
      · obtain ⟨r, rfl⟩ := hT
        exact mark_stop hc hg' r
    · obtain ⟨t', hg', hr, rfl⟩ := h
      have := (lx_gap hg).seq ((lx_val v t1 hv).seq ((lx_tight hg').seq ((lx_mark (k := COMMA) rfl (by decide)).seq
        (lx_items rest t' hr c hc) fun _ _ => trivial) fun _ _ => trivial) fun T hT => ?_) fun _ _ => trivial
      · refine this.imp ?_
        rintro w ⟨a, a1, rfl, ha, a2, a3, rfl, ⟨h2, hc⟩, a4, a5, rfl, h4, a6, a7, rfl, ⟨x, rfl, hx⟩, h7, h8⟩
        rw [itemsW]
        exact ⟨⟨a, a2, a4, ha, h2, .inr ⟨x, a7, h4, hx, h7, rfl⟩⟩, gap_calm ha (hc.app ((comma_mild h4).app_calm (by rw [hx]; decide) h8))⟩
      · rw [List.append_assoc]
        exact mark_stop (by decide) (tight_gap hg') _
theorem lx_pairs (pairs : List Pair) (t : Text) (h : pairsText Words.usual pairs t) (c : Char)
    (hc : isTokenSeparator c = true ∧ isWhitespace c = false) : Lx t (fun w => pairsW pairs w ∧ Calm w) (fun T => ∃ r, T = c :: r) := by
  match pairs, h with
  | [], h =>
    rw [pairsText] at h
    refine ((lx_gap h).weak fun _ _ => trivial).imp ?_
    intro w hw
    rw [pairsW]; exact ⟨hw, (gap_mild hw).calm⟩
  | v :: rest, h =>
    rw [pairsText] at h
    obtain ⟨g, t1, g', hg, hv, h | h⟩ := h
    · obtain ⟨rfl, hg', rfl⟩ := h
      have hgap : Lx g' GapW (fun T => ∃ r, T = c :: r) := (lx_gap hg').weak fun _ _ => trivial
      have := (lx_gap hg).seq ((lx_pairText v t1 hv).seq hgap fun T hT => ?_) fun _ _ => trivial
      · refine this.imp ?_
        rintro w ⟨a, a1, rfl, ha, a2, a3, rfl, ⟨h2, hc⟩, h3⟩
        rw [pairsW]
        exact ⟨⟨a, a2, a3, ha, h2, .inl ⟨rfl, h3, rfl⟩⟩, gap_calm ha (hc.calm.app (gap_mild h3))⟩
      · obtain ⟨r, rfl⟩ := hT
        exact mark_stop hc hg' r
    · obtain ⟨t', hg', hr, rfl⟩ := h
      have := (lx_gap hg).seq ((lx_pairText v t1 hv).seq ((lx_tight hg').seq ((lx_mark (k := COMMA) rfl (by decide)).seq
        (lx_pairs rest t' hr c hc) fun _ _ => trivial) fun _ _ => trivial) fun T hT => ?_) fun _ _ => trivial
      · refine this.imp ?_
        rintro w ⟨a, a1, rfl, ha, a2, a3, rfl, ⟨h2, hc⟩, a4, a5, rfl, h4, a6, a7, rfl, ⟨x, rfl, hx⟩, h7, h8⟩
        rw [pairsW]
        exact ⟨⟨a, a2, a4, ha, h2, .inr ⟨x, a7, h4, hx, h7, rfl⟩⟩, gap_calm ha (hc.calm.app ((comma_mild h4).app_calm (by rw [hx]; decide) h8))⟩
      · rw [List.append_assoc]
        exact mark_stop (by decide) (tight_gap hg') _
end

/-! ### lines -/

theorem lx_header {arr : Bool} {ks : List AstKey} {t : Text} (h : HeaderText Words.usual arr ks t) :
    Lx t (fun w => ∃ ow kw cw, w = ow ++ (kw ++ cw) ∧ HeadW arr BRACKET_START ow ∧ (KeysW ks kw ∧ Mild kw) ∧ HeadW arr BRACKET_END cw) Any := by
  obtain ⟨a, k, b, ha, hk, hb, rfl⟩ := h
  have hend : ∀ r, KeyEnd (b ++ ']' :: r) := fun r => ⟨ws_stop hb (ends_char (by decide) _), ws_noBrace hb (by
    intro c r e
    rw [← (List.cons.inj e).1]
    decide)⟩
  cases arr with
  | false =>
    have := (lx_mark (k := BRACKET_START) rfl (by decide)).seq ((lx_ws (F := Any) ha).seq ((lx_keys hk).seq ((lx_ws (F := Any) hb).seq
      (lx_mark (k := BRACKET_END) rfl (by decide)) fun _ _ => trivial) fun T _ => by rw [List.append_assoc]; exact hend T) fun _ _ => trivial) fun _ _ => trivial
    refine this.imp ?_
    rintro w ⟨a0, a1, rfl, ⟨o, rfl, ho⟩, a2, a3, rfl, rfl, a4, a5, rfl, h4, a6, a7, rfl, rfl, c, rfl, hc⟩
    exact ⟨[o], a4, [c], rfl, ⟨o, rfl, ho⟩, h4, ⟨c, rfl, hc⟩⟩
  | true =>
    have := (lx_pair (k := BRACKET_START) rfl (by decide)).seq ((lx_ws (F := Any) ha).seq ((lx_keys hk).seq ((lx_ws (F := Any) hb).seq
      (lx_pair (k := BRACKET_END) rfl (by decide)) fun _ _ => trivial) fun T _ => by rw [List.append_assoc]; exact hend _) fun _ _ => trivial) fun _ _ => trivial
    refine this.imp ?_
    rintro w ⟨a0, a1, rfl, ho, a2, a3, rfl, rfl, a4, a5, rfl, h4, a6, a7, rfl, rfl, hc⟩
    exact ⟨a0, a4, a7, rfl, ho, h4, hc⟩

/-- A text and nothing behind it. -/
theorem Lx.done {t : Text} {A : View → Prop} {F : Text → Prop} (h : Lx t A F) (hF : F []) : LexV t A := by
  have := h [] _ hF lexV_nil
  rw [List.append_nil] at this
  refine this.imp ?_
  rintro w ⟨a, w', rfl, ha, rfl⟩
  rwa [List.append_nil]

theorem lineEnd_nil : AtLineEnd [] := by rintro c r ⟨⟩

theorem lex_lines {ps : List Pair} {ss : List Sec} {t : Text} (h : Lines Words.usual ps ss t) :
    LexV t (fun w => DocW ps ss (w ++ [⟨EOF, [], false⟩]) ∧ Mild w) := by
  induction h with
  | end_ hw hc =>
    refine LexV.imp (((lx_ws (F := Any) hw).seq (lx_optComment hc) fun _ _ => trivial).done lineEnd_nil) ?_
    rintro w ⟨a, a', rfl, rfl, tr, htr⟩
    exact ⟨.end_ htr rfl, trail_mild htr⟩
  | blank hw hc hn _ ih =>
    refine LexV.imp (lx_ws (F := Any) hw _ _ trivial (lx_optComment hc _ _ (newline_lineEnd hn _) (lx_newline hn _ _ trivial ih))) ?_
    rintro w ⟨a, w1, rfl, rfl, a2, w2, rfl, ⟨tr, htr⟩, a3, w3, rfl, ⟨y, rfl, hy⟩, h, hm⟩
    have := DocW.blank htr hy h
    refine ⟨by simpa using this, ?_⟩
    have hmm := (trail_mild htr).app (mild_cons (lb_not hy) hm.calm)
    simpa using hmm
  | pairEnd hw hp hw' hc =>
    refine LexV.imp (((lx_ws (F := Any) hw).seq ((lx_pairText _ _ hp).seq ((lx_ws (F := Any) hw').seq (lx_optComment hc) fun _ _ => trivial)
      fun T hT => ?_) fun _ _ => trivial).done lineEnd_nil) ?_
    · rw [List.append_assoc]
      exact ws_stop hw' (optComment_ends hc hT)
    · rintro w ⟨a, a', rfl, rfl, a2, a3, rfl, ⟨h2, hp2⟩, a4, a5, rfl, rfl, tr, htr⟩
      have := DocW.pairEnd h2 htr (z := ⟨EOF, [], false⟩) rfl
      refine ⟨by simpa using this, ?_⟩
      have hmm := hp2.app (trail_mild htr)
      simpa using hmm
  | pair hw hp hw' hc hn _ ih =>
    refine LexV.imp (lx_ws (F := Any) hw _ _ trivial (lx_pairText _ _ hp _ _ (ws_stop hw' (optComment_ends hc (newline_lineEnd hn _)))
      (lx_ws (F := Any) hw' _ _ trivial (lx_optComment hc _ _ (newline_lineEnd hn _) (lx_newline hn _ _ trivial ih))))) ?_
    rintro w ⟨a, w1, rfl, rfl, a2, w2, rfl, ⟨h2, hp2⟩, a3, w3, rfl, rfl, a4, w4, rfl, ⟨tr, htr⟩, a5, w5, rfl, ⟨y, rfl, hy⟩, h, hm⟩
    have := DocW.pair h2 htr hy h
    refine ⟨by simpa using this, ?_⟩
    have hmm := hp2.app ((trail_mild htr).app (mild_cons (lb_not hy) hm.calm))
    simpa using hmm
  | headerEnd hw hh hw' hc =>
    refine LexV.imp (((lx_ws (F := Any) hw).seq ((lx_header hh).seq ((lx_ws (F := Any) hw').seq (lx_optComment hc) fun _ _ => trivial)
      fun T hT => trivial) fun _ _ => trivial).done lineEnd_nil) ?_
    rintro w ⟨a, a', rfl, rfl, a2, a3, rfl, ⟨ow, kw, cw, rfl, ho, ⟨hk, hkm⟩, hcw⟩, a4, a5, rfl, rfl, tr, htr⟩
    have := DocW.headerEnd ho hk hcw htr (z := ⟨EOF, [], false⟩) rfl
    refine ⟨by simpa using this, ?_⟩
    have hmm := (head_mild (by decide) ho).app (hkm.app ((head_mild (by decide) hcw).app (trail_mild htr)))
    simpa using hmm
  | header hw hh hw' hc hn _ ih =>
    refine LexV.imp (lx_ws (F := Any) hw _ _ trivial (lx_header hh _ _ trivial
      (lx_ws (F := Any) hw' _ _ trivial (lx_optComment hc _ _ (newline_lineEnd hn _) (lx_newline hn _ _ trivial ih))))) ?_
    rintro w ⟨a, w1, rfl, rfl, a2, w2, rfl, ⟨ow, kw, cw, rfl, ho, ⟨hk, hkm⟩, hcw⟩, a3, w3, rfl, rfl, a4, w4, rfl, ⟨tr, htr⟩, a5, w5, rfl, ⟨y, rfl, hy⟩, h, hm⟩
    have := DocW.header ho hk hcw htr hy h
    refine ⟨by simpa using this, ?_⟩
    have hmm := (head_mild (by decide) ho).app (hkm.app ((head_mild (by decide) hcw).app ((trail_mild htr).app (mild_cons (lb_not hy) hm.calm))))
    simpa using hmm

end Tombi.TomlFile
