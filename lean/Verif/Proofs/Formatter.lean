import Verif.Spec.Formatter
/-! Proofs about the pieces that the formatter writes: comments end lines, words are kept. -/
namespace Tombi.Formatter
open SyntaxKind
open Tombi.Format (AstKey)

/-! ### comments end lines -/

/-- `CommentsEndLines`, by recursion. -/
def Closed : List Piece → Prop
  | [] => True
  | .comment _ :: ps => (ps = [] ∨ ps.head? = some .newline) ∧ Closed ps
  | _ :: ps => Closed ps

/-- The last piece is a comment. -/
def endsComment (ps : List Piece) : Bool :=
  match ps.getLast? with
  | some (.comment _) => true
  | _ => false

theorem closed_iff {ps : List Piece} : Closed ps ↔ CommentsEndLines ps := by
  induction ps with
  | nil => constructor <;> intro h <;> simp_all [Closed, CommentsEndLines]
  | cons p ps ih =>
    have tail : CommentsEndLines (p :: ps) → CommentsEndLines ps := by
      intro h i t q h1 h2
      exact h (i + 1) t q (by simpa using h1) (by simpa using h2)
    constructor
    · intro h i t q h1 h2
      cases i with
      | zero =>
        simp at h1; subst h1
        rcases h.1 with e | e
        · subst e; simp at h2
        · cases ps with
          | nil => simp at h2
          | cons a ps => simp at h2 e; subst h2; exact e
      | succ i =>
        have : Closed ps := by cases p <;> first | exact h | exact h.2
        exact ih.mp this i t q (by simpa using h1) (by simpa using h2)
    · intro h
      have hc := ih.mpr (tail h)
      cases p with
      | comment t =>
        refine ⟨?_, hc⟩
        cases ps with
        | nil => exact .inl rfl
        | cons a ps => exact .inr (by simp [h 0 t a rfl rfl])
      | _ => exact hc

theorem endsComment_append {a b : List Piece} : endsComment (a ++ b) = if b = [] then endsComment a else endsComment b := by
  cases b with
  | nil => simp
  | cons p b =>
    rw [if_neg (by simp), endsComment, endsComment, List.getLast?_append, List.getLast?_cons]
    rfl

theorem closed_append {a b : List Piece} (ha : Closed a) (hb : Closed b)
    (h : endsComment a = true → b = [] ∨ b.head? = some .newline) : Closed (a ++ b) := by
  induction a with
  | nil => exact hb
  | cons p a ih =>
    have he : a ≠ [] → endsComment (p :: a) = endsComment a := by
      intro hn; cases a with
      | nil => exact absurd rfl hn
      | cons q a => simp [endsComment]
    cases p with
    | comment t =>
      refine ⟨?_, ?_⟩
      · rcases ha.1 with e | e
        · subst e; exact h rfl
        · right; cases a with
          | nil => simp at e
          | cons q a => simpa using e
      · cases a with
        | nil => exact hb
        | cons q a => exact ih ha.2 (fun e => h (by rw [he (by simp)]; exact e))
    | _ =>
      cases a with
      | nil => exact hb
      | cons q a => exact ih ha (fun e => h (by rw [he (by simp)]; exact e))

/-- Closed, whatever precedes and whatever follows. -/
def Open (ps : List Piece) : Prop := Closed ps ∧ endsComment ps = false

theorem Open.append {a b : List Piece} (ha : Open a) (hb : Open b) : Open (a ++ b) := by
  refine ⟨closed_append ha.1 hb.1 (fun e => by rw [ha.2] at e; cases e), ?_⟩
  rw [endsComment_append]; split
  · exact ha.2
  · exact hb.2

theorem closed_of_open_append {a b : List Piece} (ha : Open a) (hb : Closed b) : Closed (a ++ b) :=
  closed_append ha.1 hb (fun e => by rw [ha.2] at e; cases e)

theorem open_nil : Open [] := ⟨trivial, rfl⟩
theorem open_blank (t : Text) : Open [.blank t] := ⟨trivial, rfl⟩
theorem open_spaces (n : Nat) : Open [spaces n] := ⟨trivial, rfl⟩
theorem open_newline : Open [.newline] := ⟨trivial, rfl⟩
theorem open_token (k : SyntaxKind) (t : Text) : Open [.token k t] := ⟨trivial, rfl⟩

theorem open_indent (E : Env) (d : Nat) : Open [E.indent d] := by
  simp only [Env.indent]; cases E.defs.indentStyle <;> exact ⟨trivial, rfl⟩

theorem open_writeIndent (E : Env) (d : Nat) (skip : Bool) : Open (E.writeIndent d skip) := by
  cases skip
  · exact open_indent E d
  · exact open_nil

theorem Open.cons {p : Piece} {ps : List Piece} (hp : Open [p]) (h : Open ps) : Open (p :: ps) := hp.append h

theorem open_comment_newline {t : Text} {ps : List Piece} (h : Open ps) : Open (.comment t :: .newline :: ps) := by
  refine ⟨⟨.inr rfl, h.1⟩, ?_⟩
  cases ps with
  | nil => rfl
  | cons p ps => simpa [endsComment] using h.2

theorem open_leadingRest (E : Env) (d : Nat) (cs : List Text) : Open (E.leadingRest d cs) := by
  induction cs with
  | nil => exact open_nil
  | cons c cs ih => exact (open_indent E d).cons (open_comment_newline ih)

theorem open_leading (E : Env) (d : Nat) (skip : Bool) (cs : List Text) : Open (E.leading d skip cs) := by
  simp only [Env.leading]
  split
  · exact open_nil
  · cases cs with
    | nil => exact open_nil
    | cons c cs => exact (open_writeIndent E d skip).append (open_comment_newline (open_leadingRest E d cs))

theorem open_alignSpace (E : Env) (pre : List Piece) (al : Option Nat) : Open (E.alignSpace pre al) := by
  cases al
  · exact open_nil
  · exact open_spaces _

theorem closed_trailingComment (E : Env) (c : Text) : Closed (E.trailingComment c) := by
  simp only [Env.trailingComment]; split
  · trivial
  · exact ⟨.inl rfl, trivial⟩

theorem closed_trailing (E : Env) (pre : List Piece) (al : Option Nat) (c : Option Text) : Closed (E.trailing pre al c) := by
  cases c with
  | none => trivial
  | some c => exact closed_of_open_append (open_alignSpace E pre al) (closed_trailingComment E c)

theorem open_keyList (E : Env) (ks : List AstKey) : Open (E.keyList ks) := by
  induction ks with
  | nil => exact open_nil
  | cons k ks ih =>
    cases ks with
    | nil => exact open_token _ _
    | cons k' ks => exact (open_token _ _).cons ((open_token _ _).cons ih)

theorem open_keys (E : Env) (ks : List AstKey) (w : Option Nat) : Open (E.keys ks w) := by
  cases w with
  | none => exact open_keyList E ks
  | some w => exact (open_keyList E ks).append (open_spaces _)

theorem closed_danglingRest (E : Env) (d : Nat) (cs : List Text) :
    Closed (E.danglingRest d cs) ∧ (E.danglingRest d cs = [] ∨ (E.danglingRest d cs).head? = some .newline) := by
  induction cs with
  | nil => exact ⟨trivial, .inl rfl⟩
  | cons c cs ih => exact ⟨closed_of_open_append (open_newline.cons (open_indent E d)) ⟨ih.2, ih.1⟩, .inr rfl⟩

theorem closed_danglingGroup (E : Env) (d : Nat) (cs : List Text) : Closed (E.danglingGroup d cs) := by
  simp only [Env.danglingGroup]; split
  · trivial
  · cases cs with
    | nil => trivial
    | cons c cs =>
      exact closed_of_open_append (open_indent E d) ⟨(closed_danglingRest E d cs).2, (closed_danglingRest E d cs).1⟩

theorem open_replicate_newline (n : Nat) : Open (List.replicate n .newline) := by
  induction n with
  | zero => exact open_nil
  | succ n ih => rw [List.replicate_succ]; exact open_newline.cons ih

theorem open_separator (E : Env) (b : Nat) : Open (E.separator b) := by
  simp only [Env.separator]; split
  · exact open_newline
  · exact open_replicate_newline _

theorem separator_head (E : Env) (b : Nat) : (E.separator b).head? = some .newline := by
  simp only [Env.separator, blankLines]; split <;> rfl

theorem head_append {a b : List Piece} (h : a.head? = some .newline) : (a ++ b).head? = some .newline := by
  cases a with
  | nil => simp at h
  | cons p a => simpa using h

theorem open_before (E : Env) (written : Bool) (first : Option Nat) : Open (E.before written first) := by
  cases first with
  | none => exact open_newline
  | some blank =>
    cases written
    · exact open_nil
    · exact open_separator E blank

theorem before_head (E : Env) (written : Bool) (first : Option Nat) (h : written = true) :
    (E.before written first).head? = some .newline := by
  subst h
  cases first with
  | none => rfl
  | some blank => exact separator_head E blank

/-- What the comma writes after an item. -/
theorem closed_comma (E : Env) (pre : List Piece) (d : Nat) (al : Option Nat) (tr : Bool) (c : Option Comma) :
    Closed (E.comma pre d al tr c) ∧
    (tr = true → E.comma pre d al tr c = [] ∨ (E.comma pre d al tr c).head? = some .newline) := by
  cases c with
  | none => exact ⟨trivial, fun _ => .inl rfl⟩
  | some c =>
    constructor
    · simp only [Env.comma]
      refine closed_of_open_append (.append ?_ (open_token _ _)) (closed_trailing _ _ _ _)
      split
      · exact open_newline.cons ((open_leading E d false c.leading).append (open_indent E d))
      · split
        · exact open_newline.cons (open_indent E d)
        · exact open_nil
    · intro e; right; subst e
      simp only [Env.comma, if_true]
      split <;> rfl

mutual
theorem fmt_closed (E : Env) (hs : E.singleLine = false) (pre : List Piece) (d : Nat) (skip : Bool) (eqw al : Option Nat) :
    (n : Node) → Closed (fmt E pre d skip eqw al n) ∧ (n.trailing = none → Open (fmt E pre d skip eqw al n))
  | .lit l k t tr => by
    have ho : Open (E.leading d skip l ++ E.writeIndent d (E.skipAfter skip l) ++ [E.literal k t]) :=
      ((open_leading E d skip l).append (open_writeIndent E d _)).append (open_token _ _)
    rw [fmt]
    refine ⟨closed_of_open_append ho (closed_trailing _ _ _ _), fun h => ?_⟩
    simp only [Node.trailing] at h; subst h
    exact ho.append open_nil
  | .array l s b tr => by
    rw [fmt]
    have hh : Open (E.leading d skip l ++ E.writeIndent d (E.skipAfter skip l) ++ [.token BRACKET_START ['[']]) :=
      ((open_leading E d skip l).append (open_writeIndent E d _)).append (open_token _ _)
    generalize E.leading d skip l ++ E.writeIndent d (E.skipAfter skip l) ++ [.token BRACKET_START ['[']] = head at hh
    simp only []
    generalize tooLong E pre d skip _ true _ _ b = long
    suffices ho : Open (if (!E.singleLine && (E.arrayMultiline s b || long)) = true then
        head ++ E.trailing (pre ++ head) al s ++ [.newline]
          ++ fmtGroups E (pre ++ (head ++ E.trailing (pre ++ head) al s ++ [.newline])) (d + 1) false none al b
          ++ [.newline, E.indent d, .token BRACKET_END [']']]
      else if b.hasItem = true then
        head ++ [spaces E.defs.arrayBracketSpace]
          ++ fmtItems E (pre ++ (head ++ [spaces E.defs.arrayBracketSpace])) d true al E.defs.arrayCommaSpace b
          ++ [spaces E.defs.arrayBracketSpace, .token BRACKET_END [']']]
      else head ++ [.token BRACKET_END [']']]) by
      refine ⟨closed_of_open_append ho (closed_trailing _ _ _ _), fun h => ?_⟩
      simp only [Node.trailing] at h; subst h
      exact ho.append open_nil
    split
    · refine ⟨closed_append (closed_append (closed_append (closed_of_open_append hh (closed_trailing _ _ _ _)) open_newline.1
          (fun _ => .inr rfl)) (fmtGroups_closed E hs _ (d + 1) false none al b).1 ?_) ?_ (fun _ => .inr rfl), ?_⟩
      · intro e; rw [endsComment_append] at e; exact absurd e (by simp [endsComment])
      · exact (open_newline.cons ((open_indent E d).cons (open_token _ _))).1
      · rw [endsComment_append]; simp [endsComment]
    · split
      · rename_i hm _
        have hc : b.hasComment = false := by
          cases hb : b.hasComment
          · rfl
          · rw [Env.arrayMultiline, hb, hs] at hm; exact absurd (by simp) hm
        refine ((hh.append (open_spaces _)).append (fmtItems_open E hs _ d true al _ b ?_)).append
          ((open_spaces _).cons (open_token _ _))
        exact .inl hc
      · exact hh.append (open_token _ _)
  | .table l s b tr => by
    rw [fmt]
    have hh : Open (E.leading d skip l ++ E.writeIndent d (E.skipAfter skip l) ++ [.token BRACE_START ['{']]) :=
      ((open_leading E d skip l).append (open_writeIndent E d _)).append (open_token _ _)
    generalize E.leading d skip l ++ E.writeIndent d (E.skipAfter skip l) ++ [.token BRACE_START ['{']] = head at hh
    simp only []
    generalize (decide (E.version ≠ .V1_0_0) && tooLong E pre d skip _ true _ _ b) = long
    suffices ho : Open (if (!E.singleLine && (E.tableMultiline s b || long)) = true then
        head ++ E.trailing (pre ++ head) al s ++ [.newline]
          ++ fmtGroups E (pre ++ (head ++ E.trailing (pre ++ head) al s ++ [.newline])) (d + 1) false (E.equalWidth b) al b
          ++ [.newline, E.indent d, .token BRACE_END ['}']]
      else if b.hasItem = true then
        head ++ [spaces E.defs.inlineTableBraceSpace]
          ++ fmtItems E (pre ++ (head ++ [spaces E.defs.inlineTableBraceSpace])) d true al E.defs.inlineTableCommaSpace b
          ++ [spaces E.defs.inlineTableBraceSpace, .token BRACE_END ['}']]
      else head ++ [.token BRACE_END ['}']]) by
      refine ⟨closed_of_open_append ho (closed_trailing _ _ _ _), fun h => ?_⟩
      simp only [Node.trailing] at h; subst h
      exact ho.append open_nil
    split
    · refine ⟨closed_append (closed_append (closed_append (closed_of_open_append hh (closed_trailing _ _ _ _)) open_newline.1
          (fun _ => .inr rfl)) (fmtGroups_closed E hs _ (d + 1) false (E.equalWidth b) al b).1 ?_) ?_ (fun _ => .inr rfl), ?_⟩
      · intro e; rw [endsComment_append] at e; exact absurd e (by simp [endsComment])
      · exact (open_newline.cons ((open_indent E d).cons (open_token _ _))).1
      · rw [endsComment_append]; simp [endsComment]
    · split
      · rename_i hm _
        refine ((hh.append (open_spaces _)).append (fmtItems_open E hs _ d true al _ b ?_)).append
          ((open_spaces _).cons (open_token _ _))
        rw [hs, Env.tableMultiline] at hm
        by_cases hv : E.version = .V1_0_0
        · right
          cases hb : b.hasDirectComment
          · rfl
          · rw [if_pos hv, hb] at hm; exact absurd (by simp) hm
        · left
          cases hb : b.hasComment
          · rfl
          · rw [if_neg hv, hb] at hm; exact absurd (by simp) hm
      · exact hh.append (open_token _ _)
  | .pair l ks src v => by
    rw [fmt]
    have hh : Open (E.leading d skip l ++ E.writeIndent d (E.skipAfter skip l) ++ E.keys ks eqw
        ++ [spaces E.defs.keyValueEqualSpace, .token EQUAL ['='], spaces E.defs.keyValueEqualSpace]) :=
      (((open_leading E d skip l).append (open_writeIndent E d _)).append (open_keys E ks eqw)).append
        ((open_spaces _).cons ((open_token _ _).cons (open_spaces _)))
    have ih := fmt_closed E hs (pre ++ (E.leading d skip l ++ E.writeIndent d (E.skipAfter skip l) ++ E.keys ks eqw
        ++ [spaces E.defs.keyValueEqualSpace, .token EQUAL ['='], spaces E.defs.keyValueEqualSpace])) d true none al v
    exact ⟨closed_of_open_append hh ih.1, fun h => hh.append (ih.2 h)⟩
theorem fmtGroups_closed (E : Env) (hs : E.singleLine = false) (pre : List Piece) (d : Nat) (written : Bool)
    (eqw al : Option Nat) : (b : Body) → Closed (fmtGroups E pre d written eqw al b) ∧
      (written = true → fmtGroups E pre d written eqw al b = [] ∨ (fmtGroups E pre d written eqw al b).head? = some .newline)
  | .nil => ⟨trivial, fun _ => .inl rfl⟩
  | .dangling blank cs rest => by
    rw [fmtGroups]
    split
    · exact fmtGroups_closed E hs pre d written eqw al rest
    · constructor
      · refine closed_append ?_ (fmtGroups_closed E hs _ d true eqw al rest).1
          (fun _ => (fmtGroups_closed E hs _ d true eqw al rest).2 rfl)
        refine closed_of_open_append ?_ (closed_danglingGroup E d cs)
        split
        · exact open_separator E blank
        · exact open_nil
      · intro e; subst e; right
        exact head_append (head_append (separator_head E blank))
  | .item first n c rest => by
    rw [fmtGroups]
    have hs' := open_before E written first
    have hs2 := before_head E written first
    generalize E.before written first = sep at hs' hs2
    constructor
    · refine closed_append (closed_append (closed_of_open_append hs' (fmt_closed E hs _ d false eqw al n).1)
        (closed_comma E _ d al _ c).1 ?_) (fmtGroups_closed E hs _ d true eqw al rest).1
        (fun _ => (fmtGroups_closed E hs _ d true eqw al rest).2 rfl)
      intro e
      cases ht : n.trailing with
      | none =>
        have := (hs'.append ((fmt_closed E hs (pre ++ sep) d false eqw al n).2 ht)).2
        rw [this] at e; cases e
      | some t => exact (closed_comma E _ d al true c).2 rfl
    · intro e; right
      exact head_append (head_append (head_append (hs2 e)))
theorem fmtItems_open (E : Env) (hs : E.singleLine = false) (pre : List Piece) (d : Nat) (first : Bool) (al : Option Nat)
    (sp : Nat) : (b : Body) → (b.hasComment = false ∨ b.hasDirectComment = false) → Open (fmtItems E pre d first al sp b)
  | .nil, _ => open_nil
  | .dangling _ cs rest, h => by
    rw [fmtItems]
    refine fmtItems_open E hs pre d first al sp rest ?_
    rcases h with h | h
    · left; simp [Body.hasComment] at h; exact h.2
    · simp [Body.hasDirectComment] at h
  | .item fst n c rest, h => by
    rw [fmtItems]
    have ht : n.trailing = none := by
      rcases h with h | h
      · simp [Body.hasComment] at h
        exact trailing_none_of_noComment n h.1.1
      · simp [Body.hasDirectComment] at h
        exact h.1.1.2
    have hr : rest.hasComment = false ∨ rest.hasDirectComment = false := by
      rcases h with h | h
      · left; simp [Body.hasComment] at h; exact h.2
      · right; simp [Body.hasDirectComment] at h; exact h.2
    refine Open.append (Open.append ?_ ((fmt_closed E hs _ d true none al n).2 ht)) (fmtItems_open E hs _ d false al sp rest hr)
    cases first
    · exact (open_token _ _).cons (open_spaces _)
    · exact open_nil
theorem trailing_none_of_noComment : (n : Node) → n.hasComment = false → n.trailing = none
  | .lit _ _ _ t, h => by simp [Node.hasComment] at h; simpa [Node.trailing] using h.2
  | .array _ _ _ t, h => by simp [Node.hasComment] at h; simpa [Node.trailing] using h.2
  | .table _ _ _ t, h => by simp [Node.hasComment] at h; simpa [Node.trailing] using h.2
  | .pair _ _ _ v, h => by
    simp [Node.hasComment] at h; rw [Node.trailing]; exact trailing_none_of_noComment v h.2
end

theorem closed_tableComma (E : Env) (pre : List Piece) (d : Nat) (al : Option Nat) (tr : Bool) (c : Option Comma) :
    Closed (E.tableComma pre d al tr c) ∧
    (tr = true → E.tableComma pre d al tr c = [] ∨ (E.tableComma pre d al tr c).head? = some .newline) := by
  cases c with
  | none => exact ⟨trivial, fun _ => .inl rfl⟩
  | some c =>
    obtain ⟨l, t⟩ := c
    cases t with
    | none =>
      simp only [Env.tableComma]
      split
      · exact ⟨trivial, fun _ => .inl rfl⟩
      · refine ⟨(Open.append (open_newline.cons (open_leading E d false l)) ((open_indent E d).cons (open_token _ _))).1,
          fun _ => .inr rfl⟩
    | some t =>
      simp only [Env.tableComma]
      split
      · rename_i h
        refine ⟨closed_of_open_append (open_alignSpace E pre al) (closed_trailingComment E t), fun e => ?_⟩
        subst e; simp at h
      · refine ⟨closed_of_open_append (.append ?_ (open_alignSpace E _ al)) (closed_trailingComment E t), fun _ => .inr ?_⟩
        · refine (open_newline.cons ?_).append ((open_indent E d).cons (open_token _ _))
          split
          · exact open_nil
          · exact open_leading E d false l
        · rfl

theorem fmtPairs_closed (E : Env) (hs : E.singleLine = false) (pre : List Piece) (d : Nat) (written : Bool)
    (eqw al : Option Nat) (b : Body) : Closed (fmtPairs E pre d written eqw al b) ∧
      (written = true → fmtPairs E pre d written eqw al b = [] ∨ (fmtPairs E pre d written eqw al b).head? = some .newline) := by
  match b with
  | .nil => exact ⟨trivial, fun _ => .inl rfl⟩
  | .dangling blank cs rest =>
    rw [fmtPairs]
    split
    · exact fmtPairs_closed E hs pre d written eqw al rest
    · constructor
      · refine closed_append ?_ (fmtPairs_closed E hs _ d true eqw al rest).1
          (fun _ => (fmtPairs_closed E hs _ d true eqw al rest).2 rfl)
        refine closed_of_open_append ?_ (closed_danglingGroup E d cs)
        split
        · exact open_separator E blank
        · exact open_nil
      · intro e; subst e; right
        exact head_append (head_append (separator_head E blank))
  | .item first n c rest =>
    rw [fmtPairs]
    have hs' := open_before E written first
    have hs2 := before_head E written first
    generalize E.before written first = sep at hs' hs2
    generalize E.nextEqualWidth eqw first (n :: rest.continued) = eqw
    generalize E.nextAlignWidth d eqw al first (n :: rest.continued) = al
    constructor
    · refine closed_append (closed_append (closed_of_open_append hs' (fmt_closed E hs _ d false eqw al n).1)
        (closed_tableComma E _ d al _ c).1 ?_) (fmtPairs_closed E hs _ d true eqw al rest).1
        (fun _ => (fmtPairs_closed E hs _ d true eqw al rest).2 rfl)
      intro e
      cases ht : n.trailing with
      | none =>
        have := (hs'.append ((fmt_closed E hs (pre ++ sep) d false eqw al n).2 ht)).2
        rw [this] at e; cases e
      | some t => exact (closed_tableComma E _ d al true c).2 rfl
    · intro e; right
      exact head_append (head_append (head_append (hs2 e)))

theorem fmtSection_closed (E : Env) (hs : E.singleLine = false) (pre : List Piece) (preceding : List (List AstKey))
    (s : Section) : Closed (fmtSection E pre preceding s) := by
  simp only [fmtSection]
  generalize (if E.defs.indentSubTables = true then parentCount E.version preceding s.header else 0) = d
  have hh : Closed (E.leading d false s.leading ++ [E.indent d]
    ++ (if s.isArray = true then [.token DOUBLE_BRACKET_START ['[', '[']] else [.token BRACKET_START ['[']])
    ++ E.keys s.header none
    ++ (if s.isArray = true then [.token DOUBLE_BRACKET_END [']', ']']] else [.token BRACKET_END [']']])
    ++ E.trailing [] none s.trailing) := by
    refine closed_of_open_append ?_ (closed_trailing _ _ _ _)
    refine ((((open_leading E d false s.leading).append (open_indent E d)).append ?_).append (open_keys _ _ _)).append ?_
    all_goals split <;> exact open_token _ _
  split
  · exact hh
  · refine closed_append (closed_append hh open_newline.1 (fun _ => .inr rfl)) (fmtPairs_closed E hs _ _ _ _ _ _).1 ?_
    intro e; rw [endsComment_append] at e; exact absurd e (by simp [endsComment])

theorem fmtSections_closed (E : Env) (hs : E.singleLine = false) (pre : List Piece) (preceding : List (List AstKey))
    (prev : Section) (ss : List Section) : Closed (fmtSections E pre preceding prev ss) ∧
      (fmtSections E pre preceding prev ss = [] ∨ (fmtSections E pre preceding prev ss).head? = some .newline) := by
  induction ss generalizing pre preceding prev with
  | nil => exact ⟨trivial, .inl rfl⟩
  | cons s ss ih =>
    rw [fmtSections]
    refine ⟨?_, .inr rfl⟩
    refine closed_append (closed_of_open_append ?_ (fmtSection_closed E hs _ _ s)) (ih _ _ _).1 (fun _ => (ih _ _ _).2)
    refine open_newline.cons ?_
    split
    · exact open_replicate_newline _
    · exact open_nil

theorem fmtDoc_closed (E : Env) (hs : E.singleLine = false) (doc : Doc) : Closed (fmtDoc E doc) := by
  simp only [fmtDoc]
  have hb := (fmtPairs_closed E hs [] 0 false none none doc.body).1
  split
  · exact hb
  · refine closed_append (closed_append (closed_append hb ?_ ?_) (fmtSection_closed E hs _ _ _) ?_)
      (fmtSections_closed E hs _ _ _ _).1 (fun _ => (fmtSections_closed E hs _ _ _ _).2)
    · rw [Env.rootSeparator]; split
      · trivial
      · exact (open_replicate_newline _).1
    · intro e
      rw [Env.rootSeparator]; split
      · exact .inl rfl
      · exact .inr rfl
    · intro e; rw [endsComment_append, Env.rootSeparator] at e
      cases hd : doc.body.isEmpty with
      | true =>
        have : doc.body = .nil := by
          cases hb : doc.body with
          | nil => rfl
          | _ => rw [hb] at hd; cases hd
        rw [this, fmtPairs] at e; simp [Body.isEmpty, endsComment] at e
      | false =>
        rw [hd] at e
        simp only [Bool.false_eq_true, if_false, blankLines] at e
        rw [(open_replicate_newline _).2, if_neg (by simp [List.replicate_succ])] at e
        cases e

/-! ### words are kept -/

/-- The words among the pieces. -/
def wordsOf (ps : List Piece) : List Piece := ps.filter Piece.isWord

theorem wordsOf_append (a b : List Piece) : wordsOf (a ++ b) = wordsOf a ++ wordsOf b := List.filter_append ..
theorem wordsOf_cons (p : Piece) (b : List Piece) : wordsOf (p :: b) = wordsOf [p] ++ wordsOf b := wordsOf_append [p] b

theorem wordsOf_word (p : Piece) (h : p.isWord = true) : wordsOf [p] = [p] := List.filter_cons_of_pos h

theorem wordsOf_spaces (n : Nat) : wordsOf [spaces n] = [] := rfl
theorem wordsOf_newline : wordsOf [.newline] = [] := rfl
theorem wordsOf_indent (E : Env) (d : Nat) : wordsOf [E.indent d] = [] := by
  simp only [Env.indent]; cases E.defs.indentStyle <;> rfl
theorem wordsOf_writeIndent (E : Env) (d : Nat) (s : Bool) : wordsOf (E.writeIndent d s) = [] := by
  cases s
  · exact wordsOf_indent E d
  · rfl
theorem wordsOf_comment (t : Text) : wordsOf [.comment t] = [.comment t] := rfl
theorem wordsOf_comma (t : Text) : wordsOf [.token COMMA t] = [] := rfl
theorem wordsOf_replicate (n : Nat) : wordsOf (List.replicate n .newline) = [] := by
  induction n with
  | zero => rfl
  | succ n ih => rw [List.replicate_succ, wordsOf_cons, ih]; rfl
theorem wordsOf_separator (E : Env) (b : Nat) : wordsOf (E.separator b) = [] := by
  simp only [Env.separator]; split
  · rfl
  · exact wordsOf_replicate _
theorem wordsOf_before (E : Env) (w : Bool) (f : Option Nat) : wordsOf (E.before w f) = [] := by
  cases f with
  | none => rfl
  | some b =>
    cases w
    · rfl
    · exact wordsOf_separator E b

theorem wordsOf_leadingRest (E : Env) (d : Nat) (cs : List Text) :
    wordsOf (E.leadingRest d cs) = (cs.map (.comment false)).map E.write := by
  induction cs with
  | nil => rfl
  | cons c cs ih =>
    rw [Env.leadingRest, wordsOf_cons, wordsOf_indent, wordsOf_cons, wordsOf_comment, wordsOf_cons, ih]; rfl

theorem wordsOf_leading (E : Env) (hc : E.skipComment = false) (d : Nat) (s : Bool) (cs : List Text) :
    wordsOf (E.leading d s cs) = (commentWords cs).map E.write := by
  simp only [Env.leading, hc, Bool.false_eq_true, if_false]
  cases cs with
  | nil => rfl
  | cons c cs =>
    simp only []
    rw [wordsOf_append, wordsOf_writeIndent, wordsOf_cons, wordsOf_comment, wordsOf_cons, wordsOf_leadingRest]; rfl

theorem wordsOf_alignSpace (E : Env) (pre : List Piece) (al : Option Nat) : wordsOf (E.alignSpace pre al) = [] := by
  cases al <;> rfl

theorem wordsOf_trailingComment (E : Env) (hc : E.skipComment = false) (c : Text) :
    wordsOf (E.trailingComment c) = (trailingWords (some c)).map E.write := by
  simp only [Env.trailingComment, hc]; rfl

theorem wordsOf_trailing (E : Env) (hc : E.skipComment = false) (pre : List Piece) (al : Option Nat) (c : Option Text) :
    wordsOf (E.trailing pre al c) = (trailingWords c).map E.write := by
  cases c with
  | none => rfl
  | some c => rw [Env.trailing, wordsOf_append, wordsOf_alignSpace, wordsOf_trailingComment E hc]; rfl

theorem wordsOf_danglingRest (E : Env) (d : Nat) (cs : List Text) :
    wordsOf (E.danglingRest d cs) = (cs.map (.comment false)).map E.write := by
  induction cs with
  | nil => rfl
  | cons c cs ih =>
    rw [Env.danglingRest, wordsOf_cons, wordsOf_newline, wordsOf_cons, wordsOf_indent, wordsOf_cons, wordsOf_comment, ih]; rfl

theorem wordsOf_danglingGroup (E : Env) (hc : E.skipComment = false) (d : Nat) (cs : List Text) :
    wordsOf (E.danglingGroup d cs) = (commentWords cs).map E.write := by
  simp only [Env.danglingGroup, hc, Bool.false_eq_true, if_false]
  cases cs with
  | nil => rfl
  | cons c cs =>
    simp only []
    rw [wordsOf_cons, wordsOf_indent, wordsOf_cons, wordsOf_comment, wordsOf_danglingRest]; rfl

/-- A key is not a comma. -/
theorem keyKind_ne (E : Env) (k : AstKey) : wordsOf [E.key k] = [E.key k] := by
  have h : ∀ (t : Text) (k : AstKey), writtenKind t (keyKind k) ≠ COMMA := by
    intro t k; cases k <;> simp only [keyKind, writtenKind] <;> first | decide | (split <;> first | decide | simp_all)
  exact wordsOf_word _ (by simpa [Env.key, Piece.isWord] using h _ k)

theorem wordsOf_keyList (E : Env) (ks : List AstKey) : wordsOf (E.keyList ks) = (keyWords ks).map E.write := by
  induction ks with
  | nil => rfl
  | cons k ks ih =>
    cases ks with
    | nil => exact keyKind_ne E k
    | cons k' ks =>
      rw [Env.keyList, wordsOf_cons, keyKind_ne, wordsOf_cons, ih]
      · rfl
      · simp

theorem wordsOf_keys (E : Env) (ks : List AstKey) (w : Option Nat) : wordsOf (E.keys ks w) = (keyWords ks).map E.write := by
  cases w with
  | none => exact wordsOf_keyList E ks
  | some w => rw [Env.keys, wordsOf_append, wordsOf_spaces, List.append_nil, wordsOf_keyList]

theorem writtenKind_ne (t : Text) (k : SyntaxKind) (h : k ≠ COMMA) : writtenKind t k ≠ COMMA := by
  simp only [writtenKind]
  split
  · decide
  · decide
  · exact h

theorem wordsOf_literal (E : Env) (k : SyntaxKind) (t : Text) (h : k ≠ COMMA) :
    wordsOf [E.literal k t] = [E.write (.literal k t)] := by
  exact wordsOf_word _ (by simpa [Env.literal, Piece.isWord] using writtenKind_ne _ k h)

theorem wordsOf_commaPiece (E : Env) (hc : E.skipComment = false) (pre : List Piece) (d : Nat) (al : Option Nat) (tr : Bool)
    (c : Option Comma) : wordsOf (E.comma pre d al tr c) = (commaWords c).map E.write := by
  cases c with
  | none => rfl
  | some c =>
    simp only [Env.comma, commaWords, List.map_append]
    rw [wordsOf_append, wordsOf_trailing E hc, wordsOf_append, wordsOf_comma, List.append_nil]
    congr 1
    split
    · rw [List.cons_append, wordsOf_cons, wordsOf_append, wordsOf_leading E hc, wordsOf_indent]; simp [wordsOf_newline]
    · rename_i h
      have : c.leading = [] := by simpa using h
      rw [this]
      split
      · rw [wordsOf_cons, wordsOf_indent]; rfl
      · rfl

theorem wordsOf_tableComma (E : Env) (hc : E.skipComment = false) (pre : List Piece) (d : Nat) (al : Option Nat) (tr : Bool)
    (c : Option Comma) : wordsOf (E.tableComma pre d al tr c) = (commaWords c).map E.write := by
  cases c with
  | none => rfl
  | some c =>
    obtain ⟨l, t⟩ := c
    cases t with
    | none =>
      simp only [Env.tableComma, commaWords, trailingWords, List.append_nil]
      split
      · rename_i h; have : l = [] := by simpa using h
        rw [this]; rfl
      · rw [List.cons_append, wordsOf_cons, wordsOf_append, wordsOf_leading E hc, wordsOf_cons (E.indent d), wordsOf_indent]
        simp [wordsOf_newline, wordsOf_comma]
    | some t =>
      simp only [Env.tableComma, commaWords, List.map_append]
      split
      · rename_i h
        have : l = [] := by simp at h; exact h.1
        rw [this, wordsOf_append, wordsOf_alignSpace, wordsOf_trailingComment E hc]; rfl
      · rw [wordsOf_append, wordsOf_append, wordsOf_alignSpace, wordsOf_trailingComment E hc, List.append_nil]
        congr 1
        rw [List.cons_append, wordsOf_cons, wordsOf_append, wordsOf_cons (E.indent d), wordsOf_indent]
        split
        · rename_i h; have : l = [] := by simpa using h
          rw [this]; rfl
        · rw [wordsOf_leading E hc]; simp [wordsOf_newline, wordsOf_comma]

/-- No literal is a comma (no literal of a parsed document is). -/
def Word.isComma : Word → Bool
  | .literal k _ => k == COMMA
  | _ => false

/-- No word is a comma. -/
def NoComma (ws : List Word) : Prop := ∀ w ∈ ws, w.isComma = false

theorem NoComma.left {a b : List Word} (h : NoComma (a ++ b)) : NoComma a := fun w hw => h w (by simp [hw])
theorem NoComma.right {a b : List Word} (h : NoComma (a ++ b)) : NoComma b := fun w hw => h w (by simp [hw])
theorem NoComma.tail {a : Word} {b : List Word} (h : NoComma (a :: b)) : NoComma b := fun w hw => h w (by simp [hw])

mutual
theorem leading_words_of_noComment : (n : Node) → n.hasComment = false → n.leading = []
  | .lit _ _ _ t, h => by simp [Node.hasComment] at h; simp [Node.leading, h]
  | .array _ _ _ t, h => by simp [Node.hasComment] at h; simp [Node.leading, h]
  | .table _ _ _ t, h => by simp [Node.hasComment] at h; simp [Node.leading, h]
  | .pair _ _ _ v, h => by simp [Node.hasComment] at h; simp [Node.leading, h]
end

theorem commaWords_of_noComment {c : Option Comma} (h : commaHasComment c = false) : commaWords c = [] := by
  cases c with
  | none => rfl
  | some c => simp [commaHasComment] at h; simp [commaWords, h, commentWords, trailingWords]

mutual
theorem fmt_words (E : Env) (hs : E.singleLine = false) (hc : E.skipComment = false) (pre : List Piece) (d : Nat)
    (skip : Bool) (eqw al : Option Nat) :
    (n : Node) → NoComma n.words → wordsOf (fmt E pre d skip eqw al n) = n.words.map E.write
  | .lit l k t tr, h => by
    rw [fmt]
    have hk : k ≠ COMMA := by
      intro e
      have := h (.literal k t) (by simp [Node.words])
      subst e; cases this
    rw [wordsOf_append, wordsOf_append, wordsOf_append, wordsOf_leading E hc, wordsOf_writeIndent, wordsOf_literal E k t hk,
      wordsOf_trailing E hc]
    simp [Node.words]
  | .array l s b tr, h => by
    rw [fmt]
    have hh : wordsOf (E.leading d skip l ++ E.writeIndent d (E.skipAfter skip l) ++ [.token BRACKET_START ['[']]) =
        (commentWords l ++ [Word.mark BRACKET_START]).map E.write := by
      rw [wordsOf_append, wordsOf_append, wordsOf_leading E hc, wordsOf_writeIndent]; simp; rfl
    generalize E.leading d skip l ++ E.writeIndent d (E.skipAfter skip l) ++ [.token BRACKET_START ['[']] = head at hh
    simp only []
    generalize tooLong E pre d skip _ true _ _ b = long
    rw [wordsOf_append, wordsOf_trailing E hc]
    have hb : NoComma b.words := by
      intro w hw; exact h w (by simp [Node.words, hw])
    suffices ho : wordsOf (if (!E.singleLine && (E.arrayMultiline s b || long)) = true then
        head ++ E.trailing (pre ++ head) al s ++ [.newline]
          ++ fmtGroups E (pre ++ (head ++ E.trailing (pre ++ head) al s ++ [.newline])) (d + 1) false none al b
          ++ [.newline, E.indent d, .token BRACKET_END [']']]
      else if b.hasItem = true then
        head ++ [spaces E.defs.arrayBracketSpace]
          ++ fmtItems E (pre ++ (head ++ [spaces E.defs.arrayBracketSpace])) d true al E.defs.arrayCommaSpace b
          ++ [spaces E.defs.arrayBracketSpace, .token BRACKET_END [']']]
      else head ++ [.token BRACKET_END [']']]) =
      (commentWords l ++ Word.mark BRACKET_START :: trailingWords s ++ b.words ++ [Word.mark BRACKET_END]).map E.write by
      rw [ho, ← List.map_append]; simp [Node.words]
    split
    · rw [wordsOf_append, wordsOf_append, wordsOf_append, wordsOf_append, wordsOf_cons .newline [_, _],
        wordsOf_cons (E.indent d), wordsOf_indent, wordsOf_newline, hh, wordsOf_trailing E hc,
        fmtGroups_words E hs hc _ _ _ _ _ b hb]
      simp; rfl
    · rename_i hm
      rw [hs, Env.arrayMultiline] at hm
      have hcm : b.hasComment = false ∧ s = none := by
        cases hb : b.hasComment <;> cases s <;> simp_all
      rw [hcm.2]
      split
      · rw [wordsOf_append, wordsOf_append, wordsOf_append, hh, wordsOf_spaces, wordsOf_cons, wordsOf_spaces,
          fmtItems_words E hs hc _ _ _ _ _ b hb (.inl hcm.1)]
        simp [trailingWords]; rfl
      · rename_i hi
        rw [words_of_noItem b (.inl hcm.1) (by simpa using hi), wordsOf_append, hh]
        simp [trailingWords]; rfl
  | .table l s b tr, h => by
    rw [fmt]
    have hh : wordsOf (E.leading d skip l ++ E.writeIndent d (E.skipAfter skip l) ++ [.token BRACE_START ['{']]) =
        (commentWords l ++ [Word.mark BRACE_START]).map E.write := by
      rw [wordsOf_append, wordsOf_append, wordsOf_leading E hc, wordsOf_writeIndent]; simp; rfl
    generalize E.leading d skip l ++ E.writeIndent d (E.skipAfter skip l) ++ [.token BRACE_START ['{']] = head at hh
    simp only []
    generalize (decide (E.version ≠ .V1_0_0) && tooLong E pre d skip _ true _ _ b) = long
    rw [wordsOf_append, wordsOf_trailing E hc]
    have hb : NoComma b.words := by
      intro w hw; exact h w (by simp [Node.words, hw])
    suffices ho : wordsOf (if (!E.singleLine && (E.tableMultiline s b || long)) = true then
        head ++ E.trailing (pre ++ head) al s ++ [.newline]
          ++ fmtGroups E (pre ++ (head ++ E.trailing (pre ++ head) al s ++ [.newline])) (d + 1) false (E.equalWidth b) al b
          ++ [.newline, E.indent d, .token BRACE_END ['}']]
      else if b.hasItem = true then
        head ++ [spaces E.defs.inlineTableBraceSpace]
          ++ fmtItems E (pre ++ (head ++ [spaces E.defs.inlineTableBraceSpace])) d true al E.defs.inlineTableCommaSpace b
          ++ [spaces E.defs.inlineTableBraceSpace, .token BRACE_END ['}']]
      else head ++ [.token BRACE_END ['}']]) =
      (commentWords l ++ Word.mark BRACE_START :: trailingWords s ++ b.words ++ [Word.mark BRACE_END]).map E.write by
      rw [ho, ← List.map_append]; simp [Node.words]
    split
    · rw [wordsOf_append, wordsOf_append, wordsOf_append, wordsOf_append, wordsOf_cons .newline [_, _],
        wordsOf_cons (E.indent d), wordsOf_indent, wordsOf_newline, hh, wordsOf_trailing E hc,
        fmtGroups_words E hs hc _ _ _ _ _ b hb]
      simp; rfl
    · rename_i hm
      rw [hs, Env.tableMultiline] at hm
      have hcm : (b.hasComment = false ∨ b.hasDirectComment = false) ∧ s = none := by
        by_cases hv : E.version = .V1_0_0
        · rw [if_pos hv] at hm
          cases hb : b.hasDirectComment <;> cases s <;> simp_all
        · rw [if_neg hv] at hm
          cases hb : b.hasComment <;> cases s <;> simp_all
      rw [hcm.2]
      split
      · rw [wordsOf_append, wordsOf_append, wordsOf_append, hh, wordsOf_spaces, wordsOf_cons, wordsOf_spaces,
          fmtItems_words E hs hc _ _ _ _ _ b hb hcm.1]
        simp [trailingWords]; rfl
      · rename_i hi
        rw [words_of_noItem b hcm.1 (by simpa using hi), wordsOf_append, hh]
        simp [trailingWords]; rfl
  | .pair l ks src v, h => by
    rw [fmt]
    have hv : NoComma v.words := by
      intro w hw; exact h w (by simp [Node.words, hw])
    rw [wordsOf_append, wordsOf_append, wordsOf_append, wordsOf_append, wordsOf_leading E hc, wordsOf_writeIndent,
      wordsOf_keys, wordsOf_cons, wordsOf_spaces, wordsOf_cons, wordsOf_spaces, fmt_words E hs hc _ _ _ _ _ v hv]
    simp [Node.words]; rfl
theorem fmtGroups_words (E : Env) (hs : E.singleLine = false) (hc : E.skipComment = false) (pre : List Piece) (d : Nat)
    (written : Bool) (eqw al : Option Nat) :
    (b : Body) → NoComma b.words → wordsOf (fmtGroups E pre d written eqw al b) = b.words.map E.write
  | .nil, _ => rfl
  | .dangling blank cs rest, h => by
    rw [fmtGroups]
    rw [Body.words] at h
    simp only [hc, Bool.false_eq_true, if_false]
    rw [wordsOf_append, wordsOf_append, wordsOf_danglingGroup E hc, fmtGroups_words E hs hc _ _ _ _ _ rest h.right]
    have : wordsOf (if written = true then E.separator blank else []) = [] := by
      split
      · exact wordsOf_separator E blank
      · rfl
    rw [this]; simp [Body.words]
  | .item first n c rest, h => by
    rw [fmtGroups]
    rw [Body.words] at h
    rw [wordsOf_append, wordsOf_append, wordsOf_append, wordsOf_before, fmt_words E hs hc _ _ _ _ _ n h.left.left,
      wordsOf_commaPiece E hc, fmtGroups_words E hs hc _ _ _ _ _ rest h.right]
    simp [Body.words]
theorem fmtItems_words (E : Env) (hs : E.singleLine = false) (hc : E.skipComment = false) (pre : List Piece) (d : Nat)
    (first : Bool) (al : Option Nat) (sp : Nat) :
    (b : Body) → NoComma b.words → (b.hasComment = false ∨ b.hasDirectComment = false) →
      wordsOf (fmtItems E pre d first al sp b) = b.words.map E.write
  | .nil, _, _ => rfl
  | .dangling _ cs rest, h, hn => by
    rw [fmtItems]
    rw [Body.words] at h ⊢
    rcases hn with hn | hn
    · simp [Body.hasComment] at hn
      rw [fmtItems_words E hs hc _ _ _ _ _ rest h.right (.inl hn.2), hn.1]; rfl
    · simp [Body.hasDirectComment] at hn
  | .item fst n c rest, h, hn => by
    rw [fmtItems]
    rw [Body.words] at h ⊢
    have hcm : commaHasComment c = false := by
      rcases hn with hn | hn
      · simp [Body.hasComment] at hn; exact hn.1.2
      · simp [Body.hasDirectComment] at hn; exact hn.1.2
    have hr : rest.hasComment = false ∨ rest.hasDirectComment = false := by
      rcases hn with hn | hn
      · left; simp [Body.hasComment] at hn; exact hn.2
      · right; simp [Body.hasDirectComment] at hn; exact hn.2
    rw [wordsOf_append, wordsOf_append, fmt_words E hs hc _ _ _ _ _ n h.left.left,
      fmtItems_words E hs hc _ _ _ _ _ rest h.right hr, commaWords_of_noComment hcm]
    have : wordsOf (if first = true then [] else [.token COMMA [','], spaces sp]) = [] := by
      cases first <;> rfl
    rw [this]; simp
theorem words_of_noItem : (b : Body) → (b.hasComment = false ∨ b.hasDirectComment = false) → b.hasItem = false → b.words = []
  | .nil, _, _ => rfl
  | .dangling _ cs rest, hn, hi => by
    rcases hn with hn | hn
    · simp [Body.hasComment] at hn
      rw [Body.words, hn.1, words_of_noItem rest (.inl hn.2) (by simpa [Body.hasItem] using hi)]; rfl
    · simp [Body.hasDirectComment] at hn
  | .item _ _ _ _, _, hi => by simp [Body.hasItem] at hi
end

theorem fmtPairs_words (E : Env) (hs : E.singleLine = false) (hc : E.skipComment = false) (pre : List Piece) (d : Nat)
    (written : Bool) (eqw al : Option Nat) (b : Body) (h : NoComma b.words) :
    wordsOf (fmtPairs E pre d written eqw al b) = b.words.map E.write := by
  match b with
  | .nil => rfl
  | .dangling blank cs rest =>
    rw [fmtPairs]
    rw [Body.words] at h
    simp only [hc, Bool.false_eq_true, if_false]
    rw [wordsOf_append, wordsOf_append, wordsOf_danglingGroup E hc, fmtPairs_words E hs hc _ _ _ _ _ rest h.right]
    have : wordsOf (if written = true then E.separator blank else []) = [] := by
      split
      · exact wordsOf_separator E blank
      · rfl
    rw [this]; simp [Body.words]
  | .item first n c rest =>
    rw [fmtPairs]
    rw [Body.words] at h
    rw [wordsOf_append, wordsOf_append, wordsOf_append, wordsOf_before, fmt_words E hs hc _ _ _ _ _ n h.left.left,
      wordsOf_tableComma E hc, fmtPairs_words E hs hc _ _ _ _ _ rest h.right]
    simp [Body.words]

theorem fmtSection_words (E : Env) (hs : E.singleLine = false) (hc : E.skipComment = false) (pre : List Piece)
    (preceding : List (List AstKey)) (s : Section) (h : NoComma s.words) :
    wordsOf (fmtSection E pre preceding s) = s.words.map E.write := by
  have hb : NoComma s.body.words := by
    intro w hw; exact h w (by simp [Section.words, hw])
  simp only [fmtSection]
  generalize (if E.defs.indentSubTables = true then parentCount E.version preceding s.header else 0) = d
  have hh : wordsOf (E.leading d false s.leading ++ [E.indent d]
    ++ (if s.isArray = true then [.token DOUBLE_BRACKET_START ['[', '[']] else [.token BRACKET_START ['[']])
    ++ E.keys s.header none
    ++ (if s.isArray = true then [.token DOUBLE_BRACKET_END [']', ']']] else [.token BRACKET_END [']']])
    ++ E.trailing [] none s.trailing) = (commentWords s.leading ++ Word.mark (if s.isArray then DOUBLE_BRACKET_START else BRACKET_START) :: keyWords s.header ++
    Word.mark (if s.isArray then DOUBLE_BRACKET_END else BRACKET_END) :: trailingWords s.trailing).map E.write := by
    simp only [wordsOf_append, wordsOf_leading E hc, wordsOf_indent, wordsOf_keys, wordsOf_trailing E hc]
    cases s.isArray <;> simp <;> rfl
  split
  · rename_i he
    have : s.body = .nil := by
      cases hb : s.body with
      | nil => rfl
      | _ => rw [hb] at he; cases he
    rw [hh, Section.words, this]; simp [Body.words]
  · rw [wordsOf_append, wordsOf_append, hh, fmtPairs_words E hs hc _ _ _ _ _ _ hb]; simp [Section.words, wordsOf_newline]

theorem fmtSections_words (E : Env) (hs : E.singleLine = false) (hc : E.skipComment = false) (pre : List Piece)
    (preceding : List (List AstKey)) (prev : Section) (ss : List Section) (h : ∀ s ∈ ss, NoComma s.words) :
    wordsOf (fmtSections E pre preceding prev ss) = (ss.map Section.words).flatten.map E.write := by
  induction ss generalizing pre preceding prev with
  | nil => rfl
  | cons s ss ih =>
    rw [fmtSections]
    rw [wordsOf_append, wordsOf_append, wordsOf_cons, wordsOf_newline, fmtSection_words E hs hc _ _ s (h s (by simp)),
      ih _ _ _ (fun s hs => h s (by simp [hs]))]
    have : wordsOf (if blankBetween prev s = true then List.replicate E.defs.tableBlankLines .newline else []) = [] := by
      split
      · exact wordsOf_replicate _
      · rfl
    rw [this]; simp

theorem fmtDoc_words (E : Env) (hs : E.singleLine = false) (hc : E.skipComment = false) (doc : Doc) (h : NoComma doc.words) :
    wordsOf (fmtDoc E doc) = doc.words.map E.write := by
  simp only [fmtDoc, Doc.words]
  rw [Doc.words] at h
  cases hd : doc.sections with
  | nil => rw [fmtPairs_words E hs hc _ _ _ _ _ _ h.left]; simp
  | cons s ss =>
    rw [hd] at h
    simp only [List.map_cons, List.flatten_cons] at h ⊢
    have hss : ∀ s ∈ ss, NoComma s.words := by
      intro s' hs' w hw
      exact h w (by simp only [List.mem_append, List.mem_flatten, List.mem_map]; exact .inr (.inr ⟨_, ⟨s', hs', rfl⟩, hw⟩))
    rw [wordsOf_append, wordsOf_append, wordsOf_append, fmtPairs_words E hs hc _ _ _ _ _ _ h.left,
      fmtSection_words E hs hc _ _ s h.right.left, fmtSections_words E hs hc _ _ _ _ hss]
    have : wordsOf (E.rootSeparator doc.body s) = [] := by
      rw [Env.rootSeparator]; split
      · rfl
      · exact wordsOf_replicate _
    rw [this]; simp

end Tombi.Formatter
