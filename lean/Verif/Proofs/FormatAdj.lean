import Verif.Proofs.Relex2
import Verif.Proofs.Formatter
/-! What the formatter writes behind a word ends the word. -/
namespace Tombi.Formatter
open SyntaxKind
open Tombi.Format (AstKey)

/-- May be followed by anything. -/
def AdjB (ps : List Piece) : Prop := ∀ rest, Adj rest → Adj (ps ++ rest)
/-- May be followed by anything that ends a word. -/
def AdjA (ps : List Piece) : Prop := ∀ rest, Stops false rest → Adj rest → Adj (ps ++ rest)
/-- May be followed by anything that ends a bare key. -/
def AdjK (ps : List Piece) : Prop := ∀ rest, Stops true rest → Adj rest → Adj (ps ++ rest)
/-- Ends a word, if what follows does. -/
def AdjS (ps : List Piece) : Prop := ∀ b rest, Stops b rest → Stops b (ps ++ rest)

theorem Stops.mono {b : Bool} {ps : List Piece} (h : Stops true ps) : Stops b ps := by
  induction ps with
  | nil => trivial
  | cons p ps ih =>
    cases p with
    | blank t => exact ih h
    | newline => trivial
    | comment t => trivial
    | token k t => exact ⟨h.1, fun _ => h.2 rfl⟩

theorem AdjB.a {ps : List Piece} (h : AdjB ps) : AdjA ps := fun rest _ hr => h rest hr

theorem AdjB.app {a b : List Piece} (ha : AdjB a) (hb : AdjB b) : AdjB (a ++ b) := by
  intro rest hr
  rw [List.append_assoc]
  exact ha _ (hb _ hr)

theorem AdjB.appA {a b : List Piece} (ha : AdjB a) (hb : AdjA b) : AdjA (a ++ b) := by
  intro rest hs hr
  rw [List.append_assoc]
  exact ha _ (hb _ hs hr)

theorem AdjA.app {a b : List Piece} (ha : AdjA a) (hb : AdjA b) (hs : AdjS b) : AdjA (a ++ b) := by
  intro rest h hr
  rw [List.append_assoc]
  exact ha _ (hs _ _ h) (hb _ h hr)

/-- A word and what surely ends it. -/
theorem AdjA.appB {a b : List Piece} (ha : AdjA a) (hb : AdjB b) (hs : ∀ rest, Stops false (b ++ rest)) : AdjB (a ++ b) := by
  intro rest hr
  rw [List.append_assoc]
  exact ha _ (hs _) (hb _ hr)

theorem AdjS.app {a b : List Piece} (ha : AdjS a) (hb : AdjS b) : AdjS (a ++ b) := by
  intro x rest h
  rw [List.append_assoc]
  exact ha _ _ (hb _ _ h)

theorem AdjB.appK {a b : List Piece} (ha : AdjB a) (hb : AdjK b) : AdjK (a ++ b) := by
  intro rest hs hr
  rw [List.append_assoc]
  exact ha _ (hb _ hs hr)

/-- A key and what surely ends it. -/
theorem AdjK.appB {a b : List Piece} (ha : AdjK a) (hb : AdjB b) (hs : ∀ rest, Stops true (b ++ rest)) : AdjB (a ++ b) := by
  intro rest hr
  rw [List.append_assoc]
  exact ha _ (hs _) (hb _ hr)

theorem adjB_nil : AdjB [] := fun _ h => h
theorem adjS_nil : AdjS [] := fun _ _ h => h
theorem adjB_newline : AdjB [.newline] := fun _ h => h
theorem adjS_newline (ps : List Piece) : AdjS (.newline :: ps) := fun _ _ _ => trivial
theorem adjB_comment (t : Text) : AdjB [.comment t] := fun _ h => h
theorem adjS_comment (t : Text) (ps : List Piece) : AdjS (.comment t :: ps) := fun _ _ _ => trivial
theorem adjB_mark {k : SyntaxKind} (h : isMark k = true) : AdjB [.token k (markOf k)] := by
  intro rest hr
  refine ⟨?_, hr⟩
  rw [if_pos h]

theorem adjB_blank {t : Text} (h : ∀ c ∈ t, isWhitespace c = true) : AdjB [.blank t] := fun _ hr => ⟨h, hr⟩
theorem adjS_blank (t : Text) : AdjS [.blank t] := fun _ _ h => h

theorem adjB_spaces (n : Nat) : AdjB [spaces n] := by
  refine adjB_blank fun c hc => ?_
  rw [List.eq_of_mem_replicate hc]
  decide

theorem adjS_spaces (n : Nat) : AdjS [spaces n] := adjS_blank _

theorem adjB_indent (E : Env) (d : Nat) : AdjB [E.indent d] := by
  unfold Env.indent
  split
  · exact adjB_spaces _
  · refine adjB_blank fun c hc => ?_
    rw [List.eq_of_mem_replicate hc]
    decide

theorem adjB_writeIndent (E : Env) (d : Nat) (skip : Bool) : AdjB (E.writeIndent d skip) := by
  cases skip
  · exact adjB_indent E d
  · exact adjB_nil

theorem AdjB.cons {p : Piece} {ps : List Piece} (hp : AdjB [p]) (h : AdjB ps) : AdjB (p :: ps) := hp.app h

theorem adjB_leadingRest (E : Env) (d : Nat) (cs : List Text) : AdjB (E.leadingRest d cs) := by
  induction cs with
  | nil => exact adjB_nil
  | cons c cs ih => exact (adjB_indent E d).cons ((adjB_comment _).cons (adjB_newline.cons ih))

theorem adjB_leading (E : Env) (d : Nat) (skip : Bool) (cs : List Text) : AdjB (E.leading d skip cs) := by
  simp only [Env.leading]
  split
  · exact adjB_nil
  · cases cs with
    | nil => exact adjB_nil
    | cons c cs => exact (adjB_writeIndent E d skip).app ((adjB_comment _).cons (adjB_newline.cons (adjB_leadingRest E d cs)))

theorem adjB_alignSpace (E : Env) (pre : List Piece) (al : Option Nat) : AdjB (E.alignSpace pre al) := by
  cases al
  · exact adjB_nil
  · exact adjB_spaces _

theorem adjS_alignSpace (E : Env) (pre : List Piece) (al : Option Nat) : AdjS (E.alignSpace pre al) := by
  cases al
  · exact adjS_nil
  · exact adjS_spaces _

theorem adjB_trailingComment (E : Env) (c : Text) : AdjB (E.trailingComment c) := by
  simp only [Env.trailingComment]; split
  · exact adjB_nil
  · exact (adjB_spaces _).cons (adjB_comment _)

theorem adjS_trailingComment (E : Env) (c : Text) : AdjS (E.trailingComment c) := by
  simp only [Env.trailingComment]; split
  · exact adjS_nil
  · exact (adjS_spaces _).app (adjS_comment _ _)

theorem adjB_trailing (E : Env) (pre : List Piece) (al : Option Nat) (c : Option Text) : AdjB (E.trailing pre al c) := by
  cases c with
  | none => exact adjB_nil
  | some c => exact (adjB_alignSpace E pre al).app (adjB_trailingComment E c)

theorem adjS_trailing (E : Env) (pre : List Piece) (al : Option Nat) (c : Option Text) : AdjS (E.trailing pre al c) := by
  cases c with
  | none => exact adjS_nil
  | some c => exact (adjS_alignSpace E pre al).app (adjS_trailingComment E c)

/-- The kind of a key piece. -/
theorem key_kind (E : Env) (k : AstKey) : isKeyKind (writtenKind (E.keyText k) (keyKind k)) = true := by
  unfold writtenKind
  split
  · rfl
  · rfl
  · cases k <;> rfl

theorem keyKind_notMark {k : SyntaxKind} (h : isKeyKind k = true) : isMark k = false := by
  revert h; cases k <;> decide

theorem adjA_word {k : SyntaxKind} {t : Text} (h : isMark k = false) (hb : k ≠ BARE_KEY) : AdjA [.token k t] := by
  intro rest hs hr
  refine ⟨?_, hr⟩
  rw [if_neg (by simp [h])]
  refine .inl ?_
  rw [beq_eq_false_iff_ne.mpr hb]
  exact hs

/-- Keys before a dot can be read back, literals have the kinds of literals. -/
structure Fine (E : Env) (ws : List Word) : Prop where
  lit : ∀ k t, Word.literal k t ∈ ws → View.isLiteral k = true
  dot : ∀ a k b, ws = a ++ Word.key k :: .mark DOT :: b → DotLex (writtenKind (E.keyText k) (keyKind k)) (E.keyText k)

theorem Fine.l {E : Env} {a b : List Word} (h : Fine E (a ++ b)) : Fine E a :=
  ⟨fun k t hw => h.lit k t (by simp [hw]), fun x k y e => h.dot x k (y ++ b) (by simp [e])⟩

theorem Fine.r {E : Env} {a b : List Word} (h : Fine E (a ++ b)) : Fine E b :=
  ⟨fun k t hw => h.lit k t (by simp [hw]), fun x k y e => h.dot (a ++ x) k y (by simp [e])⟩

theorem Fine.tl {E : Env} {x : Word} {b : List Word} (h : Fine E (x :: b)) : Fine E b := Fine.r (a := [x]) h

theorem adjK_keyList (E : Env) (ks : List AstKey) (h : Fine E (keyWords ks)) : AdjK (E.keyList ks) := by
  induction ks with
  | nil => exact fun _ _ h => h
  | cons k ks ih =>
    have hk := key_kind E k
    cases ks with
    | nil =>
      intro rest hs hr
      refine ⟨?_, hr⟩
      rw [if_neg (by simp [keyKind_notMark hk])]
      exact .inl hs.mono
    | cons k' ks =>
      intro rest hs hr
      refine ⟨?_, ⟨rfl, ih h.tl.tl rest hs hr⟩⟩
      rw [if_neg (by simp [keyKind_notMark hk])]
      exact .inr ⟨h.dot [] k _ rfl, _, rfl⟩

theorem adjK_keys (E : Env) (ks : List AstKey) (w : Option Nat) (h : Fine E (keyWords ks)) : AdjK (E.keys ks w) := by
  cases w with
  | none => exact adjK_keyList E ks h
  | some w =>
    intro rest hs hr
    unfold Env.keys
    rw [List.append_assoc]
    exact adjK_keyList E ks h _ (adjS_spaces _ _ _ hs) (adjB_spaces _ _ hr)

theorem adjB_danglingRest (E : Env) (d : Nat) (cs : List Text) : AdjB (E.danglingRest d cs) := by
  induction cs with
  | nil => exact adjB_nil
  | cons c cs ih => exact adjB_newline.cons ((adjB_indent E d).cons ((adjB_comment _).cons ih))

theorem adjB_danglingGroup (E : Env) (d : Nat) (cs : List Text) : AdjB (E.danglingGroup d cs) := by
  simp only [Env.danglingGroup]; split
  · exact adjB_nil
  · cases cs with
    | nil => exact adjB_nil
    | cons c cs => exact (adjB_indent E d).cons ((adjB_comment _).cons (adjB_danglingRest E d cs))

theorem adjB_newlines (n : Nat) : AdjB (List.replicate n .newline) := by
  induction n with
  | zero => exact adjB_nil
  | succ n ih => rw [List.replicate_succ]; exact adjB_newline.cons ih

theorem adjB_separator (E : Env) (b : Nat) : AdjB (E.separator b) := by
  simp only [Env.separator]; split
  · exact adjB_newline
  · exact adjB_newlines _

theorem adjB_before (E : Env) (written : Bool) (first : Option Nat) : AdjB (E.before written first) := by
  cases first with
  | none => exact adjB_newline
  | some blank =>
    cases written
    · exact adjB_nil
    · exact adjB_separator E blank

theorem stops_of_head {b : Bool} {ps : List Piece} (h : ps.head? = some .newline) (rest : List Piece) : Stops b (ps ++ rest) := by
  cases ps with
  | nil => cases h
  | cons p ps =>
    simp only [List.head?_cons, Option.some.injEq] at h
    subst h
    trivial

theorem adjB_comma (E : Env) (pre : List Piece) (d : Nat) (al : Option Nat) (tr : Bool) (c : Option Comma) :
    AdjB (E.comma pre d al tr c) := by
  cases c with
  | none => exact adjB_nil
  | some c =>
    simp only [Env.comma]
    refine (AdjB.app ?_ (adjB_mark (k := COMMA) rfl)).app (adjB_trailing _ _ _ _)
    split
    · exact adjB_newline.cons ((adjB_leading E d false c.leading).app (adjB_indent E d))
    · split
      · exact adjB_newline.cons (adjB_indent E d)
      · exact adjB_nil

theorem adjS_comma (E : Env) (pre : List Piece) (d : Nat) (al : Option Nat) (tr : Bool) (c : Option Comma) :
    AdjS (E.comma pre d al tr c) := by
  cases c with
  | none => exact adjS_nil
  | some c =>
    simp only [Env.comma]
    intro b rest _
    split
    · trivial
    · split
      · trivial
      · exact ⟨rfl, fun _ => by decide⟩

theorem AdjB.appAS {a b : List Piece} (ha : AdjA a) (hb : AdjB b) (hs : AdjS b) : AdjA (a ++ b) := ha.app hb.a hs

theorem literal_notMark {k : SyntaxKind} (h : View.isLiteral k = true) : isMark k = false := by
  revert h; cases k <;> decide

mutual
theorem fmt_adj (E : Env) (pre : List Piece) (d : Nat) (skip : Bool) (eqw al : Option Nat) :
    (n : Node) → Fine E n.words → AdjA (fmt E pre d skip eqw al n)
  | .lit l k t tr, h => by
    rw [fmt]
    have hl := litKind_literal (E := E) (h.lit k t (by simp [Node.words])) t
    have hk : isMark (writtenKind (E.literalText k t) k) = false := literal_notMark hl
    have hb : writtenKind (E.literalText k t) k ≠ BARE_KEY := by
      intro e
      have hl : View.isLiteral (writtenKind (E.literalText k t) k) = true := hl
      rw [e] at hl
      exact absurd hl (by decide)
    exact AdjB.appAS (((adjB_leading E d skip l).app (adjB_writeIndent E d _)).appA (adjA_word hk hb)) (adjB_trailing _ _ _ _)
      (adjS_trailing _ _ _ _)
  | .array l s b tr, h => by
    have hb : Fine E b.words := by rw [Node.words] at h; exact h.l.r
    rw [fmt]
    have hh : AdjB (E.leading d skip l ++ E.writeIndent d (E.skipAfter skip l) ++ [.token BRACKET_START ['[']]) :=
      ((adjB_leading E d skip l).app (adjB_writeIndent E d _)).app (adjB_mark (k := BRACKET_START) rfl)
    generalize E.leading d skip l ++ E.writeIndent d (E.skipAfter skip l) ++ [.token BRACKET_START ['[']] = head at hh
    simp only []
    generalize tooLong E pre d skip _ true _ _ b = long
    refine AdjB.a (AdjB.app ?_ (adjB_trailing _ _ _ _))
    split
    · refine AdjA.appB ?_ (adjB_newline.cons ((adjB_indent E d).cons (adjB_mark (k := BRACKET_END) rfl))) (fun _ => trivial)
      exact AdjB.appA ((hh.app (adjB_trailing _ _ _ _)).app adjB_newline) (fmtGroups_adj E _ (d + 1) false none al b hb).1
    · split
      · refine AdjA.appB ?_ ((adjB_spaces _).cons (adjB_mark (k := BRACKET_END) rfl)) (fun _ => ⟨rfl, fun _ => by decide⟩)
        exact AdjB.appA (hh.app (adjB_spaces _)) (fmtItems_adj E _ d true al _ b hb).1
      · exact hh.app (adjB_mark (k := BRACKET_END) rfl)
  | .table l s b tr, h => by
    have hb : Fine E b.words := by rw [Node.words] at h; exact h.l.r
    rw [fmt]
    have hh : AdjB (E.leading d skip l ++ E.writeIndent d (E.skipAfter skip l) ++ [.token BRACE_START ['{']]) :=
      ((adjB_leading E d skip l).app (adjB_writeIndent E d _)).app (adjB_mark (k := BRACE_START) rfl)
    generalize E.leading d skip l ++ E.writeIndent d (E.skipAfter skip l) ++ [.token BRACE_START ['{']] = head at hh
    simp only []
    generalize (decide (E.version ≠ .V1_0_0) && tooLong E pre d skip _ true _ _ b) = long
    refine AdjB.a (AdjB.app ?_ (adjB_trailing _ _ _ _))
    split
    · refine AdjA.appB ?_ (adjB_newline.cons ((adjB_indent E d).cons (adjB_mark (k := BRACE_END) rfl))) (fun _ => trivial)
      exact AdjB.appA ((hh.app (adjB_trailing _ _ _ _)).app adjB_newline) (fmtGroups_adj E _ (d + 1) false _ al b hb).1
    · split
      · refine AdjA.appB ?_ ((adjB_spaces _).cons (adjB_mark (k := BRACE_END) rfl)) (fun _ => ⟨rfl, fun e => absurd e (by decide)⟩)
        exact AdjB.appA (hh.app (adjB_spaces _)) (fmtItems_adj E _ d true al _ b hb).1
      · exact hh.app (adjB_mark (k := BRACE_END) rfl)
  | .pair l ks src v, h => by
    have hv : Fine E v.words := by rw [Node.words] at h; exact h.r.tl
    have hks : Fine E (keyWords ks) := by rw [Node.words] at h; exact h.l.r
    rw [fmt]
    refine AdjB.appA ?_ (fmt_adj E _ d true none al v hv)
    refine AdjK.appB ?_ ((adjB_spaces _).cons ((adjB_mark (k := EQUAL) rfl).cons (adjB_spaces _)))
      (fun _ => ⟨rfl, fun _ => by decide⟩)
    exact ((adjB_leading E d skip l).app (adjB_writeIndent E d _)).appK (adjK_keys E ks eqw hks)
theorem fmtGroups_adj (E : Env) (pre : List Piece) (d : Nat) (written : Bool) (eqw al : Option Nat) :
    (b : Body) → Fine E b.words → AdjA (fmtGroups E pre d written eqw al b) ∧
      (written = true → AdjS (fmtGroups E pre d written eqw al b))
  | .nil, _ => ⟨adjB_nil.a, fun _ => adjS_nil⟩
  | .dangling blank cs rest, h => by
    have hr : Fine E rest.words := by rw [Body.words] at h; exact h.r
    rw [fmtGroups]
    split
    · exact fmtGroups_adj E pre d written eqw al rest hr
    · refine ⟨AdjB.appA (AdjB.app ?_ (adjB_danglingGroup E d cs)) (fmtGroups_adj E _ d true eqw al rest hr).1, ?_⟩
      · split
        · exact adjB_separator E blank
        · exact adjB_nil
      · intro e; subst e
        intro b tl _
        rw [List.append_assoc]
        exact stops_of_head (head_append (separator_head E blank)) _
  | .item first n c rest, h => by
    have hn : Fine E n.words := by rw [Body.words] at h; exact h.l.l
    have hr : Fine E rest.words := by rw [Body.words] at h; exact h.r
    rw [fmtGroups]
    have ih := fmtGroups_adj E (pre ++ (E.before written first ++ fmt E (pre ++ E.before written first) d false eqw al n ++
      E.comma (pre ++ (E.before written first ++ fmt E (pre ++ E.before written first) d false eqw al n)) d al n.trailing.isSome c))
      d true eqw al rest hr
    refine ⟨?_, ?_⟩
    · refine AdjA.app (AdjB.appAS ((adjB_before E written first).appA (fmt_adj E _ d false eqw al n hn)) (adjB_comma _ _ _ _ _ _)
        (adjS_comma _ _ _ _ _ _)) ih.1 (ih.2 rfl)
    · intro e
      intro b tl _
      rw [List.append_assoc, List.append_assoc, List.append_assoc]
      exact stops_of_head (before_head E written first e) _
theorem fmtItems_adj (E : Env) (pre : List Piece) (d : Nat) (first : Bool) (al : Option Nat) (sp : Nat) :
    (b : Body) → Fine E b.words → AdjA (fmtItems E pre d first al sp b) ∧
      (first = false → AdjS (fmtItems E pre d first al sp b))
  | .nil, _ => ⟨adjB_nil.a, fun _ => adjS_nil⟩
  | .dangling _ cs rest, h => by
    rw [fmtItems]
    exact fmtItems_adj E pre d first al sp rest (by rw [Body.words] at h; exact h.r)
  | .item fst n c rest, h => by
    have hn : Fine E n.words := by rw [Body.words] at h; exact h.l.l
    have hr : Fine E rest.words := by rw [Body.words] at h; exact h.r
    rw [fmtItems]
    cases first
    · have ih := fmtItems_adj E (pre ++ ([.token COMMA [','], spaces sp] ++
        fmt E (pre ++ [.token COMMA [','], spaces sp]) d true none al n)) d false al sp rest hr
      refine ⟨?_, fun _ b tl _ => ⟨rfl, fun _ => by decide⟩⟩
      exact AdjA.app (AdjB.appA ((adjB_mark (k := COMMA) rfl).cons (adjB_spaces _)) (fmt_adj E _ d true none al n hn)) ih.1 (ih.2 rfl)
    · have ih := fmtItems_adj E (pre ++ ([] ++ fmt E (pre ++ []) d true none al n)) d false al sp rest hr
      refine ⟨?_, fun e => by cases e⟩
      exact AdjA.app (AdjB.appA adjB_nil (fmt_adj E _ d true none al n hn)) ih.1 (ih.2 rfl)
end

theorem adjB_tableComma (E : Env) (pre : List Piece) (d : Nat) (al : Option Nat) (tr : Bool) (c : Option Comma) :
    AdjB (E.tableComma pre d al tr c) ∧ AdjS (E.tableComma pre d al tr c) := by
  cases c with
  | none => exact ⟨adjB_nil, adjS_nil⟩
  | some c =>
    obtain ⟨l, t⟩ := c
    cases t with
    | none =>
      simp only [Env.tableComma]
      split
      · exact ⟨adjB_nil, adjS_nil⟩
      · exact ⟨(adjB_newline.cons (adjB_leading E d false l)).app ((adjB_indent E d).cons (adjB_mark (k := COMMA) rfl)),
          fun _ _ _ => trivial⟩
    | some t =>
      simp only [Env.tableComma]
      split
      · exact ⟨(adjB_alignSpace E pre al).app (adjB_trailingComment E t), (adjS_alignSpace E pre al).app (adjS_trailingComment E t)⟩
      · refine ⟨AdjB.app (AdjB.app ?_ (adjB_alignSpace E _ al)) (adjB_trailingComment E t), fun _ _ _ => trivial⟩
        refine (adjB_newline.cons ?_).app ((adjB_indent E d).cons (adjB_mark (k := COMMA) rfl))
        split
        · exact adjB_nil
        · exact adjB_leading E d false l

theorem fmtPairs_adj (E : Env) (pre : List Piece) (d : Nat) (written : Bool) (eqw al : Option Nat) (b : Body)
    (h : Fine E b.words) : AdjA (fmtPairs E pre d written eqw al b) ∧
      (written = true → AdjS (fmtPairs E pre d written eqw al b)) := by
  match b with
  | .nil => exact ⟨adjB_nil.a, fun _ => adjS_nil⟩
  | .dangling blank cs rest =>
    have hr : Fine E rest.words := by rw [Body.words] at h; exact h.r
    rw [fmtPairs]
    split
    · exact fmtPairs_adj E pre d written eqw al rest hr
    · refine ⟨AdjB.appA (AdjB.app ?_ (adjB_danglingGroup E d cs)) (fmtPairs_adj E _ d true eqw al rest hr).1, ?_⟩
      · split
        · exact adjB_separator E blank
        · exact adjB_nil
      · intro e; subst e
        intro b tl _
        rw [List.append_assoc]
        exact stops_of_head (head_append (separator_head E blank)) _
  | .item first n c rest =>
    have hn : Fine E n.words := by rw [Body.words] at h; exact h.l.l
    have hr : Fine E rest.words := by rw [Body.words] at h; exact h.r
    rw [fmtPairs]
    generalize E.nextAlignWidth d _ al first (n :: rest.continued) = al'
    generalize E.nextEqualWidth eqw first (n :: rest.continued) = eqw'
    have ih := fmtPairs_adj E (pre ++ (E.before written first ++ fmt E (pre ++ E.before written first) d false eqw' al' n ++
      E.tableComma (pre ++ (E.before written first ++ fmt E (pre ++ E.before written first) d false eqw' al' n)) d al' n.trailing.isSome c))
      d true eqw' al' rest hr
    refine ⟨?_, ?_⟩
    · exact AdjA.app (AdjB.appAS ((adjB_before E written first).appA (fmt_adj E _ d false eqw' al' n hn)) (adjB_tableComma _ _ _ _ _ _).1
        (adjB_tableComma _ _ _ _ _ _).2) ih.1 (ih.2 rfl)
    · intro e
      intro b tl _
      rw [List.append_assoc, List.append_assoc, List.append_assoc]
      exact stops_of_head (before_head E written first e) _

theorem fmtSection_adj (E : Env) (pre : List Piece) (preceding : List (List AstKey)) (s : Section) (h : Fine E s.words) :
    AdjA (fmtSection E pre preceding s) := by
  have hb : Fine E s.body.words := by rw [Section.words] at h; exact h.r
  have hks : Fine E (keyWords s.header) := by rw [Section.words] at h; exact h.l.l.r.tl
  unfold fmtSection
  simp only []
  generalize (if E.defs.indentSubTables = true then parentCount E.version preceding s.header else 0) = d
  have hh : AdjB (E.leading d false s.leading ++ [E.indent d]
    ++ (if s.isArray then [.token DOUBLE_BRACKET_START ['[', '[']] else [.token BRACKET_START ['[']])
    ++ E.keys s.header none
    ++ (if s.isArray then [.token DOUBLE_BRACKET_END [']', ']']] else [.token BRACKET_END [']']])
    ++ E.trailing [] none s.trailing) := by
    refine AdjB.app (AdjK.appB (AdjB.appK (((adjB_leading E d false _).app (adjB_indent E d)).app ?_) (adjK_keys E _ _ hks)) ?_ ?_) (adjB_trailing _ _ _ _)
    · split
      · exact adjB_mark (k := DOUBLE_BRACKET_START) rfl
      · exact adjB_mark (k := BRACKET_START) rfl
    · split
      · exact adjB_mark (k := DOUBLE_BRACKET_END) rfl
      · exact adjB_mark (k := BRACKET_END) rfl
    · intro rest
      split <;> exact ⟨rfl, fun _ => by decide⟩
  split
  · exact hh.a
  · exact (hh.app adjB_newline).appA (fmtPairs_adj E _ _ false none none s.body hb).1

theorem fmtSections_adj (E : Env) (pre : List Piece) (preceding : List (List AstKey)) (prev : Section) (ss : List Section)
    (h : ∀ s ∈ ss, Fine E s.words) :
    AdjA (fmtSections E pre preceding prev ss) ∧ AdjS (fmtSections E pre preceding prev ss) := by
  match ss with
  | [] => exact ⟨adjB_nil.a, adjS_nil⟩
  | s :: ss =>
    rw [fmtSections]
    refine ⟨?_, fun _ _ _ => trivial⟩
    refine AdjA.app (AdjB.appA ?_ (fmtSection_adj E _ _ s (h s (by simp)))) (fmtSections_adj E _ _ s ss fun x hx => h x (by simp [hx])).1
      (fmtSections_adj E _ _ s ss fun x hx => h x (by simp [hx])).2
    refine adjB_newline.cons ?_
    split
    · exact adjB_newlines _
    · exact adjB_nil

/-- What the formatter writes behind a word ends the word. -/
theorem fmtDoc_adj (E : Env) (doc : Doc) (h : Fine E doc.words) : Adj (fmtDoc E doc) := by
  have hb : Fine E doc.body.words := by rw [Doc.words] at h; exact h.l
  have hs : ∀ s ∈ doc.sections, Fine E s.words := by
    have h : Fine E (doc.sections.map Section.words).flatten := by rw [Doc.words] at h; exact h.r
    intro s hs
    obtain ⟨a, b, hab⟩ := List.append_of_mem hs
    rw [hab] at h
    simp only [List.map_append, List.map_cons, List.flatten_append, List.flatten_cons] at h
    exact h.r.l
  suffices AdjA (fmtDoc E doc) by simpa using this [] trivial trivial
  unfold fmtDoc
  simp only []
  have hp := (fmtPairs_adj E [] 0 false none none doc.body hb).1
  cases hd : doc.sections with
  | nil => exact hp
  | cons s ss =>
    rw [hd] at hs
    have h1 : AdjB (fmtPairs E [] 0 false none none doc.body ++ E.rootSeparator doc.body s) := by
      unfold Env.rootSeparator
      cases hbe : doc.body with
      | nil => simp [Body.isEmpty, fmtPairs]; exact adjB_nil
      | dangling n cs r =>
        rw [hbe] at hp
        simp only [Body.isEmpty, Bool.false_eq_true, if_false]
        exact AdjA.appB hp (adjB_newlines _) (fun _ => by rw [blankLines, List.replicate_succ]; trivial)
      | item f n c r =>
        rw [hbe] at hp
        simp only [Body.isEmpty, Bool.false_eq_true, if_false]
        exact AdjA.appB hp (adjB_newlines _) (fun _ => by rw [blankLines, List.replicate_succ]; trivial)
    refine AdjA.app (h1.appA (fmtSection_adj E _ _ s (hs s (by simp)))) (fmtSections_adj E _ _ s ss fun x hx => hs x (by simp [hx])).1
      (fmtSections_adj E _ _ s ss fun x hx => hs x (by simp [hx])).2

end Tombi.Formatter
