import Verif.Proofs.WordLex
import Verif.Proofs.FormatRead3
import Verif.Proofs.FormatterDoc
import Verif.Proofs.DocRead
/-! What the formatter writes for a document is parsed without errors, as the same document. -/
namespace Tombi.Formatter
open SyntaxKind
open Tombi.Format (AstKey)
open View (rootV)

/-- A comment on one line. -/
def OneLine (t : Text) : Prop := ∃ u, t = '#' :: u ∧ ∀ c ∈ u, isLineBreak c = false

/-! ### the marks of a document -/

def MarksOk (ws : List Word) : Prop := ∀ k, Word.mark k ∈ ws → isMark k = true

theorem MarksOk.append {a b : List Word} (ha : MarksOk a) (hb : MarksOk b) : MarksOk (a ++ b) := by
  intro k hk
  rcases List.mem_append.mp hk with h | h
  · exact ha k h
  · exact hb k h

theorem MarksOk.mark {k : SyntaxKind} {b : List Word} (hk : isMark k = true) (hb : MarksOk b) : MarksOk (.mark k :: b) := by
  intro k' h
  rcases List.mem_cons.mp h with h | h
  · cases h; exact hk
  · exact hb k' h

theorem MarksOk.nil : MarksOk [] := fun _ h => by cases h

theorem MarksOk.of {ws : List Word} (h : ∀ k, Word.mark k ∉ ws) : MarksOk ws := fun k hk => absurd hk (h k)

theorem marksOk_comments (cs : List Text) : MarksOk (commentWords cs) := by
  refine .of fun k hk => ?_
  cases cs <;> simp [commentWords] at hk

theorem marksOk_trailing (c : Option Text) : MarksOk (trailingWords c) := by
  refine .of fun k hk => ?_
  cases c <;> simp [trailingWords] at hk

theorem marksOk_keys : (ks : List AstKey) → MarksOk (keyWords ks)
  | [] => .nil
  | [_] => .of fun _ hk => by simp [keyWords] at hk
  | a :: b :: ks => by
    rw [keyWords]
    · exact MarksOk.append (a := [.key a]) (.of fun _ hk => by simp at hk) (.mark (by decide) (marksOk_keys (b :: ks)))
    · simp

theorem marksOk_comma (c : Option Comma) : MarksOk (commaWords c) := by
  cases c with
  | none => exact .nil
  | some c => exact (marksOk_comments _).append (marksOk_trailing _)

mutual
theorem marksOk_node : (n : Node) → MarksOk n.words
  | .lit l k t tr => by
    rw [Node.words]
    exact (marksOk_comments _).append (MarksOk.append (a := [.literal k t]) (.of fun _ hk => by simp at hk) (marksOk_trailing _))
  | .array l s b tr => by
    rw [Node.words]
    exact (((marksOk_comments _).append (.mark (by decide) (marksOk_trailing _))).append (marksOk_body b)).append
      (.mark (by decide) (marksOk_trailing _))
  | .table l s b tr => by
    rw [Node.words]
    exact (((marksOk_comments _).append (.mark (by decide) (marksOk_trailing _))).append (marksOk_body b)).append
      (.mark (by decide) (marksOk_trailing _))
  | .pair l ks _ v => by
    rw [Node.words]
    exact ((marksOk_comments _).append (marksOk_keys _)).append (.mark (by decide) (marksOk_node v))
theorem marksOk_body : (b : Body) → MarksOk b.words
  | .nil => .nil
  | .dangling _ cs rest => by rw [Body.words]; exact (marksOk_comments _).append (marksOk_body rest)
  | .item _ n c rest => by
    rw [Body.words]; exact ((marksOk_node n).append (marksOk_comma c)).append (marksOk_body rest)
end

theorem marksOk_section (s : Section) : MarksOk s.words := by
  unfold Section.words
  refine (((marksOk_comments _).append (.mark ?_ (marksOk_keys _))).append (.mark ?_ (marksOk_trailing _))).append (marksOk_body _)
  · split <;> decide
  · split <;> decide

theorem marksOk_doc (d : Doc) : MarksOk d.words := by
  unfold Doc.words
  refine (marksOk_body _).append fun k hk => ?_
  obtain ⟨ws, h1, h2⟩ := List.mem_flatten.mp hk
  obtain ⟨s, -, rfl⟩ := List.mem_map.mp h1
  exact marksOk_section s k h2

/-! ### the first word of a document -/

def NoLitHead (ws : List Word) : Prop := ∀ k t r, ws ≠ .literal k t :: r

theorem NoLitHead.append {a b : List Word} (ha : NoLitHead a) (hb : NoLitHead b) : NoLitHead (a ++ b) := by
  cases a with
  | nil => exact hb
  | cons x a =>
    intro k t r h
    simp only [List.cons_append, List.cons.injEq] at h
    exact ha k t a (by rw [h.1])

theorem noLit_nil : NoLitHead [] := fun _ _ _ h => by cases h
theorem noLit_mark (k : SyntaxKind) (b : List Word) : NoLitHead (.mark k :: b) := fun _ _ _ h => by cases h
theorem noLit_comments (cs : List Text) : NoLitHead (commentWords cs) := by
  cases cs <;> exact fun _ _ _ h => by simp [commentWords] at h
theorem noLit_trailing (c : Option Text) : NoLitHead (trailingWords c) := by
  cases c <;> exact fun _ _ _ h => by simp [trailingWords] at h
theorem noLit_keys (ks : List AstKey) : NoLitHead (keyWords ks) := by
  match ks with
  | [] => exact noLit_nil
  | [_] => exact fun _ _ _ h => by simp [keyWords] at h
  | _ :: _ :: _ => exact fun _ _ _ h => by simp [keyWords] at h
theorem noLit_comma (c : Option Comma) : NoLitHead (commaWords c) := by
  cases c with
  | none => exact noLit_nil
  | some c => exact (noLit_comments _).append (noLit_trailing _)

theorem noLit_pairs {d : Nat} : {prev : Prev} → (b : Body) → b.WF true d prev → NoLitHead b.words
  | _, .nil, _ => noLit_nil
  | prev, .dangling n cs rest, h => by
    rw [Body.WF] at h
    rw [Body.words]
    exact (noLit_comments _).append (noLit_pairs rest h.2.2.2)
  | prev, .item f n c rest, h => by
    rw [Body.WF] at h
    rw [Body.words]
    refine (NoLitHead.append ?_ (noLit_comma c)).append (noLit_pairs rest h.2.2.2)
    cases n with
    | pair l ks s v => rw [Node.words]; exact ((noLit_comments _).append (noLit_keys _)).append (noLit_mark _ _)
    | lit => exact absurd h.1 (by simp [Node.isPair])
    | array => exact absurd h.1 (by simp [Node.isPair])
    | table => exact absurd h.1 (by simp [Node.isPair])

theorem noLit_doc {d : Doc} (h : d.WF) : NoLitHead d.words := by
  unfold Doc.words
  refine (noLit_pairs _ h.body).append ?_
  have hs := h.sections
  generalize d.sections = ss at hs
  induction ss with
  | nil => exact noLit_nil
  | cons s ss ih =>
    rw [List.map_cons, List.flatten_cons, Section.words]
    exact NoLitHead.append ((((noLit_comments _).append (noLit_mark _ _)).append (noLit_mark _ _)).append
      (noLit_pairs _ (hs s (by simp)).body)) (ih fun x hx => hs x (by simp [hx]))

/-! ### the text of the pieces -/

theorem write_textOk {E : Env} (hd : DelimiterSetting E.defs.dateTimeDelimiter) {w : Word} (hw : TomlWord w)
    (hm : ∀ k, w = .mark k → isMark k = true) (hc : ∀ f t, w = .comment f t → OneLine (E.renderComment f t)) :
    TextOk (E.write w) := by
  cases w with
  | key k => exact .inr (key_wordLex E hw)
  | literal k t => exact .inr (lit_wordLex (literal_toml E hd hw))
  | mark k => exact .inl (hm k rfl)
  | comment f t => exact hc f t rfl

theorem fmtDoc_textOk {E : Env} (hE : E.Laid) (hd : DelimiterSetting E.defs.dateTimeDelimiter) {doc : Doc} (hnc : NoComma doc.words)
    (hw : ∀ w ∈ doc.words, TomlWord w) (hc : ∀ f t, Word.comment f t ∈ doc.words → OneLine (E.renderComment f t)) :
    ∀ p ∈ fmtDoc E doc, TextOk p := by
  intro p hp
  by_cases hpw : p.isWord = true
  · have : p ∈ wordsOf (fmtDoc E doc) := List.mem_filter.mpr ⟨hp, hpw⟩
    rw [fmtDoc_words E hE.single hE.skip doc hnc] at this
    obtain ⟨w, h1, rfl⟩ := List.mem_map.mp this
    exact write_textOk hd (hw w h1) (fun k e => marksOk_doc doc k (e ▸ h1)) (fun f t e => hc f t (e ▸ h1))
  · cases p with
    | blank t => trivial
    | newline => trivial
    | comment t => exact absurd rfl hpw
    | token k t =>
      have : k = COMMA := by simpa [Piece.isWord] using hpw
      exact .inl (by rw [this]; decide)

/-! ### dotted floats -/

/-- A float with a dot. -/
def IsDotted (x : VTok) : Prop := x.kind = FLOAT ∧ '.' ∈ x.text

/-- No float with a dot comes first or follows another one. -/
def DotsApart : Bool → View → Prop
  | _, [] => True
  | b, x :: v => (b = true → ¬ IsDotted x) ∧ (IsDotted x → DotsApart true v) ∧ (¬ IsDotted x → DotsApart false v)

theorem DotsApart.cons {b : Bool} {x : VTok} {v : View} (h : x.kind ≠ FLOAT) (hv : DotsApart false v) : DotsApart b (x :: v) :=
  ⟨fun _ hx => h hx.1, fun hx => absurd hx.1 h, fun _ => hv⟩

/-- The head is not a float. -/
theorem DotsApart.of_head {v : View} (h : ∀ x ∈ v.head?, ¬ IsDotted x) (hv : DotsApart false v) : DotsApart true v := by
  cases v with
  | nil => trivial
  | cons x v => exact ⟨fun _ => h x (by simp), hv.2.1, hv.2.2⟩

theorem DotsApart.word {x : VTok} {v : View} (h : ∀ x ∈ v.head?, ¬ IsDotted x) (hv : DotsApart false v) : DotsApart false (x :: v) :=
  ⟨(fun e => by cases e), fun _ => hv.of_head h, fun _ => hv⟩

theorem floatsAttached_of_view {src : Text} {ts : List Token} (h : DotsApart true (viewOf src ts)) : FloatsAttached src ts := by
  have hdot : ∀ t, DottedFloat src t → ∀ j, IsDotted ⟨t.kind, textAt src t, j⟩ := by
    rintro t ⟨h1, w, h2, h3⟩ j
    refine ⟨h1, ?_⟩
    show '.' ∈ textAt src t
    unfold textAt
    rw [show byteSlice t.span.start t.span.stop src = some w from h2]
    exact h3
  have hnt : ∀ t, DottedFloat src t → ¬ t.kind.isTrivia = true := by
    rintro t ⟨h1, -⟩
    rw [h1]; decide
  have hblank : ∀ (ws rest : List Token), (∀ t ∈ ws, t.kind.isTrivia = true) → viewOf src (ws ++ rest) = viewOf src rest := by
    intro ws rest hw
    induction ws with
    | nil => rfl
    | cons t ws ih => rw [List.cons_append, viewOf, if_pos (hw t (by simp))]; exact ih fun t ht => hw t (by simp [ht])
  have hsuf : ∀ (a : List Token) (b : Bool) (g : Token) (rest : List Token), DottedFloat src g →
      DotsApart b (viewOf src (a ++ g :: rest)) → DotsApart true (viewOf src rest) := by
    intro a
    induction a with
    | nil =>
      intro b g rest hg h
      rw [List.nil_append, viewOf, if_neg (hnt g hg)] at h
      exact h.2.1 (hdot g hg _)
    | cons t a ih =>
      intro b g rest hg h
      rw [List.cons_append, viewOf] at h
      split at h
      · exact ih b g rest hg h
      · by_cases hd : IsDotted ⟨t.kind, textAt src t, jointBefore (a ++ g :: rest)⟩
        · exact ih _ g rest hg (h.2.1 hd)
        · exact ih _ g rest hg (h.2.2 hd)
  intro pre ws f post hts hne hws hf
  constructor
  · rintro rfl
    rw [hts, List.nil_append, hblank _ _ hws, viewOf, if_neg (hnt f hf)] at h
    exact h.1 rfl (hdot f hf _)
  · rintro pre' g rfl hg
    rw [hts, List.append_assoc, List.append_assoc, List.singleton_append] at h
    have := hsuf pre' true g _ hg h
    rw [hblank _ _ hws, viewOf, if_neg (hnt f hf)] at this
    exact this.1 rfl (hdot f hf _)

theorem closes_not_float {k : SyntaxKind} (h : closes k = true) : k ≠ FLOAT := by
  revert h; cases k <;> decide

theorem isMark_not_float {k : SyntaxKind} (h : isMark k = true) : k ≠ FLOAT := by
  revert h; cases k <;> decide

/-- The tokens of a mark. -/
theorem show_mark {k : SyntaxKind} {t : Text} {w : View} (h : Show1 (.token k t) w) (hm : isMark k = true) :
    w ≠ [] ∧ ∀ x ∈ w, x.kind ≠ FLOAT := by
  simp only [Show1] at h
  split at h
  · obtain ⟨x, y, rfl, h1, h2, -⟩ := h
    refine ⟨by simp, fun z hz => ?_⟩
    simp only [List.mem_cons, List.not_mem_nil, or_false] at hz
    rcases hz with rfl | rfl
    · rw [h1]; decide
    · rw [h2]; decide
  · split at h
    · obtain ⟨x, y, rfl, h1, h2, -⟩ := h
      refine ⟨by simp, fun z hz => ?_⟩
      simp only [List.mem_cons, List.not_mem_nil, or_false] at hz
      rcases hz with rfl | rfl
      · rw [h1]; decide
      · rw [h2]; decide
    · split at h
      · rename_i hb
        rw [hb] at hm
        exact absurd hm (by decide)
      · obtain ⟨x, rfl, h1, -⟩ := h
        refine ⟨by simp, fun z hz => ?_⟩
        rw [List.mem_singleton.mp hz, h1]
        exact isMark_not_float hm

theorem closes_isMark {k : SyntaxKind} (h : closes k = true) : isMark k = true := by
  revert h; cases k <;> decide

theorem head_mark {w v : View} (h : w ≠ [] ∧ ∀ x ∈ w, x.kind ≠ FLOAT) : ∀ x ∈ (w ++ v).head?, ¬ IsDotted x := by
  cases w with
  | nil => exact absurd rfl h.1
  | cons y w =>
    intro x hx hd
    simp only [List.cons_append, List.head?_cons, Option.mem_def, Option.some.injEq] at hx
    subst hx
    exact h.2 _ (by simp) hd.1

/-- What ends a word is no float. -/
theorem stops_head {b : Bool} {ps : List Piece} (h : Stops b ps) {w v : View} (hw : Shows ps w) (hv : ∀ x ∈ v.head?, ¬ IsDotted x) :
    ∀ x ∈ (w ++ v).head?, ¬ IsDotted x := by
  induction ps generalizing w with
  | nil =>
    have hw : w = [] := hw
    subst hw
    exact hv
  | cons p ps ih =>
    cases p with
    | blank t => exact ih h hw.blank
    | newline =>
      obtain ⟨a, r, rfl, ⟨x, rfl, hx⟩, -⟩ := hw
      rw [List.append_assoc]
      exact head_mark ⟨by simp, fun y hy => by rw [List.mem_singleton.mp hy, hx]; decide⟩
    | comment t =>
      obtain ⟨a, r, rfl, ⟨x, rfl, hx, -⟩, -⟩ := hw
      rw [List.append_assoc]
      exact head_mark ⟨by simp, fun y hy => by rw [List.mem_singleton.mp hy, hx]; decide⟩
    | token k t =>
      obtain ⟨a, r, rfl, h1, -⟩ := hw
      rw [List.append_assoc]
      exact head_mark (show_mark h1 (closes_isMark h.1))

theorem dots_marks {a v : View} (h : ∀ x ∈ a, x.kind ≠ FLOAT) (hv : DotsApart false v) : DotsApart false (a ++ v) := by
  induction a with
  | nil => exact hv
  | cons x a ih => exact .cons (h x (by simp)) (ih fun y hy => h y (by simp [hy]))

/-- A word is one token. -/
theorem show_word {k : SyntaxKind} {t : Text} {w : View} (h : Show1 (.token k t) w) (hm : isMark k = false) : ∃ x, w = [x] := by
  simp only [Show1] at h
  rw [if_neg (by rintro rfl; exact absurd hm (by decide)), if_neg (by rintro rfl; exact absurd hm (by decide))] at h
  split at h
  · obtain ⟨x, rfl, -⟩ := h; exact ⟨x, rfl⟩
  · obtain ⟨x, rfl, -⟩ := h; exact ⟨x, rfl⟩

theorem shows_dots {ps : List Piece} (ha : Adj ps) {w v : View} (hw : Shows ps w) (hv : ∀ x ∈ v.head?, ¬ IsDotted x)
    (hv' : DotsApart false v) : DotsApart false (w ++ v) := by
  induction ps generalizing w with
  | nil =>
    have hw : w = [] := hw
    subst hw
    exact hv'
  | cons p ps ih =>
    cases p with
    | blank t => exact ih ha.2 hw.blank
    | newline =>
      obtain ⟨a, r, rfl, ⟨x, rfl, hx⟩, hr⟩ := hw
      rw [List.append_assoc]
      exact dots_marks (fun y hy => by rw [List.mem_singleton.mp hy, hx]; decide) (ih ha hr)
    | comment t =>
      obtain ⟨a, r, rfl, ⟨x, rfl, hx, -⟩, hr⟩ := hw
      rw [List.append_assoc]
      exact dots_marks (fun y hy => by rw [List.mem_singleton.mp hy, hx]; decide) (ih ha hr)
    | token k t =>
      obtain ⟨a, r, rfl, h1, hr⟩ := hw
      rw [List.append_assoc]
      have hi := ih ha.2 hr
      cases hm : isMark k with
      | true => exact dots_marks (show_mark h1 hm).2 hi
      | false =>
        obtain ⟨x, rfl⟩ := show_word h1 hm
        refine DotsApart.word (v := r ++ v) ?_ hi
        have h2 := ha.1
        rw [if_neg (by simp [hm])] at h2
        rcases h2 with h2 | ⟨-, ps', rfl⟩
        · exact stops_head h2 hr hv
        · obtain ⟨a, r', rfl, h3, -⟩ := hr
          rw [List.append_assoc]
          exact head_mark (show_mark h3 (by decide))

theorem bareKey_noDot {E : Env} {k : AstKey} (h : TomlWord (.key k)) (hk : writtenKind (E.keyText k) (keyKind k) = BARE_KEY) :
    '.' ∉ E.keyText k := by
  cases k with
  | bare t =>
    have ht : E.keyText (.bare t) = t := rfl
    rw [ht]
    intro hd
    exact bare_noDot h.2.1 hd
  | basic t =>
    unfold writtenKind at hk
    split at hk <;> first | cases hk | (rename_i h1 h2; exact absurd hk (by decide))
  | literal t =>
    unfold writtenKind at hk
    split at hk <;> first | cases hk | (rename_i h1 h2; exact absurd hk (by decide))

theorem shows_first {E : Env} {ps : List Piece} {ws : List Word} (hws : wordsOf ps = ws.map E.write) (hno : NoLitHead ws)
    (hm : MarksOk ws) (ht : ∀ w ∈ ws, TomlWord w) {w v : View} (hw : Shows ps w) (hv : ∀ x ∈ v.head?, ¬ IsDotted x) :
    ∀ x ∈ (w ++ v).head?, ¬ IsDotted x := by
  induction ps generalizing w with
  | nil =>
    have hw : w = [] := hw
    subst hw
    exact hv
  | cons p ps ih =>
    cases p with
    | blank t => exact ih hws hw.blank
    | newline =>
      obtain ⟨a, r, rfl, ⟨x, rfl, hx⟩, -⟩ := hw
      rw [List.append_assoc]
      exact head_mark ⟨by simp, fun y hy => by rw [List.mem_singleton.mp hy, hx]; decide⟩
    | comment t =>
      obtain ⟨a, r, rfl, ⟨x, rfl, hx, -⟩, -⟩ := hw
      rw [List.append_assoc]
      exact head_mark ⟨by simp, fun y hy => by rw [List.mem_singleton.mp hy, hx]; decide⟩
    | token k t =>
      obtain ⟨a, r, rfl, h1, -⟩ := hw
      rw [List.append_assoc]
      by_cases hk : k = COMMA
      · exact head_mark (show_mark h1 (by rw [hk]; decide))
      · have hq : wordsOf (.token k t :: ps) = .token k t :: wordsOf ps := by
          unfold wordsOf
          rw [List.filter_cons_of_pos (by simp [Piece.isWord, hk])]
        rw [hq] at hws
        cases ws with
        | nil => cases hws
        | cons w0 ws =>
          rw [List.map_cons, List.cons.injEq] at hws
          cases w0 with
          | literal k' t' => exact absurd rfl (hno k' t' ws)
          | comment f t' => exact absurd hws.1 (by simp [Env.write])
          | mark k' =>
            have hk' := hm k' (by simp)
            have : k = k' := by
              have := hws.1
              simp only [Env.write, Piece.token.injEq] at this
              exact this.1
            exact head_mark (show_mark h1 (by rw [this]; exact hk'))
          | key k' =>
            have hw1 := hws.1
            simp only [Env.write, Env.key, Piece.token.injEq] at hw1
            obtain ⟨rfl, rfl⟩ := hw1
            have hkk := key_kind E k'
            obtain ⟨x, rfl⟩ := show_word h1 (keyKind_notMark hkk)
            intro y hy
            simp only [List.cons_append, List.head?_cons, Option.mem_def, Option.some.injEq] at hy
            subst hy
            rintro ⟨hf, hdot⟩
            simp only [Show1] at h1
            rw [if_neg (by intro e; rw [e] at hkk; exact absurd hkk (by decide)),
              if_neg (by intro e; rw [e] at hkk; exact absurd hkk (by decide))] at h1
            split at h1
            · rename_i hb
              obtain ⟨x', e, hx, -⟩ := h1
              cases e
              rw [hx] at hdot
              exact bareKey_noDot (ht (.key k') (by simp)) hb hdot
            · obtain ⟨x', e, hx, -⟩ := h1
              cases e
              rw [hx] at hf
              rw [hf] at hkk
              exact absurd hkk (by decide)

/-! ### the output is parsed -/

/-- The rest of `parse` once the tokens are known. -/
theorem parse_of_pieces {G : Segmenter} {out : Text} (hlen : utf8Len out < 2 ^ 28) {S : View → Prop} (hlex : LexV out S)
    (hdots : ∀ w, S w → DotsApart true (w ++ [⟨EOF, [], false⟩]))
    {doc' : View → Doc → Prop}
    (hread : ∀ w, S w → ∃ d, doc' w d ∧ ∃ cs v' m0, (∀ m, m0 ≤ m → rootV m (w ++ [⟨EOF, [], false⟩]) = some ([.node ROOT cs], v')) ∧
      docOf (.node ROOT cs) = d) :
    Parseable G out ∧ ∃ r, parse G out = .ok r ∧ r.errors = [] ∧ ∃ w d, S w ∧ doc' w d ∧ (docOf r.tree).bare = d.bare := by
  obtain ⟨ps, l, hl, htext, hps, herr, hview, -⟩ := lex_pieces G out
  obtain ⟨hne, w, hw, hS⟩ := hlex ps hps htext
  have hatt : ∀ l', lex G out = .ok l' → FloatsAttached out l'.tokens := by
    intro l' hl'
    rw [hl] at hl'
    cases hl'
    refine floatsAttached_of_view ?_
    rw [hview, hw]
    exact hdots w hS
  obtain ⟨l', r, hl', hr, hout⟩ := parse_view G out hlen hatt
  rw [hl] at hl'
  cases hl'
  obtain ⟨d, hd, cs, v', m0, hroot, hdoc⟩ := hread w hS
  have ho := hout (max m0 (8 * (l.tokens.length + 2))) (Nat.le_max_right ..)
  rw [hview, hw] at ho
  have hrt := hroot _ (Nat.le_max_left m0 (8 * (l.tokens.length + 2)))
  rw [hrt] at ho
  obtain ⟨h1, -, D, cs', hD, htree, hstrip, htidy, -⟩ := ho
  simp only [List.cons.injEq, Green.node.injEq, true_and, and_true] at hD
  subst hD
  have hle : l.errors = [] := by
    rw [herr]
    clear herr hview hl hps htext hw hout
    generalize (0 : Nat) = off
    generalize Position.zero = pos
    induction ps generalizing off pos with
    | nil => rfl
    | cons p ps ih =>
      rw [errs, ih (fun q hq => hne q (by simp [hq]))]
      simp [Tombi.Piece.error, hne p (by simp)]
  refine ⟨⟨hlen, hatt⟩, r, hr, by rw [h1, hle]; rfl, w, d, hS, hd, ?_⟩
  obtain ⟨u, -, -, hclean⟩ := Keeps.root _ _ _ _ hrt
  have hclean := hclean (by rw [← hw, ← hview]; exact plain_viewOf _ _)
  have hcl : CleanL (stripL cs') := by
    rw [hstrip]
    exact hclean.1.2
  have hb := docOf_strip (k := ROOT) htidy hcl
  rw [hstrip] at hb
  rw [htree, ← hb, hdoc]

/-- The text of a word is not empty. -/
theorem textOk_ne {le : Text} {ps : List Piece} (ha : Adj ps) (ht : ∀ p ∈ ps, TextOk p) : ∀ p ∈ ps, p.isWord = true → p.text le ≠ [] := by
  induction ps with
  | nil => intro p hp; cases hp
  | cons q ps ih =>
    intro p hp hw
    have ha' : Adj ps := by cases q <;> first | exact ha.2 | exact ha
    rcases List.mem_cons.mp hp with rfl | hp
    · have h := ht p (by simp)
      cases p with
      | blank t => cases hw
      | newline => cases hw
      | comment t => obtain ⟨u, rfl, -⟩ := h; simp [Piece.text]
      | token k t =>
        rcases h with h | h
        · have h1 := ha.1
          rw [if_pos h] at h1
          rw [h1]
          show markOf k ≠ []
          revert h
          cases k <;> decide
        · exact h.ne
    · exact ih ha' (fun q hq => ht q (by simp [hq])) p hp hw

theorem textOf_nil_of {le : Text} {ps : List Piece} (h : textOf le ps = []) : ∀ p ∈ ps, p.text le = [] := by
  intro p hp
  unfold textOf at h
  rw [List.flatten_eq_nil_iff] at h
  exact h _ (List.mem_map_of_mem hp)

/-- A document without words is empty. -/
theorem words_nil {doc : Doc} (hwf : doc.WF) (h : doc.words = []) : doc = ⟨.nil, []⟩ := by
  obtain ⟨body, sections⟩ := doc
  simp only [Doc.words, List.append_eq_nil_iff] at h
  have hb : body = .nil := by
    cases body with
    | nil => rfl
    | dangling n cs rest =>
      have := hwf.body
      simp only [Body.WF] at this
      have h1 := h.1
      simp only [Body.words, List.append_eq_nil_iff] at h1
      cases cs with
      | nil => exact absurd rfl this.1
      | cons c cs => simp [commentWords] at h1
    | item f n c rest =>
      have := hwf.body
      simp only [Body.WF] at this
      have h1 := h.1
      simp only [Body.words, List.append_eq_nil_iff] at h1
      cases n with
      | pair l ks s v => simp [Node.words] at h1
      | lit => exact absurd this.1 (by simp [Node.isPair])
      | array => exact absurd this.1 (by simp [Node.isPair])
      | table => exact absurd this.1 (by simp [Node.isPair])
  have hs : sections = [] := by
    cases sections with
    | nil => rfl
    | cons s ss => have := h.2; simp [Section.words] at this
  rw [hb, hs]

/-- What the formatter writes for a document is parsed without errors, as the same document. -/
theorem format_parses {E : Env} (hE : E.Laid) (hle : IsLineEnding E.lineEnding) (hd : DelimiterSetting E.defs.dateTimeDelimiter)
    {doc : Doc} (hwf : doc.WF) (hnc : NoComma doc.words) (hw : ∀ w ∈ doc.words, TomlWord w) (hn : NamesBeforeDots doc.words)
    (hc : ∀ f t, Word.comment f t ∈ doc.words → OneLine (E.renderComment f t)) (hlen : utf8Len (formatDoc E doc) < 2 ^ 28) :
    Parseable E.G (formatDoc E doc) ∧ ∃ r, parse E.G (formatDoc E doc) = .ok r ∧ r.errors = [] ∧
      ∃ doc', NormD E doc doc' ∧ (docOf r.tree).bare = doc'.bare := by
  have hadj := fmtDoc_adj E doc (fine_of E hw hn)
  have htext := fmtDoc_textOk hE hd hnc hw hc
  have hwords := fmtDoc_words E hE.single hE.skip doc hnc
  unfold formatDoc at hlen ⊢
  simp only at hlen ⊢
  by_cases he : textOf E.lineEnding (fmtDoc E doc) = []
  · rw [he] at hlen ⊢
    have hdoc : doc = ⟨.nil, []⟩ := by
      refine words_nil hwf ?_
      have : wordsOf (fmtDoc E doc) = [] := by
        refine List.filter_eq_nil_iff.mpr fun p hp hpw => ?_
        exact textOk_ne hadj htext p hp hpw (textOf_nil_of he p hp)
      rw [hwords] at this
      exact List.map_eq_nil_iff.mp this
    obtain ⟨h0, r, h1, h2, w, d, -, rfl, h3⟩ := parse_of_pieces (G := E.G) (S := fun w => w = []) hlen lexV_nil
      (fun w hw => by subst hw; exact .cons (by decide) trivial) (doc' := fun _ d => d = ⟨.nil, []⟩)
      (fun w hw => by
        subst hw
        obtain ⟨cs, v', m0, h1, h2⟩ := empty_read (z := ⟨EOF, [], false⟩) rfl
        exact ⟨_, rfl, cs, v', m0, h1, h2⟩)
    refine ⟨h0, r, h1, h2, ⟨.nil, []⟩, ?_, h3⟩
    subst hdoc
    exact ⟨rfl, rfl, fun h => by cases h⟩
  · rw [if_neg (by simpa using he)] at hlen ⊢
    have hlex := relex hle (fmtDoc E doc) hadj (fmtDoc_closed E hE.single doc) htext
    obtain ⟨h0, r, h1, h2, w, d, -, h4, h3⟩ := parse_of_pieces (G := E.G) hlen hlex
      (by
        rintro w ⟨w0, y, rfl, hy, hsh⟩
        rw [List.append_assoc]
        have hv : ∀ x ∈ List.head? ([y] ++ [(⟨EOF, [], false⟩ : VTok)]), ¬ IsDotted x := by
          intro x hx hdx
          simp only [List.cons_append, List.head?_cons, Option.mem_def, Option.some.injEq] at hx
          subst hx
          have := hdx.1
          rw [hy] at this
          exact absurd this (by decide)
        refine (shows_dots hadj hsh ?_ ?_).of_head (shows_first hwords (noLit_doc hwf) (marksOk_doc doc) hw hsh ?_)
        · exact hv
        · exact .cons (by rw [hy]; decide) (.cons (by decide) trivial)
        · exact hv) (doc' := fun _ d => NormD E doc d)
      (by
        rintro w ⟨w0, y, rfl, hy, hsh⟩
        obtain ⟨doc', hN, cs, v', m0, h5, h6⟩ := fmtDoc_read hE hwf hsh hy (z := ⟨EOF, [], false⟩) rfl
        exact ⟨doc', hN, cs, v', m0, by simpa using h5, h6⟩)
    exact ⟨h0, r, h1, h2, d, h4, h3⟩

end Tombi.Formatter
