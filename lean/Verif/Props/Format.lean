import Verif.Proofs.Format
import Verif.Props.TomlText
import Verif.Props.DateTime
import Verif.Props.LexAccept
/-! Properties C33, C34 and C56: quote styles, comment texts and date-time delimiters. -/
namespace Tombi
open Spec TomlText Format DateTime

/-! ### C33 -/

/-- **C33** for basic strings: formatting never panics. Either the text is left alone, or it becomes a
single-line literal string that decodes to exactly the same value (or the same error); the latter happens
exactly when single quotes are asked for and the text holds neither a backslash nor a single quote. -/
theorem C33_basic_string (lit : List Char) (h : BasicString lit) (style : QuoteStyle) (v : TomlVersion) :
    ∃ out, formatBasicString lit style = some out
      ∧ ((style = .single ∧ '\\' ∉ lit ∧ '\'' ∉ lit ∧ LiteralString out
            ∧ tryFromLiteralString out = tryFromBasicString lit v)
          ∨ (¬ (style = .single ∧ '\\' ∉ lit ∧ '\'' ∉ lit) ∧ out = lit)) := by
  obtain ⟨items, hi, rfl⟩ := h
  cases style with
  | double => exact ⟨_, rfl, .inr ⟨by simp, rfl⟩⟩
  | preserve => exact ⟨_, rfl, .inr ⟨by simp, rfl⟩⟩
  | single =>
    unfold formatBasicString requoteString
    by_cases hc : '\\' ∈ ('"' :: (render items ++ ['"'])) ∨ '\'' ∈ ('"' :: (render items ++ ['"']))
    · rw [if_pos (by simpa using hc)]
      refine ⟨_, rfl, .inr ⟨?_, rfl⟩⟩
      rintro ⟨_, h1, h2⟩
      exact hc.elim h1 h2
    · rw [if_neg (by simpa using hc)]
      simp only [not_or] at hc
      have hb : '\\' ∉ render items := fun e => hc.1 (by simp [e])
      have hq : '\'' ∉ render items := fun e => hc.2 (by simp [e])
      obtain ⟨h1, h2, h3⟩ := render_no_escape hi hb
      have hin : inner 1 ('"' :: (render items ++ ['"'])) = some (render items) :=
        inner_quotes '"' (by decide) (render items)
      rw [hin]
      refine ⟨_, rfl, .inl ⟨rfl, hc.1, hc.2, ⟨_, hq, h2, h3, rfl⟩, ?_⟩⟩
      have e1 := tryFromLiteralString_literal1 (render items)
      have e2 := tryFromBasicString_quoted (render items) v
      rw [parseBasic_eq_parseLiteral v hb] at e2
      exact e1.trans e2.symm

/-- **C33** for literal strings, in the other direction. -/
theorem C33_literal_string (lit : List Char) (h : LiteralString lit) (style : QuoteStyle) (v : TomlVersion) :
    ∃ out, formatLiteralString lit style = some out
      ∧ ((style = .double ∧ '\\' ∉ lit ∧ '"' ∉ lit ∧ BasicString out
            ∧ tryFromBasicString out v = tryFromLiteralString lit)
          ∨ (¬ (style = .double ∧ '\\' ∉ lit ∧ '"' ∉ lit) ∧ out = lit)) := by
  obtain ⟨body, hq, h2, h3, rfl⟩ := h
  cases style with
  | single => exact ⟨_, rfl, .inr ⟨by simp, rfl⟩⟩
  | preserve => exact ⟨_, rfl, .inr ⟨by simp, rfl⟩⟩
  | double =>
    unfold formatLiteralString requoteString
    by_cases hc : '\\' ∈ ('\'' :: (body ++ ['\''])) ∨ '"' ∈ ('\'' :: (body ++ ['\'']))
    · rw [if_pos (by simpa using hc)]
      refine ⟨_, rfl, .inr ⟨?_, rfl⟩⟩
      rintro ⟨_, h1, h2⟩
      exact hc.elim h1 h2
    · rw [if_neg (by simpa using hc)]
      simp only [not_or] at hc
      have hb : '\\' ∉ body := fun e => hc.1 (by simp [e])
      have hd : '"' ∉ body := fun e => hc.2 (by simp [e])
      have hin : inner 1 ('\'' :: (body ++ ['\''])) = some body := inner_quotes '\'' (by decide) body
      rw [hin]
      refine ⟨_, rfl, .inl ⟨rfl, hc.1, hc.2, basicString_of_plain hd hb h2 h3, ?_⟩⟩
      have e1 := tryFromLiteralString_literal1 body
      have e2 := tryFromBasicString_quoted body v
      rw [parseBasic_eq_parseLiteral v hb] at e2
      exact e2.trans e1.symm

/-- a string or key token after formatting: its text, read by the kind its first character shows -/
def readString (v : TomlVersion) (text : List Char) : Option (Except TextError (List Char)) :=
  match text with
  | '"' :: _ => tryFromBasicString text v
  | '\'' :: _ => tryFromLiteralString text
  | _ => some (.ok text)

/-- a well-formed key: what the lexer makes of it -/
def GoodKey : AstKey → Prop
  | .bare text => BareKey text
  | .basic text => BasicString text
  | .literal text => LiteralString text

/-- the text of a key -/
def keyText : AstKey → List Char
  | .bare text => text
  | .basic text => text
  | .literal text => text

theorem goodKey_head {k : AstKey} (h : GoodKey k) (v : TomlVersion) : readString v (keyText k) =
    match k with
    | .bare text => some (.ok text)
    | .basic text => tryFromBasicString text v
    | .literal text => tryFromLiteralString text := by
  cases k with
  | bare t =>
    have h' : BareKey t := h
    show readString v t = some (.ok t)
    unfold readString
    split
    · exact absurd (h'.2 '"' (by simp)) (by decide)
    · exact absurd (h'.2 '\'' (by simp)) (by decide)
    · rfl
  | basic t => obtain ⟨items, _, rfl⟩ := h; rfl
  | literal t => obtain ⟨body, _, _, _, rfl⟩ := h; rfl

theorem joinDots_eq (ks : List (List Char)) : joinDots ks = List.intercalate ['.'] ks := by
  induction ks with
  | nil => rfl
  | cons k ks ih =>
    cases ks with
    | nil => simp [joinDots, List.intercalate]
    | cons k' ks =>
      rw [joinDots, ih]
      · simp [List.intercalate, List.intersperse]
      · simp

/-- **C33** for keys: the formatted keys are written with dots between them, each of them is again a bare
key, a basic or a literal string, and the decoded key is unchanged. -/
theorem C33_keys (style : QuoteStyle) (v : TomlVersion) (pad : Nat) (keys : List AstKey)
    (h : ∀ k ∈ keys, GoodKey k) :
    ∃ keys' : List AstKey, formatKeys style pad keys
        = some (List.intercalate ['.'] (keys'.map keyText) ++ List.replicate pad ' ')
      ∧ (∀ k ∈ keys', GoodKey k)
      ∧ keys'.map (fun k => readString v (keyText k)) = keys.map (fun k => readString v (keyText k)) := by
  have one : ∀ k, GoodKey k → ∃ k', formatKey style k = some (keyText k') ∧ GoodKey k'
      ∧ readString v (keyText k') = readString v (keyText k) := by
    intro k hk
    cases k with
    | bare t => exact ⟨.bare t, rfl, hk, rfl⟩
    | basic t =>
      obtain ⟨out, h1, h2⟩ := C33_basic_string t hk style v
      rcases h2 with ⟨_, _, _, h3, h4⟩ | ⟨_, rfl⟩
      · refine ⟨.literal out, h1, h3, ?_⟩
        rw [goodKey_head (k := .literal out) h3, goodKey_head (k := .basic t) hk]
        exact h4
      · exact ⟨.basic out, h1, hk, rfl⟩
    | literal t =>
      obtain ⟨out, h1, h2⟩ := C33_literal_string t hk style v
      rcases h2 with ⟨_, _, _, h3, h4⟩ | ⟨_, rfl⟩
      · refine ⟨.basic out, h1, h3, ?_⟩
        rw [goodKey_head (k := .basic out) h3, goodKey_head (k := .literal t) hk]
        exact h4
      · exact ⟨.literal out, h1, hk, rfl⟩
  have all : ∃ keys' : List AstKey, keys.mapM (formatKey style) = some (keys'.map keyText) ∧ (∀ k ∈ keys', GoodKey k)
      ∧ keys'.map (fun k => readString v (keyText k)) = keys.map (fun k => readString v (keyText k)) := by
    induction keys with
    | nil => exact ⟨[], rfl, by simp, rfl⟩
    | cons k ks ih =>
      obtain ⟨k', h1, h2, h3⟩ := one k (h k (by simp))
      obtain ⟨ks', h4, h5, h6⟩ := ih fun x hx => h x (by simp [hx])
      refine ⟨k' :: ks', ?_, ?_, ?_⟩
      · rw [List.mapM_cons, h1, h4]; rfl
      · intro x hx
        rcases List.mem_cons.mp hx with rfl | hx
        · exact h2
        · exact h5 x hx
      · simp only [List.map_cons, h3, h6]
  obtain ⟨keys', h1, h2, h3⟩ := all
  refine ⟨keys', ?_, h2, h3⟩
  unfold formatKeys
  rw [h1, ← joinDots_eq]; rfl

/-- **C33**: formatting the result again, now as a string of its new kind, changes nothing. -/
theorem C33_idempotent (lit : List Char) (style : QuoteStyle) :
    (BasicString lit → ∀ out, formatBasicString lit style = some out →
      (BasicString out → formatBasicString out style = some out)
        ∧ (LiteralString out → formatLiteralString out style = some out))
    ∧ (LiteralString lit → ∀ out, formatLiteralString lit style = some out →
      (BasicString out → formatBasicString out style = some out)
        ∧ (LiteralString out → formatLiteralString out style = some out)) := by
  have hdiff : ∀ x, BasicString x → LiteralString x → False := by
    rintro x ⟨_, _, rfl⟩ ⟨_, _, _, _, h⟩
    injection h with h _
    exact absurd h (by decide)
  constructor
  · intro hl out ho
    obtain ⟨o, h1, h2⟩ := C33_basic_string lit hl style .V1_0_0
    rw [ho] at h1
    cases h1
    rcases h2 with ⟨rfl, _, _, h3, _⟩ | ⟨_, rfl⟩
    · exact ⟨fun hb => (hdiff _ hb h3).elim, fun _ => rfl⟩
    · exact ⟨fun _ => ho, fun hb => (hdiff _ hl hb).elim⟩
  · intro hl out ho
    obtain ⟨o, h1, h2⟩ := C33_literal_string lit hl style .V1_0_0
    rw [ho] at h1
    cases h1
    rcases h2 with ⟨rfl, _, _, h3, _⟩ | ⟨_, rfl⟩
    · exact ⟨fun _ => rfl, fun hb => (hdiff _ h3 hb).elim⟩
    · exact ⟨fun hb => (hdiff _ hb hl).elim, fun _ => ho⟩

/-- **C33**: the requoted text is one token of its new kind wherever it stands (if it is empty, not before a
further quote of its kind). -/
theorem C33_one_token (lit post : List Char) (style : QuoteStyle) (out : List Char) :
    (BasicString lit → formatBasicString lit style = some out → out ≠ lit →
      (out = ['\'', '\''] → post.head? ≠ some '\'') → LexedAs .LITERAL_STRING out post)
    ∧ (LiteralString lit → formatLiteralString lit style = some out → out ≠ lit →
      (out = ['"', '"'] → post.head? ≠ some '"') → LexedAs .BASIC_STRING out post) := by
  constructor
  · intro hl ho hne hp
    obtain ⟨o, h1, h2⟩ := C33_basic_string lit hl style .V1_0_0
    rw [ho] at h1
    cases h1
    rcases h2 with ⟨_, _, _, h3, _⟩ | ⟨_, h⟩
    · exact C05_literal_string out post h3 hp
    · exact absurd h hne
  · intro hl ho hne hp
    obtain ⟨o, h1, h2⟩ := C33_literal_string lit hl style .V1_0_0
    rw [ho] at h1
    cases h1
    rcases h2 with ⟨_, _, _, h3, _⟩ | ⟨_, h⟩
    · exact C05_basic_string out post h3 hp
    · exact absurd h hne

/-- Concrete cases for C33. -/
example : BasicString "\"a b\"".toList ∧ formatBasicString "\"a b\"".toList .single = some "'a b'".toList :=
  ⟨⟨[.chr 'a', .chr ' ', .chr 'b'], by simp [Item.single], by decide⟩, by decide +kernel⟩
example : formatBasicString "\"it's\"".toList .single = some "\"it's\"".toList
    ∧ formatLiteralString "'a\\b'".toList .double = some "'a\\b'".toList
    ∧ formatLiteralString "''".toList .double = some "\"\"".toList := by decide +kernel
example : formatKeys .double 2 [.bare "a".toList, .literal "'b c'".toList]
    = some "a.\"b c\"  ".toList := by decide +kernel

/-! ### C34 -/

/-- **C34**, the exact result for every comment that is no directive: it has parts, and they are written with
one space after the marker and no trailing white space. -/
theorem C34_words_kept (fmt : List Char → Option (List Char)) (strip : Bool) (body : List Char)
    (hn : NoDirective ('#' :: body)) :
    (∃ m b w t, CommentParts ('#' :: body) m b w t)
      ∧ ∀ m b w t, CommentParts ('#' :: body) m b w t →
          formatComment false fmt strip ('#' :: body) = some (tidyComment strip m b w) :=
  ⟨exists_parts body, fun _ _ _ _ h => (formatComment_plain hn).trans (formatPlain_parts h)⟩

/-- **C34**: formatting twice is formatting once, for every comment that is no directive. For a directive
this needs the same of its content, which is formatted as a document of its own; see `C34_false`. -/
theorem C34_idempotent_partial (preserve : Bool) (fmt : List Char → Option (List Char)) (strip : Bool)
    (body out : List Char)
    (hd : ∀ content, documentDirective ('#' :: body) = some content
        → directiveContent fmt (directiveContent fmt content) = directiveContent fmt content)
    (hv : ∀ content, valueDirective ('#' :: body) = some (some content)
        → directiveContent fmt (' ' :: directiveContent fmt content) = directiveContent fmt content)
    (h : formatComment preserve fmt strip ('#' :: body) = some out) :
    formatComment preserve fmt strip out = some out := by
  cases preserve with
  | true => rfl
  | false =>
    cases h1 : stripPrefix schemaPrefix ('#' :: body) with
    | some uri =>
      unfold formatComment at h
      rw [if_neg (by simp), h1] at h
      simp only [Option.some.injEq] at h
      subst h
      unfold formatComment
      rw [if_neg (by simp), stripPrefix_append]
      simp only [trim_idem]
    | none =>
      cases h2 : stripPrefix documentPrefix ('#' :: body) with
      | some content =>
        unfold formatComment at h
        rw [if_neg (by simp), h1] at h
        simp only at h
        rw [h2] at h
        simp only [Option.some.injEq] at h
        subst h
        have hs : ∀ x, stripPrefix schemaPrefix (documentPrefix ++ x) = none := by
          intro x; simp [stripPrefix, schemaPrefix, documentPrefix, valuePrefix]
        unfold formatComment
        rw [if_neg (by simp), hs]
        simp only
        rw [stripPrefix_append]
        simp only [hd content h2]
      | none =>
        cases h3 : valueDirective ('#' :: body) with
        | none => rw [valueDirective_hash] at h3; cases h3
        | some o =>
          cases o with
          | some content =>
            unfold formatComment at h
            rw [if_neg (by simp), h1] at h
            simp only at h
            rw [h2] at h
            simp only at h
            rw [h3] at h
            simp only [Option.some.injEq] at h
            subst h
            have hs : ∀ x, stripPrefix schemaPrefix (('#' :: ' ' :: (valuePrefix ++ [' '])) ++ x) = none := by
              intro x; simp [stripPrefix, schemaPrefix, documentPrefix, valuePrefix]
            have ht : ∀ x, stripPrefix documentPrefix (('#' :: ' ' :: (valuePrefix ++ [' '])) ++ x) = none := by
              intro x; simp [stripPrefix, schemaPrefix, documentPrefix, valuePrefix]
            have hvv : ∀ x, valueDirective (('#' :: ' ' :: (valuePrefix ++ [' '])) ++ x) = some (some (' ' :: x)) := by
              intro x
              show valueDirective ('#' :: ((' ' :: (valuePrefix ++ [' '])) ++ x)) = _
              rw [valueDirective_hash]
              have e : trimStart ((' ' :: (valuePrefix ++ [' '])) ++ x) = valuePrefix ++ (' ' :: x) := by
                unfold trimStart
                show (' ' :: 't' :: _).dropWhile charIsWhitespace = _
                rw [List.dropWhile_cons_of_pos (by decide), List.dropWhile_cons_of_neg (by decide)]
                rfl
              rw [e, stripPrefix_append]
            unfold formatComment
            rw [if_neg (by simp), hs]
            simp only
            rw [ht]
            simp only
            rw [hvv]
            simp only [hv content h3]
          | none =>
            have hn := noDirective_of h1 h2 h3
            obtain ⟨m, b, w, t, hp⟩ := exists_parts body
            rw [formatComment_plain hn, formatPlain_parts hp] at h
            cases h
            have hp2 := tidy_parts (strip := strip) hp
            have hn2 := tidy_noDirective (strip := strip) hp hn
            have e := hp2.text_eq
            rw [e] at hp2 hn2 ⊢
            rw [formatComment_plain hn2, formatPlain_parts hp2, tidy_tidy, ← e]

/-- **C34**: the result is a comment on one line: it starts with `#`, and it holds a line break only if the
comment did, or the formatted content of a directive does. -/
theorem C34_one_line (preserve : Bool) (fmt : List Char → Option (List Char)) (strip : Bool) (body : List Char)
    (hb : '\n' ∉ body ∧ '\r' ∉ body)
    (hf : ∀ content formatted, fmt content = some formatted → '\n' ∉ formatted ∧ '\r' ∉ formatted) :
    ∃ out, formatComment preserve fmt strip ('#' :: body) = some ('#' :: out) ∧ '\n' ∉ out ∧ '\r' ∉ out
      ∧ ∀ post, (∀ c, post.head? = some c → c = '\n' ∨ c = '\r') → LexedAs .COMMENT ('#' :: out) post := by
  have key : ∃ out, formatComment preserve fmt strip ('#' :: body) = some ('#' :: out) ∧ '\n' ∉ out ∧ '\r' ∉ out := by
    have htrim : ∀ s c, c ∈ trim s → c ∈ s := by
      intro s c hc
      unfold trim trimStart at hc
      exact (List.dropWhile_sublist _).mem (List.mem_reverse.mp
        ((List.dropWhile_sublist _).mem (List.mem_reverse.mp hc)))
    have hdc : ∀ s, ('\n' ∉ s ∧ '\r' ∉ s) → '\n' ∉ directiveContent fmt s ∧ '\r' ∉ directiveContent fmt s := by
      intro s hs
      unfold directiveContent
      split
      · exact ⟨fun e => hs.1 (htrim _ _ e), fun e => hs.2 (htrim _ _ e)⟩
      · next f hf' => exact hf s f hf'
    cases preserve with
    | true => exact ⟨body, rfl, hb⟩
    | false =>
      cases h1 : stripPrefix schemaPrefix ('#' :: body) with
      | some uri =>
        unfold formatComment
        rw [if_neg (by simp), h1]
        have e := stripPrefix_some.mp h1
        have e' : body = schemaPrefix.tail ++ uri := by
          have : '#' :: body = '#' :: (schemaPrefix.tail ++ uri) := e
          injection this
        have hu : '\n' ∉ uri ∧ '\r' ∉ uri := by
          rw [e'] at hb
          simp only [List.mem_append, not_or] at hb
          exact ⟨hb.1.2, hb.2.2⟩
        refine ⟨schemaPrefix.tail ++ trim uri, rfl, ?_, ?_⟩
        · intro hm
          rcases List.mem_append.mp hm with hm | hm
          · revert hm; decide
          · exact hu.1 (htrim _ _ hm)
        · intro hm
          rcases List.mem_append.mp hm with hm | hm
          · revert hm; decide
          · exact hu.2 (htrim _ _ hm)
      | none =>
        cases h2 : stripPrefix documentPrefix ('#' :: body) with
        | some content =>
          unfold formatComment
          rw [if_neg (by simp), h1]
          simp only
          rw [h2]
          have e := stripPrefix_some.mp h2
          have e' : body = documentPrefix.tail ++ content := by
            have : '#' :: body = '#' :: (documentPrefix.tail ++ content) := e
            injection this
          have hu : '\n' ∉ content ∧ '\r' ∉ content := by
            rw [e'] at hb
            simp only [List.mem_append, not_or] at hb
            exact ⟨hb.1.2, hb.2.2⟩
          have hu' := hdc _ hu
          refine ⟨documentPrefix.tail ++ directiveContent fmt content, rfl, ?_, ?_⟩
          · intro hm
            rcases List.mem_append.mp hm with hm | hm
            · revert hm; decide
            · exact hu'.1 hm
          · intro hm
            rcases List.mem_append.mp hm with hm | hm
            · revert hm; decide
            · exact hu'.2 hm
        | none =>
          cases h3 : valueDirective ('#' :: body) with
          | none => rw [valueDirective_hash] at h3; cases h3
          | some o =>
            cases o with
            | some content =>
              unfold formatComment
              rw [if_neg (by simp), h1]
              simp only
              rw [h2]
              simp only
              rw [h3]
              have hu : '\n' ∉ content ∧ '\r' ∉ content := by
                rw [valueDirective_hash] at h3
                injection h3 with h3
                have e := stripPrefix_some.mp h3
                have hmem : ∀ c, c ∈ content → c ∈ body := by
                  intro c hc
                  have : c ∈ trimStart body := by rw [e]; simp [hc]
                  exact (List.dropWhile_sublist _).mem this
                exact ⟨fun e => hb.1 (hmem _ e), fun e => hb.2 (hmem _ e)⟩
              have hu' := hdc _ hu
              refine ⟨(' ' :: (valuePrefix ++ [' '])) ++ directiveContent fmt content, rfl, ?_, ?_⟩
              · intro hm
                rcases List.mem_append.mp hm with hm | hm
                · revert hm; decide
                · exact hu'.1 hm
              · intro hm
                rcases List.mem_append.mp hm with hm | hm
                · revert hm; decide
                · exact hu'.2 hm
            | none =>
              have hn := noDirective_of h1 h2 h3
              obtain ⟨m, b, w, t, hp⟩ := exists_parts body
              rw [formatComment_plain hn, formatPlain_parts hp]
              have e := hp.text_eq
              injection e with _ e
              have hmem : ∀ c, c ∈ m ++ b ++ w → c ∈ body := by
                intro c hc; rw [e]; simp only [List.mem_append] at hc ⊢; exact .inl hc
              have aux : ∀ x, x ≠ ' ' → x ∉ body →
                  x ∉ m ++ ' ' :: ((if strip then [] else b.tail) ++ w) := by
                intro x hx hxb hm
                simp only [List.mem_append, List.mem_cons] at hm
                rcases hm with hm | hm | hm | hm
                · exact hxb (hmem x (by simp [hm]))
                · exact hx hm
                · cases strip with
                  | true => simp at hm
                  | false =>
                    simp only [Bool.false_eq_true, if_false] at hm
                    exact hxb (hmem x (by simp [List.mem_of_mem_tail hm]))
                · exact hxb (hmem x (by simp [hm]))
              unfold tidyComment
              split
              · exact ⟨m, rfl, fun hm => hb.1 (hmem _ (by simp [hm])), fun hm => hb.2 (hmem _ (by simp [hm]))⟩
              · exact ⟨_, rfl, aux _ (by decide) hb.1, aux _ (by decide) hb.2⟩
  obtain ⟨out, h1, h2, h3⟩ := key
  exact ⟨out, h1, h2, h3, fun post hp => lexedAs_of (by simp) (accepts_comment ⟨h2, h3⟩ hp)⟩

/-- **C34**: what a comment tells Tombi is kept: the schema a document names is the same, the content of a
`#:tombi` or `tombi:` directive is its formatted content, and no other comment becomes a directive. -/
theorem C34_directives_kept (fmt : List Char → Option (List Char)) (strip : Bool) (body out : List Char)
    (h : formatComment false fmt strip ('#' :: body) = some out) :
    schemaDirective out = schemaDirective ('#' :: body)
      ∧ documentDirective out = (documentDirective ('#' :: body)).map (directiveContent fmt)
      ∧ valueDirective out
          = (valueDirective ('#' :: body)).map (Option.map fun c => ' ' :: directiveContent fmt c) := by
  have colon : ∀ x, valueDirective ('#' :: ':' :: x) = some none := by
    intro x
    rw [valueDirective_hash]
    have e : trimStart (':' :: x) = ':' :: x := by
      unfold trimStart; rw [List.dropWhile_cons_of_neg (by decide)]
    rw [e]
    simp [stripPrefix, schemaPrefix, documentPrefix, valuePrefix]
  cases h1 : stripPrefix schemaPrefix ('#' :: body) with
  | some uri =>
    unfold formatComment at h
    rw [if_neg (by simp), h1] at h
    simp only [Option.some.injEq] at h
    have e := stripPrefix_some.mp h1
    have hd : ∀ x, documentDirective (schemaPrefix ++ x) = none := by
      intro x; simp [documentDirective, stripPrefix, schemaPrefix, documentPrefix, valuePrefix]
    rw [e, ← h]
    refine ⟨?_, by rw [hd, hd]; rfl, ?_⟩
    · simp only [schemaDirective, stripPrefix_append, Option.map_some, trim_drop_spaces, trim_idem]
    · have hv1 : ∀ x, valueDirective (schemaPrefix ++ x) = some none := by
        intro x
        have e : schemaPrefix ++ x = '#' :: ':' :: (schemaPrefix.tail.tail ++ x) := rfl
        rw [e]; exact colon _
      rw [hv1, hv1]; rfl
  | none =>
    have hs1 : schemaDirective ('#' :: body) = none := by unfold schemaDirective; rw [h1]; rfl
    cases h2 : stripPrefix documentPrefix ('#' :: body) with
    | some content =>
      unfold formatComment at h
      rw [if_neg (by simp), h1] at h
      simp only at h
      rw [h2] at h
      simp only [Option.some.injEq] at h
      have e := stripPrefix_some.mp h2
      have hs : ∀ x, schemaDirective (documentPrefix ++ x) = none := by
        intro x; simp [schemaDirective, stripPrefix, schemaPrefix, documentPrefix, valuePrefix]
      rw [e, ← h]
      refine ⟨by rw [hs, hs], ?_, ?_⟩
      · simp only [documentDirective, stripPrefix_append, Option.map_some]
      · have hv1 : ∀ x, valueDirective (documentPrefix ++ x) = some none := by
          intro x
          have e : documentPrefix ++ x = '#' :: ':' :: (documentPrefix.tail.tail ++ x) := rfl
          rw [e]; exact colon _
        rw [hv1, hv1]; rfl
    | none =>
      have hd1 : documentDirective ('#' :: body) = none := h2
      cases h3 : valueDirective ('#' :: body) with
      | none => rw [valueDirective_hash] at h3; cases h3
      | some o =>
        cases o with
        | some content =>
          unfold formatComment at h
          rw [if_neg (by simp), h1] at h
          simp only at h
          rw [h2] at h
          simp only at h
          rw [h3] at h
          simp only [Option.some.injEq] at h
          subst h
          refine ⟨?_, ?_, ?_⟩
          · rw [hs1]; simp [schemaDirective, stripPrefix, schemaPrefix, documentPrefix, valuePrefix]
          · rw [hd1]; simp [documentDirective, stripPrefix, schemaPrefix, documentPrefix, valuePrefix]
          · show valueDirective ('#' :: ((' ' :: (valuePrefix ++ [' '])) ++ directiveContent fmt content)) = _
            rw [valueDirective_hash]
            have e : trimStart ((' ' :: (valuePrefix ++ [' '])) ++ directiveContent fmt content)
                = valuePrefix ++ (' ' :: directiveContent fmt content) := by
              unfold trimStart
              show (' ' :: 't' :: _).dropWhile charIsWhitespace = _
              rw [List.dropWhile_cons_of_pos (by decide), List.dropWhile_cons_of_neg (by decide)]
              rfl
            rw [e, stripPrefix_append]
            rfl
        | none =>
          have hn := noDirective_of h1 h2 h3
          obtain ⟨m, b, w, t, hp⟩ := exists_parts body
          rw [formatComment_plain hn, formatPlain_parts hp] at h
          cases h
          have hn2 := tidy_noDirective (strip := strip) hp hn
          refine ⟨?_, ?_, ?_⟩
          · rw [hs1]; unfold schemaDirective; rw [stripPrefix_none (noDirective_iff.mp hn2).1]; rfl
          · rw [hd1]; unfold documentDirective; rw [stripPrefix_none (noDirective_iff.mp hn2).2.1]; rfl
          · have e := (tidy_parts (strip := strip) hp).text_eq
            rw [e] at hn2 ⊢
            rw [valueDirective_none hn2]
            rfl

/-- the parser accepts the text -/
def parsesOk (G : Segmenter) (content : List Char) : Bool :=
  match parse G content with
  | .ok p => p.errors.isEmpty
  | .error _ => false

/-- The content formatter of the code: the parser decides, `render` stands for the formatted document. -/
def fmtWith (G : Segmenter) (render : List Char → List Char) (content : List Char) : Option (List Char) :=
  if parsesOk G content then some (render content) else none

/-- `# tombi: a=1　`, with a wide space (U+3000) at the end -/
def wideSpace : List Char := '#' :: ' ' :: (valuePrefix ++ [' ', 'a', '=', '1', '\u3000'])
/-- `# tombi: a=1` -/
def oneSpace : List Char := '#' :: ' ' :: (valuePrefix ++ [' ', 'a', '=', '1'])

/-- **C34 is false** for directives: a wide space (U+3000) at the end makes the content unreadable, so it
is only trimmed; but then it is readable, and the second run formats it. -/
theorem C34_false (render : List Char → List Char)
    (hr : render [' ', 'a', '=', '1'] = ['a', ' ', '=', ' ', '1']) :
    formatComment false (fmtWith charSegmenter render) true wideSpace = some oneSpace
      ∧ formatComment false (fmtWith charSegmenter render) true oneSpace
        = some ('#' :: ' ' :: (valuePrefix ++ [' ', 'a', ' ', '=', ' ', '1'])) := by
  have p1 : parsesOk charSegmenter [' ', 'a', '=', '1', '\u3000'] = false := by decide +kernel
  have p2 : parsesOk charSegmenter [' ', 'a', '=', '1'] = true := by decide +kernel
  have e1 : directiveContent (fmtWith charSegmenter render) [' ', 'a', '=', '1', '\u3000'] = ['a', '=', '1'] := by
    have t : trim [' ', 'a', '=', '1', '\u3000'] = ['a', '=', '1'] := by decide +kernel
    unfold directiveContent fmtWith
    rw [p1]
    simp only [Bool.false_eq_true, if_false, t]
  have e2 : directiveContent (fmtWith charSegmenter render) [' ', 'a', '=', '1'] = ['a', ' ', '=', ' ', '1'] := by
    unfold directiveContent fmtWith
    rw [p2]
    simp only [if_true, hr]
  have v1 : valueDirective wideSpace = some (some [' ', 'a', '=', '1', '\u3000']) := by decide +kernel
  have v2 : valueDirective oneSpace = some (some [' ', 'a', '=', '1']) := by decide +kernel
  have s1 : stripPrefix schemaPrefix wideSpace = none := by decide +kernel
  have s2 : stripPrefix schemaPrefix oneSpace = none := by decide +kernel
  have d1 : stripPrefix documentPrefix wideSpace = none := by decide +kernel
  have d2 : stripPrefix documentPrefix oneSpace = none := by decide +kernel
  constructor
  · unfold formatComment
    simp only [Bool.false_eq_true, if_false, s1, d1, v1, e1]
    rfl
  · unfold formatComment
    simp only [Bool.false_eq_true, if_false, s2, d2, v2, e2]
    rfl

/-- Concrete cases for C34. -/
example : formatComment false (fun _ => none) true "#!  shebang  ".toList = some "#! shebang".toList
    ∧ formatComment false (fun _ => none) false "#\t  code ".toList = some "#   code".toList
    ∧ formatComment false (fun _ => none) true "#####".toList = some "#####".toList
    ∧ formatComment false (fun _ => none) true "##x".toList = some "## x".toList
    ∧ formatComment false (fun _ => none) true "# \t ".toList = some "#".toList
    ∧ formatComment false (fun _ => none) true "#:schema   a.json ".toList = some "#:schema a.json".toList
    ∧ formatComment false (fun _ => none) true "#tombi:x ".toList = some "# tombi: x".toList := by decide +kernel
example : NoDirective "#x".toList := ⟨by decide, by decide, by
  intro s c hs h
  cases s with
  | nil => simp at h
  | cons a as =>
    simp at h⟩

/-! ### C56 -/

/-- the delimiters of the settings: keep, `T` or a space -/
inductive DelimiterSetting : Option (List Char) → Prop where
  | preserve : DelimiterSetting none
  | t : DelimiterSetting (some ['T'])
  | space : DelimiterSetting (some [' '])

theorem byteTake_ascii {a b : List Char} {n : Nat} (hl : a.length = n) (ha : ∀ x ∈ a, x.utf8Size = 1) :
    byteTake n (a ++ b) = some a ∧ byteDrop n (a ++ b) = some b := by
  have hu : utf8Len a = n := by
    rw [← hl]
    clear hl
    induction a with
    | nil => rfl
    | cons c w ih => rw [utf8Len_cons, ha c (by simp), ih fun x hx => ha x (by simp [hx]), List.length_cons]; omega
  have h1 := byteTake_append a b
  have h2 := byteDrop_append a b
  rw [hu] at h1 h2
  exact ⟨h1, h2⟩

theorem formatDateTime_eq {d : Option (List Char)} (hd : DelimiterSetting d) {wd r : List Char} {c : Char}
    (hl : wd.length = 10) (ha : ∀ x ∈ wd, x.utf8Size = 1) (hc : DateTimeSeparator c) :
    ∃ c', DateTimeSeparator c' ∧ formatDateTime d (wd ++ c :: r) = some (wd ++ c' :: r)
      ∧ (∀ x, d = some [x] → c' = x) ∧ (d = none → c' = c) := by
  have hcu : c.utf8Size = 1 := by rcases hc with rfl | rfl | rfl <;> decide
  have h1 := (byteTake_ascii (b := c :: r) hl ha).1
  have h2 : byteDrop 11 (wd ++ c :: r) = some r := by
    have := (byteTake_ascii (a := wd ++ [c]) (b := r) (n := 11) (by simp [hl]) (by
      intro x hx
      rcases List.mem_append.mp hx with hx | hx
      · exact ha x hx
      · simp at hx; rw [hx]; exact hcu)).2
    simpa using this
  cases hd with
  | preserve => exact ⟨c, hc, rfl, fun _ h => (by cases h), fun _ => rfl⟩
  | t =>
    refine ⟨'T', .inl rfl, ?_, fun x h => (by cases h; rfl), fun h => (by cases h)⟩
    unfold formatDateTime; simp only [h1, h2]; simp
  | space =>
    refine ⟨' ', .inr (.inr rfl), ?_, fun x h => (by cases h; rfl), fun h => (by cases h)⟩
    unfold formatDateTime; simp only [h1, h2]; simp

/-- **C56** for local date-times: formatting does not panic on any token of that kind, changes the delimiter
only, and the new text evaluates to the same value (or error) in every version of TOML. -/
theorem C56_local_date_time (G : Segmenter) (src : List Char) (l : Lexed) (h : lex G src = .ok l)
    (tk : Token) (ht : tk ∈ l.tokens) (hk : tk.kind = .LOCAL_DATE_TIME) (v : TomlVersion)
    (d : Option (List Char)) (hd : DelimiterSetting d) :
    ∃ pre wd c c' r post, Covers tk pre (wd ++ c :: r) post src
      ∧ wd.length = 10 ∧ DateTimeSeparator c ∧ DateTimeSeparator c'
      ∧ formatDateTime d (wd ++ c :: r) = some (wd ++ c' :: r)
      ∧ (∀ x, d = some [x] → c' = x) ∧ (d = none → c' = c)
      ∧ tryNewLocalDateTime v (wd ++ c' :: r) = tryNewLocalDateTime v (wd ++ c :: r) := by
  obtain ⟨pre, mid, post, h1, h2⟩ := lex_shape h ht (by simp [hk]) (by simp [hk])
  rw [hk] at h2
  obtain ⟨wd, v1, rfl, g1, u2, v2, rfl, g2, u3, v3, rfl, g3, rfl⟩ := h2.1
  obtain ⟨hl, ha⟩ := date_ascii g1
  obtain ⟨c, rfl, hc⟩ := sep_of g2
  obtain ⟨hm, r, rfl, hl2, ha2⟩ := time_ascii g3
  have e : wd ++ ([c] ++ (hm ++ r ++ [])) = wd ++ c :: (hm ++ r) := by simp
  rw [e] at h1
  obtain ⟨c', k1, k2, k3, k4⟩ := formatDateTime_eq hd (r := hm ++ r) hl ha hc
  refine ⟨pre, wd, c, c', hm ++ r, post, h1, hl, hc, k1, k2, k3, k4, ?_⟩
  unfold tryNewLocalDateTime
  rw [makeDatetimeStr_eq hl ha hl2 ha2 hc, makeDatetimeStr_eq hl ha hl2 ha2 k1]

/-- **C56** for offset date-times. -/
theorem C56_offset_date_time (G : Segmenter) (src : List Char) (l : Lexed) (h : lex G src = .ok l)
    (tk : Token) (ht : tk ∈ l.tokens) (hk : tk.kind = .OFFSET_DATE_TIME) (v : TomlVersion)
    (d : Option (List Char)) (hd : DelimiterSetting d) :
    ∃ pre wd c c' r post, Covers tk pre (wd ++ c :: r) post src
      ∧ wd.length = 10 ∧ DateTimeSeparator c ∧ DateTimeSeparator c'
      ∧ formatDateTime d (wd ++ c :: r) = some (wd ++ c' :: r)
      ∧ (∀ x, d = some [x] → c' = x) ∧ (d = none → c' = c)
      ∧ tryNewOffsetDateTime v (wd ++ c' :: r) = tryNewOffsetDateTime v (wd ++ c :: r) := by
  obtain ⟨pre, mid, post, h1, h2⟩ := lex_shape h ht (by simp [hk]) (by simp [hk])
  rw [hk] at h2
  obtain ⟨wd, v1, rfl, g1, u2, v2, rfl, g2, u3, v3, rfl, g3, u4, v4, rfl, g4, rfl⟩ := h2.1
  obtain ⟨hl, ha⟩ := date_ascii g1
  obtain ⟨c, rfl, hc⟩ := sep_of g2
  obtain ⟨hm, r, rfl, hl2, ha2⟩ := time_ascii g3
  have e : wd ++ ([c] ++ (hm ++ r ++ (u4 ++ []))) = wd ++ c :: (hm ++ (r ++ u4)) := by simp
  rw [e] at h1
  obtain ⟨c', k1, k2, k3, k4⟩ := formatDateTime_eq hd (r := hm ++ (r ++ u4)) hl ha hc
  refine ⟨pre, wd, c, c', hm ++ (r ++ u4), post, h1, hl, hc, k1, k2, k3, k4, ?_⟩
  unfold tryNewOffsetDateTime
  rw [makeDatetimeStr_eq hl ha hl2 ha2 hc, makeDatetimeStr_eq hl ha hl2 ha2 k1]

/-- Concrete case for C56. -/
example : formatDateTime (some ['T']) "1979-05-27 07:32:00Z".toList = some "1979-05-27T07:32:00Z".toList := by
  decide +kernel

end Tombi
