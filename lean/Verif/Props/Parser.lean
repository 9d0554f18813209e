import Verif.Proofs.ParserTop
import Verif.Props.Lexer
/-!
# Properties of the parser: C07 – C12

The theorems about `parse` carry two hypotheses, both needed:

* `utf8Len src < 2 ^ 28`: the parser's output packs error indices into 31 bits, so a document with more
  errors than that cannot be represented; the bound on the size rules it out.
* `FloatsAttached`: no dotted float is separated by blanks from the start of the document or from another
  dotted float. Without it `parse` panics: see `C08_parse_total_false`.
-/
namespace Tombi
open SyntaxKind

/-- The documents for which the parser is proved correct. -/
def Parseable (G : Segmenter) (src : List Char) : Prop :=
  utf8Len src < 2 ^ 28 ∧ ∀ l, lex G src = .ok l → FloatsAttached src l.tokens

/-- **C07 (partial)**: the syntax tree has kind `ROOT` and its text is the source. Missing: documents that
are not `Parseable`, where the claim is false (`C07_parse_lossless_false`). -/
theorem C07_parse_lossless_partial (G : Segmenter) (src : List Char) (h : Parseable G src) (r : Parsed)
    (hr : parse G src = .ok r) : r.tree.kind = .ROOT ∧ r.tree.text = src := by
  obtain ⟨l, p, evs, new, _, _, _, _, hp, ht, _⟩ := parse_spec G src h.1 h.2
  rw [hr] at hp
  cases hp
  exact ⟨rfl, by simpa [Green.text] using ht⟩

/-- **C08 (partial)**: `parse` ends normally: it neither panics nor runs forever. Missing: documents
that are not `Parseable`, where the claim is false (`C08_parse_total_false`). -/
theorem C08_parse_total_partial (G : Segmenter) (src : List Char) (h : Parseable G src) :
    ∃ r, parse G src = .ok r := by
  obtain ⟨l, p, evs, new, _, _, _, _, hp, _⟩ := parse_spec G src h.1 h.2
  exact ⟨_, hp⟩

/-- **C08**: the errors of `parse` are the lexer's errors in order followed by the errors of the parser's
events in order, and the line ending is the lexer's. -/
theorem C08_parse_errors_partial (G : Segmenter) (src : List Char) (h : Parseable G src) (r : Parsed)
    (hr : parse G src = .ok r) :
    ∃ l p, lex G src = .ok l ∧ (PM.root G).run (Parser.new src l.tokens) = .ok ((), p) ∧
      r.errors = l.errors.map PError.ofLex ++ p.events.filterMap (fun | .error e => some e | _ => none) ∧
      r.lineEnding = l.lineEnding := by
  obtain ⟨l, p, evs, new, hl, hrun, hev, _, hp, _⟩ := parse_spec G src h.1 h.2
  rw [hr] at hp
  cases hp
  refine ⟨l, p, hl, hrun, ?_, rfl⟩
  rw [hev]
  simp [errsOf, List.filterMap_append]
  rfl

/-- **C09 (partial)**: however deeply the source nests arrays and inline tables, the tree holds at most
128 of them inside each other, and its height is at most 391. -/
theorem C09_nesting_bounded_partial (G : Segmenter) (src : List Char) (h : Parseable G src) (r : Parsed)
    (hr : parse G src = .ok r) : r.tree.nesting ≤ 128 ∧ r.tree.height ≤ 391 := by
  obtain ⟨l, p, evs, new, _, _, _, _, hp, _, hh, hn⟩ := parse_spec G src h.1 h.2
  rw [hr] at hp
  cases hp
  exact ⟨by simpa [Green.nesting] using hn, by simp [Green.height]; omega⟩

/-- **C10 (partial)**: the events of a parse are a single `ROOT` node around a well-nested stream. -/
theorem C10_events_well_nested_partial (G : Segmenter) (src : List Char) (h : Parseable G src) :
    ∃ l p body, lex G src = .ok l ∧ (PM.root G).run (Parser.new src l.tokens) = .ok ((), p) ∧
      p.events = .start ROOT :: (body ++ [.finish]) ∧ WellNested body := by
  obtain ⟨l, p, evs, new, hl, hrun, hev, hw, _⟩ := parse_spec G src h.1 h.2
  exact ⟨l, p, evs, hl, hrun, hev, hw⟩

/-- The step an event stands for in the output: opened nodes that were abandoned leave no step. -/
def Event.step : Event → Option Step
  | .start k => if k = .TOMBSTONE then none else some (.enter k)
  | .finish => some .exit
  | .token k n => some (.token k n)
  | .error e => some (.error e)

/-- **C11**: every step packed into the output is read back, the same and in the same order. -/
theorem C11_output_roundtrip (evs : List Event) (hn : ∀ k n, Event.token k n ∈ evs → n < 256)
    (he : evs.length ≤ 2 ^ 31) : (process evs).steps = .ok (evs.filterMap Event.step) := by
  have h1 : (errsOf evs).length ≤ evs.length := List.length_filterMap_le _ _
  rw [steps_process evs hn (by omega)]
  congr 2
  funext e
  cases e <;> simp [Event.toStep, Event.step]

/-- **C12**: a token set contains exactly the kinds it was made from. -/
theorem C12_token_set (kinds : List SyntaxKind) (k : SyntaxKind) :
    (TokenSet.new kinds).contains k = true ↔ k ∈ kinds := TokenSet.contains_new kinds k

/-! ### Concrete cases -/

/-- A scan deciding `FloatsAttached`: `bad` says that the last token was a dotted float or there was
none, `gap` that blanks follow it. -/
def attachedFrom (source : List Char) : Bool → Bool → List Token → Bool
  | _, _, [] => true
  | bad, gap, t :: ts =>
    if t.kind.isTrivia then attachedFrom source bad true ts
    else
      let dotted := t.kind == .FLOAT &&
        ((byteSlice t.span.start t.span.stop source).map (fun w => decide ('.' ∈ w))).getD false
      !(bad && gap && dotted) && attachedFrom source dotted false ts

theorem not_trivia_of_dotted {source : List Char} {t : Token} (h : DottedFloat source t) :
    t.kind.isTrivia = false := by rw [h.1]; decide

theorem dotted_eq {source : List Char} {t : Token} (h : DottedFloat source t) :
    (t.kind == .FLOAT &&
        ((byteSlice t.span.start t.span.stop source).map (fun w => decide ('.' ∈ w))).getD false) = true := by
  obtain ⟨h1, w, h2, h3⟩ := h
  unfold TextIs at h2
  simp [h1, h2, h3]

theorem attachedFrom_gap {source : List Char} {f : Token} {post : List Token} (hf : DottedFloat source f)
    (ws : List Token) (hw : ∀ t ∈ ws, t.kind.isTrivia = true) (gap : Bool)
    (hg : ws ≠ [] ∨ gap = true) (bad : Bool) (h : attachedFrom source bad gap (ws ++ f :: post) = true) :
    bad = false := by
  induction ws generalizing gap with
  | nil =>
    rcases hg with hg | hg
    · exact absurd rfl hg
    · subst hg
      simp only [List.nil_append, attachedFrom, not_trivia_of_dotted hf, dotted_eq hf] at h
      cases bad <;> simp at h ⊢
  | cons w ws ih =>
    have hwt := hw w (by simp)
    simp only [List.cons_append, attachedFrom, hwt, if_true] at h
    exact ih (fun t ht => hw t (by simp [ht])) true (.inr rfl) h

theorem attachedFrom_suffix {source : List Char} (bad gap : Bool) (pre : List Token) (g : Token)
    (tl : List Token) (hg : DottedFloat source g)
    (h : attachedFrom source bad gap (pre ++ g :: tl) = true) : attachedFrom source true false tl = true := by
  induction pre generalizing bad gap with
  | nil =>
    simp only [List.nil_append, attachedFrom, not_trivia_of_dotted hg, dotted_eq hg] at h
    simp at h
    exact h.2
  | cons t ts ih =>
    simp only [List.cons_append, attachedFrom] at h
    split at h
    · exact ih _ _ h
    · simp at h
      exact ih _ _ h.2

theorem floatsAttached_of_check {source : List Char} {ts : List Token}
    (h : attachedFrom source true false ts = true) : FloatsAttached source ts := by
  rintro pre ws f post rfl hne hw hf
  constructor
  · rintro rfl
    have := attachedFrom_gap hf ws hw false (.inl hne) true (by simpa using h)
    cases this
  · rintro pre' g rfl hg
    have h' := attachedFrom_suffix _ _ pre' g (ws ++ f :: post) hg (by simpa using h)
    have := attachedFrom_gap hf ws hw false (.inl hne) true h'
    cases this

theorem parseable_of_check {G : Segmenter} {src : List Char}
    (h : (utf8Len src < 2 ^ 28 ∧ ((lex G src).toOption.map
      (fun l => attachedFrom src true false l.tokens)) = some true)) : Parseable G src := by
  refine ⟨h.1, fun l hl => ?_⟩
  have h2 := h.2
  rw [hl] at h2
  exact floatsAttached_of_check (by simpa [Except.toOption] using h2)

/-- a document with a comment, a table header, a dotted float key, nested values and a syntax error -/
def sampleDoc : List Char :=
  "[a] # t\n 3.14=[1.5,{k=1}]\nq=\n".toList

/-- Concrete case for C07 – C10. -/
example : Parseable charSegmenter sampleDoc := parseable_of_check (by decide +kernel)

/-- Concrete case for C07 – C10: the sample document is parsed, its text is kept, and the missing value
is reported. -/
example : (parse charSegmenter sampleDoc).toOption.map
    (fun r => (r.tree.text, r.tree.nesting, r.errors.map (·.kind))) =
      some (sampleDoc, 2, [.ExpectedValue]) := by decide +kernel

/-- Concrete case for C11. -/
example : (process [.start ROOT, .start TOMBSTONE, .token BARE_KEY 1, .error ⟨.ExpectedEqual, ⟨⟨0, 0⟩, ⟨0, 0⟩⟩⟩,
    .finish]).steps = .ok [.enter ROOT, .token BARE_KEY 1, .error ⟨.ExpectedEqual, ⟨⟨0, 0⟩, ⟨0, 0⟩⟩⟩, .exit] := by
  decide +kernel

/-- Concrete case for C12. -/
example : (TokenSet.new [EOF, LINE_BREAK, ROOT]).contains LINE_BREAK = true ∧
    (TokenSet.new [EOF, LINE_BREAK, ROOT]).contains COMMENT = false := by decide +kernel

/-! ### Where the claims are false -/

/-- does a run panic? -/
def isPanic {α : Type} : Except Abort α → Bool
  | .error .panic => true
  | _ => false

theorem eq_panic {α : Type} {x : Except Abort α} (h : isPanic x = true) : x = .error .panic := by
  match x, h with
  | .error .panic, _ => rfl

/-- **C08 is false**: a document that starts with blanks and a dotted float key makes `parse` panic, and so
does a dotted float key separated by blanks from another one. -/
theorem C08_parse_total_false :
    parse charSegmenter " 1.2 = 3".toList = .error .panic ∧
    parse charSegmenter "a={x=b.1.2 3.4=1}".toList = .error .panic := by
  exact ⟨eq_panic (by decide +kernel), eq_panic (by decide +kernel)⟩

/-- **C07 is false** for the same document: there is no tree with its text. -/
theorem C07_parse_lossless_false :
    ¬ ∀ (G : Segmenter) (src : List Char), ∃ r, parse G src = .ok r ∧ r.tree.text = src := by
  intro h
  obtain ⟨r, hr, _⟩ := h charSegmenter " 1.2 = 3".toList
  rw [C08_parse_total_false.1] at hr
  cases hr

end Tombi
