import Verif.Proofs.ViewWords
import Verif.Props.Parser
import Verif.Proofs.LexStrings
/-! The document that the formatter reads from a source without errors has the tokens of the source. -/
namespace Tombi
open SyntaxKind View

/-! ### the view of a source, from its pieces -/

/-- the next piece follows without blanks -/
def jointPs : List Piece → Bool
  | [] => true
  | q :: _ => !q.kind.isTrivia

/-- the significant tokens of pieces, and the end -/
def viewPs : List Piece → View
  | [] => [⟨EOF, [], false⟩]
  | p :: ps =>
    if p.kind.isTrivia then viewPs ps
    else ⟨p.kind, p.text, jointPs ps⟩ :: viewPs ps

theorem viewOf_toks (src : List Char) (e : Token) (he : e.kind = EOF) (hs : e.span = ⟨utf8Len src, utf8Len src⟩)
    (ps : List Piece) (pre : List Char) (pos : Position) (h : src = pre ++ texts ps) :
    viewOf src (toks (utf8Len pre) pos ps ++ [e]) = viewPs ps := by
  induction ps generalizing pre pos with
  | nil =>
    have : textAt src e = [] := by
      unfold textAt
      rw [hs]
      have := byteSlice_append src [] []
      simp only [utf8Len_nil, Nat.add_zero, List.append_nil] at this
      simp only [this, Option.getD_some]
    simp [toks, viewOf, he, SyntaxKind.isTrivia, viewPs, this, jointBefore]
  | cons p ps ih =>
    have hp : (pre ++ p.text) ++ texts ps = src := by rw [h]; simp
    have ih := ih (pre ++ p.text) (advPos pos p.text) hp.symm
    rw [utf8Len_append] at ih
    rw [toks, List.cons_append, viewOf, viewPs]
    have htext : textAt src (p.token (utf8Len pre) pos) = p.text := by
      unfold textAt Piece.token
      have := byteSlice_append pre p.text (texts ps)
      rw [hp] at this
      simp only [this, Option.getD_some]
    have hk : (p.token (utf8Len pre) pos).kind = p.kind := rfl
    rw [hk, ih, htext]
    congr 2
    cases ps with
    | nil => simp [toks, jointBefore, he, SyntaxKind.isTrivia, jointPs]
    | cons q qs => rfl

/-- The tokens of a source as pieces. -/
theorem lex_pieces (G : Segmenter) (src : List Char) :
    ∃ ps l, lex G src = .ok l ∧ texts ps = src ∧ PiecesOk [] ps ∧ l.errors = errs 0 Position.zero ps ∧
      viewOf src l.tokens = viewPs ps ∧ l.tokens.length = ps.length + 1 := by
  obtain ⟨ps, l, h1, h2, h3, h4, h5, -⟩ := lexWith_spec G src (src.length + 1) (by omega)
  refine ⟨ps, l, h1, h2, h3, h5, ?_, ?_⟩
  · rw [h4]
    have := viewOf_toks src ⟨.EOF, ⟨utf8Len src, utf8Len src⟩, ⟨advPos Position.zero src, advPos Position.zero src⟩⟩ rfl rfl ps []
      Position.zero (by simp [h2])
    exact this
  · rw [h4]; simp [toks_length]

theorem errs_nil {off : Nat} {pos : Position} {ps : List Piece} (h : errs off pos ps = []) : ∀ p ∈ ps, p.err = none := by
  induction ps generalizing off pos with
  | nil => intro p hp; cases hp
  | cons q qs ih =>
    simp only [errs, List.append_eq_nil_iff] at h
    intro p hp
    rcases List.mem_cons.mp hp with rfl | hp
    · cases he : p.err with
      | none => rfl
      | some k =>
        have := h.1
        simp [Piece.error, he] at this
    · exact ih h.2 p hp

/-- a token that starts with a line break is a line break -/
theorem scan_lineBreak {p : Piece} {after : List Char} (h : p.Ok after) (he : p.err = none) {c : Char} {w : List Char}
    (ht : p.text = c :: w) (hc : isLineBreak c = true) : p.kind = LINE_BREAK := by
  obtain ⟨-, c0, c', hr, -, -, ha⟩ := h
  rw [ht, List.cons_append] at hr
  rw [advance_cons hr] at ha
  have hcur : c0.bump.cur = c := by unfold Cursor.bump; rw [hr]
  have hw : isWhitespace c = false := by
    simp only [isLineBreak, Bool.or_eq_true, beq_iff_eq] at hc
    rcases hc with rfl | rfl <;> decide
  have hdis : c0.bump.dispatch = c0.bump.lineBreak := by
    unfold Cursor.dispatch
    rw [hcur, hw, hc]
    simp
  rw [hdis] at ha
  unfold Cursor.lineBreak at ha
  have hst : p.step c0.off c0.pos = .tok (p.token c0.off c0.pos) := by unfold Piece.step; rw [he]
  rw [hst] at ha
  split at ha
  · split at ha
    · have := congrArg Prod.fst ha
      simp only [Cursor.ok, LexStep.tok.injEq] at this
      exact (congrArg Token.kind this).symm
    · have := congrArg Prod.fst ha
      simp [Cursor.fail] at this
  · have := congrArg Prod.fst ha
    simp only [Cursor.ok, LexStep.tok.injEq] at this
    exact (congrArg Token.kind this).symm

namespace Formatter

theorem good_viewPs {ps : List Tombi.Piece} (h : PiecesOk [] ps) (he : ∀ p ∈ ps, p.err = none) : Good (viewPs ps) := by
  induction ps with
  | nil => exact ⟨fun h => by (cases h), fun h => absurd rfl h, fun _ => rfl, trivial⟩
  | cons p ps ih =>
    have ih := ih h.2 fun q hq => he q (by simp [hq])
    rw [viewPs]
    split
    · exact ih
    · have hp := h.1.1.2
      rw [he p (by simp)] at hp
      obtain ⟨-, hE, hS⟩ := hp
      refine ⟨?_, ?_, fun hk => absurd hk hE, ih⟩
      · intro hk
        have hk : p.kind = COMMENT := hk
        rw [hk] at hS
        obtain ⟨body, -, -, hb⟩ := hS
        cases ps with
        | nil => exact .inr rfl
        | cons q qs =>
          left
          have hq := h.2.1
          cases ht : q.text with
          | nil => exact absurd ht hq.1.1
          | cons c w =>
            have hlb : isLineBreak c = true := hb c (w ++ texts qs) (by simp [ht])
            have hqk := scan_lineBreak hq (he q (by simp)) ht hlb
            rw [viewPs, if_neg (by rw [hqk]; decide)]
            exact hqk
      · intro hm
        show p.text = markText p.kind
        revert hS hm
        cases p.kind <;> simp [Shape, markText]

/-! ### words -/

mutual
theorem Node.bare_words : (n : Node) → n.bare.words = n.words
  | .lit .. => rfl
  | .array l s b tr => by simp only [Node.bare, Node.words, Body.bare_words b]
  | .table l s b tr => by simp only [Node.bare, Node.words, Body.bare_words b]
  | .pair l ks w v => by simp only [Node.bare, Node.words, Node.bare_words v]
theorem Body.bare_words : (b : Body) → b.bare.words = b.words
  | .nil => rfl
  | .dangling n cs rest => by simp only [Body.bare, Body.words, Body.bare_words rest]
  | .item f n c rest => by simp only [Body.bare, Body.words, Body.bare_words rest, Node.bare_words n]
end

theorem Section.bare_words (s : Section) : s.bare.words = s.words := by
  simp only [Section.bare, Section.words, Body.bare_words]
  rfl

theorem Doc.bare_words (d : Doc) : d.bare.words = d.words := by
  simp only [Doc.bare, Doc.words, Body.bare_words, List.map_map]
  congr 3
  funext s
  exact Section.bare_words s

theorem Node.bare_isPair (n : Node) : n.bare.isPair = n.isPair := by cases n <;> rfl
theorem Node.bare_leading (n : Node) : n.bare.leading = n.leading := by cases n <;> rfl

mutual
theorem Node.bare_WF (d : Nat) : (n : Node) → (n.bare.WF d ↔ n.WF d)
  | .lit .. => Iff.rfl
  | .array l s b tr => by simp only [Node.bare, Node.WF, Body.bare_WF false (d + 1) .start b]
  | .table l s b tr => by simp only [Node.bare, Node.WF, Body.bare_WF true (d + 1) .start b]
  | .pair l ks w v => by simp only [Node.bare, Node.WF, Node.bare_WF d v, Node.bare_isPair, Node.bare_leading]
theorem Body.bare_WF (pairs : Bool) (d : Nat) : (prev : Prev) → (b : Body) → (b.bare.WF pairs d prev ↔ b.WF pairs d prev)
  | _, .nil => Iff.rfl
  | prev, .dangling n cs rest => by simp only [Body.bare, Body.WF, Body.bare_WF pairs d .dangling rest]
  | prev, .item f n c rest => by
    simp only [Body.bare, Body.WF, Body.bare_WF pairs d .item rest, Node.bare_WF d n, Node.bare_isPair]
end

theorem Body.bare_last : (prev : Prev) → (b : Body) → b.bare.last prev = b.last prev
  | _, .nil => rfl
  | _, .dangling _ _ rest => Body.bare_last .dangling rest
  | _, .item _ _ _ rest => Body.bare_last .item rest

theorem Section.bare_WF (s : Section) : s.bare.WF ↔ s.WF := by
  constructor
  · rintro ⟨h1, h2⟩; exact ⟨h1, (Body.bare_WF _ _ _ _).mp h2⟩
  · rintro ⟨h1, h2⟩; exact ⟨h1, (Body.bare_WF _ _ _ _).mpr h2⟩

theorem Doc.bare_WF (d : Doc) : d.bare.WF ↔ d.WF := by
  constructor
  · rintro ⟨h1, h2, h3⟩
    refine ⟨(Body.bare_WF _ _ _ _).mp h1, fun s hs => (Section.bare_WF s).mp (h2 _ (List.mem_map_of_mem hs)), fun s hs => ?_⟩
    have := h3 s.bare (by simp only [Doc.bare, List.head?_map, Option.mem_def] at hs ⊢; rw [hs]; rfl)
    simpa only [Doc.bare, Body.bare_last, Section.bare] using this
  · rintro ⟨h1, h2, h3⟩
    refine ⟨(Body.bare_WF _ _ _ _).mpr h1, fun s hs => ?_, fun s hs => ?_⟩
    · obtain ⟨s', hs', rfl⟩ := List.mem_map.mp hs
      exact (Section.bare_WF s').mpr (h2 s' hs')
    · simp only [Doc.bare, List.head?_map, Option.mem_def, Option.map_eq_some_iff] at hs
      obtain ⟨s', hs', rfl⟩ := hs
      have := h3 s' hs'
      simpa only [Doc.bare, Body.bare_last, Section.bare] using this

mutual
theorem treeWords_strip : (g : Green) → treeWords (strip g) = treeWords g
  | .token k t => by simp [strip]
  | .node k cs => by rw [strip, treeWords, treeWords, treeWordsL_strip cs]
theorem treeWordsL_strip : (cs : List Green) → treeWordsL (stripL cs) = treeWordsL cs
  | [] => rfl
  | g :: gs => by
    rw [stripL]
    split
    · rename_i hb
      rw [treeWordsL_strip gs, treeWordsL]
      have : treeWords g = [] := by
        cases g with
        | token k t =>
          have hk : k = WHITESPACE := by simpa [isBlank, SyntaxKind.isTrivia] using hb
          simp [treeWords, hk]
        | node k cs => cases hb
      rw [this]; rfl
    · rw [treeWordsL, treeWordsL, treeWords_strip g, treeWordsL_strip gs]
end

/-- What the formatter reads from a source without errors. -/
theorem doc_read {G : Segmenter} {src : List Char} (h : Parseable G src) {r : Parsed} (hr : parse G src = .ok r)
    (he : r.errors = []) :
    (docOf r.tree).words.map Word.leaf = treeWords r.tree ∧ (docOf r.tree).WF := by
  obtain ⟨l, r', hl, hr', hout⟩ := parse_view G src h.1 h.2
  rw [hr] at hr'
  cases hr'
  obtain ⟨ps, l', hl', -, hps, herr, hview, -⟩ := lex_pieces G src
  rw [hl] at hl'
  cases hl'
  have ho := hout _ (Nat.le_refl _)
  cases hres : rootV (8 * (l.tokens.length + 2)) (viewOf src l.tokens) with
  | none =>
    rw [hres] at ho
    obtain ⟨e, es, h⟩ := ho
    rw [he] at h
    simp at h
  | some x =>
    obtain ⟨F, v⟩ := x
    rw [hres] at ho
    obtain ⟨h1, -, D, cs, rfl, htree, hstrip, htidy, -⟩ := ho
    have hle : l.errors = [] := by
      rw [he] at h1
      exact List.map_eq_nil_iff.mp h1.symm
    have hgood : Good (viewOf src l.tokens) := by
      rw [hview]
      exact good_viewPs hps (errs_nil (by rw [← herr, hle]))
    obtain ⟨cs', hF, hw, hwf⟩ := rootV_sound hgood hres
    simp only [List.cons.injEq, Green.node.injEq, true_and, and_true] at hF
    subst hF
    obtain ⟨u, -, -, hclean⟩ := Keeps.root _ _ _ _ hres
    have hclean := hclean (plain_viewOf _ _)
    have hcl : CleanL (stripL cs) := by
      rw [hstrip]
      exact hclean.1.2
    have hb := docOf_strip (k := ROOT) htidy hcl
    rw [hstrip] at hb
    rw [htree]
    constructor
    · rw [← Doc.bare_words, ← hb, Doc.bare_words, hw, ← hstrip, treeWordsL_strip, treeWords]
    · rw [← Doc.bare_WF, ← hb, Doc.bare_WF]
      exact hwf

end Formatter
end Tombi
