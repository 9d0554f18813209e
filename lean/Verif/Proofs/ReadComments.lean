import Verif.Proofs.ReadTree
/-! Proofs for C70: the comments of a document of the grammar are valid. -/
namespace Tombi.Reading
open SyntaxKind Spec TomlText
open Tombi.TomlFile
open Tombi.Formatter (TomlLiteral Node Body Section Doc Comma docOf Word)
open Tombi.Format (AstKey)

/-! ### the characters of a document -/

/-- No control character other than tab and line breaks. -/
def textChar (c : Char) : Bool := c == '\t' || c == '\n' || c == '\r' || (decide (0x20 ≤ c.toNat) && c.toNat != 0x7f)

def Clean (t : Text) : Prop := ∀ c ∈ t, textChar c = true

theorem Clean.append {a b : Text} (h : Clean a) (h' : Clean b) : Clean (a ++ b) := by
  intro c hc
  rcases List.mem_append.mp hc with hc | hc
  · exact h c hc
  · exact h' c hc

theorem Clean.cons {c : Char} {b : Text} (h : textChar c = true) (h' : Clean b) : Clean (c :: b) :=
  Clean.append (a := [c]) (by intro d hd; simp at hd; rw [hd]; exact h) h'

theorem Clean.nil : Clean [] := nofun

theorem textChar_of {c : Char} (h : c = '\t' ∨ (0x20 ≤ c.toNat ∧ c.toNat ≠ 0x7F)) : textChar c = true := by
  rcases h with rfl | ⟨h1, h2⟩
  · decide
  · simp [textChar, h1, h2]

theorem hexVal_char {c : Char} {n : Nat} (h : hexVal c = some n) : textChar c = true := by
  have e : ∀ {lo hi : Char}, 0x20 ≤ lo.toNat → hi.toNat < 0x7f → lo ≤ c → c ≤ hi → textChar c = true := by
    intro lo hi h1 h2 h3 h4
    have h3 : lo.toNat ≤ c.toNat := h3
    have h4 : c.toNat ≤ hi.toNat := h4
    exact textChar_of (.inr ⟨by omega, by omega⟩)
  unfold hexVal at h
  split at h
  · rename_i hc; exact e (by decide) (by decide) hc.1 hc.2
  · split at h
    · rename_i hc; exact e (by decide) (by decide) hc.1 hc.2
    · split at h
      · rename_i hc; exact e (by decide) (by decide) hc.1 hc.2
      · cases h

theorem hexNumber_clean {ds : Text} {n : Nat} (h : hexNumber ds = some n) : Clean ds := by
  have key : ∀ (ds : Text) (a : Option Nat) (n : Nat),
      ds.foldl (fun acc c => do return (← acc) * 16 + (← hexVal c)) a = some n → Clean ds ∧ a.isSome = true := by
    intro ds
    induction ds with
    | nil => intro a n h; simp at h; exact ⟨.nil, by simp [h]⟩
    | cons c ds ih =>
      intro a n h
      rw [List.foldl_cons] at h
      obtain ⟨h1, h2⟩ := ih _ n h
      cases a with
      | none => simp at h2
      | some a =>
        cases hc : hexVal c with
        | none => simp [hc] at h2
        | some m => exact ⟨.cons (hexVal_char hc) h1, rfl⟩
  exact (key ds _ n h).1

theorem wsNewlines_clean {w : Text} (h : WsNewlines w) : Clean w := by
  induction h with
  | nil => exact .nil
  | space _ ih => exact .cons (by decide) ih
  | tab _ ih => exact .cons (by decide) ih
  | lf _ ih => exact .cons (by decide) ih
  | crlf _ ih => exact .cons (by decide) (.cons (by decide) ih)

theorem simpleEscape_char {e c : Char} (h : simpleEscape e = some c) : textChar e = true := by
  unfold simpleEscape at h
  split at h <;> first | decide | cases h

theorem decodes_clean {v : TomlVersion} {multi : Bool} {s o : Text} (h : Decodes toml v multi s o) : Clean s := by
  induction h with
  | nil => exact .nil
  | chr c hc _ ih => exact .cons (textChar_of hc.2) ih
  | esc e c he _ ih => exact .cons (by decide) (.cons (simpleEscape_char he) ih)
  | escE _ _ ih => exact .cons (by decide) (.cons (by decide) ih)
  | escX ds n _ _ h _ _ ih => exact .cons (by decide) (.cons (by decide) (.append (hexNumber_clean h) ih))
  | escU4 ds n _ h _ _ ih => exact .cons (by decide) (.cons (by decide) (.append (hexNumber_clean h) ih))
  | escU8 ds n _ h _ _ ih => exact .cons (by decide) (.cons (by decide) (.append (hexNumber_clean h) ih))
  | lf _ _ ih => exact .cons (by decide) ih
  | crlf _ _ ih => exact .cons (by decide) (.cons (by decide) ih)
  | cont w hc _ ih => exact .cons (by decide) (.append (wsNewlines_clean hc.2.1) ih)

theorem literalOk_clean {multi : Bool} {s : Text} (h : LiteralOk multi s) : Clean s := by
  induction h with
  | nil => exact .nil
  | chr c hc _ ih => exact .cons (textChar_of hc) ih
  | lf _ _ ih => exact .cons (by decide) ih
  | crlf _ _ ih => exact .cons (by decide) (.cons (by decide) ih)

theorem clean_of_trim {s : Text} (h : Clean (trimNewline s)) : Clean s := by
  unfold trimNewline at h
  split at h
  · exact .cons (by decide) h
  · exact .cons (by decide) (.cons (by decide) h)
  · exact h

theorem over_clean {r : Rx} (h : r.over textChar = true) {t : Text} (ht : r.Lang t) : Clean t := Rx.over_lang h ht

theorem literal_clean {v : TomlVersion} {k : SyntaxKind} {t : Text} {s : Scalar} (hl : TomlLiteral k t)
    (hm : LiteralMeans v k t s) : Clean t := by
  cases hl with
  | dec h => exact over_clean (by decide) h
  | hex h => exact over_clean (by decide) h
  | oct h => exact over_clean (by decide) h
  | bin h => exact over_clean (by decide) h
  | float h => exact over_clean (by decide) h
  | boolean h => exact over_clean (by decide) h
  | offsetDateTime h => exact over_clean (by decide) h
  | localDateTime h => exact over_clean (by decide) h
  | localDate h => exact over_clean (by decide) h
  | localTime h => exact over_clean (by decide) h
  | basic _ =>
    cases hm with
    | basic h => exact .cons (by decide) (.append (decodes_clean h) (.cons (by decide) .nil))
  | literal _ =>
    cases hm with
    | literal h => exact .cons (by decide) (.append (literalOk_clean h) (.cons (by decide) .nil))
  | multiBasic _ _ =>
    cases hm with
    | multiBasic h =>
      exact .append (.append (.cons (by decide) (.cons (by decide) (.cons (by decide) .nil))) (clean_of_trim (decodes_clean h)))
        (.cons (by decide) (.cons (by decide) (.cons (by decide) .nil)))
  | multiLiteral _ =>
    cases hm with
    | multiLiteral h =>
      exact .append (.append (.cons (by decide) (.cons (by decide) (.cons (by decide) .nil))) (clean_of_trim (literalOk_clean h)))
        (.cons (by decide) (.cons (by decide) (.cons (by decide) .nil)))

theorem key_clean {v : TomlVersion} {k : AstKey} {n : DKey} (hk : TomlKey k) (hm : KeyMeans v k n) : Clean (keyText k) := by
  cases hm with
  | bare =>
    intro c hc
    have e : ∀ {lo hi : Char}, 0x20 ≤ lo.toNat → hi.toNat < 0x7f → lo ≤ c → c ≤ hi → textChar c = true := by
      intro lo hi h1 h2 h3 h4
      have h3 : lo.toNat ≤ c.toNat := h3
      have h4 : c.toNat ≤ hi.toNat := h4
      exact textChar_of (.inr ⟨by omega, by omega⟩)
    have := hk.2 c hc
    simp only [Formatter.isLetter, inRange, Bool.or_eq_true, Bool.and_eq_true, decide_eq_true_eq] at this
    rcases this with (h | h) | h | rfl | rfl
    · exact e (by decide) (by decide) h.1 h.2
    · exact e (by decide) (by decide) h.1 h.2
    · exact e (by decide) (by decide) h.1 h.2
    · decide
    · decide
  | basic h => exact .cons (by decide) (.append (decodes_clean h) (.cons (by decide) .nil))
  | literal h => exact .cons (by decide) (.append (literalOk_clean h) (.cons (by decide) .nil))

theorem ws_clean {w : Text} (h : Ws w) : Clean w := by
  intro c hc
  rcases h c hc with rfl | rfl <;> decide

theorem newline_clean {n : Text} (h : Newline n) : Clean n := by
  rcases h with rfl | rfl
  · exact .cons (by decide) .nil
  · exact .cons (by decide) (.cons (by decide) .nil)

theorem comment_clean {t : Text} (h : Comment t) : Clean t := by
  obtain ⟨u, rfl, h⟩ := h
  exact .cons (by decide) fun c hc => textChar_of (h c hc)

theorem optComment_clean {t : Text} (h : OptComment t) : Clean t := by
  rcases h with rfl | h
  · exact .nil
  · exact comment_clean h

theorem gap_clean {g : Text} (h : Gap g) : Clean g := by
  induction h with
  | nil => exact .nil
  | ws h _ ih => exact Clean.append (ws_clean h) ih
  | newline h _ ih => exact .append (newline_clean h) ih
  | comment h h' _ ih => exact .append (comment_clean h) (.append (newline_clean h') ih)

theorem keyText_clean {v : TomlVersion} {ks : List AstKey} {t : Text} (h : KeyText wordsReadable ks t) {ns : List DKey}
    (hm : keysMean v ks ns) : Clean t := by
  induction h generalizing ns with
  | last hk =>
    cases ns with
    | nil => exact hm.elim
    | cons n ns => exact key_clean (usual_key _ hk) hm.1
  | dot hk ha hb _ ih =>
    cases ns with
    | nil => exact hm.elim
    | cons n ns =>
      exact .append (key_clean (usual_key _ (before_key hk)) hm.1) (.append (ws_clean ha) (.cons (by decide) (.append (ws_clean hb) (ih hm.2))))

mutual
theorem val_clean (v : TomlVersion) : (x : Val) → (t : Text) → x.Text wordsReadable t → (y : AstValue Scalar) → ValMeans v x y → Clean t
  | .lit k t, _, h, y, hm => by
    rw [Val.Text] at h
    obtain ⟨h, rfl⟩ := h
    cases y <;> simp only [ValMeans] at hm
    exact literal_clean h.1 hm
  | .array items, _, h, y, hm => by
    rw [Val.Text] at h
    obtain ⟨t, h, rfl⟩ := h
    cases y <;> simp only [ValMeans] at hm
    exact .cons (by decide) (.append (items_clean v items t h _ hm) (.cons (by decide) .nil))
  | .table pairs, _, h, y, hm => by
    rw [Val.Text] at h
    obtain ⟨t, h, rfl⟩ := h
    cases y <;> simp only [ValMeans] at hm
    exact .cons (by decide) (.append (pairs_clean v pairs t h _ hm) (.cons (by decide) .nil))
theorem items_clean (v : TomlVersion) : (xs : List Val) → (t : Text) → itemsText wordsReadable xs t → (ys : List (AstItem Scalar)) →
    itemsMean v xs ys → Clean t
  | [], _, h, _, _ => by rw [itemsText] at h; exact gap_clean h
  | x :: rest, _, h, ys, hm => by
    rw [itemsText] at h
    match ys, hm with
    | [], hm => simp [itemsMean] at hm
    | .keyValue _ :: ys, hm => simp [itemsMean] at hm
    | .value y :: ys, hm =>
      rw [itemsMean] at hm
      obtain ⟨g, t, g', hg, hv, ⟨-, hg', rfl⟩ | ⟨t', hg', h2, rfl⟩⟩ := h
      · exact .append (gap_clean hg) (.append (val_clean v x t hv y hm.1) (gap_clean hg'))
      · exact .append (gap_clean hg) (.append (val_clean v x t hv y hm.1) (.append (gap_clean (tight_gap hg'))
          (.cons (by decide) (items_clean v rest t' h2 ys hm.2))))
theorem pair_clean (v : TomlVersion) : (p : Pair) → (t : Text) → p.Text wordsReadable t → (ps : List Pair) → (kvs : List (AstKeyValue Scalar)) →
    pairsMean v (p :: ps) kvs → Clean t ∧ ∃ kvs', pairsMean v ps kvs'
  | .mk ks x, _, h, ps, kvs, hm => by
    rw [Pair.Text] at h
    obtain ⟨k, a, b, t, hk, ha, hb, hv, rfl⟩ := h
    match kvs, hm with
    | [], hm => simp [pairsMean] at hm
    | .mk none _ :: _, hm => simp [pairsMean] at hm
    | .mk (some _) none :: _, hm => simp [pairsMean] at hm
    | .mk (some ns) (some y) :: kvs, hm =>
      rw [pairsMean] at hm
      exact ⟨.append (keyText_clean hk hm.1) (.append (ws_clean ha) (.cons (by decide) (.append (ws_clean hb)
        (val_clean v x t hv y hm.2.1)))), kvs, hm.2.2⟩
theorem pairs_clean (v : TomlVersion) : (ps : List Pair) → (t : Text) → pairsText wordsReadable ps t → (kvs : List (AstKeyValue Scalar)) →
    pairsMean v ps kvs → Clean t
  | [], _, h, _, _ => by rw [pairsText] at h; exact gap_clean h
  | p :: rest, _, h, kvs, hm => by
    rw [pairsText] at h
    obtain ⟨g, t, g', hg, hv, h⟩ := h
    obtain ⟨h1, kvs', h2⟩ := pair_clean v p t hv rest kvs hm
    rcases h with ⟨-, hg', rfl⟩ | ⟨t', hg', h3, rfl⟩
    · exact .append (gap_clean hg) (.append h1 (gap_clean hg'))
    · exact .append (gap_clean hg) (.append h1 (.append (gap_clean (tight_gap hg')) (.cons (by decide) (pairs_clean v rest t' h3 kvs' h2))))
end

theorem header_clean {v : TomlVersion} {arr : Bool} {ks : List AstKey} {t : Text} (h : HeaderText wordsReadable arr ks t) {ns : List DKey}
    (hm : keysMean v ks ns) : Clean t := by
  obtain ⟨a, k, b, ha, hk, hb, rfl⟩ := h
  have := keyText_clean hk hm
  split
  · exact .cons (by decide) (.cons (by decide) (.append (ws_clean ha) (.append this (.append (ws_clean hb)
      (.cons (by decide) (.cons (by decide) .nil))))))
  · exact .cons (by decide) (.append (ws_clean ha) (.append this (.append (ws_clean hb) (.cons (by decide) .nil))))

theorem lines_clean {v : TomlVersion} {ps : List Pair} {ss : List Sec} {t : Text} (h : Lines wordsReadable ps ss t)
    {kvs : List (AstKeyValue Scalar)} (hm : pairsMean v ps kvs) {xs : List (AstSection Scalar)} (hs : secsMean v ss xs) : Clean t := by
  induction h generalizing kvs xs with
  | end_ hw hc => exact .append (ws_clean hw) (optComment_clean hc)
  | blank hw hc hn _ ih => exact .append (ws_clean hw) (.append (optComment_clean hc) (.append (newline_clean hn) (ih hm hs)))
  | pairEnd hw hp hw' hc =>
    exact .append (ws_clean hw) (.append (pair_clean v _ _ hp _ _ hm).1 (.append (ws_clean hw') (optComment_clean hc)))
  | pair hw hp hw' hc hn _ ih =>
    obtain ⟨h1, kvs', h2⟩ := pair_clean v _ _ hp _ _ hm
    exact .append (ws_clean hw) (.append h1 (.append (ws_clean hw') (.append (optComment_clean hc) (.append (newline_clean hn) (ih h2 hs)))))
  | headerEnd hw hh hw' hc =>
    cases xs with
    | nil => exact hs.elim
    | cons x xs =>
      obtain ⟨⟨-, ⟨ns, -, h⟩, -⟩, -⟩ := hs
      exact .append (ws_clean hw) (.append (header_clean hh h) (.append (ws_clean hw') (optComment_clean hc)))
  | header hw hh hw' hc hn _ ih =>
    cases xs with
    | nil => exact hs.elim
    | cons x xs =>
      obtain ⟨⟨-, ⟨ns, -, h⟩, h'⟩, hs⟩ := hs
      exact .append (ws_clean hw) (.append (header_clean hh h) (.append (ws_clean hw') (.append (optComment_clean hc)
        (.append (newline_clean hn) (ih h' hs)))))

/-! ### the comments of a document -/

/-- The comment is a word. -/
def HasComment (ws : List Word) (t : Text) : Prop := ∃ b, Word.comment b t ∈ ws

theorem comment_words {cs : List Text} {t : Text} (h : t ∈ cs) : HasComment (Formatter.commentWords cs) t := by
  cases cs with
  | nil => cases h
  | cons c cs =>
    rcases List.mem_cons.mp h with rfl | h
    · exact ⟨true, by simp [Formatter.commentWords]⟩
    · exact ⟨false, by simp [Formatter.commentWords, h]⟩

theorem trailing_words {c : Option Text} {t : Text} (h : t ∈ c.toList) : HasComment (Formatter.trailingWords c) t := by
  cases c with
  | none => cases h
  | some c => simp at h; subst h; exact ⟨true, by simp [Formatter.trailingWords]⟩

theorem HasComment.mono {ws ws' : List Word} {t : Text} (h : HasComment ws t) (hs : ∀ w ∈ ws, w ∈ ws') : HasComment ws' t := by
  obtain ⟨b, h⟩ := h
  exact ⟨b, hs _ h⟩

theorem comma_words {c : Option Comma} {t : Text} (h : t ∈ commaComments c) : HasComment (Formatter.commaWords c) t := by
  cases c with
  | none => cases h
  | some c =>
    rcases List.mem_append.mp h with h | h
    · exact (comment_words h).mono (by intro w hw; simp [Formatter.commaWords, hw])
    · exact (trailing_words h).mono (by intro w hw; simp [Formatter.commaWords, hw])

theorem head_words : (b : Body) → (t : Text) → t ∈ headComments b → HasComment b.words t
  | .nil, t, h => by simp [headComments] at h
  | .item .., t, h => by simp [headComments] at h
  | .dangling _ cs b, t, h => by
    rw [headComments] at h
    rcases List.mem_append.mp h with h | h
    · exact (comment_words h).mono (by intro w hw; simp [Formatter.Body.words, hw])
    · exact (head_words b t h).mono (by intro w hw; simp [Formatter.Body.words, hw])

mutual
theorem node_words : (n : Node) → (t : Text) → t ∈ nodeComments n → HasComment n.words t
  | .lit l k x tr, t, h => by
    rw [nodeComments] at h
    rcases List.mem_append.mp h with h | h
    · exact (comment_words h).mono (by intro w hw; simp [Formatter.Node.words, hw])
    · exact (trailing_words h).mono (by intro w hw; simp [Formatter.Node.words, hw])
  | .array l s b tr, t, h => by
    rw [nodeComments] at h
    simp only [List.mem_append] at h
    rcases h with (((h | h) | h) | h) | h
    · exact (comment_words h).mono (by intro w hw; simp [Formatter.Node.words, hw])
    · exact (trailing_words (by simpa using h)).mono (by intro w hw; simp [Formatter.Node.words, hw])
    · exact (head_words b t h).mono (by intro w hw; simp [Formatter.Node.words, hw])
    · exact (trailing_words (by simpa using h)).mono (by intro w hw; simp [Formatter.Node.words, hw])
    · exact (body_words b t h).mono (by intro w hw; simp [Formatter.Node.words, hw])
  | .table l s b tr, t, h => by
    rw [nodeComments] at h
    simp only [List.mem_append] at h
    rcases h with (((h | h) | h) | h) | h
    · exact (comment_words h).mono (by intro w hw; simp [Formatter.Node.words, hw])
    · exact (trailing_words (by simpa using h)).mono (by intro w hw; simp [Formatter.Node.words, hw])
    · exact (head_words b t h).mono (by intro w hw; simp [Formatter.Node.words, hw])
    · exact (trailing_words (by simpa using h)).mono (by intro w hw; simp [Formatter.Node.words, hw])
    · exact (body_words b t h).mono (by intro w hw; simp [Formatter.Node.words, hw])
  | .pair l _ _ n, t, h => by
    rw [nodeComments] at h
    rcases List.mem_append.mp h with h | h
    · exact (comment_words h).mono (by intro w hw; simp [Formatter.Node.words, hw])
    · exact (node_words n t h).mono (by intro w hw; simp [Formatter.Node.words, hw])
theorem body_words : (b : Body) → (t : Text) → t ∈ bodyComments b → HasComment b.words t
  | .nil, t, h => by rw [bodyComments] at h; cases h
  | .dangling _ cs b, t, h => by
    rw [bodyComments] at h
    exact (body_words b t h).mono (by intro w hw; simp [Formatter.Body.words, hw])
  | .item _ n c b, t, h => by
    rw [bodyComments] at h
    simp only [List.mem_append] at h
    rcases h with (h | h) | h
    · exact (node_words n t h).mono (by intro w hw; simp [Formatter.Body.words, hw])
    · exact (comma_words h).mono (by intro w hw; simp [Formatter.Body.words, hw])
    · exact (body_words b t h).mono (by intro w hw; simp [Formatter.Body.words, hw])
end

theorem doc_words {d : Doc} {t : Text} (h : t ∈ docComments d) : HasComment d.words t := by
  unfold docComments at h
  simp only [List.mem_append, List.mem_flatMap] at h
  rcases h with (h | h) | ⟨s, hs, h⟩
  · exact (head_words _ t h).mono (by intro w hw; simp [Formatter.Doc.words, hw])
  · exact (body_words _ t h).mono (by intro w hw; simp [Formatter.Doc.words, hw])
  · have : HasComment s.words t := by
      rcases h with ((h | h) | h) | h
      · exact (comment_words h).mono (by intro w hw; simp [Formatter.Section.words, hw])
      · exact (trailing_words h).mono (by intro w hw; simp [Formatter.Section.words, hw])
      · exact (head_words _ t h).mono (by intro w hw; simp [Formatter.Section.words, hw])
      · exact (body_words _ t h).mono (by intro w hw; simp [Formatter.Section.words, hw])
    exact this.mono (by
      intro w hw
      unfold Formatter.Doc.words
      exact List.mem_append_right _ (List.mem_flatten.mpr ⟨s.words, List.mem_map_of_mem hs, hw⟩))

mutual
theorem leaf_text : (g : Green) → (k : SyntaxKind) → (t : Text) → (k, t) ∈ leaves g → ∀ c ∈ t, c ∈ g.text
  | .token _ w, k, t, h, c, hc => by
    simp [leaves] at h
    rw [Green.text, ← h.2]; exact hc
  | .node _ cs, k, t, h, c, hc => by
    rw [leaves] at h
    rw [Green.text]; exact leaf_texts cs k t h c hc
theorem leaf_texts : (gs : List Green) → (k : SyntaxKind) → (t : Text) → (k, t) ∈ leavesL gs → ∀ c ∈ t, c ∈ Green.texts gs
  | [], k, t, h, c, hc => by simp [leavesL] at h
  | g :: gs, k, t, h, c, hc => by
    rw [leavesL] at h
    rw [Green.texts]
    rcases List.mem_append.mp h with h | h
    · exact List.mem_append_left _ (leaf_text g k t h c hc)
    · exact List.mem_append_right _ (leaf_texts gs k t h c hc)
end

/-- A comment is valid when it holds no control character but tab. -/
theorem commentOk_of {u : Text} (h : ∀ c ∈ u, c = '\t' ∨ (0x20 ≤ c.toNat ∧ c.toNat ≠ 0x7F)) : commentOk ('#' :: u) = true := by
  have h1 := (literalLoop_ok false [] u u).mpr ⟨rfl, (C15_single_line_ok u).mpr h⟩
  have h2 : byteDrop 1 ('#' :: u) = some u := by
    have := byteDrop_append ['#'] u
    simpa [utf8Len, show '#'.utf8Size = 1 from rfl] using this
  unfold commentOk
  rw [h2]
  simp [parseLiteralString, h1, okOf]

/-- The comments of a text without control characters. -/
theorem comment_char {G : Segmenter} {src : Text} (h : Parseable G src) {p : Parsed} (hp : parse G src = .ok p) (he : p.errors = [])
    (hc : Clean src) {t : Text} (hm : (COMMENT, t) ∈ Formatter.treeWords p.tree) : ∀ c ∈ t, c = '\t' ∨ (0x20 ≤ c.toNat ∧ c.toNat ≠ 0x7F) := by
  obtain ⟨u, rfl, hu⟩ := Formatter.comments_oneLine h hp he hm
  intro c hcu
  have h1 := leaf_text p.tree COMMENT _ (Formatter.treeWords_leaves _ _ hm) c hcu
  rw [(C07_parse_lossless_partial G src h p hp).2] at h1
  have h2 := hc c h1
  have h3 : isLineBreak c = false := by
    rcases List.mem_cons.mp hcu with rfl | hcu
    · rfl
    · exact hu c hcu
  simp only [isLineBreak, Bool.or_eq_false_iff, beq_eq_false_iff_ne] at h3
  simp only [textChar, Bool.or_eq_true, beq_iff_eq, Bool.and_eq_true, decide_eq_true_eq, bne_iff_ne] at h2
  rcases h2 with ((h2 | h2) | h2) | h2
  · exact .inl h2
  · exact absurd h2 h3.2
  · exact absurd h2 h3.1
  · exact .inr h2

/-- The comments of a document without control characters are valid. -/
theorem comments_ok {G : Segmenter} {src : Text} (h : Parseable G src) {p : Parsed} (hp : parse G src = .ok p) (he : p.errors = [])
    (hc : Clean src) : ∀ t ∈ docComments (docOf p.tree), commentOk t = true := by
  intro t ht
  obtain ⟨b, hb⟩ := doc_words ht
  obtain ⟨hl, -⟩ := Formatter.doc_read h hp he
  have hm : (COMMENT, t) ∈ Formatter.treeWords p.tree := Formatter.leaf_mem hl hb
  obtain ⟨u, rfl, -⟩ := Formatter.comments_oneLine h hp he hm
  exact commentOk_of fun c hcu => comment_char h hp he hc hm c (by simp [hcu])

end Tombi.Reading
