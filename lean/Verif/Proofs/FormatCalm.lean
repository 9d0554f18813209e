import Verif.Proofs.FormatAgain
import Verif.Proofs.FormatIdem
/-! The words of a source without errors, and words that are written the same way the second time. -/
namespace Tombi.Formatter
open SyntaxKind
open Tombi.Format (AstKey)
open Tombi.Spec
open View (rootV)

/-! ### comments of a source -/

mutual
theorem treeWords_leaves : (g : Green) → ∀ x ∈ treeWords g, x ∈ leaves g
  | .token k t, x, hx => by
    rw [treeWords] at hx
    split at hx
    · cases hx
    · simpa [leaves] using hx
  | .node k cs, x, hx => by
    rw [treeWords] at hx
    rw [leaves]
    exact treeWordsL_leaves cs x hx
theorem treeWordsL_leaves : (gs : List Green) → ∀ x ∈ treeWordsL gs, x ∈ leavesL gs
  | [], x, hx => by cases hx
  | g :: gs, x, hx => by
    rw [treeWordsL] at hx
    rw [leavesL]
    rcases List.mem_append.mp hx with h | h
    · exact List.mem_append_left _ (treeWords_leaves g x h)
    · exact List.mem_append_right _ (treeWordsL_leaves gs x h)
end

theorem reads_comment {u : View} {ls : List (SyntaxKind × List Char)} (h : Reads u ls) {t : Text} (ht : (COMMENT, t) ∈ ls) :
    ∃ x ∈ u, x.kind = COMMENT ∧ x.text = t := by
  induction h with
  | nil => cases ht
  | one hk _ ih =>
    rcases List.mem_cons.mp ht with h | h
    · simp only [Prod.mk.injEq] at h
      obtain ⟨rfl, rfl⟩ := h
      rcases hk with hk | ⟨hk, -⟩
      · exact ⟨_, by simp, hk.symm, rfl⟩
      · cases hk
    · obtain ⟨x, hx, h⟩ := ih h
      exact ⟨x, by simp [hx], h⟩
  | two hk _ ih =>
    rcases List.mem_cons.mp ht with h | h
    · simp only [Prod.mk.injEq] at h
      obtain ⟨rfl, -⟩ := h
      rcases hk with ⟨hk, -⟩ | ⟨hk, -⟩ <;> cases hk
    · obtain ⟨x, hx, h⟩ := ih h
      exact ⟨x, by simp [hx], h⟩
  | dotted _ _ _ ih =>
    simp only [List.mem_cons, Prod.mk.injEq] at ht
    rcases ht with ⟨h, -⟩ | ⟨h, -⟩ | ⟨h, -⟩ | h
    · cases h
    · cases h
    · cases h
    · obtain ⟨x, hx, h⟩ := ih h
      exact ⟨x, by simp [hx], h⟩

theorem viewPs_comment {pre : List Char} {ps : List Tombi.Piece} (h : PiecesOk pre ps) (he : ∀ p ∈ ps, p.err = none) {x : VTok} (hx : x ∈ viewPs ps)
    (hk : x.kind = COMMENT) : OneLine x.text := by
  induction ps generalizing pre with
  | nil =>
    simp only [viewPs, List.mem_singleton] at hx
    rw [hx] at hk
    cases hk
  | cons p ps ih =>
    rw [viewPs] at hx
    have ih := fun hx => ih h.2 (fun q hq => he q (by simp [hq])) hx
    split at hx
    · exact ih hx
    · rcases List.mem_cons.mp hx with rfl | hx
      · have hp := h.1.1.2
        rw [he p (by simp)] at hp
        obtain ⟨-, -, hS⟩ := hp
        have hk : p.kind = COMMENT := hk
        rw [hk] at hS
        obtain ⟨body, h1, h2, -⟩ := hS
        exact ⟨body, h1, h2⟩
      · exact ih hx

/-- The comments of a source without errors. -/
theorem comments_oneLine {G : Segmenter} {src : List Char} (h : Parseable G src) {r : Parsed} (hr : parse G src = .ok r)
    (he : r.errors = []) {t : Text} (ht : (COMMENT, t) ∈ treeWords r.tree) : OneLine t := by
  obtain ⟨l, r', hl, hr', hout⟩ := parse_view G src h.1 h.2
  rw [hr] at hr'
  cases hr'
  obtain ⟨ps, l', hl', -, hps, herr, hview, -⟩ := lex_pieces G src
  rw [hl] at hl'
  cases hl'
  have ho := hout _ (Nat.le_refl _)
  cases hres : rootV (8 * (l.tokens.length + 2)) (viewOf src l.tokens) with
  | none =>
    rw [hres] at ho
    obtain ⟨e, es, h⟩ := ho
    rw [he] at h
    simp at h
  | some x =>
    obtain ⟨F, v⟩ := x
    rw [hres] at ho
    obtain ⟨h1, -, D, cs, rfl, htree, hstrip, -⟩ := ho
    have hle : l.errors = [] := by
      rw [he] at h1
      exact List.map_eq_nil_iff.mp h1.symm
    have hne : ∀ p ∈ ps, p.err = none := errs_nil (by rw [← herr, hle])
    obtain ⟨u, hu, hreads, -⟩ := Keeps.root _ _ _ _ hres
    rw [htree, treeWords, ← treeWordsL_strip, hstrip] at ht
    have hm : (COMMENT, t) ∈ leavesL [.node ROOT D] := by
      simp only [leavesL, leaves, List.append_nil]
      exact treeWordsL_leaves D _ ht
    obtain ⟨x, hx, hk, rfl⟩ := reads_comment hreads hm
    exact viewPs_comment hps hne (x := x) (by rw [← hview, hu]; simp [hx]) hk

/-! ### words that are written the same way the second time -/

theorem rk_requoted {E : Env} {k : AstKey} {out : Text} (h : E.keyText k = out) :
    (BasicString out → keyKind k ≠ BARE_KEY → E.rk k = .basic out) ∧ (LiteralString out → keyKind k ≠ BARE_KEY → E.rk k = .literal out) := by
  have hk : keyKind k = BARE_KEY ∨ keyKind k = BASIC_STRING ∨ keyKind k = LITERAL_STRING := by cases k <;> simp [keyKind]
  subst h
  unfold Env.rk
  constructor
  · intro hb hne
    rw [written_basic hb _ (hk.resolve_left hne)]
  · intro hb hne
    rw [written_literal hb _ (hk.resolve_left hne)]

theorem rawKey_of {k k' : AstKey} (h : ∀ v, rawKey? v k' = rawKey? v k) (hc : ∀ v, rawKey? v k = rawKey? .V1_1_0 k)
    (hs : (rawKey? .V1_1_0 k).isSome = true) (v : TomlVersion) : rawKey v k' = rawKey v k := by
  unfold rawKey
  rw [h, hc]
  cases he : rawKey? .V1_1_0 k with
  | none => rw [he] at hs; cases hs
  | some x => rfl

/-- Keys are written the same way the second time. -/
theorem calm_key_toml (E : Env) {k : AstKey} (h : TomlWord (.key k)) : Calm E (.key k) := by
  cases k with
  | bare t => exact ⟨rfl, fun _ => rfl, fun _ _ => rfl⟩
  | basic t =>
    have h : BasicString t := h
    obtain ⟨out, h1, h2⟩ := C33_basic_string t h E.defs.keyQuoteStyle .V1_0_0
    have hkt : E.keyText (.basic t) = out := by
      show (Format.formatBasicString t E.defs.keyQuoteStyle).getD t = out
      rw [h1]; rfl
    rcases h2 with ⟨hs, -, -, hl, -⟩ | ⟨-, rfl⟩
    · have hrk := (rk_requoted hkt).2 hl (by simp [keyKind])
      have hraw : ∀ v, rawKey? v (.literal out) = rawKey? v (.basic t) := by
        intro v
        obtain ⟨out', h1', h2'⟩ := C33_basic_string t h E.defs.keyQuoteStyle v
        rw [h1] at h1'
        cases h1'
        rcases h2' with ⟨-, -, -, -, h4⟩ | ⟨-, rfl⟩
        · show (TomlText.tryFromLiteralString out).bind _ = (TomlText.tryFromBasicString t v).bind _
          rw [h4]
        · obtain ⟨w, e⟩ := basicString_head h
          obtain ⟨w', e'⟩ := literalString_head hl
          rw [e] at e'
          cases e'
      refine ⟨?_, fun v => by rw [hrk]; exact hraw v, fun hsome v => ?_⟩
      · rw [hrk]
        unfold Env.key
        rw [hkt, written_literal hl (keyKind (.basic t)) (.inl rfl)]
        have : E.keyText (.literal out) = out := by
          show (Format.formatLiteralString out E.defs.keyQuoteStyle).getD out = out
          rw [hs]; rfl
        rw [this, written_literal hl (keyKind (.literal out)) (.inr rfl)]
      · rw [hrk]
        refine rawKey_of hraw (fun v => ?_) hsome v
        rw [← hraw, ← hraw]
        rfl
    · have hrk := (rk_requoted hkt).1 h (by simp [keyKind])
      rw [Calm, hrk]
      exact ⟨rfl, fun _ => rfl, fun _ _ => rfl⟩
  | literal t =>
    have h : LiteralString t := h
    obtain ⟨out, h1, h2⟩ := C33_literal_string t h E.defs.keyQuoteStyle .V1_0_0
    have hkt : E.keyText (.literal t) = out := by
      show (Format.formatLiteralString t E.defs.keyQuoteStyle).getD t = out
      rw [h1]; rfl
    rcases h2 with ⟨hs, -, -, hl, -⟩ | ⟨-, rfl⟩
    · have hrk := (rk_requoted hkt).1 hl (by simp [keyKind])
      have hraw : ∀ v, rawKey? v (.basic out) = rawKey? v (.literal t) := by
        intro v
        obtain ⟨out', h1', h2'⟩ := C33_literal_string t h E.defs.keyQuoteStyle v
        rw [h1] at h1'
        cases h1'
        rcases h2' with ⟨-, -, -, -, h4⟩ | ⟨-, rfl⟩
        · show (TomlText.tryFromBasicString out v).bind _ = (TomlText.tryFromLiteralString t).bind _
          rw [h4]
        · obtain ⟨w, e⟩ := literalString_head h
          obtain ⟨w', e'⟩ := basicString_head hl
          rw [e] at e'
          cases e'
      refine ⟨?_, fun v => by rw [hrk]; exact hraw v, fun hsome v => ?_⟩
      · rw [hrk]
        unfold Env.key
        rw [hkt, written_basic hl (keyKind (.literal t)) (.inr rfl)]
        have : E.keyText (.basic out) = out := by
          show (Format.formatBasicString out E.defs.keyQuoteStyle).getD out = out
          rw [hs]; rfl
        rw [this, written_basic hl (keyKind (.basic out)) (.inl rfl)]
      · rw [hrk]
        exact rawKey_of hraw (fun v => rfl) hsome v
    · have hrk := (rk_requoted hkt).2 h (by simp [keyKind])
      rw [Calm, hrk]
      exact ⟨rfl, fun _ => rfl, fun _ _ => rfl⟩

theorem formatDateTime_again {d : Option (List Char)} (hd : DelimiterSetting d) {wd s r : Text} (h1 : Toml.fullDate.Lang wd)
    (h2 : Toml.timeDelim.Lang s) : ∃ out, Format.formatDateTime d (wd ++ (s ++ r)) = some out ∧ Format.formatDateTime d out = some out := by
  obtain ⟨c, rfl, hc⟩ := sep_of h2
  obtain ⟨hl, ha⟩ := date_ascii h1
  obtain ⟨c', hc', h3, h4, h5⟩ := formatDateTime_eq (r := r) hd hl ha hc
  refine ⟨_, h3, ?_⟩
  obtain ⟨c2, -, h6, h7, h8⟩ := formatDateTime_eq (r := r) hd hl ha hc'
  rw [h6]
  have : c2 = c' := by
    cases hd with
    | preserve => exact h8 rfl
    | t => exact (h7 'T' rfl).trans (h4 'T' rfl).symm
    | space => exact (h7 ' ' rfl).trans (h4 ' ' rfl).symm
  rw [this]

/-- Literals are written the same way the second time. -/
theorem calm_literal_toml (E : Env) (hd : DelimiterSetting E.defs.dateTimeDelimiter) {k : SyntaxKind} {t : Text} (h : TomlLiteral k t) :
    Calm E (.literal k t) := by
  have same : E.literalText k t = t → (k = BASIC_STRING → BasicString t) → (k = LITERAL_STRING → LiteralString t) → Calm E (.literal k t) := by
    intro h hb hl
    have hk : E.litKind k t = k := by
      unfold Env.litKind
      rw [h]
      by_cases h1 : k = BASIC_STRING
      · rw [written_basic (hb h1) k (.inl h1), h1]
      · by_cases h2 : k = LITERAL_STRING
        · rw [written_literal (hl h2) k (.inr h2), h2]
        · unfold writtenKind
          split
          · exact absurd rfl h1
          · exact absurd rfl h2
          · rfl
    show E.literal (E.litKind k t) (E.literalText k t) = E.literal k t
    rw [hk, h]
  cases h with
  | basic h =>
    obtain ⟨out, h1, h2⟩ := C33_basic_string t h E.defs.stringQuoteStyle .V1_0_0
    have hkt : E.literalText BASIC_STRING t = out := by
      show (Format.formatBasicString t E.defs.stringQuoteStyle).getD t = out
      rw [h1]; rfl
    rcases h2 with ⟨hs, -, -, hl, -⟩ | ⟨-, rfl⟩
    · show E.literal (writtenKind (E.literalText BASIC_STRING t) BASIC_STRING) (E.literalText BASIC_STRING t) = E.literal BASIC_STRING t
      unfold Env.literal
      rw [hkt, written_literal hl BASIC_STRING (.inl rfl)]
      have : E.literalText LITERAL_STRING out = out := by
        show (Format.formatLiteralString out E.defs.stringQuoteStyle).getD out = out
        rw [hs]; rfl
      rw [this, written_literal hl LITERAL_STRING (.inr rfl)]
    · exact same hkt (fun _ => h) (fun e => by cases e)
  | literal h =>
    obtain ⟨out, h1, h2⟩ := C33_literal_string t h E.defs.stringQuoteStyle .V1_0_0
    have hkt : E.literalText LITERAL_STRING t = out := by
      show (Format.formatLiteralString t E.defs.stringQuoteStyle).getD t = out
      rw [h1]; rfl
    rcases h2 with ⟨hs, -, -, hl, -⟩ | ⟨-, rfl⟩
    · show E.literal (writtenKind (E.literalText LITERAL_STRING t) LITERAL_STRING) (E.literalText LITERAL_STRING t) = E.literal LITERAL_STRING t
      unfold Env.literal
      rw [hkt, written_basic hl LITERAL_STRING (.inr rfl)]
      have : E.literalText BASIC_STRING out = out := by
        show (Format.formatBasicString out E.defs.stringQuoteStyle).getD out = out
        rw [hs]; rfl
      rw [this, written_basic hl BASIC_STRING (.inl rfl)]
    · exact same hkt (fun e => by cases e) (fun _ => h)
  | offsetDateTime h =>
    obtain ⟨d, v1, rfl, h1, s, v2, rfl, h2, h3⟩ := h
    obtain ⟨out, h4, h5⟩ := formatDateTime_again hd (r := v2) h1 h2
    have hkt : E.literalText OFFSET_DATE_TIME (d ++ (s ++ v2)) = out := by simp only [Env.literalText, h4, Option.getD_some]
    have hkt' : E.literalText OFFSET_DATE_TIME out = out := by simp only [Env.literalText, h5, Option.getD_some]
    show E.literal (writtenKind (E.literalText OFFSET_DATE_TIME _) OFFSET_DATE_TIME) (E.literalText OFFSET_DATE_TIME _) = E.literal OFFSET_DATE_TIME _
    unfold Env.literal
    rw [hkt]
    have : writtenKind out OFFSET_DATE_TIME = OFFSET_DATE_TIME := rfl
    rw [this, hkt', this]
  | localDateTime h =>
    obtain ⟨d, v1, rfl, h1, s, v2, rfl, h2, h3⟩ := h
    obtain ⟨out, h4, h5⟩ := formatDateTime_again hd (r := v2) h1 h2
    have hkt : E.literalText LOCAL_DATE_TIME (d ++ (s ++ v2)) = out := by simp only [Env.literalText, h4, Option.getD_some]
    have hkt' : E.literalText LOCAL_DATE_TIME out = out := by simp only [Env.literalText, h5, Option.getD_some]
    show E.literal (writtenKind (E.literalText LOCAL_DATE_TIME _) LOCAL_DATE_TIME) (E.literalText LOCAL_DATE_TIME _) = E.literal LOCAL_DATE_TIME _
    unfold Env.literal
    rw [hkt]
    have : writtenKind out LOCAL_DATE_TIME = LOCAL_DATE_TIME := rfl
    rw [this, hkt', this]
  | _ => rfl

/-! ### from tokens to words -/

theorem mark_notLiteral {k : SyntaxKind} (h : markText k ≠ []) : ¬ View.isLiteral k = true := by
  revert h
  cases k <;> decide

theorem commentWords_lit {l : List Text} {k : SyntaxKind} {t : Text} : Word.literal k t ∉ commentWords l := by
  cases l <;> simp [commentWords]
theorem trailingWords_lit {c : Option Text} {k : SyntaxKind} {t : Text} : Word.literal k t ∉ trailingWords c := by
  cases c <;> simp [trailingWords]
theorem commaWords_lit {c : Option Comma} {k : SyntaxKind} {t : Text} : Word.literal k t ∉ commaWords c := by
  cases c <;> simp [commaWords, commentWords_lit, trailingWords_lit]
theorem keyWords_lit {k : SyntaxKind} {t : Text} : (ks : List AstKey) → Word.literal k t ∉ keyWords ks
  | [] => by simp [keyWords]
  | [_] => by simp [keyWords]
  | _ :: b :: ks => by simp [keyWords, keyWords_lit (b :: ks)]

mutual
theorem Node.WF.lits {k : SyntaxKind} {t : Text} : {d : Nat} → (n : Node) → n.WF d → Word.literal k t ∈ n.words → View.isLiteral k = true
  | _, .lit l k' t' tr, h, hm => by
    simp only [Node.words, List.mem_append, List.mem_cons, commentWords_lit, trailingWords_lit, Word.literal.injEq, or_false, false_or] at hm
    rw [hm.1]
    exact h
  | _, .array l s b tr, h, hm => by
    simp only [Node.words, List.mem_append, List.mem_cons, commentWords_lit, trailingWords_lit, or_false, false_or, reduceCtorEq] at hm
    rw [Node.WF] at h
    exact h.2.lits b hm
  | _, .table l s b tr, h, hm => by
    simp only [Node.words, List.mem_append, List.mem_cons, commentWords_lit, trailingWords_lit, or_false, false_or, reduceCtorEq] at hm
    rw [Node.WF] at h
    exact h.2.lits b hm
  | _, .pair l ks s v, h, hm => by
    simp only [Node.words, List.mem_append, List.mem_cons, commentWords_lit, keyWords_lit, or_false, false_or, reduceCtorEq] at hm
    rw [Node.WF] at h
    exact h.2.2.2.lits v hm
theorem Body.WF.lits {k : SyntaxKind} {t : Text} : {pairs : Bool} → {d : Nat} → {prev : Prev} → (b : Body) → b.WF pairs d prev →
    Word.literal k t ∈ b.words → View.isLiteral k = true
  | _, _, _, .nil, h, hm => by cases hm
  | _, _, _, .dangling n cs rest, h, hm => by
    simp only [Body.words, List.mem_append, commentWords_lit, false_or] at hm
    rw [Body.WF] at h
    exact h.2.2.2.lits rest hm
  | _, _, _, .item f n c rest, h, hm => by
    simp only [Body.words, List.mem_append, commaWords_lit, or_false] at hm
    rw [Body.WF] at h
    rcases hm with hm | hm
    · exact h.2.1.lits n hm
    · exact h.2.2.2.lits rest hm
end

theorem Doc.WF.lits {doc : Doc} (h : doc.WF) {k : SyntaxKind} {t : Text} (hm : Word.literal k t ∈ doc.words) : View.isLiteral k = true := by
  rcases List.mem_append.mp hm with hm | hm
  · exact h.body.lits _ hm
  · obtain ⟨ws, hws, hm⟩ := List.mem_flatten.mp hm
    obtain ⟨s, hs, rfl⟩ := List.mem_map.mp hws
    simp only [Section.words, List.mem_append, List.mem_cons, commentWords_lit, trailingWords_lit, keyWords_lit, or_false, false_or,
      reduceCtorEq] at hm
    exact (h.sections s hs).body.lits _ hm

theorem tomlWord_of_leaf {w : Word} (h : TomlToken w.leaf) (hl : ∀ k t, w = .literal k t → View.isLiteral k = true) : TomlWord w := by
  cases w with
  | key k =>
    cases k with
    | bare t =>
      cases h with
      | bare h => exact h
      | literal h => cases h
      | mark h => exact absurd rfl h
    | basic t =>
      cases h with
      | literal h => cases h; assumption
      | mark h => exact absurd rfl h
    | literal t =>
      cases h with
      | literal h => cases h; assumption
      | mark h => exact absurd rfl h
  | literal k t =>
    have hk := hl k t rfl
    have h : TomlToken (k, t) := h
    cases h with
    | bare h => cases hk
    | literal h => exact h
    | mark h1 => exact absurd hk (mark_notLiteral h1)
    | comment => cases hk
  | mark k => trivial
  | comment f t => trivial

theorem leaf_mem {ws : List Word} {ls : List (SyntaxKind × Text)} (h : ws.map Word.leaf = ls) {w : Word} (hw : w ∈ ws) : w.leaf ∈ ls := by
  rw [← h]
  exact List.mem_map_of_mem hw

theorem namesBeforeDots_of {ws : List Word} {ls : List (SyntaxKind × Text)} (h : ws.map Word.leaf = ls)
    (hn : ∀ a t b, ls = a ++ (BARE_KEY, t) :: (DOT, ['.']) :: b → DotKey t) : NamesBeforeDots ws := by
  intro a t b e
  exact hn (a.map Word.leaf) t (b.map Word.leaf) (by rw [← h, e]; simp [Word.leaf, markText])

end Tombi.Formatter
