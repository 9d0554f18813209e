import Verif.Spec.SemanticTree
import Verif.Proofs.Format
/-! Lemmas for C90: the traversal finds the elements in the order of the text. -/
namespace Tombi.SemanticTokens
open Tombi SyntaxKind
open Tombi.Formatter (kindOf childrenOf greenText greenTexts lastTokens lastToken isLeadingKind isValueKind isItemKind)

theorem Sorted.le {a b : List Char} {ms : List Mark} (h : Sorted a b ms) : a <+: b := by
  induction ms generalizing a with
  | nil => exact h
  | cons m ms ih => exact h.1.trans ((List.prefix_append _ _).trans (ih h.2))

theorem Sorted.append {a b c : List Char} {xs ys : List Mark} (h : Sorted a b xs) (h' : Sorted b c ys) :
    Sorted a c (xs ++ ys) := by
  induction xs generalizing a with
  | nil =>
    cases ys with
    | nil => exact List.IsPrefix.trans h h'
    | cons y ys => exact ⟨List.IsPrefix.trans h h'.1, h'.2⟩
  | cons x xs ih => exact ⟨h.1, ih h.2⟩

theorem Sorted.left {a a' b : List Char} {ms : List Mark} (h : Sorted a b ms) (ha : a' <+: a) : Sorted a' b ms :=
  Sorted.append (xs := []) ha h

theorem Sorted.right {a b b' : List Char} {ms : List Mark} (h : Sorted a b ms) (hb : b <+: b') : Sorted a b' ms := by
  have := Sorted.append h (ys := []) hb
  rwa [List.append_nil] at this

theorem sorted_one {a b : List Char} {m : Mark} (h : a <+: m.pre) (h' : m.pre ++ m.text <+: b) : Sorted a b [m] := ⟨h, h'⟩

theorem commentMark_pre (pre t : List Char) : (commentMark pre t).pre = pre := by
  unfold commentMark
  simp only
  split <;> rfl

theorem commentMark_text (pre t : List Char) : (commentMark pre t).text = t := by
  unfold commentMark
  simp only
  split
  · rename_i rest h
    obtain ⟨x, hx⟩ : ∃ x, t = x ++ Format.trimStart (t.drop 1) := by
      have h1 : Format.trimStart (t.drop 1) <:+ t := (List.dropWhile_suffix _).trans (List.drop_suffix 1 t)
      obtain ⟨x, hx⟩ := h1
      exact ⟨x, hx.symm⟩
    have h2 := stripPrefix_some.mp h
    generalize Format.trimStart (t.drop 1) = c at *
    subst hx
    show List.take ((x ++ c).length - c.length) (x ++ c) ++ Format.valuePrefix ++ rest = x ++ c
    rw [List.length_append, Nat.add_sub_cancel, List.take_left, List.append_assoc, ← h2]
  · rfl

theorem comment_sorted (pre t : List Char) : Sorted pre (pre ++ t) [commentMark pre t] := by
  refine sorted_one ?_ ?_
  · rw [commentMark_pre]; exact List.prefix_rfl
  · rw [commentMark_pre, commentMark_text]; exact List.prefix_rfl

theorem comment?_sorted (pre : List Char) (g : Green) : Sorted pre (pre ++ greenText g) (commentMark? pre g) := by
  unfold commentMark?
  split
  · exact comment_sorted _ _
  · exact List.prefix_append _ _

/-- the text before the child with an index -/
def upTo (pre : List Char) (cs : List Green) (i : Nat) : List Char := pre ++ greenTexts (cs.take i)

theorem greenTexts_append (a b : List Green) : greenTexts (a ++ b) = greenTexts a ++ greenTexts b := by
  induction a with
  | nil => rfl
  | cons g a ih => rw [List.cons_append, greenTexts, greenTexts, ih, List.append_assoc]

theorem upTo_zero (pre : List Char) (cs : List Green) : upTo pre cs 0 = pre := by
  unfold upTo; rw [List.take_zero]; exact List.append_nil pre

theorem upTo_succ (pre : List Char) (g : Green) (gs : List Green) (i : Nat) :
    upTo pre (g :: gs) (i + 1) = upTo (pre ++ greenText g) gs i := by
  unfold upTo; rw [List.take_succ_cons, greenTexts, List.append_assoc]

theorem upTo_all (pre : List Char) (cs : List Green) {i : Nat} (h : cs.length ≤ i) : upTo pre cs i = pre ++ greenTexts cs := by
  unfold upTo; rw [List.take_of_length_le h]

theorem upTo_le (pre : List Char) (cs : List Green) {i j : Nat} (h : i ≤ j) : upTo pre cs i <+: upTo pre cs j := by
  unfold upTo
  obtain ⟨d, rfl⟩ := Nat.exists_eq_add_of_le h
  rw [List.take_add, greenTexts_append, ← List.append_assoc]
  exact List.prefix_append _ _

theorem upTo_le_all (pre : List Char) (cs : List Green) (i : Nat) : upTo pre cs i <+: pre ++ greenTexts cs := by
  rw [← upTo_all pre cs (Nat.le_refl _)]
  by_cases h : i ≤ cs.length
  · exact upTo_le pre cs h
  · rw [upTo_all pre cs (by omega), upTo_all pre cs (Nat.le_refl _)]
    exact List.prefix_rfl

theorem upTo_split (pre : List Char) (cs : List Green) (i : Nat) :
    upTo pre cs i ++ greenTexts (cs.drop i) = pre ++ greenTexts cs := by
  unfold upTo
  rw [List.append_assoc, ← greenTexts_append, List.take_append_drop]

/-! ### accessors -/

theorem leading_ord (pre : List Char) (cs : List Green) (p : Green → Bool) (hp : ∀ g, p g = true → isLeadingKind g = false) :
    Sorted pre (upTo pre cs (cs.findIdx p)) (leadingMarks pre cs) := by
  induction cs generalizing pre with
  | nil => rw [List.findIdx_nil, upTo_zero]; exact List.prefix_rfl
  | cons g gs ih =>
    rw [leadingMarks]
    by_cases hg : isLeadingKind g = true
    · have hn : p g = false := by
        cases h : p g with
        | false => rfl
        | true => rw [hp g h] at hg; cases hg
      rw [if_pos hg, List.findIdx_cons, hn, cond_false, upTo_succ]
      exact Sorted.append (comment?_sorted pre g) (ih _)
    · rw [if_neg hg]
      have := upTo_le pre (g :: gs) (Nat.zero_le ((g :: gs).findIdx p))
      rwa [upTo_zero] at this

theorem dangling_ord (pre : List Char) (cs : List Green) : Sorted pre (pre ++ greenTexts cs) (danglingMarks pre cs) := by
  induction cs generalizing pre with
  | nil => exact List.prefix_append _ _
  | cons g gs ih =>
    rw [danglingMarks, greenTexts, ← List.append_assoc]
    exact Sorted.append (comment?_sorted pre g) (ih _)

theorem token_ord (k : SyntaxKind) (t : TokenType) (pre : List Char) (cs : List Green) :
    Sorted (upTo pre cs (cs.findIdx (isToken k))) (upTo pre cs (cs.findIdx (isToken k) + 1)) (tokenMarks k t pre cs) := by
  induction cs generalizing pre with
  | nil => exact List.prefix_rfl
  | cons g gs ih =>
    cases g with
    | token k' w =>
      rw [tokenMarks]
      by_cases hk : k' = k
      · have h1 : isToken k (.token k' w) = true := by simp [isToken, hk]
        rw [if_pos hk, List.findIdx_cons, h1, cond_true, upTo_zero]
        exact sorted_one List.prefix_rfl (by rw [upTo_succ, upTo_zero]; exact List.prefix_rfl)
      · have h1 : isToken k (.token k' w) = false := by simp [isToken, hk]
        rw [if_neg hk, List.findIdx_cons, h1, cond_false, upTo_succ, upTo_succ]
        exact ih _
    | node k' cs' =>
      have h1 : isToken k (.node k' cs') = false := rfl
      rw [tokenMarks, List.findIdx_cons, h1, cond_false, upTo_succ, upTo_succ]
      exact ih _

theorem key_ord (t : TokenType) (pre : List Char) (cs : List Green) : Sorted pre (pre ++ greenTexts cs) (keyMarks t pre cs) := by
  induction cs generalizing pre with
  | nil => exact List.prefix_append _ _
  | cons g gs ih =>
    rw [keyMarks, greenTexts, ← List.append_assoc]
    refine Sorted.append (b := pre ++ greenText g) ?_ (ih _)
    split
    · exact sorted_one List.prefix_rfl List.prefix_rfl
    · exact List.prefix_append _ _

theorem keys_ord (t : TokenType) (pre : List Char) (cs : List Green) :
    Sorted (upTo pre cs (cs.findIdx isKeys)) (upTo pre cs (cs.findIdx isKeys + 1)) (keysMarks t pre cs) := by
  induction cs generalizing pre with
  | nil => exact List.prefix_rfl
  | cons g gs ih =>
    rw [keysMarks.eq_def]
    split
    · rename_i h; cases h
    · rename_i ks gs' h
      cases h
      have h1 : isKeys (.node KEYS ks) = true := rfl
      rw [List.findIdx_cons, h1, cond_true, upTo_zero, upTo_succ, upTo_zero, greenText]
      exact key_ord t pre ks
    · rename_i g' gs' hne h
      cases h
      have h1 : isKeys g = false := by
        unfold isKeys
        split
        · exact absurd rfl (hne _)
        · rfl
      rw [List.findIdx_cons, h1, cond_false, upTo_succ, upTo_succ]
      exact ih _

theorem trailing_none {pre : List Char} {cs : List Green} (h : ∀ t, lastTokens cs ≠ some (COMMENT, t)) :
    trailingMarks pre cs = [] := by
  unfold trailingMarks
  split
  · rename_i t ht; exact absurd ht (h t)
  · rfl

theorem lastTokens_concat (xs : List Green) (k : SyntaxKind) (t : List Char) :
    lastTokens (xs ++ [.token k t]) = some (k, t) := by
  induction xs with
  | nil => rfl
  | cons x xs ih =>
    cases xs with
    | nil => rfl
    | cons y xs => exact ih

/-- The comment at the end of a node: the other children, and where the comment begins. -/
theorem trailing_shape (pre : List Char) {cs : List Green} (h : CommentLast cs) :
    ∃ ys z, cs = ys ++ z ∧ (z = [] ∨ ∃ t, z = [.token COMMENT t])
      ∧ Sorted (pre ++ greenTexts ys) (pre ++ greenTexts cs) (trailingMarks pre cs) := by
  by_cases hc : ∃ t, lastTokens cs = some (COMMENT, t)
  · obtain ⟨t, ht⟩ := hc
    obtain ⟨xs, rfl⟩ := h t ht
    refine ⟨xs, [.token COMMENT t], rfl, .inr ⟨t, rfl⟩, ?_⟩
    have e : greenTexts (xs ++ [.token COMMENT t]) = greenTexts xs ++ t := by
      rw [greenTexts_append]; simp [greenTexts, greenText]
    unfold trailingMarks
    simp only [lastTokens_concat, e]
    have e2 : (greenTexts xs ++ t).take ((greenTexts xs ++ t).length - t.length) = greenTexts xs := by
      rw [List.length_append, Nat.add_sub_cancel, List.take_left]
    rw [e2]
    rw [← List.append_assoc]
    exact comment_sorted _ _
  · refine ⟨cs, [], by simp, .inl rfl, ?_⟩
    rw [trailing_none (fun t ht => hc ⟨t, ht⟩)]
    exact List.prefix_rfl

theorem findIdx_front {ys z : List Green} {k : SyntaxKind} (hk : k ≠ COMMENT) (hz : z = [] ∨ ∃ t, z = [.token COMMENT t])
    (h : (ys ++ z).findIdx (isToken k) < (ys ++ z).length) : (ys ++ z).findIdx (isToken k) < ys.length := by
  rcases hz with rfl | ⟨t, rfl⟩
  · rw [List.append_nil] at h ⊢; exact h
  · apply Classical.byContradiction
    intro hn
    rw [List.length_append, List.length_singleton] at h
    have he : (ys ++ [Green.token COMMENT t]).findIdx (isToken k) = ys.length := by omega
    have hl : (ys ++ [Green.token COMMENT t]).findIdx (isToken k) < (ys ++ [Green.token COMMENT t]).length := by
      rw [List.length_append, List.length_singleton]; omega
    have h1 := List.findIdx_getElem (xs := ys ++ [Green.token COMMENT t]) (p := isToken k) (w := hl)
    have h2 : (ys ++ [Green.token COMMENT t])[(ys ++ [Green.token COMMENT t]).findIdx (isToken k)] = .token COMMENT t := by
      have h3 : (ys ++ [Green.token COMMENT t])[ys.length]? = some (.token COMMENT t) := by simp
      have h4 := List.getElem?_eq_getElem hl
      simp only [he] at h4
      rw [h3] at h4
      simp only [he]
      exact (Option.some.inj h4).symm
    rw [h2] at h1
    simp [isToken] at h1
    exact hk h1.symm

theorem upTo_front (pre : List Char) {ys z : List Green} {i : Nat} (h : i ≤ ys.length) :
    upTo pre (ys ++ z) i = upTo pre ys i := by
  unfold upTo; rw [List.take_append_of_le_length h]

/-- The kinds of tokens that are not kinds of nodes. -/
theorem shaped_kind {g : Green} (hg : Shaped g) {k : SyntaxKind}
    (hk : k ∈ [BRACKET_START, BRACE_START, BRACKET_END, DOUBLE_BRACKET_END]) :
    (kindOf g = k ↔ isToken k g = true) ∧ kindOf g ≠ EOF := by
  cases g with
  | token k' w =>
    refine ⟨by simp [kindOf, isToken], ?_⟩
    exact hg
  | node k' cs =>
    obtain ⟨-, h2, -⟩ := hg
    refine ⟨⟨fun h => ?_, fun h => by cases h⟩, fun h => ?_⟩
    · exfalso
      apply h2
      have : k' = k := h
      rw [this]
      simp only [List.mem_cons, List.not_mem_nil, or_false] at hk ⊢
      rcases hk with h | h | h | h <;> simp [h]
    · have : k' = EOF := h
      exact h2 (by rw [this]; decide)

theorem after_at {end_ : SyntaxKind} (hk : end_ ∈ [BRACKET_START, BRACE_START, BRACKET_END, DOUBLE_BRACKET_END])
    (pre : List Char) {cs : List Green} (hs : ShapedAll cs) (hl : cs.findIdx (isToken end_) < cs.length) :
    trailingAfterMarks end_ pre cs
      = afterMarks (upTo pre cs (cs.findIdx (isToken end_) + 1)) (cs.drop (cs.findIdx (isToken end_) + 1)) := by
  induction cs generalizing pre with
  | nil => cases hl
  | cons g gs ih =>
    obtain ⟨h1, h2⟩ := shaped_kind hs.1 hk
    rw [trailingAfterMarks]
    cases hg : isToken end_ g with
    | true =>
      rw [if_pos (.inl (h1.mpr hg)), List.findIdx_cons, hg, cond_true, upTo_succ, upTo_zero]
      rfl
    | false =>
      rw [List.findIdx_cons, hg, cond_false] at hl ⊢
      rw [if_neg (by
        rintro (h | h)
        · rw [h1.mp h] at hg; cases hg
        · exact h2 h), upTo_succ, List.drop_succ_cons]
      exact ih _ hs.2 (by simpa using hl)

theorem body_at {start group : SyntaxKind} (hk : start ∈ [BRACKET_START, BRACE_START, BRACKET_END, DOUBLE_BRACKET_END])
    (pre : List Char) {cs : List Green} (hs : ShapedAll cs) (hl : cs.findIdx (isToken start) < cs.length) :
    bodyMarks start group false pre cs
      = bodyMarks start group true (upTo pre cs (cs.findIdx (isToken start) + 1)) (cs.drop (cs.findIdx (isToken start) + 1)) := by
  induction cs generalizing pre with
  | nil => cases hl
  | cons g gs ih =>
    obtain ⟨h1, -⟩ := shaped_kind hs.1 hk
    have hb : bodyMarks start group false pre (g :: gs)
        = bodyMarks start group (kindOf g == start) (pre ++ greenText g) gs := by
      cases g <;> simp [bodyMarks]
    rw [hb]
    cases hg : isToken start g with
    | true =>
      rw [show (kindOf g == start) = true by simpa using h1.mpr hg, List.findIdx_cons, hg, cond_true, upTo_succ, upTo_zero]
      rfl
    | false =>
      rw [List.findIdx_cons, hg, cond_false] at hl ⊢
      have hf : (kindOf g == start) = false := by
        cases h : kindOf g == start with
        | false => rfl
        | true =>
          rw [h1.mp (by simpa using h)] at hg
          cases hg
      rw [hf, upTo_succ, List.drop_succ_cons]
      exact ih _ hs.2 (by simpa using hl)

theorem sectionBody_at {end_ : SyntaxKind} (hk : end_ ∈ [BRACKET_START, BRACE_START, BRACKET_END, DOUBLE_BRACKET_END])
    (pre : List Char) {cs : List Green} (hs : ShapedAll cs) (hl : cs.findIdx (isToken end_) < cs.length) :
    sectionBodyMarks end_ false pre cs
      = sectionBodyMarks end_ true (upTo pre cs (cs.findIdx (isToken end_) + 1)) (cs.drop (cs.findIdx (isToken end_) + 1)) := by
  induction cs generalizing pre with
  | nil => cases hl
  | cons g gs ih =>
    obtain ⟨h1, -⟩ := shaped_kind hs.1 hk
    rw [sectionBodyMarks, Bool.false_and, if_neg (by decide), Bool.false_or]
    cases hg : isToken end_ g with
    | true =>
      rw [show (kindOf g == end_) = true by simpa using h1.mpr hg, List.findIdx_cons, hg, cond_true, upTo_succ, upTo_zero]
      rfl
    | false =>
      rw [List.findIdx_cons, hg, cond_false] at hl ⊢
      have hf : (kindOf g == end_) = false := by
        cases h : kindOf g == end_ with
        | false => rfl
        | true =>
          rw [h1.mp (by simpa using h)] at hg
          cases hg
      rw [hf, upTo_succ, List.drop_succ_cons]
      exact ih _ hs.2 (by simpa using hl)

/-! ### nodes -/

theorem leading_token {k : SyntaxKind} (h : k ≠ COMMENT ∧ k ≠ LINE_BREAK ∧ k ≠ WHITESPACE) (g : Green) (hg : isToken k g = true) :
    isLeadingKind g = false := by
  cases g with
  | node _ _ => cases hg
  | token k' w =>
    have : k' = k := by simpa [isToken] using hg
    simp [isLeadingKind, kindOf, this, h.1, h.2.1, h.2.2]

theorem leading_keys (g : Green) (hg : isKeys g = true) : isLeadingKind g = false := by
  unfold isKeys at hg
  split at hg
  · rfl
  · cases hg

theorem shape_literal {k : SyntaxKind} {cs : List Green} (h1 : k ≠ ARRAY) (h2 : k ≠ INLINE_TABLE) (hv : isValueKind k = true)
    (h : NodeShape k cs) : cs.findIdx (isToken k) < cs.length ∧ CommentLast cs := by
  cases k <;> first | exact absurd rfl h1 | exact absurd rfl h2 | exact absurd hv (by decide) | exact h hv

theorem value_leading {k : SyntaxKind} (hv : isValueKind k = true) : k ≠ COMMENT ∧ k ≠ LINE_BREAK ∧ k ≠ WHITESPACE := by
  refine ⟨?_, ?_, ?_⟩ <;> rintro rfl <;> exact absurd hv (by decide)

theorem item_other {k : SyntaxKind} (h1 : k ≠ ARRAY) (h2 : k ≠ INLINE_TABLE) (h3 : k ≠ KEY_VALUE) (pre : List Char)
    (cs : List Green) : itemMarks pre (.node k cs)
      = if isValueKind k then leadingMarks pre cs ++ tokenMarks k (literalType k) pre cs ++ trailingMarks pre cs else [] := by
  cases k <;> first | exact absurd rfl h1 | exact absurd rfl h2 | exact absurd rfl h3 | simp [itemMarks]

/-- leading comments, a token and the trailing comment -/
theorem literal_sorted {k : SyntaxKind} (hk : k ≠ COMMENT ∧ k ≠ LINE_BREAK ∧ k ≠ WHITESPACE) (t : TokenType) (pre : List Char)
    {cs : List Green} (h : cs.findIdx (isToken k) < cs.length) (hc : CommentLast cs) :
    Sorted pre (pre ++ greenTexts cs) (leadingMarks pre cs ++ tokenMarks k t pre cs ++ trailingMarks pre cs) := by
  obtain ⟨ys, z, rfl, hz, ht⟩ := trailing_shape pre hc
  have hi := findIdx_front hk.1 hz h
  refine ((leading_ord pre _ _ (leading_token hk)).append (token_ord k t pre _)).append (ht.left ?_)
  rw [upTo_front pre (by omega)]
  exact upTo_le_all _ _ _

theorem comma_sorted (pre : List Char) {cs : List Green} (h : NodeShape COMMA cs) :
    Sorted pre (pre ++ greenTexts cs) (leadingMarks pre cs ++ trailingMarks pre cs) := by
  obtain ⟨hl, hc⟩ := h
  obtain ⟨ys, z, rfl, hz, ht⟩ := trailing_shape pre hc
  have hi := findIdx_front (k := COMMA) (by decide) hz hl
  refine (leading_ord pre _ _ (leading_token (k := COMMA) (by decide))).append (ht.left ?_)
  rw [upTo_front pre (by omega)]
  exact upTo_le_all _ _ _

theorem upTo_drop (pre : List Char) {cs : List Green} {i : Nat} {g : Green} {gs : List Green} (h : cs.drop i = g :: gs) :
    upTo pre cs (i + 1) = upTo pre cs i ++ greenText g ∧ cs.drop (i + 1) = gs := by
  induction cs generalizing pre i with
  | nil => rw [List.drop_nil] at h; cases h
  | cons c cs ih =>
    cases i with
    | zero =>
      rw [List.drop_zero] at h
      cases h
      refine ⟨?_, rfl⟩
      rw [upTo_succ, upTo_zero, upTo_zero]
    | succ i =>
      obtain ⟨h1, h2⟩ := ih (pre ++ greenText c) (i := i) (by simpa using h)
      rw [upTo_succ, upTo_succ]
      exact ⟨h1, by simpa using h2⟩

theorem body_token (start group : SyntaxKind) (pre : List Char) (k : SyntaxKind) (w : List Char) (gs : List Green) :
    bodyMarks start group true pre (.token k w :: gs) = bodyMarks start group true (pre ++ w) gs := by
  simp [bodyMarks]

theorem drop_ne {cs : List Green} {i j : Nat} {k : SyntaxKind} (hj : j = cs.findIdx (isToken k)) (hij : i ≤ j) (hl : j < cs.length)
    {g : Green} {gs : List Green} (h : cs.drop i = g :: gs) (hg : isToken k g = false) : i + 1 ≤ j := by
  apply Classical.byContradiction
  intro hn
  have he : i = j := by omega
  subst he
  have h1 : cs[i]? = some g := by
    rw [← List.head?_drop, h]; rfl
  have h2 := List.findIdx_getElem (xs := cs) (p := isToken k) (w := by omega)
  have h3 := List.getElem?_eq_getElem (l := cs) (i := i) hl
  rw [h1] at h3
  have h4 : cs[cs.findIdx (isToken k)]'(by omega) = g := by
    rw [Option.some.inj h3]; congr 1; exact hj.symm
  rw [h4, hg] at h2
  cases h2

/-- the comment after the opening bracket, and what is inside -/
theorem after_body {start group end_ : SyntaxKind} (he : end_ ≠ COMMENT ∧ end_ ≠ WHITESPACE) (pre E : List Char) {cs : List Green}
    {j i : Nat} (hj : j = cs.findIdx (isToken end_)) (hl : j < cs.length) (hij : i ≤ j)
    (H : ∀ n ≤ j, Sorted (upTo pre cs n) E (bodyMarks start group true (upTo pre cs n) (cs.drop n))) :
    Sorted (upTo pre cs i) E (afterMarks (upTo pre cs i) (cs.drop i) ++ bodyMarks start group true (upTo pre cs i) (cs.drop i)) := by
  generalize hd : cs.drop i = d
  rw [afterMarks.eq_def]
  split
  · rename_i t r
    obtain ⟨h1, h2⟩ := upTo_drop pre hd
    have h3 := drop_ne hj hij hl hd (by simp [isToken, Ne.symm he.1])
    have := H _ h3
    rw [h1, h2] at this
    rw [body_token]
    exact (comment_sorted _ _).append this
  · rename_i w t r
    obtain ⟨h1, h2⟩ := upTo_drop pre hd
    have h3 := drop_ne hj hij hl hd (by simp [isToken, Ne.symm he.2])
    obtain ⟨h4, h5⟩ := upTo_drop pre h2
    have h6 := drop_ne hj h3 hl h2 (by simp [isToken, Ne.symm he.1])
    have := H _ h6
    rw [h4, h5, h1] at this
    rw [body_token, body_token]
    refine Sorted.left ?_ (List.prefix_append _ w)
    exact (comment_sorted _ _).append this
  · rw [← hd]
    exact H i hij

/-- an array or an inline table, when its inside is in order -/
theorem container_sorted {start group end_ : SyntaxKind} (he : end_ ≠ COMMENT ∧ end_ ≠ WHITESPACE)
    (hs : start ∈ [BRACKET_START, BRACE_START, BRACKET_END, DOUBLE_BRACKET_END]) (pre : List Char) {cs : List Green}
    (hsh : ShapedAll cs) (hi : cs.findIdx (isToken start) < cs.findIdx (isToken end_)) (hl : cs.findIdx (isToken end_) < cs.length)
    (hc : CommentLast cs)
    (H : ∀ ys z, cs = ys ++ z → (z = [] ∨ ∃ t, z = [.token COMMENT t]) → ∀ n ≤ ys.length,
      Sorted (upTo pre cs n) (pre ++ greenTexts ys) (bodyMarks start group true (upTo pre cs n) (cs.drop n))) :
    Sorted pre (pre ++ greenTexts cs) (leadingMarks pre cs ++ trailingAfterMarks start pre cs
      ++ bodyMarks start group false pre cs ++ trailingMarks pre cs) := by
  obtain ⟨ys, z, hcs, hz, ht⟩ := trailing_shape pre hc
  have hf : cs.findIdx (isToken end_) < ys.length := by
    subst hcs; exact findIdx_front he.1 hz hl
  refine Sorted.append ?_ ht
  rw [after_at hs pre hsh (by omega), body_at hs pre hsh (by omega), List.append_assoc]
  refine (leading_ord pre cs (isToken start) (leading_token ?_)).append ?_
  · simp only [List.mem_cons, List.not_mem_nil, or_false] at hs
    rcases hs with rfl | rfl | rfl | rfl <;> decide
  · refine Sorted.left ?_ (upTo_le pre cs (Nat.le_succ _))
    exact after_body he pre _ rfl hl hi (fun n hn => H ys z hcs hz n (by omega))

mutual
theorem item_sorted (pre : List Char) : (g : Green) → Shaped g → Sorted pre (pre ++ greenText g) (itemMarks pre g)
  | .token k w, _ => by rw [itemMarks]; exact List.prefix_append _ _
  | .node k cs, hs => by
    obtain ⟨h1, -, h3⟩ := hs
    rw [greenText]
    by_cases ha : k = ARRAY
    · subst ha
      obtain ⟨h4, h5, h6⟩ := h1
      rw [itemMarks]
      exact container_sorted (end_ := BRACKET_END) (by decide) (by decide) pre h3 h4 h5 h6
        (fun ys z e hz n hn => body_sorted _ _ pre cs h3 ys z e hz n hn)
    by_cases hb : k = INLINE_TABLE
    · subst hb
      obtain ⟨h4, h5, h6⟩ := h1
      rw [itemMarks]
      exact container_sorted (end_ := BRACE_END) (by decide) (by decide) pre h3 h4 h5 h6
        (fun ys z e hz n hn => body_sorted _ _ pre cs h3 ys z e hz n hn)
    by_cases hk : k = KEY_VALUE
    · subst hk
      obtain ⟨h4, h5⟩ := h1
      rw [itemMarks]
      refine Sorted.append (Sorted.append (Sorted.append (leading_ord pre cs isKeys leading_keys) (keys_ord _ pre cs))
        (Sorted.left (token_ord EQUAL _ pre cs) (upTo_le pre cs h4))) ?_
      exact Sorted.left (value_sorted pre cs h3) (upTo_le pre cs h5)
    rw [item_other ha hb hk]
    by_cases hv : isValueKind k = true
    · rw [if_pos hv]
      obtain ⟨h4, h5⟩ := shape_literal ha hb hv h1
      exact literal_sorted (value_leading hv) _ pre h4 h5
    · rw [if_neg hv]; exact List.prefix_append _ _
theorem value_sorted (pre : List Char) : (cs : List Green) → ShapedAll cs →
    Sorted (upTo pre cs (cs.findIdx (fun g => isValueKind (kindOf g)))) (pre ++ greenTexts cs) (valueMarks pre cs)
  | [], _ => by rw [valueMarks, List.findIdx_nil, upTo_zero]; exact List.prefix_append _ _
  | g :: gs, hs => by
    rw [valueMarks, List.findIdx_cons]
    by_cases hv : isValueKind (kindOf g) = true
    · rw [if_pos hv, hv, cond_true, upTo_zero, greenTexts, ← List.append_assoc]
      exact (item_sorted pre g hs.1).right (List.prefix_append _ _)
    · rw [if_neg hv, (by simpa using hv : isValueKind (kindOf g) = false), cond_false, upTo_succ, greenTexts, ← List.append_assoc]
      exact value_sorted _ gs hs.2
theorem body_sorted (start group : SyntaxKind) (pre : List Char) : (cs : List Green) → ShapedAll cs →
    ∀ ys z, cs = ys ++ z → (z = [] ∨ ∃ t, z = [.token COMMENT t]) → ∀ n ≤ ys.length,
      Sorted (upTo pre cs n) (pre ++ greenTexts ys) (bodyMarks start group true (upTo pre cs n) (cs.drop n))
  | [], _, ys, z, e, _, n, _ => by
    rw [List.drop_nil, bodyMarks]
    obtain ⟨rfl, rfl⟩ := List.append_eq_nil_iff.mp e.symm
    exact upTo_le_all _ _ _
  | g :: gs, hs, ys, z, e, hz, n, hn => by
    cases n with
    | zero =>
      rw [upTo_zero, List.drop_zero]
      cases ys with
      | nil =>
        rw [List.nil_append] at e
        rcases hz with rfl | ⟨t, rfl⟩
        · cases e
        · cases e
          rw [body_token, bodyMarks]
          exact List.prefix_append _ _
      | cons y ys =>
        rw [List.cons_append] at e
        injection e with e1 e2
        subst e1
        have ih := body_sorted start group (pre ++ greenText g) gs hs.2 ys z e2 hz 0 (Nat.zero_le _)
        rw [upTo_zero, List.drop_zero] at ih
        rw [greenTexts, ← List.append_assoc]
        cases g with
        | token k w =>
          rw [body_token]
          exact ih.left (List.prefix_append _ _)
        | node k cs =>
          have hb : bodyMarks start group true pre (.node k cs :: gs) = (if k = DANGLING_COMMENT_GROUP then danglingMarks pre cs
              else if k = group then groupMarks pre cs else []) ++ bodyMarks start group true (pre ++ greenText (.node k cs)) gs := by
            rw [bodyMarks, Bool.not_true, if_neg (by decide)]
          rw [hb]
          refine Sorted.append ?_ ih
          rw [greenText]
          split
          · exact dangling_ord _ _
          · split
            · exact (group_sorted pre cs hs.1.2.2).1
            · exact List.prefix_append _ _
    | succ n =>
      rw [upTo_succ, List.drop_succ_cons]
      cases ys with
      | nil => exact absurd hn (by simp)
      | cons y ys =>
        rw [List.cons_append] at e
        injection e with e1 e2
        subst e1
        rw [greenTexts, ← List.append_assoc]
        exact body_sorted start group (pre ++ greenText g) gs hs.2 ys z e2 hz n (by simpa using hn)
theorem group_sorted (pre : List Char) : (gs : List Green) → ShapedAll gs →
    Sorted pre (pre ++ greenTexts gs) (groupMarks pre gs) ∧ Sorted pre (pre ++ greenTexts gs) (commaMarks pre gs ++ groupMarks pre gs)
  | [], _ => by
    rw [groupMarks, commaMarks]
    exact ⟨List.prefix_append _ _, List.prefix_append _ _⟩
  | g :: gs, hs => by
    obtain ⟨i1, i2⟩ := group_sorted (pre ++ greenText g) gs hs.2
    have hi := item_sorted pre g hs.1
    rw [groupMarks, greenTexts, ← List.append_assoc]
    have hg : Sorted pre (pre ++ greenText g ++ greenTexts gs)
        (itemMarks pre g ++ (if isItemNode g then commaMarks (pre ++ greenText g) gs else []) ++ groupMarks (pre ++ greenText g) gs) := by
      rw [List.append_assoc (itemMarks pre g)]
      refine hi.append ?_
      split
      · exact i2
      · exact i1
    refine ⟨hg, ?_⟩
    cases g with
    | token k w =>
      rw [commaMarks, show isItemNode (.token k w) = false from rfl, if_neg (by decide), itemMarks]
      exact i2.left (List.prefix_append _ _)
    | node k cs =>
      rw [commaMarks]
      by_cases hk : isItemKind k = true
      · rw [if_pos hk]; exact hg
      · have hn : isItemNode (.node k cs) = false := by simpa [isItemNode] using hk
        rw [if_neg hk, hn, if_neg (c := false = true) (by decide)]
        have hi0 : itemMarks pre (.node k cs) = [] := by
          have hv : ¬ isValueKind k = true := fun h => hk (by simp [isItemKind, h])
          rw [item_other (by rintro rfl; exact hv rfl) (by rintro rfl; exact hv rfl) (by rintro rfl; exact hk rfl), if_neg hv]
        rw [hi0]
        by_cases hc : k = COMMA
        · subst hc
          rw [if_pos rfl]
          exact (comma_sorted pre hs.1.1).append i1
        · rw [if_neg hc]
          exact i2.left (List.prefix_append _ _)
end

/-! ### the document -/

theorem groups_sorted (pre : List Char) (gs : List Green) (hs : ShapedAll gs) :
    Sorted pre (pre ++ greenTexts gs) (groupsMarks pre gs) := by
  induction gs generalizing pre with
  | nil => exact List.prefix_append _ _
  | cons g gs ih =>
    rw [greenTexts, ← List.append_assoc]
    cases g with
    | token k w =>
      rw [groupsMarks]
      exact (ih _ hs.2).left (List.prefix_append _ _)
    | node k cs =>
      rw [groupsMarks]
      refine Sorted.append ?_ (ih _ hs.2)
      rw [greenText]
      split
      · exact dangling_ord _ _
      · split
        · exact (group_sorted pre cs hs.1.2.2).1
        · exact List.prefix_append _ _

theorem sectionBody_sorted (end_ : SyntaxKind) (pre : List Char) (gs : List Green) (hs : ShapedAll gs) :
    Sorted pre (pre ++ greenTexts gs) (sectionBodyMarks end_ true pre gs) := by
  induction gs generalizing pre with
  | nil => exact List.prefix_append _ _
  | cons g gs ih =>
    rw [sectionBodyMarks]
    split
    · exact groups_sorted pre _ hs
    · rw [greenTexts, ← List.append_assoc, Bool.true_or]
      exact (ih _ hs.2).left (List.prefix_append _ _)

theorem shapedAll_drop {cs : List Green} (h : ShapedAll cs) (n : Nat) : ShapedAll (cs.drop n) := by
  induction cs generalizing n with
  | nil => rw [List.drop_nil]; exact h
  | cons c cs ih =>
    cases n with
    | zero => exact h
    | succ n => exact ih h.2 n

theorem section_token (end_ : SyntaxKind) (pre : List Char) {k : SyntaxKind} (w : List Char) (gs : List Green)
    (h1 : k ≠ LINE_BREAK) (h2 : k ≠ DANGLING_COMMENT_GROUP) :
    sectionBodyMarks end_ true pre (.token k w :: gs) = sectionBodyMarks end_ true (pre ++ w) gs := by
  rw [sectionBodyMarks, if_neg (by simp [kindOf, h1, h2])]
  rfl

theorem after_section (end_ : SyntaxKind) (pre : List Char) (gs : List Green) (hs : ShapedAll gs) :
    Sorted pre (pre ++ greenTexts gs) (afterMarks pre gs ++ sectionBodyMarks end_ true pre gs) := by
  rw [afterMarks.eq_def]
  split
  · rename_i t r
    rw [section_token _ _ _ _ (by decide) (by decide), greenTexts, ← List.append_assoc]
    exact (comment_sorted _ _).append (sectionBody_sorted _ _ _ hs.2)
  · rename_i w t r
    rw [section_token _ _ _ _ (by decide) (by decide), section_token _ _ _ _ (by decide) (by decide), greenTexts, greenTexts,
      ← List.append_assoc, ← List.append_assoc]
    refine Sorted.left ?_ (List.prefix_append _ w)
    exact (comment_sorted _ _).append (sectionBody_sorted _ _ _ hs.2.2)
  · exact sectionBody_sorted _ _ _ hs

theorem section_sorted {start end_ : SyntaxKind} (h0 : start ≠ COMMENT ∧ start ≠ LINE_BREAK ∧ start ≠ WHITESPACE)
    (he : end_ ∈ [BRACKET_START, BRACE_START, BRACKET_END, DOUBLE_BRACKET_END]) (pre : List Char) {cs : List Green}
    (hs : ShapedAll cs) (h1 : cs.findIdx (isToken start) < cs.findIdx isKeys)
    (h2 : cs.findIdx isKeys < cs.findIdx (isToken end_)) (h3 : cs.findIdx (isToken end_) < cs.length) :
    Sorted pre (pre ++ greenTexts cs) (sectionMarks start end_ pre cs) := by
  unfold sectionMarks
  rw [after_at he pre hs h3, sectionBody_at he pre hs h3, List.append_assoc]
  refine Sorted.append (Sorted.append (Sorted.append (Sorted.append (leading_ord pre cs _ (leading_token h0)) (token_ord _ _ pre cs))
    (Sorted.left (keys_ord _ pre cs) (upTo_le pre cs h1))) (Sorted.left (token_ord _ _ pre cs) (upTo_le pre cs h2))) ?_
  have := after_section end_ (upTo pre cs (cs.findIdx (isToken end_) + 1)) _ (shapedAll_drop hs (cs.findIdx (isToken end_) + 1))
  rwa [upTo_split] at this

theorem sections_sorted (pre : List Char) (gs : List Green) (hs : ShapedAll gs) :
    Sorted pre (pre ++ greenTexts gs) (sectionsMarks pre gs) := by
  induction gs generalizing pre with
  | nil => exact List.prefix_append _ _
  | cons g gs ih =>
    rw [greenTexts, ← List.append_assoc]
    have ih := ih (pre ++ greenText g) hs.2
    rw [sectionsMarks.eq_def]
    split
    · rename_i h; cases h
    · rename_i cs gs' h
      cases h
      rw [greenText] at ih ⊢
      obtain ⟨⟨h1, h2, h3⟩, -, h4⟩ := hs.1
      exact (section_sorted (by decide) (by decide) pre h4 h1 h2 h3).append ih
    · rename_i cs gs' h
      cases h
      rw [greenText] at ih ⊢
      obtain ⟨⟨h1, h2, h3⟩, -, h4⟩ := hs.1
      exact (section_sorted (by decide) (by decide) pre h4 h1 h2 h3).append ih
    · rename_i g' gs' _ _ h
      cases h
      exact ih.left (List.prefix_append _ _)

theorem groups_front (pre : List Char) (a b : List Green)
    (hb : ∀ g ∈ b, kindOf g ≠ DANGLING_COMMENT_GROUP ∧ kindOf g ≠ KEY_VALUE_GROUP) :
    groupsMarks pre (a ++ b) = groupsMarks pre a := by
  induction a generalizing pre with
  | nil =>
    rw [List.nil_append]
    induction b generalizing pre with
    | nil => rfl
    | cons g gs ih =>
      have ih := fun p => ih (fun g' h' => hb g' (List.mem_cons_of_mem _ h')) p
      cases g with
      | token k w => rw [groupsMarks.eq_2, ih]; rfl
      | node k cs =>
        have : k ≠ DANGLING_COMMENT_GROUP ∧ k ≠ KEY_VALUE_GROUP := hb (.node k cs) List.mem_cons_self
        rw [groupsMarks.eq_3, if_neg this.1, if_neg this.2, ih]; rfl
  | cons g a ih =>
    cases g with
    | token k w => rw [List.cons_append, groupsMarks, groupsMarks, ih]
    | node k cs => rw [List.cons_append, groupsMarks, groupsMarks, ih]

theorem sections_back (pre : List Char) (a b : List Green) (ha : ∀ g ∈ a, isSection g = false) :
    sectionsMarks pre (a ++ b) = sectionsMarks (pre ++ greenTexts a) b := by
  induction a generalizing pre with
  | nil => rw [List.nil_append, greenTexts, List.append_nil]
  | cons g a ih =>
    rw [List.cons_append, sectionsMarks.eq_def]
    have hg := ha g List.mem_cons_self
    split
    · rename_i h; cases h
    · rename_i h; cases h; cases hg
    · rename_i h; cases h; cases hg
    · rename_i h
      cases h
      rw [ih _ (fun g' h' => ha g' (List.mem_cons_of_mem _ h')), greenTexts, List.append_assoc]

theorem shapedAll_append {a b : List Green} (h : ShapedAll (a ++ b)) : ShapedAll a ∧ ShapedAll b := by
  induction a with
  | nil => exact ⟨by rw [ShapedAll]; trivial, h⟩
  | cons g a ih => exact ⟨⟨h.1, (ih h.2).1⟩, (ih h.2).2⟩

theorem document_sorted {root : Green} (h : RootShape root) : Sorted [] (greenTexts (childrenOf root)) (documentMarks root) := by
  obtain ⟨hs, a, b, e, ha, hb⟩ := h
  have hc : ShapedAll (childrenOf root) := by
    cases root with
    | token k w => trivial
    | node k cs => exact hs.2.2
  unfold documentMarks
  rw [e] at hc ⊢
  obtain ⟨h1, h2⟩ := shapedAll_append hc
  rw [groups_front _ _ _ hb, sections_back _ _ _ ha, greenTexts_append]
  exact (groups_sorted [] a h1).append (sections_sorted _ b h2)

end Tombi.SemanticTokens
