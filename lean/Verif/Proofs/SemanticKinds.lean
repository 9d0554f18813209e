import Verif.Spec.SemanticKinds
import Verif.Proofs.SemanticTree
/-! Lemmas for C90: the elements that the traversal finds are elements of the tree. -/
namespace Tombi.SemanticTokens
open Tombi SyntaxKind
open Tombi.Formatter (kindOf childrenOf greenText greenTexts lastTokens lastToken isLeadingKind isValueKind isItemKind)

/-- the element fits one of the trees of a list -/
def FitsIn (pre : List Char) (cs : List Green) (m : Mark) : Prop :=
  ∃ xs g ys, cs = xs ++ g :: ys ∧ Fits (pre ++ greenTexts xs) g m

theorem hasToken_node {kinds : List SyntaxKind} {pre : List Char} {xs ys : List Green} {g : Green} {k : SyntaxKind} {p : Part}
    (h : HasToken kinds (pre ++ greenTexts xs) g p) : HasToken kinds pre (.node k (xs ++ g :: ys)) p := by
  obtain ⟨k', hk, h⟩ := h
  exact ⟨k', hk, .child h⟩

theorem hasKey_node {kinds : List SyntaxKind} {pre : List Char} {xs ys : List Green} {g : Green} {k : SyntaxKind} {p : Part}
    (h : HasKey kinds (pre ++ greenTexts xs) g p) : HasKey kinds pre (.node k (xs ++ g :: ys)) p := by
  obtain ⟨q, k', a, b, ks, c, d, g', h1, h2, h3⟩ := h
  exact ⟨q, k', a, b, ks, c, d, g', h1, .child h2, h3⟩

theorem fits_node {pre : List Char} {cs : List Green} {m : Mark} (k : SyntaxKind) (h : FitsIn pre cs m) :
    Fits pre (.node k cs) m := by
  obtain ⟨xs, g, ys, rfl, h⟩ := h
  cases m with
  | comment p o w r => exact .child h
  | part p =>
    unfold Fits at h ⊢
    simp only at h ⊢
    split at h <;> first | exact hasToken_node h | exact hasKey_node h | exact h

theorem fitsIn_head {pre : List Char} {g : Green} {gs : List Green} {m : Mark} (h : Fits pre g m) : FitsIn pre (g :: gs) m :=
  ⟨[], g, gs, rfl, by rw [greenTexts, List.append_nil]; exact h⟩

theorem fitsIn_tail {pre : List Char} {g : Green} {gs : List Green} {m : Mark} (h : FitsIn (pre ++ greenText g) gs m) :
    FitsIn pre (g :: gs) m := by
  obtain ⟨xs, g', ys, rfl, h⟩ := h
  exact ⟨g :: xs, g', ys, rfl, by rw [greenTexts, ← List.append_assoc]; exact h⟩

theorem comment_fits {pre p : List Char} {g : Green} {t : List Char} (h : Occurs pre g p (.token COMMENT t)) :
    Fits pre g (commentMark p t) := by
  have ht := commentMark_text p t
  unfold commentMark at ht ⊢
  simp only at ht ⊢
  split
  · rename_i rest hr
    rw [hr] at ht
    show Occurs _ _ _ _
    have e : List.take (t.length - (Format.trimStart (t.drop 1)).length) t ++ Format.valuePrefix ++ rest = t := ht
    rw [e]
    exact h
  · exact ⟨COMMENT, List.mem_singleton.mpr rfl, h⟩

theorem comment?_fits (pre : List Char) (g : Green) : ∀ m ∈ commentMark? pre g, Fits pre g m := by
  intro m hm
  unfold commentMark? at hm
  split at hm
  · rw [List.mem_singleton.mp hm]
    exact comment_fits (.here _ _)
  · cases hm

theorem leading_fits (pre : List Char) (cs : List Green) : ∀ m ∈ leadingMarks pre cs, FitsIn pre cs m := by
  induction cs generalizing pre with
  | nil => intro m hm; cases hm
  | cons g gs ih =>
    intro m hm
    rw [leadingMarks] at hm
    split at hm
    · rcases List.mem_append.mp hm with h | h
      · exact fitsIn_head (comment?_fits _ _ m h)
      · exact fitsIn_tail (ih _ m h)
    · cases hm

theorem dangling_fits (pre : List Char) (cs : List Green) : ∀ m ∈ danglingMarks pre cs, FitsIn pre cs m := by
  induction cs generalizing pre with
  | nil => intro m hm; cases hm
  | cons g gs ih =>
    intro m hm
    rw [danglingMarks] at hm
    rcases List.mem_append.mp hm with h | h
    · exact fitsIn_head (comment?_fits _ _ m h)
    · exact fitsIn_tail (ih _ m h)

mutual
theorem last_occurs {k : SyntaxKind} {t : List Char} : (g : Green) → lastToken g = some (k, t) →
    ∃ x, greenText g = x ++ t ∧ ∀ pre, Occurs pre g (pre ++ x) (.token k t)
  | .token k' w, h => by
    rw [lastToken] at h
    cases h
    exact ⟨[], rfl, fun pre => by rw [List.append_nil]; exact .here _ _⟩
  | .node k' cs, h => by
    rw [lastToken] at h
    obtain ⟨xs, g, x, h1, h2, h3⟩ := lasts_occurs cs h
    subst h1
    refine ⟨greenTexts xs ++ x, by rw [greenText, h2, List.append_assoc], fun pre => ?_⟩
    rw [← List.append_assoc]
    exact .child (h3 _)
theorem lasts_occurs {k : SyntaxKind} {t : List Char} : (cs : List Green) → lastTokens cs = some (k, t) →
    ∃ xs g x, cs = xs ++ [g] ∧ greenTexts cs = greenTexts xs ++ (x ++ t) ∧ ∀ pre, Occurs pre g (pre ++ x) (.token k t)
  | [], h => by rw [lastTokens] at h; cases h
  | [g], h => by
    rw [lastTokens] at h
    obtain ⟨x, h1, h2⟩ := last_occurs g h
    exact ⟨[], g, x, rfl, by rw [greenTexts, greenTexts, greenTexts, List.append_nil, List.nil_append, h1], h2⟩
  | c :: d :: cs, h => by
    rw [lastTokens] at h
    · obtain ⟨xs, g, x, h1, h2, h3⟩ := lasts_occurs (d :: cs) h
      exact ⟨c :: xs, g, x, by rw [h1]; rfl, by rw [greenTexts, h2, greenTexts.eq_2, List.append_assoc], h3⟩
    · exact fun e => nomatch e
end

theorem trailing_fits (pre : List Char) (cs : List Green) : ∀ m ∈ trailingMarks pre cs, FitsIn pre cs m := by
  intro m hm
  unfold trailingMarks at hm
  split at hm
  · rename_i t ht
    obtain ⟨xs, g, x, h1, h2, h3⟩ := lasts_occurs cs ht
    rw [List.mem_singleton.mp hm, h2, ← List.append_assoc, List.length_append, Nat.add_sub_cancel, List.take_left]
    exact ⟨xs, g, [], h1, comment_fits (by rw [← List.append_assoc]; exact h3 _)⟩
  · cases hm

theorem after_fits (pre : List Char) (cs : List Green) : ∀ m ∈ afterMarks pre cs, FitsIn pre cs m := by
  intro m hm
  rw [afterMarks.eq_def] at hm
  split at hm
  · rw [List.mem_singleton.mp hm]
    exact fitsIn_head (comment_fits (.here _ _))
  · rw [List.mem_singleton.mp hm]
    exact fitsIn_tail (fitsIn_head (comment_fits (.here _ _)))
  · cases hm

theorem trailingAfter_fits (end_ : SyntaxKind) (pre : List Char) (cs : List Green) :
    ∀ m ∈ trailingAfterMarks end_ pre cs, FitsIn pre cs m := by
  induction cs generalizing pre with
  | nil => intro m hm; cases hm
  | cons g gs ih =>
    intro m hm
    rw [trailingAfterMarks] at hm
    split at hm
    · exact fitsIn_tail (after_fits _ _ m hm)
    · exact fitsIn_tail (ih _ m hm)

theorem comma_fits (pre : List Char) (cs : List Green) : ∀ m ∈ commaMarks pre cs, FitsIn pre cs m := by
  induction cs generalizing pre with
  | nil => intro m hm; rw [commaMarks] at hm; cases hm
  | cons g gs ih =>
    intro m hm
    cases g with
    | token k w => rw [commaMarks] at hm; exact fitsIn_tail (ih _ m hm)
    | node k cs =>
      rw [commaMarks] at hm
      split at hm
      · cases hm
      · split at hm
        · apply fitsIn_head
          apply fits_node
          rcases List.mem_append.mp hm with h | h
          · exact leading_fits _ _ m h
          · exact trailing_fits _ _ m h
        · exact fitsIn_tail (ih _ m hm)

/-- a token of a kind that has a type -/
theorem token_fits {k : SyntaxKind} {t : TokenType} (hk : ∀ pre w, Fits pre (.token k w) (.part ⟨pre, w, t⟩)) (pre : List Char)
    (cs : List Green) : ∀ m ∈ tokenMarks k t pre cs, FitsIn pre cs m := by
  induction cs generalizing pre with
  | nil => intro m hm; cases hm
  | cons g gs ih =>
    intro m hm
    cases g with
    | token k' w =>
      rw [tokenMarks] at hm
      split at hm
      · rename_i he
        subst he
        rw [List.mem_singleton.mp hm]
        exact fitsIn_head (hk _ _)
      · exact fitsIn_tail (ih _ m hm)
    | node k' cs => rw [tokenMarks] at hm; exact fitsIn_tail (ih _ m hm)

theorem operator_fits {k : SyntaxKind} (hk : k ∈ [EQUAL, BRACKET_START, BRACKET_END, DOUBLE_BRACKET_START, DOUBLE_BRACKET_END])
    (pre w : List Char) : Fits pre (.token k w) (.part ⟨pre, w, .operator⟩) := ⟨k, hk, .here _ _⟩

theorem literal_fits {k : SyntaxKind} (hv : isValueKind k = true) (h1 : k ≠ ARRAY) (h2 : k ≠ INLINE_TABLE) (pre w : List Char) :
    Fits pre (.token k w) (.part ⟨pre, w, literalType k⟩) := by
  cases k <;> first | exact absurd rfl h1 | exact absurd rfl h2 | exact absurd hv (by decide) | exact ⟨_, by decide, .here _ _⟩

/-- the keys of a `KEYS` node -/
theorem key_fits (t : TokenType) (pre : List Char) (ks : List Green) : ∀ m ∈ keyMarks t pre ks,
    ∃ as g bs, ks = as ++ g :: bs ∧ m = .part ⟨pre ++ greenTexts as, greenText g, t⟩
      ∧ kindOf g ∈ [BARE_KEY, BASIC_STRING, LITERAL_STRING] := by
  induction ks generalizing pre with
  | nil => intro m hm; cases hm
  | cons g gs ih =>
    intro m hm
    rw [keyMarks] at hm
    rcases List.mem_append.mp hm with h | h
    · split at h
      · rename_i hk
        refine ⟨[], g, gs, rfl, ?_, ?_⟩
        · rw [List.mem_singleton.mp h, greenTexts, List.append_nil]
        · unfold Formatter.keyOf at hk
          split at hk
          · show BARE_KEY ∈ _; decide
          · show BASIC_STRING ∈ _; decide
          · show LITERAL_STRING ∈ _; decide
          · cases hk
      · cases h
    · obtain ⟨as, g', bs, rfl, h2, h3⟩ := ih _ m h
      exact ⟨g :: as, g', bs, rfl, by rw [h2, greenTexts, List.append_assoc], h3⟩

theorem keys_fits (t : TokenType) (pre : List Char) (cs : List Green) : ∀ m ∈ keysMarks t pre cs,
    ∃ xs ys ks as g bs, cs = xs ++ .node KEYS ks :: ys ∧ ks = as ++ g :: bs
      ∧ m = .part ⟨pre ++ greenTexts xs ++ greenTexts as, greenText g, t⟩
      ∧ kindOf g ∈ [BARE_KEY, BASIC_STRING, LITERAL_STRING] := by
  induction cs generalizing pre with
  | nil => intro m hm; cases hm
  | cons g gs ih =>
    intro m hm
    rw [keysMarks.eq_def] at hm
    split at hm
    · cases hm
    · rename_i ks gs' h
      cases h
      obtain ⟨as, g', bs, h1, h2, h3⟩ := key_fits t pre ks m hm
      exact ⟨[], gs, ks, as, g', bs, rfl, h1, by rw [h2, greenTexts, List.append_nil], h3⟩
    · rename_i g' gs' _ h
      cases h
      obtain ⟨xs, ys, ks, as, g', bs, rfl, h2, h3, h4⟩ := ih _ m hm
      exact ⟨g :: xs, ys, ks, as, g', bs, rfl, h2, by rw [h3, greenTexts, List.append_assoc pre], h4⟩

theorem keys_hasKey {kinds : List SyntaxKind} {k : SyntaxKind} (hk : k ∈ kinds) (t : TokenType) (pre : List Char) (cs : List Green) :
    ∀ m ∈ keysMarks t pre cs, ∃ p, m = .part p ∧ p.type = t ∧ HasKey kinds pre (.node k cs) p := by
  intro m hm
  obtain ⟨xs, ys, ks, as, g, bs, rfl, h2, rfl, h4⟩ := keys_fits t pre cs m hm
  exact ⟨_, rfl, rfl, pre, k, xs, ys, ks, as, bs, g, hk, .here _ _, h2, rfl, rfl, h4⟩

mutual
theorem item_fits (pre : List Char) : (g : Green) → ∀ m ∈ itemMarks pre g, Fits pre g m
  | .token k w => by intro m hm; rw [itemMarks] at hm; cases hm
  | .node k cs => by
    intro m hm
    by_cases ha : k = ARRAY
    · subst ha
      rw [itemMarks] at hm
      apply fits_node
      rcases List.mem_append.mp hm with h | h
      · rcases List.mem_append.mp h with h | h
        · rcases List.mem_append.mp h with h | h
          · exact leading_fits _ _ m h
          · exact trailingAfter_fits _ _ _ m h
        · exact body_fits _ _ _ pre cs m h
      · exact trailing_fits _ _ m h
    by_cases hb : k = INLINE_TABLE
    · subst hb
      rw [itemMarks] at hm
      apply fits_node
      rcases List.mem_append.mp hm with h | h
      · rcases List.mem_append.mp h with h | h
        · rcases List.mem_append.mp h with h | h
          · exact leading_fits _ _ m h
          · exact trailingAfter_fits _ _ _ m h
        · exact body_fits _ _ _ pre cs m h
      · exact trailing_fits _ _ m h
    by_cases hk : k = KEY_VALUE
    · subst hk
      rw [itemMarks] at hm
      rcases List.mem_append.mp hm with h | h
      · rcases List.mem_append.mp h with h | h
        · rcases List.mem_append.mp h with h | h
          · exact fits_node _ (leading_fits _ _ m h)
          · obtain ⟨p, rfl, h1, h2⟩ := keys_hasKey (kinds := [KEY_VALUE]) (List.mem_singleton.mpr rfl) .key pre cs m h
            unfold Fits
            simp only [h1]
            exact h2
        · exact fits_node _ (token_fits (operator_fits (by decide)) _ _ m h)
      · exact fits_node _ (value_fits pre cs m h)
    rw [item_other ha hb hk] at hm
    split at hm
    · rename_i hv
      apply fits_node
      rcases List.mem_append.mp hm with h | h
      · rcases List.mem_append.mp h with h | h
        · exact leading_fits _ _ m h
        · exact token_fits (literal_fits hv ha hb) _ _ m h
      · exact trailing_fits _ _ m h
    · cases hm
theorem value_fits (pre : List Char) : (cs : List Green) → ∀ m ∈ valueMarks pre cs, FitsIn pre cs m
  | [] => by intro m hm; rw [valueMarks] at hm; cases hm
  | g :: gs => by
    intro m hm
    rw [valueMarks] at hm
    split at hm
    · exact fitsIn_head (item_fits pre g m hm)
    · exact fitsIn_tail (value_fits _ gs m hm)
theorem body_fits (start group : SyntaxKind) (inside : Bool) (pre : List Char) : (cs : List Green) →
    ∀ m ∈ bodyMarks start group inside pre cs, FitsIn pre cs m
  | [] => by intro m hm; rw [bodyMarks] at hm; cases hm
  | .token k w :: gs => by
    intro m hm
    cases inside with
    | false =>
      rw [bodyMarks, Bool.not_false, if_pos rfl] at hm
      exact fitsIn_tail (body_fits _ _ _ _ gs m hm)
    | true =>
      rw [body_token] at hm
      exact fitsIn_tail (body_fits _ _ _ _ gs m hm)
  | .node k cs :: gs => by
    intro m hm
    rw [bodyMarks] at hm
    split at hm
    · exact fitsIn_tail (body_fits _ _ _ _ gs m hm)
    · rcases List.mem_append.mp hm with h | h
      · apply fitsIn_head
        apply fits_node
        split at h
        · exact dangling_fits _ _ m h
        · split at h
          · exact group_fits pre cs m h
          · cases h
      · exact fitsIn_tail (body_fits _ _ _ _ gs m h)
theorem group_fits (pre : List Char) : (gs : List Green) → ∀ m ∈ groupMarks pre gs, FitsIn pre gs m
  | [] => by intro m hm; rw [groupMarks] at hm; cases hm
  | g :: gs => by
    intro m hm
    rw [groupMarks] at hm
    rcases List.mem_append.mp hm with h | h
    · rcases List.mem_append.mp h with h | h
      · exact fitsIn_head (item_fits pre g m h)
      · split at h
        · exact fitsIn_tail (comma_fits _ _ m h)
        · cases h
    · exact fitsIn_tail (group_fits _ gs m h)
end

theorem groups_fits (pre : List Char) (gs : List Green) : ∀ m ∈ groupsMarks pre gs, FitsIn pre gs m := by
  induction gs generalizing pre with
  | nil => intro m hm; cases hm
  | cons g gs ih =>
    intro m hm
    cases g with
    | token k w => rw [groupsMarks] at hm; exact fitsIn_tail (ih _ m hm)
    | node k cs =>
      rw [groupsMarks] at hm
      rcases List.mem_append.mp hm with h | h
      · apply fitsIn_head
        apply fits_node
        split at h
        · exact dangling_fits _ _ m h
        · split at h
          · exact group_fits pre cs m h
          · cases h
      · exact fitsIn_tail (ih _ m h)

theorem sectionBody_fits (end_ : SyntaxKind) (after : Bool) (pre : List Char) (gs : List Green) :
    ∀ m ∈ sectionBodyMarks end_ after pre gs, FitsIn pre gs m := by
  induction gs generalizing pre after with
  | nil => intro m hm; cases hm
  | cons g gs ih =>
    intro m hm
    rw [sectionBodyMarks] at hm
    split at hm
    · exact groups_fits _ _ m hm
    · exact fitsIn_tail (ih _ _ m hm)

theorem section_fits {start end_ k : SyntaxKind} (hs : start ∈ [EQUAL, BRACKET_START, BRACKET_END, DOUBLE_BRACKET_START, DOUBLE_BRACKET_END])
    (he : end_ ∈ [EQUAL, BRACKET_START, BRACKET_END, DOUBLE_BRACKET_START, DOUBLE_BRACKET_END]) (hk : k ∈ [TABLE, ARRAY_OF_TABLE])
    (pre : List Char) (cs : List Green) : ∀ m ∈ sectionMarks start end_ pre cs, Fits pre (.node k cs) m := by
  intro m hm
  unfold sectionMarks at hm
  rcases List.mem_append.mp hm with h | h
  · rcases List.mem_append.mp h with h | h
    · rcases List.mem_append.mp h with h | h
      · rcases List.mem_append.mp h with h | h
        · rcases List.mem_append.mp h with h | h
          · exact fits_node _ (leading_fits _ _ m h)
          · exact fits_node _ (token_fits (operator_fits hs) _ _ m h)
        · obtain ⟨p, rfl, h1, h2⟩ := keys_hasKey hk .table pre cs m h
          unfold Fits
          simp only [h1]
          exact h2
      · exact fits_node _ (token_fits (operator_fits he) _ _ m h)
    · exact fits_node _ (trailingAfter_fits _ _ _ m h)
  · exact fits_node _ (sectionBody_fits _ _ _ _ m h)

theorem sections_fits (pre : List Char) (gs : List Green) : ∀ m ∈ sectionsMarks pre gs, FitsIn pre gs m := by
  induction gs generalizing pre with
  | nil => intro m hm; cases hm
  | cons g gs ih =>
    intro m hm
    rw [sectionsMarks.eq_def] at hm
    split at hm
    · cases hm
    · rename_i cs gs' h
      cases h
      rcases List.mem_append.mp hm with h | h
      · exact fitsIn_head (section_fits (by decide) (by decide) (by decide) _ _ m h)
      · exact fitsIn_tail (ih _ m (by rw [greenText]; exact h))
    · rename_i cs gs' h
      cases h
      rcases List.mem_append.mp hm with h | h
      · exact fitsIn_head (section_fits (by decide) (by decide) (by decide) _ _ m h)
      · exact fitsIn_tail (ih _ m (by rw [greenText]; exact h))
    · rename_i g' gs' _ _ h
      cases h
      exact fitsIn_tail (ih _ m hm)

theorem document_fits (root : Green) : ∀ m ∈ documentMarks root, Fits [] root m := by
  intro m hm
  unfold documentMarks at hm
  cases root with
  | token k w => cases hm
  | node k cs =>
    apply fits_node
    rcases List.mem_append.mp hm with h | h
    · exact groups_fits _ _ m h
    · exact sections_fits _ _ m h

end Tombi.SemanticTokens
