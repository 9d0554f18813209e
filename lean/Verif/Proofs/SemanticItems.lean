import Verif.Spec.SemanticItems
import Verif.Proofs.SemanticKinds
/-! Lemmas for C90: the traversal reaches all items of a document. -/
namespace Tombi.SemanticTokens
open Tombi SyntaxKind
open Tombi.Formatter (kindOf childrenOf greenText greenTexts lastTokens isLeadingKind isValueKind isItemKind)

theorem body_mem {start group : SyntaxKind} {pre : List Char} {as ys : List Green} {i : Green} {m : Mark} (us : List Green)
    (hg : group ≠ DANGLING_COMMENT_GROUP)
    (h : m ∈ groupMarks (pre ++ greenTexts us) (as ++ i :: ys)) {zs : List Green} :
    m ∈ bodyMarks start group true pre (us ++ .node group (as ++ i :: ys) :: zs) := by
  induction us generalizing pre with
  | nil =>
    rw [greenTexts, List.append_nil] at h
    rw [List.nil_append, bodyMarks, Bool.not_true, if_neg (by decide)]
    refine List.mem_append_left _ ?_
    rw [if_neg hg, if_pos rfl]
    exact h
  | cons u us ih =>
    rw [greenTexts, ← List.append_assoc] at h
    have := ih h
    rw [List.cons_append]
    cases u with
    | token k w => rw [body_token]; exact this
    | node k cs =>
      rw [bodyMarks, Bool.not_true, if_neg (by decide)]
      exact List.mem_append_right _ this

theorem body_from {start group : SyntaxKind} {pre : List Char} (xs : List Green) {w : List Char} {us : List Green} {m : Mark}
    (h : m ∈ bodyMarks start group true (pre ++ greenTexts xs ++ w) us) {inside : Bool} :
    m ∈ bodyMarks start group inside pre (xs ++ .token start w :: us) := by
  induction xs generalizing pre inside with
  | nil =>
    rw [greenTexts, List.append_nil] at h
    rw [List.nil_append]
    cases inside with
    | true => rw [body_token]; exact h
    | false =>
      rw [bodyMarks, Bool.not_false, if_pos rfl, show (kindOf (.token start w) == start) = true by simp [kindOf], greenText]
      exact h
  | cons x xs ih =>
    rw [greenTexts, ← List.append_assoc pre] at h
    rw [List.cons_append]
    cases inside with
    | false =>
      have hb : bodyMarks start group false pre (x :: (xs ++ .token start w :: us))
          = bodyMarks start group (kindOf x == start) (pre ++ greenText x) (xs ++ .token start w :: us) := by
        cases x <;> simp [bodyMarks]
      rw [hb]
      exact ih h
    | true =>
      cases x with
      | token k v => rw [body_token]; exact ih h
      | node k cs =>
        rw [bodyMarks, Bool.not_true, if_neg (by decide)]
        exact List.mem_append_right _ (ih h)

theorem group_mem {pre : List Char} (as : List Green) {i : Green} {bs : List Green} {m : Mark}
    (h : m ∈ itemMarks (pre ++ greenTexts as) i) : m ∈ groupMarks pre (as ++ i :: bs) := by
  induction as generalizing pre with
  | nil =>
    rw [greenTexts, List.append_nil] at h
    rw [List.nil_append, groupMarks]
    exact List.mem_append_left _ (List.mem_append_left _ h)
  | cons a as ih =>
    rw [greenTexts, ← List.append_assoc] at h
    rw [List.cons_append, groupMarks]
    exact List.mem_append_right _ (ih h)

theorem childAfter_mem {start group : SyntaxKind} (hg : group ≠ DANGLING_COMMENT_GROUP) {pre q : List Char} {cs : List Green}
    {i : Green} (hc : ChildAfter start group pre cs q i) {m : Mark} (h : m ∈ itemMarks q i) :
    m ∈ bodyMarks start group false pre cs := by
  obtain ⟨xs, w, us, as, bs, ys, rfl, rfl⟩ := hc
  rw [List.append_assoc, List.cons_append]
  apply body_from
  apply body_mem us hg
  apply group_mem
  rw [greenTexts_append, greenTexts, greenText] at h
  simpa only [List.append_assoc] using h

theorem value_mem {pre : List Char} (xs : List Green) (hx : ∀ x ∈ xs, isValueKind (kindOf x) = false) {v : Green}
    (hv : isValueKind (kindOf v) = true) {ys : List Green} {m : Mark} (h : m ∈ itemMarks (pre ++ greenTexts xs) v) :
    m ∈ valueMarks pre (xs ++ v :: ys) := by
  induction xs generalizing pre with
  | nil =>
    rw [greenTexts, List.append_nil] at h
    rw [List.nil_append, valueMarks, if_pos hv]
    exact h
  | cons x xs ih =>
    rw [greenTexts, ← List.append_assoc] at h
    rw [List.cons_append, valueMarks, if_neg (by rw [hx x List.mem_cons_self]; decide)]
    exact ih (fun y hy => hx y (List.mem_cons_of_mem _ hy)) h

theorem inner_mem {pre p : List Char} {g h : Green} (hi : Inner pre g p h) {m : Mark} (hm : m ∈ itemMarks p h) :
    m ∈ itemMarks pre g := by
  induction hi with
  | here => exact hm
  | value hx hv _ ih =>
    rw [itemMarks]
    exact List.mem_append_right _ (value_mem _ hx hv (ih hm))
  | array hc _ ih =>
    rw [itemMarks]
    exact List.mem_append_left _ (List.mem_append_right _ (childAfter_mem (by decide) hc (ih hm)))
  | table hc _ ih =>
    rw [itemMarks]
    exact List.mem_append_left _ (List.mem_append_right _ (childAfter_mem (by decide) hc (ih hm)))

theorem groups_mem {pre q : List Char} {cs : List Green} {i : Green} (hc : GroupChild pre cs q i) {m : Mark}
    (h : m ∈ itemMarks q i) : m ∈ groupsMarks pre cs := by
  obtain ⟨xs, as, bs, ys, rfl, rfl⟩ := hc
  induction xs generalizing pre with
  | nil =>
    rw [greenTexts, List.append_nil] at h
    rw [List.nil_append, groupsMarks]
    refine List.mem_append_left _ ?_
    rw [if_neg (by decide), if_pos rfl]
    exact group_mem _ h
  | cons x xs ih =>
    rw [greenTexts, ← List.append_assoc pre] at h
    rw [List.cons_append]
    cases x with
    | token k w => rw [groupsMarks]; exact ih h
    | node k cs => rw [groupsMarks]; exact List.mem_append_right _ (ih h)

theorem groups_suffix {pre : List Char} (xs : List Green) {ys : List Green} {m : Mark} (h : m ∈ groupsMarks (pre ++ greenTexts xs) ys) :
    m ∈ groupsMarks pre (xs ++ ys) := by
  induction xs generalizing pre with
  | nil => rw [greenTexts, List.append_nil] at h; exact h
  | cons x xs ih =>
    rw [greenTexts, ← List.append_assoc pre] at h
    rw [List.cons_append]
    cases x with
    | token k w => rw [groupsMarks]; exact ih h
    | node k cs => rw [groupsMarks]; exact List.mem_append_right _ (ih h)

theorem sectionBody_true {end_ : SyntaxKind} {pre : List Char} (vs : List Green) {b : List Char} {zs : List Green} {m : Mark}
    (h : m ∈ groupsMarks (pre ++ greenTexts vs ++ b) zs) :
    m ∈ sectionBodyMarks end_ true pre (vs ++ .token LINE_BREAK b :: zs) := by
  have key : ∀ (pre : List Char) (vs : List Green), m ∈ groupsMarks (pre ++ greenTexts vs ++ b) zs →
      m ∈ groupsMarks pre (vs ++ .token LINE_BREAK b :: zs) := fun pre vs h => groups_suffix vs (by rw [groupsMarks]; exact h)
  induction vs generalizing pre with
  | nil =>
    have := key pre [] h
    rw [List.nil_append] at this ⊢
    rw [sectionBodyMarks, if_pos (by rfl)]
    exact this
  | cons v vs ih =>
    rw [List.cons_append, sectionBodyMarks]
    split
    · exact key pre (v :: vs) h
    · rw [greenTexts, ← List.append_assoc pre] at h
      rw [Bool.true_or]
      exact ih h

theorem sectionBody_from {end_ : SyntaxKind} {pre : List Char} (us : List Green) {w b : List Char} {vs zs : List Green} {m : Mark}
    (h : m ∈ groupsMarks (pre ++ greenTexts us ++ w ++ greenTexts vs ++ b) zs) {after : Bool} :
    m ∈ sectionBodyMarks end_ after pre (us ++ .token end_ w :: (vs ++ .token LINE_BREAK b :: zs)) := by
  induction us generalizing pre after with
  | nil =>
    cases after with
    | true =>
      have := sectionBody_true (end_ := end_) (pre := pre) (.token end_ w :: vs) (b := b) (zs := zs) (m := m) (by
        rw [greenTexts, greenText]; rw [greenTexts, List.append_nil] at h; simpa only [List.append_assoc] using h)
      exact this
    | false =>
      rw [List.nil_append, sectionBodyMarks, Bool.false_and, if_neg (by decide), Bool.false_or,
        show (kindOf (.token end_ w) == end_) = true by simp [kindOf], greenText]
      rw [greenTexts, List.append_nil] at h
      exact sectionBody_true vs h
  | cons u us ih =>
    cases after with
    | true =>
      have := sectionBody_true (end_ := end_) (pre := pre) (u :: us ++ .token end_ w :: vs) (b := b) (zs := zs) (m := m) (by
        rw [greenTexts_append, greenTexts.eq_2 (.token end_ w), greenText]; simpa only [List.append_assoc] using h)
      simpa only [List.append_assoc, List.cons_append] using this
    | false =>
      rw [List.cons_append, sectionBodyMarks, Bool.false_and, if_neg (by decide)]
      rw [greenTexts, ← List.append_assoc pre] at h
      exact ih h

theorem sections_mem {pre : List Char} (xs : List Green) {k end_ start : SyntaxKind}
    (hk : k = TABLE ∧ end_ = BRACKET_END ∧ start = BRACKET_START ∨ k = ARRAY_OF_TABLE ∧ end_ = DOUBLE_BRACKET_END ∧ start = DOUBLE_BRACKET_START)
    {cs ys : List Green} {m : Mark} (h : m ∈ sectionMarks start end_ (pre ++ greenTexts xs) cs) :
    m ∈ sectionsMarks pre (xs ++ .node k cs :: ys) := by
  induction xs generalizing pre with
  | nil =>
    rw [greenTexts, List.append_nil] at h
    rcases hk with ⟨rfl, rfl, rfl⟩ | ⟨rfl, rfl, rfl⟩
    · rw [List.nil_append, sectionsMarks]; exact List.mem_append_left _ h
    · rw [List.nil_append, sectionsMarks]; exact List.mem_append_left _ h
  | cons x xs ih =>
    rw [greenTexts, ← List.append_assoc pre] at h
    have := ih h
    rw [List.cons_append, sectionsMarks.eq_def]
    split
    · rename_i h; cases h
    · rename_i h; cases h; rw [greenText] at this; exact List.mem_append_right _ this
    · rename_i h; cases h; rw [greenText] at this; exact List.mem_append_right _ this
    · rename_i h; cases h; exact this

theorem section_mem {root : Green} {k end_ : SyntaxKind} {p : List Char} {cs : List Green} (h : SectionAt root k end_ p cs) :
    ∃ start, (k = TABLE ∧ start = BRACKET_START ∨ k = ARRAY_OF_TABLE ∧ start = DOUBLE_BRACKET_START)
      ∧ ∀ m ∈ sectionMarks start end_ p cs, m ∈ documentMarks root := by
  obtain ⟨hk, xs, ys, h1, rfl⟩ := h
  rcases hk with ⟨rfl, rfl⟩ | ⟨rfl, rfl⟩
  · refine ⟨BRACKET_START, .inl ⟨rfl, rfl⟩, fun m hm => ?_⟩
    unfold documentMarks
    rw [h1]
    exact List.mem_append_right _ (sections_mem xs (.inl ⟨rfl, rfl, rfl⟩) (by rw [List.nil_append]; exact hm))
  · refine ⟨DOUBLE_BRACKET_START, .inr ⟨rfl, rfl⟩, fun m hm => ?_⟩
    unfold documentMarks
    rw [h1]
    exact List.mem_append_right _ (sections_mem xs (.inr ⟨rfl, rfl, rfl⟩) (by rw [List.nil_append]; exact hm))

theorem document_mem {root : Green} {p : List Char} {h : Green} (hd : DocumentItem root p h) {m : Mark} (hm : m ∈ itemMarks p h) :
    m ∈ documentMarks root := by
  cases hd with
  | root hg hi => exact List.mem_append_left _ (groups_mem hg (inner_mem hi hm))
  | @table k end_ r cs us w vs b zs q i _ _ hs hcs hg hi =>
    obtain ⟨start, -, h2⟩ := section_mem hs
    apply h2
    unfold sectionMarks
    refine List.mem_append_right _ ?_
    rw [hcs, List.append_assoc, List.cons_append]
    apply sectionBody_from
    have := groups_mem hg (inner_mem hi hm)
    rw [greenTexts_append, greenTexts_append, greenTexts, greenTexts, greenTexts, greenText, greenText, List.append_nil] at this
    simpa only [List.append_assoc] using this

theorem dangling_mem {pre : List Char} (as : List Green) {t : List Char} {bs : List Green} :
    commentMark (pre ++ greenTexts as) t ∈ danglingMarks pre (as ++ .token COMMENT t :: bs) := by
  induction as generalizing pre with
  | nil =>
    rw [List.nil_append, danglingMarks, greenTexts, List.append_nil]
    exact List.mem_append_left _ (List.mem_singleton.mpr rfl)
  | cons a as ih =>
    rw [List.cons_append, danglingMarks, greenTexts, ← List.append_assoc]
    exact List.mem_append_right _ ih

theorem groups_dangling {pre : List Char} (xs : List Green) {cs ys : List Green} {m : Mark}
    (h : m ∈ danglingMarks (pre ++ greenTexts xs) cs) : m ∈ groupsMarks pre (xs ++ .node DANGLING_COMMENT_GROUP cs :: ys) := by
  apply groups_suffix
  rw [groupsMarks, if_pos rfl]
  exact List.mem_append_left _ h

theorem body_dangling {start group : SyntaxKind} {pre : List Char} {cs : List Green} {m : Mark} (us : List Green)
    (h : m ∈ danglingMarks (pre ++ greenTexts us) cs) {zs : List Green} :
    m ∈ bodyMarks start group true pre (us ++ .node DANGLING_COMMENT_GROUP cs :: zs) := by
  induction us generalizing pre with
  | nil =>
    rw [greenTexts, List.append_nil] at h
    rw [List.nil_append, bodyMarks, Bool.not_true, if_neg (by decide)]
    refine List.mem_append_left _ ?_
    rw [if_pos rfl]
    exact h
  | cons u us ih =>
    rw [greenTexts, ← List.append_assoc] at h
    have := ih h
    rw [List.cons_append]
    cases u with
    | token k w => rw [body_token]; exact this
    | node k cs =>
      rw [bodyMarks, Bool.not_true, if_neg (by decide)]
      exact List.mem_append_right _ this

theorem after_mem {pre : List Char} {ws : List Green} (hw : Blank ws) {t : List Char} {ys : List Green} :
    commentMark (pre ++ greenTexts ws) t ∈ afterMarks pre (ws ++ .token COMMENT t :: ys) := by
  rcases hw with rfl | ⟨v, rfl⟩
  · rw [greenTexts, List.append_nil, List.nil_append, afterMarks]
    exact List.mem_singleton.mpr rfl
  · rw [greenTexts, greenTexts, List.append_nil, greenText]
    show _ ∈ afterMarks pre (.token WHITESPACE v :: .token COMMENT t :: ys)
    rw [afterMarks]
    exact List.mem_singleton.mpr rfl

theorem trailingAfter_mem {end_ : SyntaxKind} {pre : List Char} (xs : List Green) (hx : ∀ x ∈ xs, kindOf x ≠ end_ ∧ kindOf x ≠ EOF)
    {w : List Char} {ys : List Green} {m : Mark} (h : m ∈ afterMarks (pre ++ greenTexts xs ++ w) ys) :
    m ∈ trailingAfterMarks end_ pre (xs ++ .token end_ w :: ys) := by
  induction xs generalizing pre with
  | nil =>
    rw [greenTexts, List.append_nil] at h
    rw [List.nil_append, trailingAfterMarks, if_pos (.inl rfl), greenText]
    exact h
  | cons x xs ih =>
    rw [greenTexts, ← List.append_assoc pre] at h
    have hn := hx x List.mem_cons_self
    rw [List.cons_append, trailingAfterMarks, if_neg (by rintro (h | h); exact hn.1 h; exact hn.2 h)]
    exact ih (fun y hy => hx y (List.mem_cons_of_mem _ hy)) h

theorem comma_mem {pre : List Char} (bs : List Green) (hb : ∀ b ∈ bs, isNode b = false) {cs es : List Green} {m : Mark}
    (h : m ∈ leadingMarks (pre ++ greenTexts bs) cs ++ trailingMarks (pre ++ greenTexts bs) cs) :
    m ∈ commaMarks pre (bs ++ .node COMMA cs :: es) := by
  induction bs generalizing pre with
  | nil =>
    rw [greenTexts, List.append_nil] at h
    rw [List.nil_append, commaMarks, if_neg (by decide), if_pos rfl]
    exact h
  | cons b bs ih =>
    rw [greenTexts, ← List.append_assoc pre] at h
    have hn := hb b List.mem_cons_self
    have := ih (fun y hy => hb y (List.mem_cons_of_mem _ hy)) h
    rw [List.cons_append]
    cases b with
    | token k w => rw [commaMarks]; exact this
    | node k cs => cases hn

theorem group_comma {pre : List Char} (as : List Green) {i : Green} {bs : List Green} (hi : isItemKind (kindOf i) = true)
    (hn : isNode i = true) {m : Mark} (h : m ∈ commaMarks (pre ++ greenTexts as ++ greenText i) bs) :
    m ∈ groupMarks pre (as ++ i :: bs) := by
  induction as generalizing pre with
  | nil =>
    rw [greenTexts, List.append_nil] at h
    have he : isItemNode i = true := by
      cases i with
      | token k w => cases hn
      | node k cs => exact hi
    rw [List.nil_append, groupMarks, if_pos he]
    exact List.mem_append_left _ (List.mem_append_right _ h)
  | cons a as ih =>
    rw [greenTexts, ← List.append_assoc pre] at h
    rw [List.cons_append, groupMarks]
    exact List.mem_append_right _ (ih h)

theorem brackets_body {k start group : SyntaxKind} (hk : Brackets k start group) {p : List Char} {cs : List Green} {m : Mark}
    (h : m ∈ trailingAfterMarks start p cs ∨ m ∈ bodyMarks start group false p cs) : m ∈ itemMarks p (.node k cs) := by
  rcases hk with ⟨rfl, rfl, rfl⟩ | ⟨rfl, rfl, rfl⟩
  · rw [itemMarks]
    rcases h with h | h
    · exact List.mem_append_left _ (List.mem_append_left _ (List.mem_append_right _ h))
    · exact List.mem_append_left _ (List.mem_append_right _ h)
  · rw [itemMarks]
    rcases h with h | h
    · exact List.mem_append_left _ (List.mem_append_left _ (List.mem_append_right _ h))
    · exact List.mem_append_left _ (List.mem_append_right _ h)

theorem brackets_group {k start group : SyntaxKind} (hk : Brackets k start group) : group ≠ DANGLING_COMMENT_GROUP := by
  rcases hk with ⟨-, -, rfl⟩ | ⟨-, -, rfl⟩ <;> decide

/-! ### the elements of an item -/

theorem key_mem {t : TokenType} {pre : List Char} (as : List Green) {g : Green} (hg : (Formatter.keyOf g).isSome = true)
    {bs : List Green} : Mark.part ⟨pre ++ greenTexts as, greenText g, t⟩ ∈ keyMarks t pre (as ++ g :: bs) := by
  induction as generalizing pre with
  | nil =>
    rw [List.nil_append, keyMarks, if_pos hg, greenTexts, List.append_nil]
    exact List.mem_append_left _ (List.mem_singleton.mpr rfl)
  | cons a as ih =>
    rw [List.cons_append, keyMarks, greenTexts, ← List.append_assoc]
    exact List.mem_append_right _ ih

theorem keys_mem {t : TokenType} {pre : List Char} (xs : List Green) (hx : ∀ x ∈ xs, isKeys x = false) {ks ys : List Green}
    {m : Mark} (h : m ∈ keyMarks t (pre ++ greenTexts xs) ks) : m ∈ keysMarks t pre (xs ++ .node KEYS ks :: ys) := by
  induction xs generalizing pre with
  | nil => rw [greenTexts, List.append_nil] at h; rw [List.nil_append, keysMarks]; exact h
  | cons x xs ih =>
    rw [greenTexts, ← List.append_assoc] at h
    have := ih (fun y hy => hx y (List.mem_cons_of_mem _ hy)) h
    have hn := hx x List.mem_cons_self
    rw [List.cons_append, keysMarks.eq_def]
    split
    · rename_i e; cases e
    · rename_i e; cases e; cases hn
    · rename_i e; cases e; exact this

theorem token_mem {k : SyntaxKind} {t : TokenType} {pre : List Char} (xs : List Green) (hx : ∀ x ∈ xs, isToken k x = false)
    {w : List Char} {ys : List Green} : Mark.part ⟨pre ++ greenTexts xs, w, t⟩ ∈ tokenMarks k t pre (xs ++ .token k w :: ys) := by
  induction xs generalizing pre with
  | nil =>
    rw [List.nil_append, tokenMarks, if_pos rfl, greenTexts, List.append_nil]
    exact List.mem_singleton.mpr rfl
  | cons x xs ih =>
    have hn := hx x List.mem_cons_self
    have := ih (pre := pre ++ greenText x) (fun y hy => hx y (List.mem_cons_of_mem _ hy))
    rw [List.append_assoc] at this
    rw [List.cons_append, greenTexts]
    cases x with
    | token k' v =>
      rw [tokenMarks, if_neg (by simpa [isToken] using hn)]
      exact this
    | node k' cs => rw [tokenMarks]; exact this

theorem leading_mem {pre : List Char} (xs : List Green) (hx : ∀ x ∈ xs, isLeadingKind x = true) {t : List Char} {ys : List Green} :
    commentMark (pre ++ greenTexts xs) t ∈ leadingMarks pre (xs ++ .token COMMENT t :: ys) := by
  induction xs generalizing pre with
  | nil =>
    rw [List.nil_append, leadingMarks, if_pos (by rfl), greenTexts, List.append_nil]
    exact List.mem_append_left _ (List.mem_singleton.mpr rfl)
  | cons x xs ih =>
    rw [List.cons_append, leadingMarks, if_pos (hx x List.mem_cons_self), greenTexts, ← List.append_assoc]
    exact List.mem_append_right _ (ih (fun y hy => hx y (List.mem_cons_of_mem _ hy)))

theorem trailing_mem (pre : List Char) (xs : List Green) (t : List Char) :
    commentMark (pre ++ greenTexts xs) t ∈ trailingMarks pre (xs ++ [.token COMMENT t]) := by
  unfold trailingMarks
  have e : greenTexts (xs ++ [.token COMMENT t]) = greenTexts xs ++ t := by
    rw [greenTexts_append]; simp [greenTexts, greenText]
  simp only [lastTokens_concat, e]
  rw [List.length_append, Nat.add_sub_cancel, List.take_left]
  exact List.mem_singleton.mpr rfl

theorem literalType_kind {k : SyntaxKind} {t : TokenType} (h : LiteralType k t) :
    isValueKind k = true ∧ k ≠ ARRAY ∧ k ≠ INLINE_TABLE ∧ k ≠ KEY_VALUE ∧ literalType k = t := by
  cases k <;> first | exact absurd h (fun h => h) | exact ⟨rfl, by decide, by decide, by decide, h.symm⟩

theorem expected_mem {p : List Char} {h : Green} {part : Part} (he : Expected p h part) : Mark.part part ∈ itemMarks p h := by
  cases he with
  | key hx hg =>
    rw [itemMarks]
    exact List.mem_append_left _ (List.mem_append_left _ (List.mem_append_right _ (keys_mem _ hx (key_mem _ hg))))
  | equal hx =>
    rw [itemMarks]
    exact List.mem_append_left _ (List.mem_append_right _ (token_mem _ hx))
  | literal hk hx =>
    obtain ⟨h1, h2, h3, h4, h5⟩ := literalType_kind hk
    rw [item_other h2 h3 h4, if_pos h1, h5]
    exact List.mem_append_left _ (List.mem_append_right _ (token_mem _ hx))

theorem expectedComment_mem {p q t : List Char} {h : Green} (he : ExpectedComment p h q t) : commentMark q t ∈ itemMarks p h := by
  cases he with
  | @leading k xs _ ys hk hx =>
    have hl := leading_mem (pre := p) xs hx (t := t) (ys := ys)
    by_cases h1 : k = ARRAY
    · subst h1; rw [itemMarks]
      exact List.mem_append_left _ (List.mem_append_left _ (List.mem_append_left _ hl))
    by_cases h2 : k = INLINE_TABLE
    · subst h2; rw [itemMarks]
      exact List.mem_append_left _ (List.mem_append_left _ (List.mem_append_left _ hl))
    by_cases h3 : k = KEY_VALUE
    · subst h3; rw [itemMarks]
      exact List.mem_append_left _ (List.mem_append_left _ (List.mem_append_left _ hl))
    rw [item_other h1 h2 h3, if_pos (hk.resolve_right h3)]
    exact List.mem_append_left _ (List.mem_append_left _ hl)
  | @trailing k xs _ hk =>
    have hl := trailing_mem p xs t
    by_cases h1 : k = ARRAY
    · subst h1; rw [itemMarks]; exact List.mem_append_right _ hl
    by_cases h2 : k = INLINE_TABLE
    · subst h2; rw [itemMarks]; exact List.mem_append_right _ hl
    by_cases h3 : k = KEY_VALUE
    · subst h3; cases hk
    rw [item_other h1 h2 h3, if_pos hk]
    exact List.mem_append_right _ hl
  | bracket hk hx hw =>
    exact brackets_body hk (.inl (trailingAfter_mem _ hx (after_mem hw)))
  | dangling hk =>
    exact brackets_body hk (.inr (body_from _ (body_dangling _ (dangling_mem _))))
  | beforeComma hk hi hn hb hc =>
    exact brackets_body hk (.inr (body_from _ (body_mem _ (brackets_group hk) (group_comma _ hi hn (comma_mem _ hb
      (List.mem_append_left _ (leading_mem _ hc)))))))
  | afterComma hk hi hn hb =>
    exact brackets_body hk (.inr (body_from _ (body_mem _ (brackets_group hk) (group_comma _ hi hn (comma_mem _ hb
      (List.mem_append_right _ (trailing_mem _ _ _)))))))

theorem sectionComment_mem {start end_ : SyntaxKind} {p q t : List Char} {cs : List Green} (h : SectionComment end_ p cs q t) :
    commentMark q t ∈ sectionMarks start end_ p cs := by
  unfold sectionMarks
  cases h with
  | leading hx =>
    exact List.mem_append_left _ (List.mem_append_left _ (List.mem_append_left _ (List.mem_append_left _ (List.mem_append_left _
      (leading_mem _ hx)))))
  | header hx hw => exact List.mem_append_left _ (List.mem_append_right _ (trailingAfter_mem _ hx (after_mem hw)))
  | below => exact List.mem_append_right _ (sectionBody_from _ (groups_dangling _ (dangling_mem _)))

end Tombi.SemanticTokens
