import Verif.Proofs.SemanticTree
import Verif.Props.SemanticTokens
/-! C90: the elements that are highlighted are in the order of the text. -/
namespace Tombi.SemanticTokens
open Tombi SyntaxKind Spec
open Tombi.Formatter (kindOf childrenOf greenText greenTexts lastTokens isValueKind)

/-- **C90.** In every document with the shape of a complete one, the traversal finds the elements in the order of the text,
without overlaps and within the text. Missing: that the tree of every document without syntax errors has this shape. In
documents that are not complete it does not hold, see `C90_unclosed_false`. -/
theorem C90_order_partial (root : Green) (h : RootShape root) : Sorted [] (greenText root) (documentMarks root) := by
  have := document_sorted h
  cases root with
  | token k w => exact List.nil_prefix
  | node k cs => rwa [greenText]

theorem sorted_inOrder {src : List Char} {ms : List Mark} (hf : ∀ m ∈ ms, Visible m.text) (hl : ∀ m ∈ ms, m.EndsLine src)
    {a before : List Char} {directive : Bool} (hs : Sorted a src ms) (hb : before <+: a)
    (hd : directive = true → ∃ v, src = a ++ v ∧ LineEnd v) : InOrder before directive ms := by
  induction ms generalizing a before directive with
  | nil => trivial
  | cons m ms ih =>
    obtain ⟨⟨u, hu⟩, hs2⟩ := hs
    obtain ⟨d, hd'⟩ := hb
    refine ⟨⟨d ++ u, by rw [← hu, ← hd', List.append_assoc], fun h => ?_⟩,
      ih (fun m' h' => hf m' (List.mem_cons_of_mem _ h')) (fun m' h' => hl m' (List.mem_cons_of_mem _ h')) hs2
        (List.prefix_append _ _) (fun h => ?_)⟩
    · obtain ⟨v, hv, hend⟩ := hd h
      obtain ⟨r, hr⟩ := hs2.le
      have e : v = u ++ (m.text ++ r) := by
        rw [← hu, hv] at hr
        have := List.append_cancel_left (as := a) (bs := u ++ (m.text ++ r)) (cs := v) (by simpa using hr)
        exact this.symm
      obtain ⟨c, cs, hc, hn, hcr⟩ := hf m List.mem_cons_self
      rw [hc] at e
      apply List.mem_append_right
      rcases hend with rfl | ⟨w, rfl⟩ | ⟨w, rfl⟩
      · exact absurd (congrArg List.length e) (by simp)
      · cases u with
        | nil => injection e with e1 e2; exact absurd e1.symm hn
        | cons x u => injection e with e1 e2; rw [← e1]; exact List.mem_cons_self
      · cases u with
        | nil => injection e with e1 e2; exact absurd e1.symm hcr
        | cons x u =>
          injection e with e1 e2
          cases u with
          | nil => injection e2 with e3 e4; exact absurd e3.symm hn
          | cons y u => injection e2 with e3 e4; rw [← e3]; exact List.mem_cons_of_mem _ List.mem_cons_self
    · cases m with
      | part p => cases h
      | comment pre o w r =>
        obtain ⟨v, h1, h2⟩ := hl (.comment pre o w r) List.mem_cons_self
        exact ⟨v, h1, h2⟩

/-- **C90**, the part that holds: in a document with the shape of a complete one, the editor shows the elements that the
traversal finds, each over its own text. The elements lie between graphemes, are not empty and do not begin with a line
terminator, and a comment reaches to the end of its line. Missing: see `C90_order_partial`. -/
theorem C90_document_partial {G : Segmenter} (hG : Segments G) (e : EncodingKind) (root : Green) (h : RootShape root)
    (hin : ∀ m ∈ documentMarks root, m.In G (greenText root)) (hf : ∀ m ∈ documentMarks root, Visible m.text)
    (hl : ∀ m ∈ documentMarks root, m.EndsLine (greenText root)) :
    ∃ ts, semanticTokens G (LineIndex.new (greenText root) e) ((documentMarks root).map (Mark.element G)) = some ts
      ∧ decode legend 0 0 ts = ((documentMarks root).flatMap Mark.parts).map (Part.shown e) :=
  C90_shown_partial hG e _ _ hin
    (sorted_inOrder hf hl (C90_order_partial root h) List.prefix_rfl (fun h => nomatch h))

/-! ### concrete cases -/

/-- a check of `CommentLast` -/
def commentLastB (cs : List Green) : Bool :=
  match lastTokens cs with
  | some (COMMENT, t) => match cs.getLast? with
    | some (.token COMMENT t') => decide (t' = t)
    | _ => false
  | _ => true

theorem commentLast_of {cs : List Green} (h : commentLastB cs = true) : CommentLast cs := by
  intro t ht
  unfold commentLastB at h
  rw [ht] at h
  simp only at h
  split at h
  · rename_i t' hl
    obtain ⟨xs, hx⟩ := List.getLast?_eq_some_iff.mp hl
    exact ⟨xs, by rw [hx, of_decide_eq_true h]⟩
  · cases h

/-- a check of `NodeShape` -/
def nodeShapeB (k : SyntaxKind) (cs : List Green) : Bool :=
  match k with
  | KEY_VALUE => decide (cs.findIdx isKeys < cs.findIdx (isToken EQUAL))
      && decide (cs.findIdx (isToken EQUAL) < cs.findIdx (fun g => isValueKind (kindOf g)))
  | TABLE => decide (cs.findIdx (isToken BRACKET_START) < cs.findIdx isKeys)
      && (decide (cs.findIdx isKeys < cs.findIdx (isToken BRACKET_END)) && decide (cs.findIdx (isToken BRACKET_END) < cs.length))
  | ARRAY_OF_TABLE => decide (cs.findIdx (isToken DOUBLE_BRACKET_START) < cs.findIdx isKeys)
      && (decide (cs.findIdx isKeys < cs.findIdx (isToken DOUBLE_BRACKET_END))
        && decide (cs.findIdx (isToken DOUBLE_BRACKET_END) < cs.length))
  | ARRAY => decide (cs.findIdx (isToken BRACKET_START) < cs.findIdx (isToken BRACKET_END))
      && (decide (cs.findIdx (isToken BRACKET_END) < cs.length) && commentLastB cs)
  | INLINE_TABLE => decide (cs.findIdx (isToken BRACE_START) < cs.findIdx (isToken BRACE_END))
      && (decide (cs.findIdx (isToken BRACE_END) < cs.length) && commentLastB cs)
  | COMMA => decide (cs.findIdx (isToken COMMA) < cs.length) && commentLastB cs
  | k => !isValueKind k || (decide (cs.findIdx (isToken k) < cs.length) && commentLastB cs)

theorem nodeShape_of {k : SyntaxKind} {cs : List Green} (h : nodeShapeB k cs = true) : NodeShape k cs := by
  have hc := @commentLast_of cs
  unfold nodeShapeB at h
  unfold NodeShape
  split at h <;> simp only [Bool.and_eq_true, decide_eq_true_eq, Bool.or_eq_true, Bool.not_eq_true'] at h
  · exact h
  · exact h
  · exact h
  · exact ⟨h.1, h.2.1, hc h.2.2⟩
  · exact ⟨h.1, h.2.1, hc h.2.2⟩
  · exact ⟨h.1, hc h.2⟩
  · split <;> first | contradiction | skip
    intro hv
    rcases h with h | h
    · rw [h] at hv; cases hv
    · exact ⟨h.1, hc h.2⟩

mutual
/-- a check of `Shaped` -/
def shapedB : Green → Bool
  | .token k _ => decide (k ≠ EOF)
  | .node k cs => nodeShapeB k cs
      && (decide (k ∉ [BRACKET_START, BRACE_START, BRACKET_END, DOUBLE_BRACKET_END, COMMENT, WHITESPACE, LINE_BREAK, EOF])
        && shapedAllB cs)
/-- a check of `ShapedAll` -/
def shapedAllB : List Green → Bool
  | [] => true
  | g :: gs => shapedB g && shapedAllB gs
end

mutual
theorem shaped_of : (g : Green) → shapedB g = true → Shaped g
  | .token k w, h => by
    rw [shapedB] at h
    rw [Shaped]
    exact of_decide_eq_true h
  | .node k cs, h => by
    rw [shapedB, Bool.and_eq_true, Bool.and_eq_true] at h
    exact ⟨nodeShape_of h.1, of_decide_eq_true h.2.1, shapedAll_of cs h.2.2⟩
theorem shapedAll_of : (gs : List Green) → shapedAllB gs = true → ShapedAll gs
  | [], _ => by rw [ShapedAll]; trivial
  | g :: gs, h => by
    rw [shapedAllB, Bool.and_eq_true] at h
    exact ⟨shaped_of g h.1, shapedAll_of gs h.2⟩
end

/-- a check of `Sorted` by lengths -/
def sortedB (a : List Char) : List Mark → Bool
  | [] => true
  | m :: ms => decide (a.length ≤ m.pre.length) && sortedB (m.pre ++ m.text) ms

theorem sorted_check {a b : List Char} {ms : List Mark} (h : Sorted a b ms) : sortedB a ms = true := by
  induction ms generalizing a with
  | nil => rfl
  | cons m ms ih =>
    rw [sortedB, Bool.and_eq_true]
    exact ⟨decide_eq_true h.1.length_le, ih h.2⟩

/-- a check of `RootShape` -/
def rootShapeB (root : Green) (n : Nat) : Bool :=
  shapedB root && (((childrenOf root).take n).all (fun g => !isSection g)
    && ((childrenOf root).drop n).all (fun g => decide (kindOf g ≠ DANGLING_COMMENT_GROUP ∧ kindOf g ≠ KEY_VALUE_GROUP)))

theorem rootShape_of {root : Green} {n : Nat} (h : rootShapeB root n = true) : RootShape root := by
  unfold rootShapeB at h
  rw [Bool.and_eq_true, Bool.and_eq_true, List.all_eq_true, List.all_eq_true] at h
  exact ⟨shaped_of _ h.1, _, _, (List.take_append_drop n _).symm, fun g hg => by simpa using h.2.1 g hg,
    fun g hg => of_decide_eq_true (h.2.2 g hg)⟩

/-- the syntax tree of a text -/
def treeOf (text : List Char) : Green :=
  match parse sampleSegmenter text with
  | .ok p => p.tree
  | .error _ => .token ROOT []

/-- a document with a directive, an array with comments, and a table -/
def sampleTree : List Char := "# tombi: x\na.b = [1, # c\n 2 # d\n, # e\n # f\n] # g\n[t] # h\n# i\n\nx = { y = 1 }\n".toList

/-- The hypothesis of `C90_order_partial` is met. -/
example : RootShape (treeOf sampleTree) ∧ greenText (treeOf sampleTree) = sampleTree
    ∧ (documentMarks (treeOf sampleTree)).length = 21 :=
  ⟨rootShape_of (n := 1) (by decide +kernel), by decide +kernel, by decide +kernel⟩

/-- a check of `Cut` -/
def cutB (src a : List Char) : Bool :=
  decide (src.take a.length = a)
    && decide (sampleSegmenter.graphemes src = sampleSegmenter.graphemes a ++ sampleSegmenter.graphemes (src.drop a.length))

theorem cut_of {src a : List Char} (h : cutB src a = true) : Cut sampleSegmenter src a := by
  unfold cutB at h
  rw [Bool.and_eq_true, decide_eq_true_eq, decide_eq_true_eq] at h
  have e : a ++ src.drop a.length = src := by
    conv => lhs; lhs; rw [← h.1]
    exact List.take_append_drop _ _
  exact ⟨src.drop a.length, e.symm, by unfold Boundary; rw [e]; exact h.2⟩

/-- a check of the hypotheses of `C90_document_partial` for an element -/
def markB (src : List Char) (m : Mark) : Bool :=
  (match m.text with
    | [] => false
    | c :: _ => decide (c ≠ '\n') && decide (c ≠ '\r'))
  && match m with
  | .part p => cutB src p.pre && cutB src (p.pre ++ p.body)
  | .comment pre o w r => (cutB src pre && cutB src (pre ++ o)) && ((cutB src (pre ++ o ++ w) && cutB src (pre ++ o ++ w ++ r))
      && (decide ('\n' ∉ o ++ w ++ r) && (decide (src.take (pre ++ (o ++ w ++ r)).length = pre ++ (o ++ w ++ r))
        && match src.drop (pre ++ (o ++ w ++ r)).length with
          | [] => true
          | '\n' :: _ => true
          | _ => false)))

theorem mark_of {src : List Char} {m : Mark} (h : markB src m = true) :
    m.In sampleSegmenter src ∧ Visible m.text ∧ m.EndsLine src := by
  unfold markB at h
  rw [Bool.and_eq_true] at h
  obtain ⟨h1, h2⟩ := h
  have hv : Visible m.text := by
    split at h1
    · cases h1
    · rename_i c cs hc
      rw [Bool.and_eq_true, decide_eq_true_eq, decide_eq_true_eq] at h1
      exact ⟨c, cs, hc, h1.1, h1.2⟩
  cases m with
  | part p =>
    simp only [Bool.and_eq_true] at h2
    exact ⟨⟨cut_of h2.1, cut_of h2.2⟩, hv, trivial⟩
  | comment pre o w r =>
    simp only [Bool.and_eq_true, decide_eq_true_eq] at h2
    obtain ⟨⟨a1, a2⟩, ⟨a3, a4⟩, a5, a6, a7⟩ := h2
    refine ⟨⟨cut_of a1, cut_of a2, cut_of a3, cut_of a4, a5⟩, hv, src.drop (pre ++ (o ++ w ++ r)).length, ?_, ?_⟩
    · conv => rhs; lhs; rw [← a6]
      exact (List.take_append_drop _ _).symm
    · split at a7
      · rename_i e; exact .inl e
      · rename_i x e; exact .inr (.inl ⟨x, e⟩)
      · cases a7

/-- The hypotheses of `C90_document_partial` are met. -/
example : RootShape (treeOf sampleTree) ∧ ∀ m ∈ documentMarks (treeOf sampleTree),
    m.In sampleSegmenter (greenText (treeOf sampleTree)) ∧ Visible m.text ∧ m.EndsLine (greenText (treeOf sampleTree)) := by
  refine ⟨rootShape_of (n := 1) (by decide +kernel), fun m hm => mark_of ?_⟩
  have h : (documentMarks (treeOf sampleTree)).all (markB (greenText (treeOf sampleTree))) = true := by decide +kernel
  exact List.all_eq_true.mp h m hm

/-- an array that is not closed -/
def unclosed : List Char := "a = [ # tombi: x".toList

theorem not_sorted {a b : List Char} {ms : List Mark} (h : sortedB a ms = false) : ¬ Sorted a b ms := fun h' => by
  rw [sorted_check h'] at h
  cases h

theorem unclosed_check : sortedB [] (documentMarks (treeOf unclosed)) = false := by decide +kernel

/-- **C90**, where it fails: in an array that is not closed, the comment after the bracket is both the comment of the bracket
and the comment at the end of the array. In `a = [ # tombi: x` it is found twice, and its second copy is shown after the
end of the text, which has 16 characters. -/
theorem C90_unclosed_false : ∃ src : List Char, src.length = 16 ∧ greenText (treeOf src) = src
    ∧ ¬ Sorted [] src (documentMarks (treeOf src))
    ∧ (semanticTokens sampleSegmenter (LineIndex.new src .utf16) ((documentMarks (treeOf src)).map (Mark.element sampleSegmenter))).map
        (decode legend 0 0)
      = some [⟨0, 0, 1, some "key"⟩, ⟨0, 2, 1, some "operator"⟩, ⟨0, 6, 2, some "comment"⟩, ⟨0, 8, 6, some "keyword"⟩,
        ⟨0, 14, 2, some "comment"⟩, ⟨0, 14, 2, some "comment"⟩, ⟨0, 16, 6, some "keyword"⟩, ⟨0, 22, 2, some "comment"⟩] :=
  ⟨unclosed, by decide +kernel, by decide +kernel, not_sorted unclosed_check, by decide +kernel⟩

end Tombi.SemanticTokens
