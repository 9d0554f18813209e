import Verif.Proofs.Locate
/-! Proofs about `token_at_position`: positions of the editor. -/
namespace Tombi.Locate
open Tombi.Spec (Boundary Segments graphemePos)

theorem pieces_prefix : ∀ (xs ys zs ws : List (List Char)), [] ∉ xs → xs ++ ys = zs ++ ws → (∃ m, xs.flatten ++ m = zs.flatten) →
    ∃ ms, zs = xs ++ ms
  | [], _, zs, _, _, _, _ => ⟨zs, rfl⟩
  | x :: xs, ys, [], ws, hn, _, ⟨m, hm⟩ => by
    simp only [List.flatten_cons, List.flatten_nil, List.append_eq_nil_iff] at hm
    exact absurd (by rw [hm.1.1]; exact List.mem_cons_self) hn
  | x :: xs, ys, z :: zs, ws, hn, h, ⟨m, hm⟩ => by
    simp only [List.cons_append, List.cons.injEq] at h
    obtain ⟨h1, h2⟩ := h
    subst h1
    simp only [List.flatten_cons, List.append_assoc, List.append_cancel_left_eq] at hm
    obtain ⟨ms, hms⟩ := pieces_prefix xs ys zs ws (fun e => hn (List.mem_cons_of_mem _ e)) h2 ⟨m, hm⟩
    exact ⟨ms, by rw [hms]; rfl⟩

/-- Between two boundaries of a text. -/
theorem boundary_within {G : Segmenter} (hG : Segments G) {a m b : List Char} (h1 : Boundary G a (m ++ b))
    (h2 : Boundary G (a ++ m) b) : Boundary G a m := by
  unfold Boundary at *
  rw [← List.append_assoc] at h1
  rw [h1] at h2
  obtain ⟨ms, hms⟩ := pieces_prefix _ _ _ _ (G.ne_nil a) h2 ⟨m, by rw [G.flatten_graphemes, G.flatten_graphemes]⟩
  rw [hms]
  have hf : ms.flatten = m := by
    have := G.flatten_graphemes (a ++ m)
    rw [hms, List.flatten_append, G.flatten_graphemes] at this
    exact List.append_cancel_left this
  have hs := hG.stable (a ++ m) (G.graphemes a).length ms.length
  rw [hms, List.drop_left, List.take_length, hf] at hs
  rw [hs]

theorem graphemePos_append {G : Segmenter} (hG : Segments G) {a b : List Char} (h : Boundary G a b) :
    (graphemePos G a).addText G b = graphemePos G (a ++ b) := by
  have h1 := relOf_append h
  rw [relOf_spec hG, relOf_spec hG, relOf_spec hG] at h1
  unfold Position.addText
  rw [relOf_spec hG]
  have e1 := congrArg RelPosition.line h1
  have e2 := congrArg RelPosition.column h1
  simp only [RelPosition.add] at e1 e2
  unfold graphemePos Position.add
  simp only []
  rw [e1, e2]

/-- Positions of boundaries are in the order of the boundaries. -/
theorem graphemePos_le {G : Segmenter} (hG : Segments G) {a b c d : List Char} (h : a ++ b = c ++ d) (h1 : Boundary G a b)
    (h2 : Boundary G c d) : (graphemePos G a).le (graphemePos G c) = true ↔ a.length ≤ c.length := by
  have key : ∀ {a b c d : List Char}, a ++ b = c ++ d → Boundary G a b → Boundary G c d → a.length ≤ c.length →
      ∃ m, c = a ++ m ∧ graphemePos G c = (graphemePos G a).addText G m := by
    intro a b c d h h1 h2 hl
    obtain ⟨m, hm⟩ : ∃ m, c = a ++ m := by
      refine ⟨c.drop a.length, ?_⟩
      have := congrArg (List.take a.length) h
      rw [List.take_left, List.take_append_of_le_length hl] at this
      rw [← List.take_append_drop a.length c, List.drop_append, ← this]
      simp
    subst hm
    rw [List.append_assoc] at h
    have hb := List.append_cancel_left h
    rw [hb] at h1
    exact ⟨m, rfl, (graphemePos_append hG (boundary_within hG h1 h2)).symm⟩
  constructor
  · intro hle
    apply Classical.byContradiction
    intro hn
    obtain ⟨m, hm, hp⟩ := key h.symm h2 h1 (by omega)
    rw [hp] at hle
    have := addText_eq.1 (le_antisymm' (le_add _ _) hle)
    rw [hm, this, List.append_nil] at hn
    exact hn (Nat.le_refl _)
  · intro hl
    obtain ⟨m, hm, hp⟩ := key h h1 h2 hl
    rw [hp]; exact le_add _ _

theorem textOf_append (a b : List (SyntaxKind × List Char)) : textOf (a ++ b) = textOf a ++ textOf b := by
  simp only [textOf, List.map_append, List.flatten_append]

theorem textOf_cons (w : SyntaxKind × List Char) (b : List (SyntaxKind × List Char)) : textOf (w :: b) = w.2 ++ textOf b := rfl

/-- The tokens a cursor touches are those around it in the text. -/
theorem touches_around {G : Segmenter} (hG : Segments G) {ws : List (SyntaxKind × List Char)} (hc : CutsGraphemes G ws)
    {pre post : List Char} (ht : textOf ws = pre ++ post) (hb : Boundary G pre post) :
    ((placed G Position.zero ws).filter fun t => Touches (graphemePos G pre) t).map (fun t => (t.kind, t.text)) = around pre.length ws := by
  have key : ∀ (b a : List (SyntaxKind × List Char)), ws = a ++ b →
      ((placed G (graphemePos G (textOf a)) b).filter fun t => Touches (graphemePos G pre) t).map (fun t => (t.kind, t.text))
        = ((offsets (textOf a).length b).filter fun t => t.2.2 ≠ [] ∧ t.1 ≤ pre.length ∧ pre.length ≤ t.1 + t.2.2.length).map (·.2) := by
    intro b
    induction b with
    | nil => intro a _; rfl
    | cons w b ih =>
      intro a ha
      obtain ⟨k, t⟩ := w
      have ha' : ws = (a ++ [(k, t)]) ++ b := by rw [ha]; simp
      have e : textOf (a ++ [(k, t)]) = textOf a ++ t := by rw [textOf_append]; simp [textOf]
      have hb1 := hc a ((k, t) :: b) ha
      have hb2 := hc (a ++ [(k, t)]) b ha'
      rw [textOf_cons] at hb1
      rw [e] at hb2
      have hp := graphemePos_append hG (boundary_within hG hb1 hb2)
      have hi := ih (a ++ [(k, t)]) ha'
      rw [e, List.length_append] at hi
      have ht1 : textOf a ++ (t ++ textOf b) = pre ++ post := by rw [← ht, ha, textOf_append, textOf_cons]
      have ht2 : (textOf a ++ t) ++ textOf b = pre ++ post := by rw [List.append_assoc]; exact ht1
      have l1 := graphemePos_le hG ht1 hb1 hb
      have l2 := graphemePos_le hG ht2.symm hb hb2
      rw [List.length_append] at l2
      rw [placed, offsets, List.filter_cons, List.filter_cons, hp]
      have hiff : Touches (graphemePos G pre) ⟨k, t, graphemePos G (textOf a), graphemePos G (textOf a ++ t)⟩
          ↔ (t ≠ [] ∧ (textOf a).length ≤ pre.length ∧ pre.length ≤ (textOf a).length + t.length) := by
        unfold Touches; simp only []; rw [l1, l2]
      by_cases hh : Touches (graphemePos G pre) ⟨k, t, graphemePos G (textOf a), graphemePos G (textOf a ++ t)⟩
      · rw [if_pos (decide_eq_true hh), if_pos (decide_eq_true (hiff.1 hh)), List.map_cons, List.map_cons, hi]
      · rw [if_neg (by simpa using hh), if_neg (by simpa using fun e => hh (hiff.2 e)), hi]
  have h0 : graphemePos G (textOf []) = Position.zero := by
    have : G.graphemes [] = [] := by
      cases hg : G.graphemes [] with
      | nil => rfl
      | cons g gs =>
        have h1 := G.flatten_graphemes []
        rw [hg] at h1
        have h2 := G.ne_nil []
        rw [hg] at h2
        simp at h1
        exact absurd (by simp [h1.1]) h2
    simp [graphemePos, textOf, Spec.lastLine, this, Position.zero]
  have := key ws [] rfl
  rw [h0] at this
  exact this

theorem endOf_text {G : Segmenter} (hG : Segments G) {ws : List (SyntaxKind × List Char)} (hc : CutsGraphemes G ws) :
    endOf G Position.zero ws = graphemePos G (textOf ws) := by
  have key : ∀ (b a : List (SyntaxKind × List Char)), ws = a ++ b → endOf G (graphemePos G (textOf a)) b = graphemePos G (textOf ws) := by
    intro b
    induction b with
    | nil => intro a ha; rw [ha, List.append_nil]; rfl
    | cons w b ih =>
      intro a ha
      obtain ⟨k, t⟩ := w
      have ha' : ws = (a ++ [(k, t)]) ++ b := by rw [ha]; simp
      have e : textOf (a ++ [(k, t)]) = textOf a ++ t := by rw [textOf_append]; simp [textOf]
      have hb1 := hc a ((k, t) :: b) ha
      have hb2 := hc (a ++ [(k, t)]) b ha'
      rw [textOf_cons] at hb1
      rw [e] at hb2
      have hp := graphemePos_append hG (boundary_within hG hb1 hb2)
      have := ih _ ha'
      rw [e] at this
      simp only [endOf, List.foldl_cons] at this ⊢
      rw [hp]; exact this
  have h0 : graphemePos G (textOf []) = Position.zero := by
    have : G.graphemes [] = [] := by
      cases hg : G.graphemes [] with
      | nil => rfl
      | cons g gs =>
        have h1 := G.flatten_graphemes []
        rw [hg] at h1
        have h2 := G.ne_nil []
        rw [hg] at h2
        simp at h1
        exact absurd (by simp [h1.1]) h2
    simp [graphemePos, textOf, Spec.lastLine, this, Position.zero]
  have := key ws [] rfl
  rw [h0] at this
  exact this

mutual
theorem tokensOf_text : ∀ g : Green, textOf (tokensOf g) = g.text
  | .token k t => by rw [tokensOf, Green.text]; simp [textOf]
  | .node k cs => by rw [tokensOf, Green.text, tokensOfs_text cs]
theorem tokensOfs_text : ∀ cs : List Green, textOf (tokensOfs cs) = Green.texts cs
  | [] => rfl
  | c :: cs => by rw [tokensOfs, Green.texts, textOf_append, tokensOf_text c, tokensOfs_text cs]
end

end Tombi.Locate
