import Verif.Proofs.TextOps
/-! The edit computed from two texts. -/
namespace Tombi
open Spec

theorem commonBytes_spec (as bs : List (List Char)) :
    ∃ k, k ≤ as.length ∧ k ≤ bs.length ∧ as.take k = bs.take k ∧ commonBytes as bs = utf8Len (as.take k).flatten := by
  induction as generalizing bs with
  | nil => exact ⟨0, by simp, by simp, by simp, by simp [commonBytes]⟩
  | cons a as ih =>
    cases bs with
    | nil => exact ⟨0, by simp, by simp, by simp, by simp [commonBytes]⟩
    | cons b bs =>
      rw [commonBytes]
      by_cases h : a = b
      · obtain ⟨k, h1, h2, h3, h4⟩ := ih bs
        rw [if_pos h]
        exact ⟨k + 1, by simp [h1], by simp [h2], by simp [h, h3], by
          rw [h4, List.take_succ_cons, List.flatten_cons, utf8Len_append]⟩
      · rw [if_neg h]
        exact ⟨0, by simp, by simp, by simp, by simp⟩

theorem utf8Len_flatten_reverse (gs : List (List Char)) : utf8Len gs.reverse.flatten = utf8Len gs.flatten := by
  induction gs with
  | nil => rfl
  | cons g gs ih =>
    rw [List.reverse_cons, List.flatten_append, List.flatten_cons, utf8Len_append, utf8Len_append, ih]
    simp only [List.flatten_cons, List.flatten_nil, utf8Len_append, utf8Len_nil]
    omega

/-- a common first part of the reversed lists is a common last part of the lists -/
theorem common_suffix {xs ys : List (List Char)} {k : Nat} (h : xs.reverse.take k = ys.reverse.take k) :
    ∃ x y q, xs = x ++ q ∧ ys = y ++ q ∧ utf8Len (xs.reverse.take k).flatten = utf8Len q.flatten := by
  refine ⟨(xs.reverse.drop k).reverse, (ys.reverse.drop k).reverse, (xs.reverse.take k).reverse, ?_, ?_, ?_⟩
  · rw [← List.reverse_append, List.take_append_drop, List.reverse_reverse]
  · rw [h, ← List.reverse_append, List.take_append_drop, List.reverse_reverse]
  · rw [utf8Len_flatten_reverse]

theorem positionAtOffset_place {G : Segmenter} (hG : Segments G) (s : List Char) (e : EncodingKind)
    {ls : List (List Char)} (hls : Lines s ls) {k : Nat} (hk : k ≤ (G.graphemes s).length) :
    ∃ n j, positionAtOffset G (LineIndex.new s e) (utf8Len ((G.graphemes s).take k).flatten) = some ⟨n, j⟩
      ∧ Place G ls ((G.graphemes s).take k).flatten n j := by
  have hsp := lineLoop_spans hls 0 none
  obtain ⟨n, j, h1, h2⟩ := positionLoop_place hG (LineIndex.new s e) hsp 0 (0, [])
    (fun i => by rw [Nat.zero_add]; exact lineText_lines hls e i) k hk
  refine ⟨n, j, ?_, h2⟩
  unfold positionAtOffset
  have hne : (LineIndex.new s e).lines.isEmpty = false := by
    show (lineLoop 0 0 none s).isEmpty = false
    cases hx : lineLoop 0 0 none s with
    | nil => rw [hx] at hsp; cases hsp
    | cons => rfl
  rw [hne, if_neg (by simp)]
  rw [Nat.zero_add, Nat.zero_add] at h1
  exact h1

/-- A boundary between graphemes is not inside a line terminator. -/
theorem boundary_outside {G : Segmenter} (hG : Segments G) (s : List Char) (k : Nat) (a b : List Char)
    (ha : ((G.graphemes s).take k).flatten = a ++ ['\r']) : ((G.graphemes s).drop k).flatten ≠ '\n' :: b := by
  intro hb
  have hs : s = a ++ ['\r', '\n'] ++ b := by
    rw [take_prefix (G := G) s k, ha, hb]; simp
  have hg : G.graphemes s = G.graphemes a ++ ['\r', '\n'] :: G.graphemes b := by
    rw [hs]; exact hG.line a _ b (.inr rfl) (fun e => by cases e)
  by_cases hk : k ≤ (G.graphemes a).length
  · rw [hg, List.take_append_of_le_length hk] at ha
    have := congrArg utf8Len (take_prefix (G := G) a k)
    rw [ha] at this
    simp only [utf8Len_append] at this
    have h1 : utf8Len ['\r'] = 1 := rfl
    omega
  · obtain ⟨k', rfl⟩ : ∃ k', k = (G.graphemes a).length + (k' + 1) := ⟨k - (G.graphemes a).length - 1, by omega⟩
    rw [hg, List.take_length_add_append, List.take_succ_cons, List.flatten_append, List.flatten_cons,
      G.flatten_graphemes] at ha
    have := List.append_cancel_left ha
    have := congrArg List.length this
    simp at this

theorem Place.intoLsp {G : Segmenter} {s : List Char} {e : EncodingKind} {ls : List (List Char)} (hls : Lines s ls)
    {pre : List Char} {n j : Nat} (h : Place G ls pre n j) :
    Position.intoLsp G ⟨n, j⟩ (LineIndex.new s e) = ⟨pre.count '\n', codeUnits e (lastLine pre)⟩ := by
  obtain ⟨h1, l, h2, h3, h4⟩ := h.facts
  unfold Position.intoLsp
  simp only [lineText_lines hls e n, h2, Option.map_some, Option.getD_some]
  rw [foldl_measure, Nat.zero_add, ← h4, h1]
  rfl

theorem lastLine_append_no_lf (a : List Char) {m : List Char} (hm : '\n' ∉ m) : lastLine (a ++ m) = lastLine a ++ m := by
  unfold lastLine
  rw [List.reverse_append, List.takeWhile_append_of_pos, List.reverse_append, List.reverse_reverse]
  intro c hc
  have : c ≠ '\n' := fun e => hm (by rw [← e]; exact List.mem_reverse.mp hc)
  simpa using this

theorem Place.le {G : Segmenter} {ls : List (List Char)} {a m : List Char} {n j n' j' : Nat} (h : Place G ls a n j)
    (h' : Place G ls (a ++ m) n' j') : Position.le ⟨n, j⟩ ⟨n', j'⟩ = true := by
  obtain ⟨h1, l, h2, h3, h4⟩ := h.facts
  obtain ⟨h1', l', h2', h3', h4'⟩ := h'.facts
  rw [List.count_append] at h1'
  unfold Position.le
  simp only [Bool.or_eq_true, decide_eq_true_eq, Bool.and_eq_true, beq_iff_eq]
  by_cases hn : n < n'
  · exact .inl hn
  · have hz : m.count '\n' = 0 := by omega
    have hnn : n = n' := by omega
    subst hnn
    rw [h2] at h2'
    cases h2'
    rw [lastLine_append_no_lf a (List.count_eq_zero.mp hz), h4] at h4'
    refine .inr ⟨rfl, ?_⟩
    apply Classical.byContradiction
    intro hlt
    have h5 := units_take_lt .utf8 (G.graphemes l) (G.ne_nil l) (i := j') (j := j) (by omega) h3
    rw [← h4', codeUnits_append] at h5
    omega

theorem computeTextEdits_applies {G : Segmenter} (hG : Segments G) (old new : List Char) (e : EncodingKind)
    (hne : old ≠ new) :
    ∃ ed, computeTextEdits G old new (LineIndex.new old e) = some [ed] ∧ Applies e ed old new := by
  obtain ⟨k, hk1, hk2, hk3, hk4⟩ := commonBytes_spec (G.graphemes old) (G.graphemes new)
  obtain ⟨k2, -, -, hs3, hs4⟩ :=
    commonBytes_spec ((G.graphemes old).drop k).reverse ((G.graphemes new).drop k).reverse
  obtain ⟨x, y, q, hx, hy, hq⟩ := common_suffix hs3
  have hold : old = ((G.graphemes old).take k).flatten ++ ((G.graphemes old).drop k).flatten := take_prefix old k
  have hnew : new = ((G.graphemes old).take k).flatten ++ ((G.graphemes new).drop k).flatten := by
    rw [hk3]; exact take_prefix new k
  have d1 : byteDrop (utf8Len ((G.graphemes old).take k).flatten) old = some ((G.graphemes old).drop k).flatten := by
    conv => lhs; arg 2; rw [hold]
    exact byteDrop_append _ _
  have d2 : byteDrop (utf8Len ((G.graphemes old).take k).flatten) new = some ((G.graphemes new).drop k).flatten := by
    conv => lhs; arg 2; rw [hnew]
    exact byteDrop_append _ _
  rw [hq] at hs4
  -- the boundary after `x`
  have hlen : (G.graphemes old).take (k + x.length) = (G.graphemes old).take k ++ x := by
    rw [List.take_add, hx, List.take_left]
  have hkx : k + x.length ≤ (G.graphemes old).length := by
    have := congrArg List.length hx
    rw [List.length_drop, List.length_append] at this
    omega
  obtain ⟨ls, hls⟩ := lines_exist old
  obtain ⟨n1, j1, p1, pl1⟩ := positionAtOffset_place hG old e hls hk1
  obtain ⟨n2, j2, p2, pl2⟩ := positionAtOffset_place hG old e hls hkx
  have hout1 := boundary_outside hG old k
  have hout2 := boundary_outside hG old (k + x.length)
  have hdrop : (G.graphemes old).drop (k + x.length) = q := by
    rw [← List.drop_drop, hx, List.drop_left]
  rw [hdrop] at hout2
  rw [hlen, List.flatten_append] at p2 pl2 hout2
  generalize hP : ((G.graphemes old).take k).flatten = P at *
  rw [hx, List.flatten_append] at hold d1
  rw [hy, List.flatten_append] at hnew d2
  have hlold : utf8Len old = utf8Len P + (utf8Len x.flatten + utf8Len q.flatten) := by
    conv => lhs; rw [hold]
    simp only [utf8Len_append]
  have hlnew : utf8Len new = utf8Len P + (utf8Len y.flatten + utf8Len q.flatten) := by
    conv => lhs; rw [hnew]
    simp only [utf8Len_append]
  have g1 : G.graphemes (x.flatten ++ q.flatten) = (G.graphemes old).drop k := by
    rw [← List.flatten_append, ← hx]; exact hG.drop old k
  have g2 : G.graphemes (y.flatten ++ q.flatten) = (G.graphemes new).drop k := by
    rw [← List.flatten_append, ← hy]; exact hG.drop new k
  have hxy : ¬(x.flatten = [] ∧ y.flatten = []) := by
    rintro ⟨e1, e2⟩
    apply hne
    rw [hold, hnew, e1, e2]
  have slice : byteSlice (utf8Len P) (utf8Len P + utf8Len y.flatten) new = some y.flatten := by
    conv => lhs; arg 3; rw [hnew, ← List.append_assoc]
    exact byteSlice_append _ _ _
  have hle := pl1.le pl2
  have hres : computeTextEdits G old new (LineIndex.new old e)
      = some [⟨(Range.new ⟨n1, j1⟩ ⟨n2, j2⟩).intoLsp G (LineIndex.new old e), y.flatten⟩] := by
    unfold computeTextEdits
    rw [if_neg hne]
    simp only [hk4, d1, d2, g1, g2, hs4]
    have m1 : Nat.min (Nat.min (utf8Len q.flatten) (utf8Len (x.flatten ++ q.flatten))) (utf8Len (y.flatten ++ q.flatten))
        = utf8Len q.flatten := by
      show min (min _ _) _ = _
      rw [utf8Len_append, utf8Len_append]; omega
    rw [m1]
    have m2 : Nat.max (utf8Len old - utf8Len q.flatten) (utf8Len P) = utf8Len P + utf8Len x.flatten := by
      show max _ _ = _
      omega
    have m3 : Nat.max (utf8Len new - utf8Len q.flatten) (utf8Len P) = utf8Len P + utf8Len y.flatten := by
      show max _ _ = _
      omega
    rw [m2, m3, if_neg]
    · rw [utf8Len_append] at p2
      rw [p1, p2, slice]
    · rintro ⟨e1, e2⟩
      apply hxy
      constructor
      · apply Classical.byContradiction; intro hh; have := utf8Len_pos hh
        omega
      · apply Classical.byContradiction; intro hh; have := utf8Len_pos hh
        omega
  refine ⟨_, hres, P, x.flatten, q.flatten, ?_, ?_, ?_, ?_⟩
  · rw [List.append_assoc]; exact hold
  · have e1 : (Range.new ⟨n1, j1⟩ ⟨n2, j2⟩).start = ⟨n1, j1⟩ := rfl
    show AtPosition e ((Range.new ⟨n1, j1⟩ ⟨n2, j2⟩).start.intoLsp G (LineIndex.new old e)) _ _
    rw [e1, pl1.intoLsp hls]
    refine ⟨rfl, rfl, fun a b ha hb => ?_⟩
    refine hout1 a b ha ?_
    rw [hx, List.flatten_append]; exact hb
  · have e1 : (Range.new ⟨n1, j1⟩ ⟨n2, j2⟩).stop = ⟨n2, j2⟩ := by
      unfold Range.new; rw [hle, if_pos rfl]
    show AtPosition e ((Range.new ⟨n1, j1⟩ ⟨n2, j2⟩).stop.intoLsp G (LineIndex.new old e)) _ _
    rw [e1, pl2.intoLsp hls]
    exact ⟨rfl, rfl, fun a b ha => hout2 a b ha⟩
  · show new = P ++ y.flatten ++ q.flatten
    rw [List.append_assoc]; exact hnew

end Tombi
