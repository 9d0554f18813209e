import Verif.Proofs.TextEdit
import Verif.Spec.Source
/-! Positions of texts, and a concrete segmentation. -/
namespace Tombi
open Spec

theorem lastLine_after_lf (a b : List Char) : lastLine (a ++ '\n' :: b) = lastLine b := by
  unfold lastLine
  rw [List.reverse_append, List.reverse_cons, List.append_assoc]
  congr 1
  induction b.reverse with
  | nil => simp
  | cons c r ih =>
    by_cases h : c = '\n'
    · simp [h]
    · simp only [List.cons_append, ne_eq, decide_not]
      rw [List.takeWhile_cons_of_pos (by simpa using h), List.takeWhile_cons_of_pos (by simpa using h)]
      congr 1
      simpa using ih

theorem lastLine_after_term {t : List Char} (ht : Terminator t) (a b : List Char) :
    lastLine (a ++ t ++ b) = lastLine b := by
  rcases ht with rfl | rfl
  · rw [List.append_assoc]; exact lastLine_after_lf a b
  · have : a ++ ['\r', '\n'] ++ b = (a ++ ['\r']) ++ '\n' :: b := by simp
    rw [this]; exact lastLine_after_lf _ b

theorem term_count {t : List Char} (ht : Terminator t) : t.count '\n' = 1 := by rcases ht with rfl | rfl <;> decide

/-- the step of `RelPosition.of` -/
def relStep (r : RelPosition) (g : List Char) : RelPosition :=
  if g = ['\n'] ∨ g = ['\r', '\n'] then ⟨r.line + 1, 0⟩ else ⟨r.line, r.column + 1⟩

theorem relStep_no_lf {gs : List (List Char)} (h : ∀ g ∈ gs, '\n' ∉ g) (r : RelPosition) :
    gs.foldl relStep r = ⟨r.line, r.column + gs.length⟩ := by
  induction gs generalizing r with
  | nil => rfl
  | cons g gs ih =>
    rw [List.foldl_cons, ih (fun x hx => h x (by simp [hx]))]
    have hg := h g (by simp)
    have : relStep r g = ⟨r.line, r.column + 1⟩ := by
      unfold relStep
      rw [if_neg]
      rintro (rfl | rfl) <;> simp at hg
    rw [this, List.length_cons]
    congr 1; simp only []; omega

theorem graphemes_no_lf {G : Segmenter} {l : List Char} (hl : '\n' ∉ l) : ∀ g ∈ G.graphemes l, '\n' ∉ g := by
  intro g hg hn
  apply hl
  rw [← G.flatten_graphemes l]
  exact List.mem_flatten.mpr ⟨g, hg, hn⟩

theorem relFold_spec {G : Segmenter} (hG : Segments G) {s : List Char} {ls : List (List Char)} (h : Lines s ls)
    (r : RelPosition) :
    (G.graphemes s).foldl relStep r = ⟨r.line + s.count '\n',
      if s.count '\n' = 0 then r.column + (G.graphemes (lastLine s)).length else (G.graphemes (lastLine s)).length⟩ := by
  induction h generalizing r with
  | @last l hl =>
    rw [relStep_no_lf (graphemes_no_lf hl), List.count_eq_zero.mpr hl, if_pos rfl, lastLine_no_lf hl]
    rfl
  | @cons l t s ls hl ht hcr hs ih =>
    rw [hG.line l t s ht hcr, List.foldl_append, List.foldl_cons, relStep_no_lf (graphemes_no_lf hl)]
    have e : relStep ⟨r.line, r.column + (G.graphemes l).length⟩ t = ⟨r.line + 1, 0⟩ := by
      unfold relStep; exact if_pos ht
    rw [e, ih, lastLine_after_term ht, List.count_append, List.count_append, List.count_eq_zero.mpr hl, term_count ht]
    have e3 : (if 0 + 1 + s.count '\n' = 0 then r.column + (G.graphemes (lastLine s)).length
        else (G.graphemes (lastLine s)).length) = (G.graphemes (lastLine s)).length := if_neg (by omega)
    have e2 : (if s.count '\n' = 0 then 0 + (G.graphemes (lastLine s)).length else (G.graphemes (lastLine s)).length)
        = (G.graphemes (lastLine s)).length := by split <;> omega
    rw [e3]
    show RelPosition.mk _ _ = _
    rw [e2]
    congr 1; simp only []; omega

theorem relOf_spec {G : Segmenter} (hG : Segments G) (s : List Char) :
    RelPosition.of G s = ⟨s.count '\n', (G.graphemes (lastLine s)).length⟩ := by
  obtain ⟨ls, h⟩ := lines_exist s
  have := relFold_spec hG h ⟨0, 0⟩
  have e : RelPosition.of G s = (G.graphemes s).foldl relStep ⟨0, 0⟩ := rfl
  rw [e, this]
  simp only [Nat.zero_add]
  congr 1; split <;> rfl

theorem relFold_shift (gs : List (List Char)) (r : RelPosition) :
    gs.foldl relStep r = r.add (gs.foldl relStep ⟨0, 0⟩) := by
  suffices ∀ a : RelPosition, gs.foldl relStep (r.add a) = r.add (gs.foldl relStep a) by
    have h := this ⟨0, 0⟩
    exact h
  intro a
  induction gs generalizing a with
  | nil => rfl
  | cons g gs ih =>
    rw [List.foldl_cons, List.foldl_cons, ← ih]
    congr 1
    unfold relStep RelPosition.add
    by_cases h : g = ['\n'] ∨ g = ['\r', '\n']
    · simp only [if_pos h]
      rw [if_neg (by simp)]; rfl
    · simp only [if_neg h]
      by_cases h2 : a.line = 0
      · simp only [if_pos h2, Nat.add_assoc]
      · simp only [if_neg h2]

theorem relOf_append {G : Segmenter} {a b : List Char} (h : Boundary G a b) :
    RelPosition.of G (a ++ b) = (RelPosition.of G a).add (RelPosition.of G b) := by
  have e : ∀ s, RelPosition.of G s = (G.graphemes s).foldl relStep ⟨0, 0⟩ := fun _ => rfl
  rw [e, e, e, h, List.foldl_append, relFold_shift]

/-- A boundary is a place in the list of graphemes. -/
theorem boundary_take {G : Segmenter} {pre post : List Char} (h : Boundary G pre post) :
    ((G.graphemes (pre ++ post)).take (G.graphemes pre).length).flatten = pre
      ∧ (G.graphemes pre).length ≤ (G.graphemes (pre ++ post)).length := by
  rw [h]
  constructor
  · rw [List.take_left, G.flatten_graphemes]
  · simp

theorem Place.column {G : Segmenter} (hG : Segments G) {ls : List (List Char)} {pre : List Char} {n j : Nat}
    (h : Place G ls pre n j) : (⟨n, j⟩ : Position) = graphemePos G pre := by
  obtain ⟨h1, l, h2, h3, h4⟩ := h.facts
  unfold graphemePos
  rw [h1, h4, hG.take, List.length_take, Nat.min_eq_left h3]

/-- every boundary has a place -/
theorem boundary_place {G : Segmenter} (hG : Segments G) {pre post : List Char} (h : Boundary G pre post)
    {ls : List (List Char)} (hls : Lines (pre ++ post) ls) :
    Place G ls pre (graphemePos G pre).line (graphemePos G pre).column := by
  obtain ⟨h1, h2⟩ := boundary_take h
  obtain ⟨n, j, -, h4⟩ := positionAtOffset_place hG (pre ++ post) .utf8 hls h2
  rw [h1] at h4
  rw [← h4.column hG]
  exact h4

theorem boundary_not_inside {G : Segmenter} (hG : Segments G) {pre post : List Char} (h : Boundary G pre post)
    (a b : List Char) (ha : pre = a ++ ['\r']) : post ≠ '\n' :: b := by
  have h1 := boundary_outside hG (pre ++ post) (G.graphemes pre).length a b
  rw [(boundary_take h).1] at h1
  have h2 : ((G.graphemes (pre ++ post)).drop (G.graphemes pre).length).flatten = post := by
    rw [h, List.drop_left, G.flatten_graphemes]
  rw [h2] at h1
  exact h1 ha

/-- the line a place is in -/
theorem lines_prefix {s : List Char} {ls : List (List Char)} (h : Lines s ls) {pre post : List Char}
    (hs : s = pre ++ post) (hout : ∀ a b, pre = a ++ ['\r'] → post ≠ '\n' :: b) :
    ∃ l r, ls[pre.count '\n']? = some l ∧ l = lastLine pre ++ r := by
  induction h generalizing pre post with
  | @last l hl =>
    subst hs
    have : '\n' ∉ pre := fun h => hl (by simp [h])
    rw [List.count_eq_zero.mpr this, lastLine_no_lf this]
    exact ⟨pre ++ post, post, rfl, rfl⟩
  | @cons l t s ls hl ht hcr _ ih =>
    have inl : ∀ r, l = pre ++ r → ∃ l1 r, (l :: ls)[pre.count '\n']? = some l1 ∧ l1 = lastLine pre ++ r := by
      intro r e
      have : '\n' ∉ pre := fun h => hl (by simp [e, h])
      rw [List.count_eq_zero.mpr this, lastLine_no_lf this]
      exact ⟨l, r, rfl, e⟩
    have past : ∀ p, pre = l ++ t ++ p → s = p ++ post →
        ∃ l1 r, (l :: ls)[pre.count '\n']? = some l1 ∧ l1 = lastLine pre ++ r := by
      intro p e e2
      obtain ⟨l1, r, g1, g2⟩ := ih e2 (fun a b ha => hout (l ++ t ++ a) b (by rw [e, ha]; simp))
      refine ⟨l1, r, ?_, ?_⟩
      · rw [e, List.count_append, List.count_append, List.count_eq_zero.mpr hl, term_count ht,
          show 0 + 1 + p.count '\n' = p.count '\n' + 1 by omega, List.getElem?_cons_succ]
        exact g1
      · rw [e, lastLine_after_term ht]; exact g2
    rw [List.append_assoc] at hs
    rcases List.append_eq_append_iff.mp hs with ⟨u, h1, h2⟩ | ⟨u, h1, h2⟩
    · -- `pre = l ++ u`
      rcases List.append_eq_append_iff.mp h2 with ⟨v, h3, h4⟩ | ⟨v, h3, h4⟩
      · exact past v (by rw [h1, h3, List.append_assoc]) h4
      · rcases ht with rfl | rfl
        · cases u with
          | nil => exact inl [] (by rw [h1]; simp)
          | cons c u =>
            simp only [List.cons_append, List.cons.injEq] at h3
            have := List.nil_eq_append_iff.mp h3.2
            exact past [] (by rw [h1, ← h3.1, this.1]; simp) (by rw [h4, this.2]; rfl)
        · match u with
          | [] => exact inl [] (by rw [h1]; simp)
          | [c] =>
            simp only [List.cons_append, List.cons.injEq, List.nil_append] at h3
            exfalso
            refine hout l s (by rw [h1, ← h3.1]) ?_
            rw [h4, ← h3.2]; rfl
          | c :: d :: u =>
            simp only [List.cons_append, List.cons.injEq] at h3
            have := List.nil_eq_append_iff.mp h3.2.2
            exact past [] (by rw [h1, ← h3.1, ← h3.2.1, this.1]; simp) (by rw [h4, this.2]; rfl)
    · exact inl u h1

/-! ### a concrete segmentation -/

/-- the pairs of characters with no boundary between them: CR LF, and a combining acute accent after anything else -/
def sampleJoins (a b : Char) : Bool :=
  (a = '\r' && b = '\n') || (a ≠ '\r' && a ≠ '\n' && b = '\u0301')

/-- puts a character before a segmented text -/
def sampleGlue (c : Char) : List (List Char) → List (List Char)
  | (d :: g) :: gs => if sampleJoins c d then (c :: d :: g) :: gs else [c] :: (d :: g) :: gs
  | gs => [c] :: gs

/-- the segmentation with `sampleJoins` -/
def sampleSeg : List Char → List (List Char)
  | [] => []
  | c :: cs => sampleGlue c (sampleSeg cs)

/-- a grapheme of the sample segmentation -/
def SampleChain : List Char → Prop
  | [] => False
  | [_] => True
  | c :: d :: g => sampleJoins c d = true ∧ SampleChain (d :: g)

/-- there is a boundary between `c` and what follows -/
def SampleBreak (c : Char) : List (List Char) → Prop
  | (d :: _) :: _ => sampleJoins c d = false
  | _ => True

/-- the segmented texts -/
def SampleWS : List (List Char) → Prop
  | [] => True
  | g :: gs => SampleChain g ∧ (∀ c, g.getLast? = some c → SampleBreak c gs) ∧ SampleWS gs

theorem sampleSeg_chain {c : Char} {cs r : List Char} (h : SampleChain (c :: cs))
    (hb : ∀ d, (c :: cs).getLast? = some d → SampleBreak d (sampleSeg r)) :
    sampleSeg (c :: cs ++ r) = (c :: cs) :: sampleSeg r := by
  induction cs generalizing c with
  | nil =>
    have := hb c rfl
    show sampleGlue c (sampleSeg r) = _
    generalize sampleSeg r = R at this ⊢
    match R with
    | [] => rfl
    | [] :: gs => rfl
    | (d :: g) :: gs => rw [sampleGlue, if_neg (by rw [this]; decide)]
  | cons d cs ih =>
    have e := ih h.2 (fun x hx => hb x (by rw [List.getLast?_cons_cons]; exact hx))
    show sampleGlue c (sampleSeg (d :: cs ++ r)) = _
    rw [e, sampleGlue, if_pos h.1]

theorem sampleSeg_ws {gs : List (List Char)} (h : SampleWS gs) : sampleSeg gs.flatten = gs := by
  induction gs with
  | nil => rfl
  | cons g gs ih =>
    obtain ⟨h1, h2, h3⟩ := h
    have e := ih h3
    cases g with
    | nil => exact absurd h1 id
    | cons c cs =>
      rw [List.flatten_cons, sampleSeg_chain h1 (by rw [e]; exact h2), e]

theorem sampleGlue_ws (c : Char) {gs : List (List Char)} (h : SampleWS gs) : SampleWS (sampleGlue c gs) := by
  match gs, h with
  | [], _ => exact ⟨trivial, fun _ _ => trivial, trivial⟩
  | [] :: gs, h => exact absurd h.1 id
  | (d :: g) :: gs, h =>
    rw [sampleGlue]
    by_cases hj : sampleJoins c d = true
    · rw [if_pos hj]
      exact ⟨⟨hj, h.1⟩, fun x hx => h.2.1 x (by rw [List.getLast?_cons_cons] at hx; exact hx), h.2.2⟩
    · rw [if_neg hj]
      refine ⟨trivial, fun x hx => ?_, h⟩
      cases hx
      exact Bool.eq_false_iff.mpr hj

theorem sampleSeg_isWS (s : List Char) : SampleWS (sampleSeg s) := by
  induction s with
  | nil => trivial
  | cons c s ih => exact sampleGlue_ws c ih

theorem sampleGlue_flatten (c : Char) (gs : List (List Char)) : (sampleGlue c gs).flatten = c :: gs.flatten := by
  match gs with
  | [] => rfl
  | [] :: gs => rfl
  | (d :: g) :: gs => rw [sampleGlue]; split <;> rfl

theorem sampleWS_drop {gs : List (List Char)} (h : SampleWS gs) (n : Nat) : SampleWS (gs.drop n) := by
  induction n generalizing gs with
  | zero => exact h
  | succ n ih =>
    cases gs with
    | nil => exact h
    | cons g gs => exact ih h.2.2

theorem sampleWS_take {gs : List (List Char)} (h : SampleWS gs) (n : Nat) : SampleWS (gs.take n) := by
  induction n generalizing gs with
  | zero => exact trivial
  | succ n ih =>
    cases gs with
    | nil => exact h
    | cons g gs =>
      refine ⟨h.1, fun c hc => ?_, ih h.2.2⟩
      have := h.2.1 c hc
      match gs, n with
      | [], n => simp [SampleBreak]
      | g' :: gs, 0 => exact trivial
      | [] :: gs, n + 1 => exact trivial
      | (d :: g') :: gs, n + 1 => exact this

theorem sampleWS_append {as bs : List (List Char)} (ha : SampleWS as) (hb : SampleWS bs)
    (h : ∀ g c, as.getLast? = some g → g.getLast? = some c → SampleBreak c bs) : SampleWS (as ++ bs) := by
  induction as with
  | nil => exact hb
  | cons g as ih =>
    refine ⟨ha.1, fun c hc => ?_, ih ha.2.2 (fun g' c hg hc => h g' c ?_ hc)⟩
    · cases as with
      | nil => exact h g c rfl hc
      | cons g' as =>
        have := ha.2.1 c hc
        match g' with
        | [] => exact trivial
        | d :: g'' => exact this
    · cases as with
      | nil => cases hg
      | cons g'' as => rw [List.getLast?_cons_cons]; exact hg

/-- the segmenter of `sampleSeg` -/
def sampleSegmenter : Segmenter where
  graphemes := sampleSeg
  flatten_graphemes s := by
    induction s with
    | nil => rfl
    | cons c s ih => rw [sampleSeg, sampleGlue_flatten, ih]
  ne_nil s h := by
    have := sampleSeg_isWS s
    generalize sampleSeg s = gs at *
    induction gs with
    | nil => cases h
    | cons g gs ih =>
      rcases List.mem_cons.mp h with rfl | h
      · exact this.1
      · exact ih h this.2.2

theorem sampleSeg_last {s : List Char} {g : List Char} {c : Char} (hg : (sampleSeg s).getLast? = some g)
    (hc : g.getLast? = some c) : ∃ s', s = s' ++ [c] := by
  obtain ⟨gs, e⟩ := List.getLast?_eq_some_iff.mp hg
  obtain ⟨g', e'⟩ := List.getLast?_eq_some_iff.mp hc
  refine ⟨gs.flatten ++ g', ?_⟩
  have := sampleSegmenter.flatten_graphemes s
  rw [← this]
  show (sampleSeg s).flatten = _
  rw [e, e', List.flatten_append, List.append_assoc]; simp

theorem sampleSegments : Segments sampleSegmenter where
  stable s i n := sampleSeg_ws (sampleWS_take (sampleWS_drop (sampleSeg_isWS s) i) n)
  line a t b ht hcr := by
    show sampleSeg (a ++ t ++ b) = sampleSeg a ++ t :: sampleSeg b
    have e : a ++ t ++ b = (sampleSeg a ++ t :: sampleSeg b).flatten := by
      have h1 := sampleSegmenter.flatten_graphemes a
      have h2 := sampleSegmenter.flatten_graphemes b
      rw [List.flatten_append, List.flatten_cons]
      show a ++ t ++ b = (sampleSegmenter.graphemes a).flatten ++ (t ++ (sampleSegmenter.graphemes b).flatten)
      rw [h1, h2, List.append_assoc]
    rw [e]
    apply sampleSeg_ws
    have hlast : ∀ c, t.getLast? = some c → SampleBreak c (sampleSeg b) := by
      intro c hc
      have : c = '\n' := by rcases ht with rfl | rfl <;> (cases hc; rfl)
      subst this
      generalize sampleSeg b = B
      match B with
      | [] => exact trivial
      | [] :: gs => exact trivial
      | (d :: g) :: gs => exact (by simp [SampleBreak, sampleJoins])
    have hchain : SampleChain t := by
      rcases ht with rfl | rfl
      · exact trivial
      · exact ⟨by decide, trivial⟩
    refine sampleWS_append (sampleSeg_isWS a) ⟨hchain, hlast, sampleSeg_isWS b⟩ (fun g c hg hc => ?_)
    obtain ⟨a', ea⟩ := sampleSeg_last hg hc
    rcases ht with rfl | rfl
    · show sampleJoins c '\n' = false
      have : c ≠ '\r' := by rintro rfl; exact hcr rfl a' ea
      simp [sampleJoins, this]
    · show sampleJoins c '\r' = false
      simp only [sampleJoins]
      have h1 : decide ('\r' = '\n') = false := by decide
      have h2 : decide ('\r' = '\u0301') = false := by decide
      rw [h1, h2, Bool.and_false, Bool.and_false]; rfl

end Tombi
