import Verif.Proofs.ViewRead2
import Verif.Spec.TomlDocument
/-! The parser on views accepts arrays and inline tables with any comments and newlines between their parts. -/
namespace Tombi.TomlFile
open SyntaxKind
open Tombi.PM (NT)
open View (hd leaf isLead isSep dangLoop)
open Tombi.Format (AstKey)
open Tombi.Formatter

/-- Line breaks and comments, each comment at the end of its line. -/
inductive GapW : View → Prop where
  | nil : GapW []
  | lb {y g} : y.kind = LINE_BREAK → GapW g → GapW (y :: g)
  | comment {x y g} : x.kind = COMMENT → y.kind = LINE_BREAK → GapW g → GapW (x :: y :: g)

/-- The items of a body, without the comments. -/
def nodesOf : Body → List Node
  | .nil => []
  | .dangling _ _ b => nodesOf b
  | .item _ n _ b => n :: nodesOf b

theorem leadW_snoc {cs : List Text} {u : View} (h : LeadW cs u) {x y : VTok} (hx : x.kind = COMMENT) (hy : y.kind = LINE_BREAK) :
    LeadW (cs ++ [x.text]) (u ++ [x, y]) := by
  induction cs generalizing u with
  | nil => have h : u = [] := h; subst h; exact ⟨x, y, [], rfl, hx, rfl, hy, rfl⟩
  | cons c cs ih =>
    obtain ⟨x', y', u', rfl, h1, h2, h3, h4⟩ := h
    exact ⟨x', y', u' ++ [x, y], rfl, h1, h2, h3, ih h4⟩

/-- Comments, without the last line break. -/
theorem leadW_dang {cs : List Text} {u : View} (h : LeadW cs u) (hne : u ≠ []) :
    ∃ w y, u = w ++ [y] ∧ DangW cs w ∧ y.kind = LINE_BREAK := by
  induction cs generalizing u with
  | nil => exact absurd h hne
  | cons c cs ih =>
    obtain ⟨x, y, u', rfl, hx, ht, hy, h⟩ := h
    cases cs with
    | nil =>
      have h : u' = [] := h
      subst h
      exact ⟨[x], y, rfl, ⟨x, rfl, hx, ht⟩, hy⟩
    | cons c' cs =>
      have hu : u' ≠ [] := by obtain ⟨_, _, _, rfl, _⟩ := h; simp
      obtain ⟨w, z, rfl, hw, hz⟩ := ih h hu
      exact ⟨x :: y :: w, z, rfl, ⟨x, y, w, rfl, hx, ht, hy, hw⟩, hz⟩

/-- Comments and one more. -/
theorem leadW_dang_snoc {cs : List Text} {u : View} (h : LeadW cs u) {x : VTok} (hx : x.kind = COMMENT) :
    DangW (cs ++ [x.text]) (u ++ [x]) := by
  induction cs generalizing u with
  | nil => have h : u = [] := h; subst h; exact ⟨x, rfl, hx, rfl⟩
  | cons c cs ih =>
    obtain ⟨x', y', u', rfl, h1, h2, h3, h4⟩ := h
    have := ih h4
    cases cs <;> exact ⟨x', y', u' ++ [x], rfl, h1, h2, h3, this⟩

/-- The text after the loop does not matter for what it reads. -/
def LoopAll {ι : Type} (G : Gram) (d : Nat) (w : View) (br : Nat) (b : Body) (X v' : ι → View) : Prop :=
  ∀ i, ∃ k, LoopRd G d (w ++ X i) br b k (v' i)

section
variable {ι : Type} {G : Gram} {d : Nat} {X v' : ι → View}

theorem loopAll_lb (hG : G.Ok) {y : VTok} (hy : y.kind = LINE_BREAK) {w : View} {br : Nat} {b : Body}
    (h : LoopAll G d w (br + 1) b X v') : LoopAll G d (y :: w) br b X v' := by
  intro i
  obtain ⟨k, h⟩ := h i
  exact ⟨k, loop_lb' hG hy h⟩

theorem loopAll_dang (hG : G.Ok) {cs : List Text} {w0 w : View} {br : Nat} {b : Body} (hw : DangW cs w0)
    (hv : ∀ i, DangEnd (w ++ X i)) (h : LoopAll G d w 0 b X v') : LoopAll G d (w0 ++ w) br (.dangling (blankOf br) cs b) X v' := by
  intro i
  obtain ⟨k, h⟩ := h i
  refine ⟨k, ?_⟩
  rw [List.append_assoc]
  exact loop_dang' hG hw (hv i) h

/-- A gap before something that accepts leading comments. -/
theorem gap_loop (hG : G.Ok) {ms : List Node → Prop}
    (hX : ∀ cs u, LeadW cs u → ∀ br, ∃ b, LoopAll G d u br b X v' ∧ ms (nodesOf b)) {g : View} (hg : GapW g) :
    ∀ cs u, LeadW cs u → ∀ br, ∃ b, LoopAll G d (u ++ g) br b X v' ∧ ms (nodesOf b) := by
  induction hg with
  | nil => intro cs u hu br; rw [List.append_nil]; exact hX cs u hu br
  | @lb y g hy hg ih =>
    intro cs u hu br
    by_cases hne : u = []
    · subst hne
      obtain ⟨b, hb, hm⟩ := ih [] [] rfl (br + 1)
      exact ⟨b, loopAll_lb hG hy hb, hm⟩
    · obtain ⟨w, z, rfl, hw, hz⟩ := leadW_dang hu hne
      obtain ⟨b, hb, hm⟩ := ih [] [] rfl 2
      refine ⟨.dangling (blankOf br) cs b, ?_, hm⟩
      rw [List.append_assoc]
      refine loopAll_dang hG hw (fun i => ⟨hz, ?_⟩) (loopAll_lb hG hz (loopAll_lb hG hy hb))
      show TS_DANGLING_COMMENT_GROUP_END.contains y.kind = true
      rw [hy]; decide
  | @comment x y g hx hy hg ih =>
    intro cs u hu br
    have := ih _ _ (leadW_snoc hu hx hy) br
    rwa [List.append_assoc] at this

/-- Nothing but comments before the end. -/
theorem end_loop (hG : G.Ok) (hE : ∀ i, G.end_.contains (hd (X i)) = true ∧ TS_DANGLING_COMMENT_GROUP_END.contains (hd (X i)) = true
      ∧ isLead (hd (X i)) = false) :
    ∀ cs u, LeadW cs u → ∀ br, ∃ b, LoopAll G d u br b X X ∧ nodesOf b = [] := by
  have h0 : ∀ br, LoopAll G d [] br .nil X X := by
    intro br i
    obtain ⟨h1, h2, h3⟩ := hE i
    have hb : hd (X i) ≠ LINE_BREAK := by intro h; rw [h] at h3; cases h3
    have hc : hd (X i) ≠ COMMENT := by intro h; rw [h] at h3; cases h3
    refine ⟨br, loop_end' hG hb ?_ (by rw [List.nil_append, peek_self hb hc]; exact h1)⟩
    unfold View.dangLen
    exact if_neg hc
  intro cs u hu br
  by_cases hne : u = []
  · subst hne
    exact ⟨.nil, h0 br, rfl⟩
  · obtain ⟨w, z, rfl, hw, hz⟩ := leadW_dang hu hne
    refine ⟨.dangling (blankOf br) cs .nil, ?_, rfl⟩
    exact loopAll_dang hG hw (fun i => ⟨hz, (hE i).2.1⟩) (loopAll_lb hG hz (h0 _))

/-- What follows an item and its comma, whatever the text after the loop. -/
def RestAll (G : Gram) (d : Nat) (w : View) (b : Body) (X v' : ι → View) : Prop :=
  ∀ i, ∃ k, RestRd G d (w ++ X i) b k (v' i)

/-- What follows an item, whatever the text after the loop. -/
def AfterAll (G : Gram) (d : Nat) (w : View) (c : Option Comma) (b : Body) (X v' : ι → View) : Prop :=
  ∀ i, ∃ k, AfterRd G d (w ++ X i) c b k (v' i)

theorem peek_lead_comment {cs : List Text} {u v : View} (hu : LeadW cs u) (hne : u ≠ []) (hv : hd v = LINE_BREAK) :
    hd (View.peek (u ++ v)) = COMMENT := by
  induction cs generalizing u with
  | nil => exact absurd hu hne
  | cons c cs ih =>
    obtain ⟨x, y, u', rfl, hx, -, hy, h⟩ := hu
    rw [List.cons_append, List.cons_append, View.peek, if_neg (by rw [hx]; decide)]
    cases cs with
    | nil =>
      have h : u' = [] := h
      subst h
      rw [if_neg (by rintro ⟨-, -, h⟩; exact h hv)]
      exact hx
    | cons c' cs =>
      have h' := h
      obtain ⟨x', y', u'', rfl, hx', -⟩ := h'
      rw [if_pos ⟨hx, hy, by show x'.kind ≠ _; rw [hx']; decide⟩]
      exact ih h (by simp)

theorem peek_gap {g : View} (hg : GapW g) {v : View} (hv : isLead (hd v) = false) :
    ∀ cs u, LeadW cs u → hd (View.peek (u ++ (g ++ v))) = COMMENT ∨ View.peek (u ++ (g ++ v)) = v := by
  induction hg with
  | nil => intro cs u hu; exact .inr (hu.peek hv)
  | @lb y g hy hg ih =>
    intro cs u hu
    by_cases hne : u = []
    · subst hne
      rw [List.nil_append, List.cons_append, peek_lb hy]
      exact ih [] [] rfl
    · exact .inl (peek_lead_comment hu hne hy)
  | @comment x y g hx hy hg ih =>
    intro cs u hu
    have := ih _ _ (leadW_snoc hu hx hy)
    simpa using this

/-- After a comma or an item, a gap before something that accepts leading comments. -/
theorem gap_rest (hG : G.Ok) (hl : G.line = false) {ms : List Node → Prop} (hX0 : ∀ i, isLead (hd (X i)) = false)
    (hXc : ∀ i, hd (X i) ≠ COMMA)
    (hX : ∀ cs u, LeadW cs u → ∀ br, ∃ b, LoopAll G d u br b X v' ∧ ms (nodesOf b))
    (hR : ∀ y cs u, y.kind = LINE_BREAK → LeadW cs u → ∃ b, RestAll G d (y :: u) b X v' ∧ ms (nodesOf b))
    {g : View} (hg : GapW g) :
    ∀ y cs u, y.kind = LINE_BREAK → LeadW cs u → ∃ b, RestAll G d (y :: (u ++ g)) b X v' ∧ ms (nodesOf b) := by
  induction hg with
  | nil => intro y cs u hy hu; rw [List.append_nil]; exact hR y cs u hy hu
  | @lb z g hz hg ih =>
    intro y cs u hy hu
    obtain ⟨b, hb, hm⟩ := gap_loop hG hX (GapW.lb hz hg) cs u hu 1
    refine ⟨b, fun i => ?_, hm⟩
    obtain ⟨k, hk⟩ := hb i
    refine ⟨k, rest_stop hG ?_ ?_ (by rw [hl]; intro h; cases h) ?_ (loop_lb' hG hy hk)⟩
    · show y.kind ≠ _; rw [hy]; decide
    · rw [List.cons_append, peek_lb hy, List.append_assoc]
      rcases peek_gap (GapW.lb hz hg) (hX0 i) cs u hu with h | h
      · rw [h]; decide
      · rw [h]; exact hXc i
    · by_cases hne : u = []
      · subst hne
        right
        show (TS_LINE_END.contains y.kind && TS_LINE_END.contains z.kind) = true
        rw [hy, hz]; decide
      · left
        rw [List.cons_append, peek_lb hy, List.append_assoc, peek_lead_comment hu hne (show hd (z :: g ++ X i) = _ from hz)]
        cases hf : G.first.contains COMMENT with
        | false => rfl
        | true => exact absurd (hG.first _ hf).1 (by decide)
  | @comment x z g hx hz hg ih =>
    intro y cs u hy hu
    have := ih y _ _ hy (leadW_snoc hu hx hz)
    rwa [List.append_assoc] at this

/-! ### lists of items -/

/-- The tokens of an item without comments. -/
structure ItemOk {μ : Type} (mean : Node → μ) (G : Gram) (d : Nat) (w : View) (m : μ) : Prop where
  first : ∃ x w', w = x :: w' ∧ G.first.contains x.kind = true
  read : ∀ cs u tr wt, LeadW cs u → TrailW tr wt → ∃ n, ItemRd G d (u ++ (w ++ wt)) n ∧ mean n = m

/-- What may stand before a comma: a comment behind the value, empty lines, lines of comments. -/
def CommaGapW (g : View) : Prop :=
  ∃ tr wt p cs u, g = wt ++ (p ++ u) ∧ TrailW tr wt ∧ AllLb p ∧ LeadW cs u ∧ (p = [] → u = [])

/-- The tokens of a list of items, each as `P` says. -/
inductive ListW {μ : Type} (P : μ → View → Prop) : List μ → View → Prop where
  | nil {g} : GapW g → ListW P [] g
  | last {g m w g'} : GapW g → P m w → GapW g' → ListW P [m] (g ++ (w ++ g'))
  | more {g m w g' x ms w'} : GapW g → P m w → CommaGapW g' → x.kind = COMMA → ListW P ms w' →
      ListW P (m :: ms) (g ++ (w ++ (g' ++ x :: w')))

/-- The text after a list. -/
def CloseAt (G : Gram) (v : View) : Prop :=
  G.end_.contains (hd v) = true ∧ TS_DANGLING_COMMENT_GROUP_END.contains (hd v) = true ∧ isLead (hd v) = false ∧ hd v ≠ COMMA

theorem CloseAt.first {v : View} (h : CloseAt G v) (hG : G.Ok) : G.first.contains (hd v) = false := by
  cases hf : G.first.contains (hd v) with
  | false => rfl
  | true => have := (hG.first _ hf).2.2.2; rw [h.1] at this; cases this

theorem notLead {k : SyntaxKind} (h : isLead k = false) : k ≠ LINE_BREAK ∧ k ≠ COMMENT := by
  revert h; cases k <;> decide

/-- The list is read by the loop over groups, and after a comma. -/
def Both {μ : Type} (mean : Node → μ) (G : Gram) (d : Nat) (X : ι → View) (w : View) (ms : List μ) : Prop :=
  (∀ cs u, LeadW cs u → ∀ br, ∃ b, LoopAll G d (u ++ w) br b X X ∧ (nodesOf b).map mean = ms) ∧
  ∃ tr wt w2, w = wt ++ w2 ∧ TrailW tr wt ∧ ∃ b, RestAll G d w2 b X X ∧ (nodesOf b).map mean = ms

theorem gap_both {μ : Type} (mean : Node → μ) (hG : G.Ok) (hl : G.line = false) (hE : ∀ i, CloseAt G (X i)) {g : View}
    (hg : GapW g) : Both mean G d X g [] := by
  have hloop : ∀ cs u, LeadW cs u → ∀ br, ∃ b, LoopAll G d u br b X X ∧ (nodesOf b).map mean = [] := by
    intro cs u hu br
    obtain ⟨b, h1, h2⟩ := end_loop (d := d) hG (fun i => ⟨(hE i).1, (hE i).2.1, (hE i).2.2.1⟩) cs u hu br
    exact ⟨b, h1, by rw [h2]; rfl⟩
  have hR : ∀ y cs u, y.kind = LINE_BREAK → LeadW cs u → ∃ b, RestAll G d (y :: u) b X X ∧ (nodesOf b).map mean = [] := by
    intro y cs u hy hu
    obtain ⟨b, hb, hm⟩ := hloop cs u hu 1
    refine ⟨b, fun i => ?_, hm⟩
    obtain ⟨k, hk⟩ := hb i
    have hp : View.peek (y :: u ++ X i) = X i := by rw [List.cons_append, peek_lb hy, hu.peek (hE i).2.2.1]
    refine ⟨k, rest_stop hG ?_ ?_ (by rw [hl]; intro h; cases h) (.inl ?_) (loop_lb' hG hy hk)⟩
    · show y.kind ≠ _; rw [hy]; decide
    · rw [hp]; exact (hE i).2.2.2
    · rw [hp]; exact (hE i).first hG
  refine ⟨gap_loop hG (ms := fun l => l.map mean = []) hloop hg, ?_⟩
  have main := fun {g : View} (hg : GapW g) => gap_rest (d := d) (v' := X) hG hl (ms := fun l => l.map mean = [])
    (fun i => (hE i).2.2.1) (fun i => (hE i).2.2.2) hloop hR hg
  cases hg with
  | nil =>
    refine ⟨none, [], [], rfl, rfl, ?_⟩
    obtain ⟨b, hb, hm⟩ := hloop [] [] rfl 0
    refine ⟨b, fun i => ?_, hm⟩
    obtain ⟨k, hk⟩ := hb i
    obtain ⟨h1, h2⟩ := notLead (hE i).2.2.1
    refine ⟨k, rest_stop hG h2 ?_ (by rw [hl]; intro h; cases h) (.inl ?_) hk⟩
    · rw [List.nil_append, peek_self h1 h2]; exact (hE i).2.2.2
    · rw [List.nil_append, peek_self h1 h2]; exact (hE i).first hG
  | lb hy hg => exact ⟨none, [], _, rfl, rfl, main hg _ [] [] hy rfl⟩
  | comment hx hy hg => exact ⟨some _, [_], _, rfl, ⟨_, rfl, hx, rfl⟩, main hg _ [] [] hy rfl⟩

/-- What follows an item: a comment, then perhaps a comma, then the rest. -/
def TailOk {μ : Type} (mean : Node → μ) (G : Gram) (d : Nat) (X : ι → View) (w : View) (ms : List μ) : Prop :=
  ∃ tr wt w2 c b, w = wt ++ w2 ∧ TrailW tr wt ∧ AfterAll G d w2 c b X X ∧ (nodesOf b).map mean = ms

theorem item_both {μ : Type} {mean : Node → μ} (hG : G.Ok) (hl : G.line = false) {g wi w : View} {m : μ} {ms : List μ}
    (hg : GapW g) (hi : ItemOk mean G d wi m) (ht : TailOk mean G d X w ms) : Both mean G d X (g ++ (wi ++ w)) (m :: ms) := by
  obtain ⟨tr, wt, w2, c, b0, rfl, htr, hA, hm0⟩ := ht
  obtain ⟨x, wi', rfl, hx⟩ := hi.first
  have hxf := hG.first _ hx
  obtain ⟨hxb, hxc⟩ := notLead hxf.1
  have hxE : x.kind ≠ EOF := by intro h; rw [h] at hxf; exact absurd hxf.2.1 (by decide)
  let Y : ι → View := fun i => x :: wi' ++ (wt ++ (w2 ++ X i))
  have hloop : ∀ cs u, LeadW cs u → ∀ br, ∃ b, LoopAll G d u br b Y X ∧ (nodesOf b).map mean = m :: ms := by
    intro cs u hu br
    obtain ⟨n, hn, hmn⟩ := hi.read cs u tr wt hu htr
    refine ⟨.item (some (blankOf br)) n c b0, fun i => ?_, by simp [nodesOf, hmn, hm0]⟩
    obtain ⟨k, hk⟩ := hA i
    have := loop_item hG (br := br) hn hk
    exact ⟨k, by simpa [Y] using this⟩
  have hR : ∀ y cs u, y.kind = LINE_BREAK → LeadW cs u → ∃ b, RestAll G d (y :: u) b Y X ∧ (nodesOf b).map mean = m :: ms := by
    intro y cs u hy hu
    obtain ⟨n, hn, hmn⟩ := hi.read cs u tr wt hu htr
    refine ⟨.item none n c b0, fun i => ?_, by simp [nodesOf, hmn, hm0]⟩
    obtain ⟨k, hk⟩ := hA i
    have hne := hn.hd_ne hG (w2 ++ X i)
    have hsep : isSep ([y] ++ (u ++ (x :: wi' ++ wt)) ++ (w2 ++ X i)) = false := by
      show (_ && TS_LINE_END.contains (hd (u ++ (x :: wi' ++ wt) ++ (w2 ++ X i)))) = false
      rw [Bool.and_eq_false_iff]
      right
      cases hh : TS_LINE_END.contains (hd (u ++ (x :: wi' ++ wt) ++ (w2 ++ X i))) with
      | false => rfl
      | true => rcases lineEnd_iff hh with h | h
                · exact absurd h hne.1
                · exact absurd h hne.2
    have := rest_item hG (p := [y]) (fun z hz => by rw [List.mem_singleton.mp hz]; exact hy) hn hsep
      (by show y.kind ≠ _; rw [hy]; decide) (by rw [hl]; intro h; cases h) hk
    exact ⟨k, by simpa [Y] using this⟩
  have h1 := fun {g : View} (hg : GapW g) => gap_loop (d := d) (v' := X) (X := Y) hG (ms := fun l => l.map mean = m :: ms) hloop hg
  have main := fun {g : View} (hg : GapW g) => gap_rest (d := d) (v' := X) (X := Y) hG hl (ms := fun l => l.map mean = m :: ms)
    (fun _ => hxf.1) (fun _ => hxf.2.2.1) hloop hR hg
  have hYl : ∀ {w : View} {br : Nat} {b : Body}, LoopAll G d w br b Y X → LoopAll G d (w ++ (x :: wi' ++ (wt ++ w2))) br b X X := by
    intro w br b h i
    obtain ⟨k, hk⟩ := h i
    exact ⟨k, by simpa [Y] using hk⟩
  have hYr : ∀ {w : View} {b : Body}, RestAll G d w b Y X → RestAll G d (w ++ (x :: wi' ++ (wt ++ w2))) b X X := by
    intro w b h i
    obtain ⟨k, hk⟩ := h i
    exact ⟨k, by simpa [Y] using hk⟩
  refine ⟨fun cs u hu br => ?_, ?_⟩
  · obtain ⟨b, hb, hm⟩ := h1 hg cs u hu br
    exact ⟨b, by simpa using hYl hb, hm⟩
  · cases hg with
    | nil =>
      refine ⟨none, [], _, rfl, rfl, ?_⟩
      obtain ⟨n, hn, hmn⟩ := hi.read [] [] tr wt rfl htr
      refine ⟨.item none n c b0, fun i => ?_, by simp [nodesOf, hmn, hm0]⟩
      obtain ⟨k, hk⟩ := hA i
      have := rest_item hG (p := []) (fun z hz => by cases hz) hn (notSep (by exact hxb) (by exact hxE)) (by exact hxc)
        (by rw [hl]; intro h; cases h) hk
      exact ⟨k, by simpa using this⟩
    | lb hy hg =>
      obtain ⟨b, hb, hm⟩ := main hg _ [] [] hy rfl
      exact ⟨none, [], _, rfl, rfl, b, by simpa using hYr hb, hm⟩
    | comment hx hy hg =>
      obtain ⟨b, hb, hm⟩ := main hg _ [] [] hy rfl
      exact ⟨some _, [_], _, rfl, ⟨_, rfl, hx, rfl⟩, b, by simpa using hYr hb, hm⟩

theorem list_both {μ : Type} {mean : Node → μ} {P : μ → View → Prop} (hG : G.Ok) (hl : G.line = false)
    (hE : ∀ i, CloseAt G (X i)) {ms : List μ} {w : View} (h : ListW P ms w)
    (hP : ∀ m ∈ ms, ∀ w, P m w → ItemOk mean G d w m) : Both mean G d X w ms := by
  induction h with
  | nil hg => exact gap_both mean hG hl hE hg
  | @last g m w g' hg hp hg' =>
    refine item_both hG hl hg (hP m (by simp) w hp) ?_
    obtain ⟨-, tr, wt, w2, rfl, htr, b, hb, hm⟩ := gap_both (d := d) mean hG hl hE hg'
    refine ⟨tr, wt, w2, none, b, rfl, htr, fun i => ?_, hm⟩
    obtain ⟨k, hk⟩ := hb i
    exact ⟨k, afterRd_none hG hk⟩
  | @more g m w g' x ms w' hg hp hg' hx _ ih =>
    refine item_both hG hl hg (hP m (by simp) w hp) ?_
    obtain ⟨-, tr', wt', w2, rfl, htr', b, hb, hm⟩ := ih fun m hm => hP m (by simp [hm])
    obtain ⟨tr, wt, p, cs, u, rfl, htr, hp, hu, hpu⟩ := hg'
    refine ⟨tr, wt, p ++ (u ++ x :: (wt' ++ w2)), some ⟨cs, tr'⟩, b, by simp, htr, fun i => ?_, hm⟩
    obtain ⟨k, hk⟩ := hb i
    have := afterRd_comma hG (c := ⟨cs, tr'⟩) hp hu hx htr' (v := w2 ++ X i) ?_ hk
    · exact ⟨k, by simpa using this⟩
    · cases p with
      | nil =>
        have := hpu rfl
        subst this
        show x.kind ≠ _; rw [hx]; decide
      | cons y p => show y.kind ≠ _; rw [hp.cons.1]; decide

end

/-! ### values -/

mutual
/-- The tokens of a value. -/
def ValW : Val → View → Prop
  | .lit k t, w => View.isLiteral k = true ∧ ∃ x : VTok, w = [x] ∧ x.kind = k ∧ x.text = t
  | .array items, w => ∃ (o : VTok) (wi : View) (e : VTok), o.kind = BRACKET_START ∧ e.kind = BRACKET_END ∧
      w = o :: (wi ++ [e]) ∧ itemsW items wi
  | .table pairs, w => ∃ (o : VTok) (wi : View) (e : VTok), o.kind = BRACE_START ∧ e.kind = BRACE_END ∧
      w = o :: (wi ++ [e]) ∧ pairsW pairs wi
/-- The tokens of a pair. -/
def PairW : Pair → View → Prop
  | .mk ks v, w => ∃ (kw : View) (e : VTok) (wv : View), KeysW ks kw ∧ e.kind = EQUAL ∧ ValW v wv ∧ w = kw ++ e :: wv
/-- The tokens between the brackets of an array. -/
def itemsW : List Val → View → Prop
  | [], w => GapW w
  | v :: rest, w => ∃ g wv g', GapW g ∧ ValW v wv ∧ (rest = [] ∧ GapW g' ∧ w = g ++ (wv ++ g') ∨
      ∃ (x : VTok) (w' : View), CommaGapW g' ∧ x.kind = COMMA ∧ itemsW rest w' ∧ w = g ++ (wv ++ (g' ++ x :: w')))
/-- The tokens between the braces of an inline table. -/
def pairsW : List Pair → View → Prop
  | [], w => GapW w
  | p :: rest, w => ∃ g wv g', GapW g ∧ PairW p wv ∧ (rest = [] ∧ GapW g' ∧ w = g ++ (wv ++ g') ∨
      ∃ (x : VTok) (w' : View), CommaGapW g' ∧ x.kind = COMMA ∧ pairsW rest w' ∧ w = g ++ (wv ++ (g' ++ x :: w')))
end

/-- The value of a node that is no pair. -/
def meanVal (n : Node) : Option Val := if n.isPair then none else some (valOf n)

/-- The pair of a node. -/
def meanPair : Node → Option Pair
  | .pair _ ks _ v => some (.mk ks (valOf v))
  | _ => none

theorem itemsW_list {items : List Val} {w : View} (h : itemsW items w) :
    ListW (fun (m : Option Val) w => ∃ v, m = some v ∧ ValW v w) (items.map some) w := by
  induction items generalizing w with
  | nil => rw [itemsW] at h; exact .nil h
  | cons v rest ih =>
    rw [itemsW] at h
    obtain ⟨g, wv, g', hg, hv, h | h⟩ := h
    · obtain ⟨rfl, hg', rfl⟩ := h
      exact .last hg ⟨v, rfl, hv⟩ hg'
    · obtain ⟨x, w', hg', hx, hr, rfl⟩ := h
      exact .more hg ⟨v, rfl, hv⟩ hg' hx (ih hr)

theorem pairsW_list {pairs : List Pair} {w : View} (h : pairsW pairs w) :
    ListW (fun (m : Option Pair) w => ∃ v, m = some v ∧ PairW v w) (pairs.map some) w := by
  induction pairs generalizing w with
  | nil => rw [pairsW] at h; exact .nil h
  | cons v rest ih =>
    rw [pairsW] at h
    obtain ⟨g, wv, g', hg, hv, h | h⟩ := h
    · obtain ⟨rfl, hg', rfl⟩ := h
      exact .last hg ⟨v, rfl, hv⟩ hg'
    · obtain ⟨x, w', hg', hx, hr, rfl⟩ := h
      exact .more hg ⟨v, rfl, hv⟩ hg' hx (ih hr)

theorem valsOf_nodes {b : Body} {items : List Val} (h : (nodesOf b).map meanVal = items.map some) : valsOf b = items := by
  match b, h with
  | .nil, h => cases items <;> simp [nodesOf, valsOf] at h ⊢
  | .dangling _ _ b, h => rw [valsOf]; exact valsOf_nodes h
  | .item _ n _ b, h =>
    cases items with
    | nil => simp [nodesOf] at h
    | cons v rest =>
      simp only [nodesOf, List.map_cons, List.cons.injEq] at h
      rw [valsOf, valsOf_nodes h.2]
      have := h.1
      unfold meanVal at this
      split at this
      · cases this
      · rw [Option.some.inj this]

theorem pairsOf_nodes {b : Body} {pairs : List Pair} (h : (nodesOf b).map meanPair = pairs.map some) : pairsOf b = pairs := by
  match b, h with
  | .nil, h => cases pairs <;> simp [nodesOf, pairsOf] at h ⊢
  | .dangling _ _ b, h => rw [pairsOf]; exact pairsOf_nodes h
  | .item _ n _ b, h =>
    cases pairs with
    | nil => simp [nodesOf] at h
    | cons v rest =>
      simp only [nodesOf, List.map_cons, List.cons.injEq] at h
      cases n with
      | pair l ks t v' =>
        rw [pairsOf, pairsOf_nodes h.2]
        have := h.1
        simp only [meanPair, Option.some.injEq] at this
        rw [this]
      | _ => cases h.1

theorem ValW.hd {v : Val} {w : View} (h : ValW v w) : ∃ x w', w = x :: w' ∧ TS_VALUE_FIRST.contains x.kind = true := by
  cases v with
  | lit k t =>
    rw [ValW] at h
    obtain ⟨hk, x, rfl, rfl, -⟩ := h
    exact ⟨x, [], rfl, (isLiteral_facts hk).2.2.1⟩
  | array items =>
    rw [ValW] at h
    obtain ⟨o, wi, e, ho, -, rfl, -⟩ := h
    exact ⟨o, _, rfl, by rw [ho]; decide⟩
  | table pairs =>
    rw [ValW] at h
    obtain ⟨o, wi, e, ho, -, rfl, -⟩ := h
    exact ⟨o, _, rfl, by rw [ho]; decide⟩

theorem pair_item {G : Gram} (hG : G.item = .keyValue ∧ G.first = TS_KEY_FIRST) {d : Nat} {ks : List AstKey} {v : Val} {w : View}
    (h : PairW (.mk ks v) w) (hv : ∀ w, ValW v w → ItemOk meanVal gArr d w (some v)) :
    ItemOk meanPair G d w (some (.mk ks v)) := by
  rw [PairW] at h
  obtain ⟨kw, e, wv, hk, he, hw, rfl⟩ := h
  refine ⟨?_, fun cs u tr wt hu ht => ?_⟩
  · obtain ⟨x, kw', rfl, hx⟩ := hk.first
    exact ⟨x, _, rfl, by rw [hG.2]; exact hx⟩
  · obtain ⟨n, hn, hm⟩ := (hv wv hw).read [] [] tr wt rfl ht
    rw [List.nil_append] at hn
    obtain ⟨x, w', hx, hxf⟩ := hw.hd
    unfold meanVal at hm
    split at hm
    · cases hm
    · rename_i hnp
      have := itemRd_pair hG hu hk he hn (by rw [hx]; exact (gArr_ok.first _ hxf).1) (by simpa using hnp)
      refine ⟨_, by simpa using this, ?_⟩
      simp only [meanPair, Option.some.inj hm]

theorem arr_close (e : VTok) (he : e.kind = BRACKET_END) (rest : View) : CloseAt gArr (e :: rest) := by
  unfold CloseAt
  simp only [hd, he]
  decide

theorem inl_close (e : VTok) (he : e.kind = BRACE_END) (rest : View) : CloseAt gInl (e :: rest) := by
  unfold CloseAt
  simp only [hd, he]
  decide

/-- A comment behind the opening bracket, and the rest. -/
theorem split_open {μ : Type} {P : μ → View → Prop} (hP : ∀ m w, P m w → ∃ x w', w = x :: w' ∧ x.kind ≠ COMMENT) {ms : List μ}
    {w : View} (h : ListW P ms w) :
    ∃ s ws wb, w = ws ++ wb ∧ TrailW s ws ∧ hd wb ≠ COMMENT ∧ ListW P ms wb := by
  have key : ∀ {g : View}, GapW g → (hd g ≠ COMMENT) ∨ ∃ x y g', g = x :: y :: g' ∧ x.kind = COMMENT ∧ y.kind = LINE_BREAK ∧ GapW g' := by
    intro g hg
    cases hg with
    | nil => left; decide
    | lb hy hg => left; show VTok.kind _ ≠ _; rw [hy]; decide
    | comment hx hy hg => exact .inr ⟨_, _, _, rfl, hx, hy, hg⟩
  cases h with
  | nil hg =>
    rcases key hg with h | ⟨x, y, g', rfl, hx, hy, hg'⟩
    · exact ⟨none, [], _, rfl, rfl, h, .nil hg⟩
    · exact ⟨some x.text, [x], _, rfl, ⟨x, rfl, hx, rfl⟩, by show y.kind ≠ _; rw [hy]; decide, .nil (.lb hy hg')⟩
  | @last g m w g2 hg hp hg2 =>
    rcases key hg with h | ⟨x, y, g', rfl, hx, hy, hg'⟩
    · refine ⟨none, [], _, rfl, rfl, ?_, .last hg hp hg2⟩
      cases g with
      | nil => obtain ⟨z, w', rfl, hz⟩ := hP m w hp; exact hz
      | cons z g => exact h
    · exact ⟨some x.text, [x], _, rfl, ⟨x, rfl, hx, rfl⟩, by show y.kind ≠ _; rw [hy]; decide, .last (.lb hy hg') hp hg2⟩
  | @more g m w g2 z ms w' hg hp hg2 hz hr =>
    rcases key hg with h | ⟨x, y, g', rfl, hx, hy, hg'⟩
    · refine ⟨none, [], _, rfl, rfl, ?_, .more hg hp hg2 hz hr⟩
      cases g with
      | nil => obtain ⟨z, w', rfl, hz⟩ := hP m w hp; exact hz
      | cons z g => exact h
    · exact ⟨some x.text, [x], _, rfl, ⟨x, rfl, hx, rfl⟩, by show y.kind ≠ _; rw [hy]; decide, .more (.lb hy hg') hp hg2 hz hr⟩

theorem hd_app {w : View} {x : VTok} (hx : x.kind ≠ COMMENT) (h : hd w ≠ COMMENT) (v : View) : hd (w ++ x :: v) ≠ COMMENT := by
  cases w with
  | nil => exact hx
  | cons y w => exact h

mutual
theorem val_item (n d : Nat) (v : Val) (hn : v.Nested n) (hd' : d + n ≤ maxRecursionDepth) (w : View) (h : ValW v w) :
    ItemOk meanVal gArr d w (some v) := by
  match v, hn, h with
  | .lit k t, _, h =>
    rw [ValW] at h
    obtain ⟨hk, x, rfl, rfl, rfl⟩ := h
    refine ⟨⟨x, [], rfl, (isLiteral_facts hk).2.2.1⟩, fun cs u tr wt hu ht => ⟨_, itemRd_lit hu hk ht, rfl⟩⟩
  | .array items, hn, h =>
    have hh := h
    rw [ValW] at h
    obtain ⟨o, wi, e, ho, he, rfl, hi⟩ := h
    cases n with
    | zero => simp [Val.Nested] at hn
    | succ n =>
      rw [Val.Nested] at hn
      refine ⟨hh.hd, fun cs u tr wt hu ht => ?_⟩
      obtain ⟨s, ws, wb, rfl, hs, hc, hL⟩ := split_open (by
        rintro m w ⟨v, -, hv⟩
        obtain ⟨x, w', rfl, hx⟩ := hv.hd
        exact ⟨x, w', rfl, (notLead (gArr_ok.first _ hx).1).2⟩) (itemsW_list hi)
      have hB := list_both (d := d + 1) (mean := meanVal) (X := fun rest : View => e :: rest) gArr_ok rfl (fun rest => arr_close e he rest) hL (by
        rintro m hm w ⟨v, rfl, hv⟩
        exact items_item n (d + 1) items hn (by omega) v (by simpa using hm) w hv)
      obtain ⟨b, hb, hm⟩ := hB.1 [] [] rfl 0
      have := itemRd_array (d := d) (by omega) hu ho hs (b := b) (fun rest => ⟨hd_app (by rw [he]; decide) hc rest, hb rest⟩) he ht
      refine ⟨_, by simpa using this, ?_⟩
      simp only [meanVal, Node.isPair, valOf, valsOf_nodes hm]
      rfl
  | .table pairs, hn, h =>
    have hh := h
    rw [ValW] at h
    obtain ⟨o, wi, e, ho, he, rfl, hi⟩ := h
    cases n with
    | zero => simp [Val.Nested] at hn
    | succ n =>
      rw [Val.Nested] at hn
      refine ⟨hh.hd, fun cs u tr wt hu ht => ?_⟩
      obtain ⟨s, ws, wb, rfl, hs, hc, hL⟩ := split_open (by
        rintro m w ⟨⟨ks, v⟩, -, hv⟩
        rw [PairW] at hv
        obtain ⟨kw, e, wv, hk, -, -, rfl⟩ := hv
        obtain ⟨x, kw', rfl, hx⟩ := hk.first
        exact ⟨x, _, rfl, (notLead (gInl_ok.first _ hx).1).2⟩) (pairsW_list hi)
      have hB := list_both (d := d + 1) (mean := meanPair) (X := fun rest : View => e :: rest) gInl_ok rfl (fun rest => inl_close e he rest) hL (by
        rintro m hm w ⟨v, rfl, hv⟩
        exact pairs_item ⟨rfl, rfl⟩ n (d + 1) pairs hn (by omega) v (by simpa using hm) w hv)
      obtain ⟨b, hb, hm⟩ := hB.1 [] [] rfl 0
      have := itemRd_table (d := d) (by omega) hu ho hs (b := b) (fun rest => ⟨hd_app (by rw [he]; decide) hc rest, hb rest⟩) he ht
      refine ⟨_, by simpa using this, ?_⟩
      simp only [meanVal, Node.isPair, valOf, pairsOf_nodes hm]
      rfl
theorem items_item (n d : Nat) (items : List Val) (hn : itemsNested n items) (hd' : d + n ≤ maxRecursionDepth) (v : Val)
    (hv : v ∈ items) (w : View) (h : ValW v w) : ItemOk meanVal gArr d w (some v) := by
  match items, hn, hv with
  | v' :: rest, hn, hv =>
    rw [itemsNested] at hn
    by_cases h' : v ∈ rest
    · exact items_item n d rest hn.2 hd' v h' w h
    · have e : v = v' := (List.mem_cons.mp hv).resolve_right h'
      rw [e] at h ⊢
      exact val_item n d v' hn.1 hd' w h
theorem pairs_item {G : Gram} (hG : G.item = .keyValue ∧ G.first = TS_KEY_FIRST) (n d : Nat) (pairs : List Pair)
    (hn : pairsNested n pairs) (hd' : d + n ≤ maxRecursionDepth) (p : Pair)
    (hp : p ∈ pairs) (w : View) (h : PairW p w) : ItemOk meanPair G d w (some p) := by
  match pairs, hn, hp with
  | .mk ks v :: rest, hn, hp =>
    rw [pairsNested, Pair.Nested] at hn
    by_cases h' : p ∈ rest
    · exact pairs_item hG n d rest hn.2 hd' p h' w h
    · have e : p = .mk ks v := (List.mem_cons.mp hp).resolve_right h'
      rw [e] at h ⊢
      exact pair_item hG h fun w hw => val_item n d v hn.1 hd' w hw
end

end Tombi.TomlFile
