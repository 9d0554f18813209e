import Verif.Spec.Locate
import Verif.Proofs.TextPos
/-! Proofs about `token_at_position`. -/
namespace Tombi.Locate

theorem le_iff {a b : Position} : a.le b = true ↔ a.line < b.line ∨ a.line = b.line ∧ a.column ≤ b.column := by
  simp only [Position.le, Bool.or_eq_true, Bool.and_eq_true, decide_eq_true_eq, beq_iff_eq]

theorem pos_ext {a b : Position} (h1 : a.line = b.line) (h2 : a.column = b.column) : a = b := by
  cases a; cases b; simp_all

theorem le_refl' (a : Position) : a.le a = true := le_iff.2 (Or.inr ⟨rfl, Nat.le_refl _⟩)

theorem le_trans' {a b c : Position} (h1 : a.le b = true) (h2 : b.le c = true) : a.le c = true := by
  rw [le_iff] at *; omega

theorem le_antisymm' {a b : Position} (h1 : a.le b = true) (h2 : b.le a = true) : a = b := by
  rw [le_iff] at *; exact pos_ext (by omega) (by omega)

theorem le_total' {a b : Position} (h : ¬ a.le b = true) : b.le a = true := by
  rw [le_iff] at *; omega

/-- A relative position of no text. -/
def Zero (r : RelPosition) : Prop := r = ⟨0, 0⟩

theorem le_add (s : Position) (r : RelPosition) : s.le (s.add r) = true := by
  rw [le_iff]; unfold Position.add; simp only []
  by_cases h : r.line = 0
  · right; rw [if_pos h]; omega
  · left; omega

theorem add_zero (s : Position) : s.add ⟨0, 0⟩ = s := rfl

theorem add_eq {s : Position} {r : RelPosition} (h : s.add r = s) : r = ⟨0, 0⟩ := by
  have h1 := congrArg Position.line h
  have h2 := congrArg Position.column h
  unfold Position.add at h1 h2
  simp only [] at h1 h2
  have : r.line = 0 := by omega
  rw [if_pos this] at h2
  cases r; simp_all

theorem add_add (s : Position) (a b : RelPosition) : (s.add a).add b = s.add (a.add b) := by
  unfold Position.add RelPosition.add
  simp only [Position.mk.injEq]
  refine ⟨by omega, ?_⟩
  by_cases h2 : b.line = 0
  · simp only [if_pos h2]
    by_cases h1 : a.line = 0
    · simp only [h1, h2, if_pos, Nat.add_assoc]
    · rw [if_neg h1, if_neg (by omega)]
  · simp only [if_neg h2]
    rw [if_neg (by omega)]

theorem rel_zero_add (a : RelPosition) : RelPosition.add ⟨0, 0⟩ a = a := by
  unfold RelPosition.add; cases a; simp

theorem rel_assoc (a b c : RelPosition) : (a.add b).add c = a.add (b.add c) := by
  unfold RelPosition.add
  simp only [RelPosition.mk.injEq]
  refine ⟨by omega, ?_⟩
  by_cases h2 : c.line = 0
  · simp only [if_pos h2]
    by_cases h1 : b.line = 0
    · simp only [h1, h2, if_pos, Nat.add_assoc]
    · rw [if_neg h1, if_neg (by omega)]
  · simp only [if_neg h2]
    rw [if_neg (by omega)]

theorem new_add (s : Position) (r : RelPosition) : Range.new s (s.add r) = ⟨s, s.add r⟩ := by
  unfold Range.new; rw [if_pos (le_add s r)]

/-- The columns and lines of a text that is not empty. -/
theorem relOf_ne {G : Segmenter} {t : List Char} (h : t ≠ []) : RelPosition.of G t ≠ ⟨0, 0⟩ := by
  have key : ∀ (gs : List (List Char)) (r : RelPosition), r ≠ ⟨0, 0⟩ →
      gs.foldl (fun r g => if g = ['\n'] ∨ g = ['\r', '\n'] then (⟨r.line + 1, 0⟩ : RelPosition) else ⟨r.line, r.column + 1⟩) r
        ≠ ⟨0, 0⟩ := by
    intro gs
    induction gs with
    | nil => intro r hr; exact hr
    | cons g gs ih =>
      intro r hr
      rw [List.foldl_cons]
      apply ih
      split <;> intro e <;> simp at e
  unfold RelPosition.of
  cases hg : G.graphemes t with
  | nil =>
    have := G.flatten_graphemes t
    rw [hg] at this
    exact absurd this.symm h
  | cons g gs =>
    rw [List.foldl_cons]
    apply key
    split <;> intro e <;> simp at e

theorem relOf_nil {G : Segmenter} : RelPosition.of G [] = ⟨0, 0⟩ := by
  unfold RelPosition.of
  cases hg : G.graphemes [] with
  | nil => rfl
  | cons g gs =>
    have h1 := G.flatten_graphemes []
    rw [hg] at h1
    have h2 := G.ne_nil []
    rw [hg] at h2
    simp at h1
    exact absurd (by simp [h1.1]) h2

/-! ### pieces of a line of positions -/

/-- A piece: something with the relative position of its text. -/
structure Piece (α : Type) where
  val : α
  rel : RelPosition

/-- The pieces with their ranges. -/
def ranges {α : Type} (s : Position) : List (Piece α) → List (α × Range)
  | [] => []
  | x :: xs => (x.val, ⟨s, s.add x.rel⟩) :: ranges (s.add x.rel) xs

def total {α : Type} (xs : List (Piece α)) : RelPosition := xs.foldr (fun x r => x.rel.add r) ⟨0, 0⟩

theorem ranges_append {α : Type} (s : Position) (xs ys : List (Piece α)) :
    ranges s (xs ++ ys) = ranges s xs ++ ranges (s.add (total xs)) ys := by
  induction xs generalizing s with
  | nil => rfl
  | cons x xs ih => simp only [List.cons_append, ranges, ih, total, List.foldr_cons, add_add]

/-- The pieces a position touches. -/
def hits {α : Type} (s : Position) (xs : List (Piece α)) (p : Position) : List (α × Range) :=
  (ranges s xs).filter fun x => touched x.2 p

theorem touched_iff {r : Range} {p : Position} : touched r p = true ↔ r.start ≠ r.stop ∧ r.start.le p = true ∧ p.le r.stop = true := by
  simp [touched, emptyRange]

theorem hits_cons {α : Type} (s : Position) (x : Piece α) (xs : List (Piece α)) (p : Position) :
    hits s (x :: xs) p = if touched ⟨s, s.add x.rel⟩ p then (x.val, ⟨s, s.add x.rel⟩) :: hits (s.add x.rel) xs p
      else hits (s.add x.rel) xs p := by
  simp only [hits, ranges, List.filter_cons]

/-- No piece is touched before the first of them. -/
theorem hits_before {α : Type} {xs : List (Piece α)} {s p : Position} (h : ¬ s.le p = true) : hits s xs p = [] := by
  induction xs generalizing s with
  | nil => rfl
  | cons x xs ih =>
    rw [hits_cons, if_neg (fun ht => h (touched_iff.1 ht).2.1), ih (fun e => h (le_trans' (le_add s x.rel) e))]

theorem total_cons {α : Type} (x : Piece α) (xs : List (Piece α)) : total (x :: xs) = x.rel.add (total xs) := rfl

theorem rel_add_zero {a b : RelPosition} (h : a.add b = ⟨0, 0⟩) : a = ⟨0, 0⟩ ∧ b = ⟨0, 0⟩ := by
  unfold RelPosition.add at h
  simp only [RelPosition.mk.injEq] at h
  obtain ⟨h1, h2⟩ := h
  rw [if_pos (by omega)] at h2
  cases a; cases b; simp_all

/-- No piece is touched after the last of them. -/
theorem hits_after {α : Type} {xs : List (Piece α)} {s p : Position} (h : ¬ p.le (s.add (total xs)) = true) : hits s xs p = [] := by
  induction xs generalizing s with
  | nil => rfl
  | cons x xs ih =>
    rw [total_cons, ← add_add] at h
    rw [hits_cons, if_neg (fun ht => h (le_trans' (touched_iff.1 ht).2.2 (le_add _ _))), ih h]

/-- No piece of nothing is touched. -/
theorem hits_zero {α : Type} {xs : List (Piece α)} {s p : Position} (h : total xs = ⟨0, 0⟩) : hits s xs p = [] := by
  induction xs generalizing s with
  | nil => rfl
  | cons x xs ih =>
    obtain ⟨h1, h2⟩ := rel_add_zero (total_cons x xs ▸ h)
    rw [hits_cons, h1, add_zero, if_neg (fun ht => (touched_iff.1 ht).1 rfl), ih h2]

/-- At the start of the pieces one is touched, and it starts there. -/
theorem hits_start {α : Type} {xs : List (Piece α)} {s : Position} (h : total xs ≠ ⟨0, 0⟩) :
    ∃ x, hits s xs s = [x] ∧ x.2.start = s := by
  induction xs generalizing s with
  | nil => exact absurd rfl h
  | cons x xs ih =>
    rw [hits_cons]
    by_cases hx : x.rel = ⟨0, 0⟩
    · rw [hx, add_zero, if_neg (fun ht => (touched_iff.1 ht).1 rfl)]
      exact ih (by rw [total_cons, hx, rel_zero_add] at h; exact h)
    · have hne : s ≠ s.add x.rel := fun e => hx (add_eq e.symm)
      rw [if_pos (touched_iff.2 ⟨hne, le_refl' s, le_add _ _⟩), hits_before (fun e => hne (le_antisymm' (le_add _ _) e))]
      exact ⟨_, rfl, rfl⟩

/-- At the end of the pieces one is touched, and it ends there. -/
theorem hits_end {α : Type} {xs : List (Piece α)} {s : Position} (h : total xs ≠ ⟨0, 0⟩) :
    ∃ x, hits s xs (s.add (total xs)) = [x] ∧ x.2.stop = s.add (total xs) := by
  induction xs generalizing s with
  | nil => exact absurd rfl h
  | cons x xs ih =>
    rw [hits_cons, total_cons, ← add_add]
    by_cases hx : total xs = ⟨0, 0⟩
    · rw [hits_zero hx, hx, add_zero]
      rw [total_cons, hx] at h
      have hxr : x.rel ≠ ⟨0, 0⟩ := fun e => h (by rw [e]; rfl)
      rw [if_pos (touched_iff.2 ⟨fun e => hxr (add_eq e.symm), le_add _ _, le_refl' _⟩)]
      exact ⟨_, rfl, rfl⟩
    · rw [if_neg (fun ht => hx (add_eq (le_antisymm' (touched_iff.1 ht).2.2 (le_add _ _))))]
      exact ih hx

/-- Between the start and the end of the pieces one is touched, or two that meet there. -/
theorem hits_some {α : Type} {xs : List (Piece α)} {s p : Position} (h : total xs ≠ ⟨0, 0⟩) (h1 : s.le p = true)
    (h2 : p.le (s.add (total xs)) = true) :
    (∃ x, hits s xs p = [x]) ∨ ∃ x y, hits s xs p = [x, y] ∧ x.2.stop = p ∧ y.2.start = p := by
  induction xs generalizing s with
  | nil => exact absurd rfl h
  | cons x xs ih =>
    rw [total_cons, ← add_add] at h2
    rw [hits_cons]
    by_cases hx : x.rel = ⟨0, 0⟩
    · rw [hx, add_zero] at h2 ⊢
      rw [if_neg (fun ht => (touched_iff.1 ht).1 rfl)]
      exact ih (by rw [total_cons, hx, rel_zero_add] at h; exact h) h1 h2
    · have hne : s ≠ s.add x.rel := fun e => hx (add_eq e.symm)
      by_cases hp : p.le (s.add x.rel) = true
      · rw [if_pos (touched_iff.2 ⟨hne, h1, hp⟩)]
        by_cases hq : (s.add x.rel).le p = true
        · have hpe := le_antisymm' hp hq
          by_cases hz : total xs = ⟨0, 0⟩
          · rw [hits_zero hz]; exact Or.inl ⟨_, rfl⟩
          · obtain ⟨y, hy1, hy2⟩ := hits_start (s := s.add x.rel) hz
            rw [hpe, hy1]
            exact Or.inr ⟨_, _, rfl, rfl, hy2⟩
        · rw [hits_before hq]; exact Or.inl ⟨_, rfl⟩
      · rw [if_neg (fun ht => hp (touched_iff.1 ht).2.2)]
        have hq := le_total' hp
        by_cases hz : total xs = ⟨0, 0⟩
        · rw [hz, add_zero] at h2; exact absurd h2 hp
        · exact ih hz hq h2

theorem hits_append {α : Type} (s : Position) (xs ys : List (Piece α)) (p : Position) :
    hits s (xs ++ ys) p = hits s xs p ++ hits (s.add (total xs)) ys p := by
  simp only [hits, ranges_append, List.filter_append]

theorem mem_ranges {α : Type} {s : Position} {xs : List (Piece α)} {x : α × Range} (h : x ∈ ranges s xs) :
    ∃ y ∈ xs, y.val = x.1 ∧ x.2.stop = x.2.start.add y.rel := by
  induction xs generalizing s with
  | nil => cases h
  | cons y ys ih =>
    rcases List.mem_cons.1 h with h | h
    · exact ⟨y, List.mem_cons_self, by rw [h], by rw [h]⟩
    · obtain ⟨z, h1, h2⟩ := ih h
      exact ⟨z, List.mem_cons_of_mem _ h1, h2⟩

/-! ### the tokens of a tree -/

/-- What identifies a token. -/
abbrev Name := List Nat × SyntaxKind × List Char

mutual
/-- The tokens of a tree with their places. -/
def leaves (G : Segmenter) (path : List Nat) : Green → List (Piece Name)
  | .token kind text => [⟨(path, kind, text), RelPosition.of G text⟩]
  | .node _ children => leavesL G path 0 children
def leavesL (G : Segmenter) (path : List Nat) (i : Nat) : List Green → List (Piece Name)
  | [] => []
  | c :: cs => leaves G (path ++ [i]) c ++ leavesL G path (i + 1) cs
end

theorem total_append {α : Type} (xs ys : List (Piece α)) : total (xs ++ ys) = (total xs).add (total ys) := by
  induction xs with
  | nil => exact (rel_zero_add _).symm
  | cons x xs ih => rw [List.cons_append, total_cons, total_cons, ih, rel_assoc]

theorem rel_add_zero' (a : RelPosition) : a.add ⟨0, 0⟩ = a := by unfold RelPosition.add; cases a; simp

mutual
theorem total_leaves (G : Segmenter) : ∀ (g : Green) (path : List Nat), total (leaves G path g) = relPos G g
  | .token kind text, path => by
    simp only [leaves, relPos, total, List.foldr_cons, List.foldr_nil, rel_add_zero']
  | .node kind children, path => by
    rw [leaves, relPos, relPoss_eq G children path 0, rel_zero_add]
theorem relPoss_eq (G : Segmenter) : ∀ (cs : List Green) (path : List Nat) (i : Nat) {before : RelPosition},
    relPoss G before cs = before.add (total (leavesL G path i cs))
  | [], path, i, before => by rw [relPoss, leavesL]; exact (rel_add_zero' _).symm
  | c :: cs, path, i, before => by
    rw [relPoss, leavesL, relPoss_eq G cs path (i + 1), total_append, total_leaves G c, rel_assoc]
end

/-- The children of a node. -/
def kids (G : Segmenter) (i : Nat) : List Green → List (Piece (Nat × Green))
  | [] => []
  | c :: cs => ⟨(i, c), relPos G c⟩ :: kids G (i + 1) cs

theorem total_kids (G : Segmenter) (cs : List Green) (path : List Nat) (i : Nat) :
    total (kids G i cs) = total (leavesL G path i cs) := by
  induction cs generalizing i with
  | nil => rfl
  | cons c cs ih => rw [kids, leavesL, total_cons, total_append, total_leaves, ih]

theorem mem_kids {G : Segmenter} {cs : List Green} {i : Nat} {x : Piece (Nat × Green)} (h : x ∈ kids G i cs) :
    x.val.2 ∈ cs ∧ x.rel = relPos G x.val.2 := by
  induction cs generalizing i with
  | nil => cases h
  | cons c cs ih =>
    rcases List.mem_cons.1 h with h | h
    · rw [h]; exact ⟨List.mem_cons_self, rfl⟩
    · exact ⟨List.mem_cons_of_mem _ (ih h).1, (ih h).2⟩

theorem tokenAtChildren_eq (G : Segmenter) (p : Position) (path : List Nat) (start : Position) (cs : List Green) (i : Nat)
    (before : RelPosition) :
    tokenAtChildren G p path start before i cs
      = (hits (start.add before) (kids G i cs) p).map fun x => tokenAt G p (path ++ [x.1.1]) x.2.start x.1.2 := by
  induction cs generalizing i before with
  | nil => rw [tokenAtChildren]; rfl
  | cons c cs ih =>
    rw [tokenAtChildren, kids, hits_cons]
    simp only [ih, rangeAt, new_add, ← add_add]
    by_cases ht : touched ⟨start.add before, (start.add before).add (relPos G c)⟩ p = true
    · rw [if_pos ht, if_pos ht, List.map_cons]
    · rw [if_neg ht, if_neg ht]

/-- The tokens touched are those touched in the children that are touched. -/
theorem hits_leavesL (G : Segmenter) (p : Position) (path : List Nat) (cs : List Green) (i : Nat) (s : Position) :
    hits s (leavesL G path i cs) p
      = (hits s (kids G i cs) p).flatMap fun x => hits x.2.start (leaves G (path ++ [x.1.1]) x.1.2) p := by
  induction cs generalizing i s with
  | nil => rfl
  | cons c cs ih =>
    rw [leavesL, kids, hits_append, total_leaves, ih, hits_cons]
    by_cases ht : touched ⟨s, s.add (relPos G c)⟩ p = true
    · rw [if_pos ht, List.flatMap_cons]
    · rw [if_neg ht]
      have : hits s (leaves G (path ++ [i]) c) p = [] := by
        by_cases h1 : s.le p = true
        · by_cases h2 : p.le (s.add (relPos G c)) = true
          · by_cases h3 : relPos G c = ⟨0, 0⟩
            · exact hits_zero (by rw [total_leaves, h3])
            · exact absurd (touched_iff.2 ⟨fun e => h3 (add_eq e.symm), h1, h2⟩) ht
          · exact hits_after (by rw [total_leaves]; exact h2)
        · exact hits_before h1
      rw [this, List.nil_append]

/-- A touched token. -/
def toLeaf (x : Name × Range) : Leaf := ⟨x.1.1, x.1.2.1, x.1.2.2, x.2⟩

/-- What `token_at_position` is to find in an element. -/
def Finds (G : Segmenter) (p : Position) (g : Green) : Prop :=
  ∀ (path : List Nat) (s : Position), s.le p = true → p.le (s.add (relPos G g)) = true →
    ((∃ k cs, g = .node k cs) ∨ relPos G g ≠ ⟨0, 0⟩) →
    ∃ r, tokenAt G p path s g = .ok r ∧ r.toList = (hits s (leaves G path g) p).map toLeaf

theorem single_of_toList {r : AtOffset Leaf} {a : Leaf} (h : r.toList = [a]) : r = .single a := by
  cases r with
  | none => cases h
  | single b => simp only [AtOffset.toList, List.cons.injEq, and_true] at h; rw [h]
  | between b c => simp [AtOffset.toList] at h

theorem finds_node {G : Segmenter} {p : Position} {k : SyntaxKind} {cs : List Green} (h : ∀ c ∈ cs, Finds G p c) :
    Finds G p (.node k cs) := by
  intro path s h1 h2 _
  have hrel : relPos G (.node k cs) = total (kids G 0 cs) := by
    rw [relPos, relPoss_eq G cs path 0, rel_zero_add, total_kids]
  rw [tokenAt, leaves, rangeAt, new_add]
  by_cases hz : relPos G (.node k cs) = ⟨0, 0⟩
  · rw [if_pos (by rw [hz, add_zero]; simp [emptyRange])]
    refine ⟨_, rfl, ?_⟩
    rw [hits_zero (by rw [← total_kids, ← hrel, hz])]
    rfl
  · rw [if_neg (by simp only [emptyRange, beq_iff_eq]; exact fun e => hz (add_eq e.symm)), tokenAtChildren_eq, add_zero, hits_leavesL]
    have hmem : ∀ x ∈ hits s (kids G 0 cs) p, x.1.2 ∈ cs ∧ x.2.stop = x.2.start.add (relPos G x.1.2) ∧ touched x.2 p = true := by
      intro x hx
      obtain ⟨hx1, hx2⟩ := List.mem_filter.1 hx
      obtain ⟨y, y1, y2, y3⟩ := mem_ranges hx1
      obtain ⟨z1, z2⟩ := mem_kids y1
      rw [y2] at z1 z2
      exact ⟨z1, by rw [y3, z2], hx2⟩
    have hfind : ∀ x ∈ hits s (kids G 0 cs) p, relPos G x.1.2 ≠ ⟨0, 0⟩ ∧ ∃ r, tokenAt G p (path ++ [x.1.1]) x.2.start x.1.2 = .ok r
        ∧ r.toList = (hits x.2.start (leaves G (path ++ [x.1.1]) x.1.2) p).map toLeaf := by
      intro x hx
      obtain ⟨m1, m2, m3⟩ := hmem x hx
      obtain ⟨t1, t2, t3⟩ := touched_iff.1 m3
      have hne : relPos G x.1.2 ≠ ⟨0, 0⟩ := fun e => t1 (by rw [m2, e, add_zero])
      exact ⟨hne, h _ m1 _ _ t2 (by rw [← m2]; exact t3) (Or.inr hne)⟩
    rcases hits_some (xs := kids G 0 cs) (s := s) (p := p) (by rw [← hrel]; exact hz) h1 (by rw [← hrel]; exact h2) with
      ⟨x, hx⟩ | ⟨x, y, hxy, hx, hy⟩
    · obtain ⟨_, r, r1, r2⟩ := hfind x (by rw [hx]; exact List.mem_cons_self)
      rw [hx]
      refine ⟨r, ?_, ?_⟩
      · simp only [List.map_cons, List.map_nil, combine]; exact r1
      · rw [r2]; simp only [List.flatMap_cons, List.flatMap_nil, List.append_nil]
    · have mx := hmem x (by rw [hxy]; exact List.mem_cons_self)
      have my := hmem y (by rw [hxy]; exact List.mem_cons_of_mem _ List.mem_cons_self)
      obtain ⟨nx, r, r1, r2⟩ := hfind x (by rw [hxy]; exact List.mem_cons_self)
      obtain ⟨ny, q, q1, q2⟩ := hfind y (by rw [hxy]; exact List.mem_cons_of_mem _ List.mem_cons_self)
      obtain ⟨a, ha, _⟩ := hits_end (xs := leaves G (path ++ [x.1.1]) x.1.2) (s := x.2.start) (by rw [total_leaves]; exact nx)
      rw [total_leaves, ← mx.2.1, hx] at ha
      obtain ⟨b, hb, _⟩ := hits_start (xs := leaves G (path ++ [y.1.1]) y.1.2) (s := y.2.start) (by rw [total_leaves]; exact ny)
      rw [hy] at hb
      rw [hy] at q1 q2
      rw [ha] at r2
      rw [hb] at q2
      have hr := single_of_toList r2
      have hq := single_of_toList q2
      rw [hxy]
      refine ⟨.between (toLeaf a) (toLeaf b), ?_, ?_⟩
      · simp only [List.map_cons, List.map_nil, combine, r1, hy, q1, hr, hq]
      · simp only [List.flatMap_cons, List.flatMap_nil, List.append_nil, ha, hy, hb, AtOffset.toList]; rfl

mutual
theorem finds (G : Segmenter) (p : Position) : ∀ g : Green, Finds G p g
  | .token k t => by
    intro path s h1 h2 h3
    have hz : relPos G (.token k t) ≠ ⟨0, 0⟩ := by
      rcases h3 with ⟨_, _, e⟩ | h
      · cases e
      · exact h
    refine ⟨_, by rw [tokenAt], ?_⟩
    rw [leaves, hits_cons]
    rw [relPos] at hz h2
    rw [if_pos (touched_iff.2 ⟨fun e => hz (add_eq e.symm), h1, h2⟩)]
    simp only [hits, ranges, List.filter_nil, List.map_cons, List.map_nil, AtOffset.toList, toLeaf, rangeAt, new_add, relPos]
  | .node k cs => finds_node (findsL G p cs)
theorem findsL (G : Segmenter) (p : Position) : ∀ (cs : List Green), ∀ c ∈ cs, Finds G p c
  | [], _, h => nomatch h
  | d :: ds, c, h => by
    rcases List.mem_cons.1 h with h | h
    · rw [h]; exact finds G p d
    · exact findsL G p ds c h
end

/-! ### against the specification -/

/-- The tokens as pieces. -/
def piece (G : Segmenter) (t : SyntaxKind × List Char) : Piece (SyntaxKind × List Char) := ⟨t, RelPosition.of G t.2⟩

mutual
theorem leaves_tokens (G : Segmenter) : ∀ (g : Green) (path : List Nat),
    (leaves G path g).map (fun x => (x.val.2, x.rel)) = (tokensOf g).map fun t => (t, RelPosition.of G t.2)
  | .token k t, path => by rw [leaves, tokensOf]; rfl
  | .node k cs, path => by rw [leaves, tokensOf]; exact leavesL_tokens G cs path 0
theorem leavesL_tokens (G : Segmenter) : ∀ (cs : List Green) (path : List Nat) (i : Nat),
    (leavesL G path i cs).map (fun x => (x.val.2, x.rel)) = (tokensOfs cs).map fun t => (t, RelPosition.of G t.2)
  | [], path, i => rfl
  | c :: cs, path, i => by
    rw [leavesL, tokensOfs, List.map_append, List.map_append, leaves_tokens G c, leavesL_tokens G cs]
end

/-- A touched token without its place in the tree. -/
def toPlaced (x : Name × Range) : Placed := ⟨x.1.2.1, x.1.2.2, x.2.start, x.2.stop⟩

theorem ranges_placed {G : Segmenter} {xs : List (Piece Name)} {ws : List (SyntaxKind × List Char)} {s : Position}
    (h : xs.map (fun x => (x.val.2, x.rel)) = ws.map fun t => (t, RelPosition.of G t.2)) :
    (ranges s xs).map toPlaced = placed G s ws ∧ s.add (total xs) = endOf G s ws := by
  induction ws generalizing xs s with
  | nil =>
    cases xs with
    | nil => exact ⟨rfl, rfl⟩
    | cons x xs => simp at h
  | cons w ws ih =>
    cases xs with
    | nil => simp at h
    | cons x xs =>
      simp only [List.map_cons, List.cons.injEq, Prod.mk.injEq] at h
      obtain ⟨⟨h1, h2⟩, h3⟩ := h
      obtain ⟨k, t⟩ := w
      have e1 : x.val.2.1 = k := by rw [h1]
      have e2 : x.val.2.2 = t := by rw [h1]
      obtain ⟨i1, i2⟩ := ih (s := s.add x.rel) h3
      simp only [] at h2
      constructor
      · rw [ranges, List.map_cons, placed, i1]
        simp only [toPlaced, e1, e2, Position.addText, ← h2]
      · rw [total_cons, ← add_add, i2]
        simp only [endOf, List.foldl_cons, Position.addText, ← h2]

theorem placed_stop {G : Segmenter} {ws : List (SyntaxKind × List Char)} {s : Position} {x : Placed} (h : x ∈ placed G s ws) :
    x.stop = x.start.addText G x.text := by
  induction ws generalizing s with
  | nil => cases h
  | cons w ws ih =>
    obtain ⟨k, t⟩ := w
    rcases List.mem_cons.1 h with h | h
    · rw [h]
    · exact ih h

theorem addText_eq {G : Segmenter} {s : Position} {t : List Char} : s = s.addText G t ↔ t = [] := by
  constructor
  · intro h
    apply Classical.byContradiction
    intro hn
    exact relOf_ne hn (add_eq h.symm)
  · intro h; rw [h, Position.addText, relOf_nil, add_zero]

theorem touches_iff {G : Segmenter} {ws : List (SyntaxKind × List Char)} {s p : Position} {x : Placed} (h : x ∈ placed G s ws) :
    Touches p x ↔ touched ⟨x.start, x.stop⟩ p = true := by
  rw [touched_iff, Touches]
  simp only []
  rw [placed_stop h, Ne, Ne, addText_eq]

theorem filter_map' {α β : Type} (f : α → β) (q : α → Bool) (q' : β → Bool) (xs : List α) (h : ∀ x ∈ xs, q x = q' (f x)) :
    (xs.filter q).map f = (xs.map f).filter q' := by
  induction xs with
  | nil => rfl
  | cons x xs ih =>
    rw [List.map_cons, List.filter_cons, List.filter_cons, ← h x List.mem_cons_self]
    have := ih fun y hy => h y (List.mem_cons_of_mem _ hy)
    split
    · rw [List.map_cons, this]
    · exact this

theorem hits_placed {G : Segmenter} {xs : List (Piece Name)} {ws : List (SyntaxKind × List Char)} {s p : Position}
    (h : xs.map (fun x => (x.val.2, x.rel)) = ws.map fun t => (t, RelPosition.of G t.2)) :
    (hits s xs p).map toPlaced = (placed G s ws).filter fun t => Touches p t := by
  obtain ⟨h1, _⟩ := ranges_placed (s := s) h
  rw [hits, filter_map' toPlaced _ (fun t => decide (Touches p t)), h1]
  intro x hx
  have hm : toPlaced x ∈ placed G s ws := by rw [← h1]; exact List.mem_map_of_mem hx
  rw [Bool.eq_iff_iff, decide_eq_true_eq, touches_iff hm]
  rfl

/-! ### the place of a token -/

mutual
theorem leaves_at (G : Segmenter) : ∀ (g : Green) (path : List Nat), ∀ x ∈ leaves G path g,
    ∃ rest, x.val.1 = path ++ rest ∧ elementAt g rest = some (.token x.val.2.1 x.val.2.2)
  | .token k t, path, x, h => by
    rw [leaves, List.mem_singleton] at h
    exact ⟨[], by rw [h, List.append_nil], by rw [h, elementAt]⟩
  | .node k cs, path, x, h => by
    rw [leaves] at h
    obtain ⟨j, c, rest, h1, h2, h3⟩ := leavesL_at G cs path 0 x h
    rw [Nat.zero_add] at h2
    exact ⟨j :: rest, h2, by rw [elementAt, h1]; exact h3⟩
theorem leavesL_at (G : Segmenter) : ∀ (cs : List Green) (path : List Nat) (i : Nat), ∀ x ∈ leavesL G path i cs,
    ∃ j c rest, cs[j]? = some c ∧ x.val.1 = path ++ (i + j) :: rest ∧ elementAt c rest = some (.token x.val.2.1 x.val.2.2)
  | [], path, i, x, h => by rw [leavesL] at h; cases h
  | c :: cs, path, i, x, h => by
    rw [leavesL] at h
    rcases List.mem_append.1 h with h | h
    · obtain ⟨rest, h1, h2⟩ := leaves_at G c (path ++ [i]) x h
      exact ⟨0, c, rest, rfl, by rw [h1]; simp, h2⟩
    · obtain ⟨j, d, rest, h1, h2, h3⟩ := leavesL_at G cs path (i + 1) x h
      exact ⟨j + 1, d, rest, by simpa using h1, by rw [h2]; simp; omega, h3⟩
end

end Tombi.Locate
