import Verif.Proofs.Regex
/-! Helper lemmas: how cursor operations consume text. -/
namespace Tombi

/-- position reached from `p` after the characters `w` (as the cursor computes it) -/
def advPos (p : Position) (w : List Char) : Position :=
  w.foldl (fun p c => p.add (RelPosition.ofChar c)) p

@[simp] theorem advPos_nil (p : Position) : advPos p [] = p := rfl
@[simp] theorem advPos_cons (p : Position) (c : Char) (w : List Char) :
    advPos p (c :: w) = advPos (p.add (RelPosition.ofChar c)) w := rfl
theorem advPos_append (p : Position) (u v : List Char) :
    advPos p (u ++ v) = advPos (advPos p u) v := by simp [advPos]

/-- `c'` is `c` after consuming exactly the characters `w`. -/
structure Adv (c c' : Cursor) (w : List Char) : Prop where
  rest : c.rest = w ++ c'.rest
  off : c'.off = c.off + utf8Len w
  pos : c'.pos = advPos c.pos w
  startOff : c'.startOff = c.startOff
  startPos : c'.startPos = c.startPos
  lineEnding : c'.lineEnding = c.lineEnding

namespace Adv

theorem refl (c : Cursor) : Adv c c [] := ⟨rfl, rfl, rfl, rfl, rfl, rfl⟩

theorem trans {a b c : Cursor} {u v : List Char} (h1 : Adv a b u) (h2 : Adv b c v) :
    Adv a c (u ++ v) where
  rest := by rw [h1.rest, h2.rest, List.append_assoc]
  off := by rw [h2.off, h1.off, utf8Len_append, Nat.add_assoc]
  pos := by rw [h2.pos, h1.pos, advPos_append]
  startOff := by rw [h2.startOff, h1.startOff]
  startPos := by rw [h2.startPos, h1.startPos]
  lineEnding := by rw [h2.lineEnding, h1.lineEnding]

theorem bump_cons {c : Cursor} {x : Char} {xs : List Char} (h : c.rest = x :: xs) :
    Adv c c.bump [x] ∧ c.bump.rest = xs ∧ c.bump.cur = x := by
  unfold Cursor.bump
  rw [h]
  exact ⟨⟨h, rfl, rfl, rfl, rfl, rfl⟩, rfl, rfl⟩

theorem bump_nil {c : Cursor} (h : c.rest = []) :
    Adv c c.bump [] ∧ c.bump.rest = [] ∧ c.bump.cur = eofChar := by
  unfold Cursor.bump
  rw [h]
  exact ⟨⟨by simp [h], rfl, rfl, rfl, rfl, rfl⟩, rfl, rfl⟩

theorem eatN (n : Nat) (c : Cursor) :
    Adv c (Cursor.eatN n c) (c.rest.take n) ∧ (Cursor.eatN n c).rest = c.rest.drop n := by
  induction n generalizing c with
  | zero => exact ⟨refl c, rfl⟩
  | succ n ih =>
    unfold Cursor.eatN
    cases h : c.rest with
    | nil => have := bump_nil h; simpa using ⟨this.1, this.2.1⟩
    | cons x xs =>
      obtain ⟨h1, h2, -⟩ := bump_cons h
      obtain ⟨h3, h4⟩ := ih c.bump
      rw [h2] at h3 h4
      exact ⟨by simpa using h1.trans h3, by simpa using h4⟩

theorem eatWhileLoop (p : Char → Bool) (l : List Char) (c : Cursor) (hl : c.rest = l) :
    Adv c (Cursor.eatWhileLoop p l c) (l.takeWhile p)
      ∧ (Cursor.eatWhileLoop p l c).rest = l.dropWhile p := by
  induction l generalizing c with
  | nil => exact ⟨refl c, hl⟩
  | cons x xs ih =>
    unfold Cursor.eatWhileLoop
    by_cases hp : p x = true
    · obtain ⟨h1, h2, -⟩ := bump_cons hl
      obtain ⟨h3, h4⟩ := ih c.bump h2
      simp only [hp, if_true, List.takeWhile_cons, List.dropWhile_cons]
      exact ⟨h1.trans h3, h4⟩
    · simp only [hp, List.takeWhile_cons, List.dropWhile_cons, Bool.false_eq_true, if_false]
      exact ⟨refl c, hl⟩

theorem eatWhile (p : Char → Bool) (c : Cursor) :
    Adv c (c.eatWhile p) (c.rest.takeWhile p) ∧ (c.eatWhile p).rest = c.rest.dropWhile p :=
  eatWhileLoop p c.rest c rfl

theorem eatMatch (c : Cursor) (e : Nat) :
    Adv c (c.eatMatch e) (c.rest.take (e - 1)) ∧ (c.eatMatch e).rest = c.rest.drop (e - 1) := by
  unfold Cursor.eatMatch
  split
  · exact eatN _ c
  · have : e - 1 = 0 := by omega
    rw [this]
    exact ⟨refl c, rfl⟩

end Adv

theorem Cursor.peek_one (c : Cursor) : c.peek 1 = c.rest.headD eofChar := by
  unfold Cursor.peek
  cases c.rest <;> rfl

/-- `matches` in terms of the remaining text; the first character is the current one. -/
theorem Cursor.matchesTail_iff (c : Cursor) (i : Nat) (xs : List Char)
    (h0 : '\x00' ∉ xs) :
    c.matchesTail i xs = true ↔ ∃ t, c.rest.drop i = xs ++ t := by
  induction xs generalizing i with
  | nil => simp [matchesTail]
  | cons x xs ih =>
    simp only [matchesTail, Bool.and_eq_true, beq_iff_eq]
    rw [ih (i + 1) (fun h => h0 (by simp [h]))]
    unfold peek
    simp only [Nat.add_sub_cancel]
    constructor
    · rintro ⟨h1, t, h2⟩
      rw [List.getD_eq_getElem?_getD] at h1
      cases h3 : c.rest[i]? with
      | none =>
        rw [h3] at h1
        simp [eofChar] at h1
        exact absurd (by simp [← h1]) h0
      | some y =>
        rw [h3] at h1
        simp at h1
        subst h1
        refine ⟨t, ?_⟩
        obtain ⟨hlt, hy⟩ := List.getElem?_eq_some_iff.mp h3
        rw [List.drop_eq_getElem_cons hlt, hy, h2]
        rfl
    · rintro ⟨t, h2⟩
      have hlt : i < c.rest.length := by
        rcases Nat.lt_or_ge i c.rest.length with h | h
        · exact h
        · rw [List.drop_eq_nil_of_le h] at h2; simp at h2
      rw [List.drop_eq_getElem_cons hlt, List.cons_append, List.cons.injEq] at h2
      refine ⟨?_, t, h2.2⟩
      rw [List.getD_eq_getElem?_getD, List.getElem?_eq_getElem hlt, h2.1]
      rfl

theorem Cursor.matches_iff (c : Cursor) (x : Char) (xs : List Char) (h0 : '\x00' ∉ xs) :
    c.matches (x :: xs) = true ↔ c.cur = x ∧ ∃ t, c.rest = xs ++ t := by
  simp only [Cursor.matches, Bool.and_eq_true, beq_iff_eq, Cursor.matchesTail_iff c 0 xs h0,
    List.drop_zero]
  constructor
  · rintro ⟨rfl, h⟩; exact ⟨rfl, h⟩
  · rintro ⟨rfl, h⟩; exact ⟨rfl, h⟩

end Tombi
