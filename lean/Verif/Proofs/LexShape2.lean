import Verif.Proofs.LexShape
/-! Shapes of words, numbers and date-times; the dispatch of `advance_token`. -/
namespace Tombi

theorem peek_nth_append {c : Cursor} {xs t : List Char} (h : c.rest = xs ++ t) :
    c.peek (xs.length + 1) = t.headD eofChar := by
  unfold Cursor.peek
  rw [h, Nat.add_sub_cancel, List.getD_eq_getElem?_getD, List.getElem?_append_right (Nat.le_refl _)]
  cases t <;> simp

theorem isKeyword_spec {c : Cursor} {x : Char} {xs : List Char} (h0 : '\x00' ∉ xs)
    (hlen : utf8Len (x :: xs) = xs.length + 1) (h : c.isKeyword (x :: xs) = true) :
    c.cur = x ∧ Adv c (Cursor.eatN xs.length c) xs ∧ SepAfter (Cursor.eatN xs.length c).rest := by
  unfold Cursor.isKeyword at h
  rw [Bool.and_eq_true] at h
  obtain ⟨hc, t, ht⟩ := (Cursor.matches_iff c x xs h0).mp h.1
  obtain ⟨h1, h2⟩ := Adv.eatN xs.length c
  have h3 := h.2
  rw [hlen, peek_nth_append ht] at h3
  rw [ht] at h1 h2
  simp at h1 h2
  refine ⟨hc, h1, ?_⟩
  rw [h2]; exact h3

theorem sep_imp_sepDot {c : Char} (h : isTokenSeparator c = true) :
    isTokenSeparatorWithDot c = true := by
  simp only [isTokenSeparator, isTokenSeparatorWithDot, Bool.or_eq_true] at *
  grind

theorem sepAfter_dropWhile (l : List Char) (p : Char → Bool)
    (hp : ∀ c, p c = false → isTokenSeparatorWithDot c = true) : SepAfter (l.dropWhile p) := by
  unfold SepAfter
  cases h : l.dropWhile p with
  | nil => rfl
  | cons x xs => exact hp _ (head_dropWhile h)

theorem Emit.key {pre : List Char} {c : Cursor}
    (h : ∃ x w, pre = x :: w ∧ isKeyFirst x = true ∧ ∀ d ∈ w, isKeyChar d = true) :
    Emit pre c c.key := by
  obtain ⟨h1, h2⟩ := Adv.eatWhile isKeyChar c
  unfold Cursor.key
  simp only []
  by_cases hs : isTokenSeparatorWithDot ((c.eatWhile isKeyChar).peek 1) = true
  · rw [if_pos hs]
    obtain ⟨x, w, rfl, hx, hw⟩ := h
    refine .ok _ _ _ h1 (by decide) ⟨x, w ++ c.rest.takeWhile isKeyChar, by simp, hx, ?_, ?_⟩
    · intro d hd
      rcases List.mem_append.mp hd with hd | hd
      · exact hw d hd
      · exact mem_takeWhile hd
    · rw [Cursor.peek_one] at hs; exact hs
  · rw [if_neg hs]
    exact .of_adv h1 (Emit.eatFail _ _ _ _)

theorem eatMatch_exact {c : Cursor} {w t : List Char} (h : c.rest = w ++ t) :
    Adv c (c.eatMatch (w.length + 1)) w ∧ (c.eatMatch (w.length + 1)).rest = t := by
  obtain ⟨h1, h2⟩ := Adv.eatMatch c (w.length + 1)
  rw [h] at h1 h2
  simp at h1 h2
  exact ⟨h1, h2⟩

/-- After a regular expression with ASCII alphabet matched the whole "line", exactly the line is
eaten and a separator follows. -/
theorem eatMatch_line {r : Rx} (ha : r.charsBelow 128 = true) {c : Cursor} {e : Nat}
    (h : r.findEnd (c.peekWithCurrentWhile fun x => !isTokenSeparator x) = some e) :
    Adv c (c.eatMatch e) (c.rest.takeWhile fun x => !isTokenSeparator x)
      ∧ SepAfter (c.eatMatch e).rest
      ∧ r.Lang (c.cur :: c.rest.takeWhile fun x => !isTokenSeparator x) := by
  obtain ⟨hL, rfl⟩ := Rx.findEnd_some h
  have hasc := Rx.charsBelow_lang ha hL
  have hlen := utf8Len_ascii hasc
  obtain ⟨h1, h2⟩ := eatMatch_exact (c := c)
    (List.takeWhile_append_dropWhile (p := fun x => !isTokenSeparator x) (l := c.rest)).symm
  rw [hlen]
  unfold Cursor.peekWithCurrentWhile at hL ⊢
  rw [List.length_cons]
  refine ⟨h1, ?_, hL⟩
  rw [h2]
  exact sepAfter_dropWhile _ _ (fun d hd => sep_imp_sepDot (by simpa using hd))

theorem SepAfter.peek {c : Cursor} (h : SepAfter c.rest) :
    isTokenSeparatorWithDot (c.peek 1) = true := by rw [Cursor.peek_one]; exact h

theorem Emit.number {sign : List Char} {c : Cursor} (hs : IsSign sign) (hd : isAsciiDigit c.cur = true) :
    Emit (sign ++ [c.cur]) c c.number := by
  have arm : ∀ (r : Rx) (k : SyntaxKind) (e : Nat), r.charsBelow 128 = true →
      r.findEnd (c.peekWithCurrentWhile fun x => !isTokenSeparator x) = some e →
      k ≠ .LINE_BREAK →
      (∀ text after, SignedRx r text after → Shape k text after) →
      Emit (sign ++ [c.cur]) c
        (if isTokenSeparatorWithDot ((c.eatMatch e).peek 1) = true then (c.eatMatch e).ok k
         else ((c.eatMatch e).eatWhile fun x => !isTokenSeparatorWithDot x).fail .InvalidNumber) := by
    intro r k e ha he hk hsh
    obtain ⟨h1, h2, h3⟩ := eatMatch_line ha he
    rw [if_pos h2.peek]
    refine .ok _ _ _ h1 hk (hsh _ _ ⟨sign, _, hs, ?_, h3, h2, _, _, rfl, hd⟩)
    simp
  unfold Cursor.number
  simp only []
  split
  · next e he => exact arm _ _ e (by decide) he (by decide) (fun _ _ h => Or.inr h)
  · split
    · next e he => exact arm _ _ e (by decide) he (by decide) (fun _ _ h => h)
    · split
      · next e he => exact arm _ _ e (by decide) he (by decide) (fun _ _ h => h)
      · split
        · next e he => exact arm _ _ e (by decide) he (by decide) (fun _ _ h => h)
        · split
          · next e he => exact arm _ _ e (by decide) he (by decide) (fun _ _ h => h)
          · exact Emit.eatFail _ _ _ _

theorem Emit.time {c : Cursor} : Emit [c.cur] c c.time := by
  unfold Cursor.time
  simp only []
  split
  · next e he =>
    obtain ⟨h1, h2, h3⟩ := eatMatch_line (by decide) he
    refine .ok _ _ _ h1 (by decide) ⟨h3, h2, ?_⟩
    intro hm
    have := mem_takeWhile (by simpa using hm)
    simp [isTokenSeparator] at this
  · exact Emit.eatFail _ _ _ _

/-! ### date-times -/

theorem takeWhileIdx_prefix (p : Nat → Char → Bool) (i : Nat) (l : List Char) :
    ∃ t, l = Cursor.takeWhileIdx p i l ++ t := by
  induction l generalizing i with
  | nil => exact ⟨[], rfl⟩
  | cons x xs ih =>
    unfold Cursor.takeWhileIdx
    split
    · obtain ⟨t, ht⟩ := ih (i + 1)
      exact ⟨t, by rw [List.cons_append, ← ht]⟩
    · exact ⟨x :: xs, rfl⟩

theorem takeWhileIdx_stop (p : Nat → Char → Bool) (i : Nat) (l t : List Char)
    (h : l = Cursor.takeWhileIdx p i l ++ t) :
    ∀ d r, t = d :: r → p (i + (Cursor.takeWhileIdx p i l).length) d = false := by
  induction l generalizing i with
  | nil => intro d r hd; subst hd; simp at h
  | cons x xs ih =>
    unfold Cursor.takeWhileIdx at h ⊢
    split at h
    · next hp =>
      rw [if_pos hp]
      simp at h
      intro d r hd
      have := ih (i + 1) h d r hd
      simp only [List.length_cons]
      rw [show i + ((Cursor.takeWhileIdx p (i + 1) xs).length + 1)
        = i + 1 + (Cursor.takeWhileIdx p (i + 1) xs).length by omega]
      exact this
    · next hp =>
      rw [if_neg hp]
      intro d r hd
      simp at h
      rw [← h] at hd
      simp at hd
      simp [← hd.1]
      simpa using hp

theorem takeWhileIdx_append (p : Nat → Char → Bool) (i : Nat) (u v : List Char)
    (h : ∀ j x, p j x = true ∨ x ∉ u) :
    Cursor.takeWhileIdx p i (u ++ v) = u ++ Cursor.takeWhileIdx p (i + u.length) v := by
  induction u generalizing i with
  | nil => simp
  | cons x xs ih =>
    have hx : p i x = true := by
      rcases h i x with h | h
      · exact h
      · simp at h
    simp only [List.cons_append, Cursor.takeWhileIdx, hx, if_true]
    rw [ih (i + 1) (fun j y => by
      rcases h j y with h | h
      · exact Or.inl h
      · exact Or.inr (fun hy => h (by simp [hy])))]
    simp [Nat.add_comm, Nat.add_left_comm]

/-- the predicate used by `date_time` -/
def dtPred (i : Nat) (x : Char) : Bool := (i == 10 && x == ' ') || !isTokenSeparator x

theorem comma_not_mem_dt (i : Nat) (l : List Char) : ',' ∉ Cursor.takeWhileIdx dtPred i l := by
  induction l generalizing i with
  | nil => simp [Cursor.takeWhileIdx]
  | cons x xs ih =>
    unfold Cursor.takeWhileIdx
    split
    · next hp =>
      simp only [List.mem_cons, not_or]
      refine ⟨?_, ih (i + 1)⟩
      rintro rfl
      simp [dtPred, isTokenSeparator] at hp
    · simp

/-- the "line" of `date_time` when the first ten characters look like a date -/
theorem date_line {c : Cursor} (h : c.isDateTime = true) :
    ∃ d9 v, c.rest = d9 ++ v ∧ d9.length = 9 ∧ LexRx.date.Lang (c.cur :: d9) := by
  unfold Cursor.isDateTime at h
  obtain ⟨u, v, huv, hu⟩ := (Rx.matchPrefix_iff _ _).mp h
  have hlen : u.length = 10 := Rx.fixedLen_lang (by decide) hu
  unfold Cursor.peeksWithCurrent at huv
  cases u with
  | nil => simp at hlen
  | cons x xs =>
    simp at huv hlen
    obtain ⟨rfl, huv⟩ := huv
    refine ⟨xs, c.rest.drop 9 , ?_, hlen, hu⟩
    have : c.rest.take 9 = xs := by
      have := congrArg List.length huv
      simp at this
      have hv : v = [] := by
        apply List.eq_nil_of_length_eq_zero; omega
      simp [huv, hv]
    conv => lhs; rw [← List.take_append_drop 9 c.rest, this]

theorem sepAfter_takeWhileIdx {c : Cursor} {w t : List Char}
    (hw : Cursor.takeWhileIdx dtPred 1 c.rest = w) (ht : c.rest = w ++ t) :
    SepAfter t := by
  have := takeWhileIdx_stop dtPred 1 c.rest t (by rw [hw]; exact ht)
  unfold SepAfter
  cases t with
  | nil => rfl
  | cons d r =>
    have := this d r rfl
    simp [dtPred] at this
    exact sep_imp_sepDot this.2

theorem Emit.dateTime {c : Cursor} (h : c.isDateTime = true) : Emit [c.cur] c c.dateTime := by
  obtain ⟨d9, v, hrest, hlen9, hdate⟩ := date_line h
  have hdsep : ∀ x ∈ c.cur :: d9, isTokenSeparator x = false := by
    have := Rx.over_lang (p := fun x => !isTokenSeparator x) (r := LexRx.date) (by decide) hdate
    intro x hx
    simpa using this x hx
  have hdasc : ∀ x ∈ c.cur :: d9, x.toNat < 128 := Rx.charsBelow_lang (by decide) hdate
  have hline : c.peekWithCurrentWhileIdx dtPred
      = c.cur :: (d9 ++ Cursor.takeWhileIdx dtPred 10 v) := by
    unfold Cursor.peekWithCurrentWhileIdx
    rw [hrest, takeWhileIdx_append dtPred 1 d9 v]
    · rw [hlen9]
    · intro j x
      by_cases hx : x ∈ d9
      · left; simp [dtPred, hdsep x (by simp [hx])]
      · right; exact hx
  have hlong : ∀ (r : Rx) (e : Nat), r.charsBelow 128 = true →
      r.findEnd (c.peekWithCurrentWhileIdx dtPred) = some e →
      ∃ w, Adv c (c.eatMatch e) w ∧ SepAfter (c.eatMatch e).rest ∧ r.Lang (c.cur :: w) ∧ ',' ∉ w := by
    intro r e ha he
    obtain ⟨hL, rfl⟩ := Rx.findEnd_some he
    rw [utf8Len_ascii (Rx.charsBelow_lang ha hL)]
    obtain ⟨t, ht⟩ := takeWhileIdx_prefix dtPred 1 c.rest
    unfold Cursor.peekWithCurrentWhileIdx at hL ⊢
    obtain ⟨h1, h2⟩ := eatMatch_exact ht
    refine ⟨_, h1, ?_, hL, comma_not_mem_dt _ _⟩
    simp only [List.length_cons]
    rw [h2]
    exact sepAfter_takeWhileIdx rfl ht
  have htake : byteTake 10 (c.peekWithCurrentWhileIdx dtPred) = some (c.cur :: d9) := by
    rw [hline, ← List.cons_append]
    have := byteTake_append (c.cur :: d9) (Cursor.takeWhileIdx dtPred 10 v)
    rw [utf8Len_ascii hdasc] at this
    simpa [hlen9] using this
  unfold Cursor.dateTime
  have hpred : (fun i x => (i == 10 && x == ' ') || !isTokenSeparator x) = dtPred := rfl
  simp only [hpred]
  split
  · next e he =>
    obtain ⟨w, h1, h2, h3, h4⟩ := hlong _ e (by decide) he
    rw [if_pos h2.peek]
    exact .ok _ _ _ h1 (by decide) ⟨h3, h2, h4⟩
  · split
    · next e he =>
      obtain ⟨w, h1, h2, h3, h4⟩ := hlong _ e (by decide) he
      rw [if_pos h2.peek]
      exact .ok _ _ _ h1 (by decide) ⟨h3, h2, h4⟩
    · rw [htake]
      simp only []
      split
      · next e he =>
        obtain ⟨hL, rfl⟩ := Rx.findEnd_some he
        rw [utf8Len_ascii hdasc, List.length_cons]
        obtain ⟨h1, h2⟩ := eatMatch_exact hrest
        split
        · next hs =>
          refine .ok _ _ _ h1 (by decide) ⟨hL, ?_⟩
          rw [Cursor.peek_one] at hs
          exact hs
        · exact .of_adv h1 (Emit.eatFail _ _ _ _)
      · exact Emit.eatFail _ _ _ _

/-! ### dispatch -/

theorem isKeyFirst_digit {c : Char} (h : isAsciiDigit c = true) : isKeyFirst c = true := by
  simp [isKeyFirst, h]

theorem Emit.digitArm {c : Cursor} (h : isAsciiDigit c.cur = true) :
    Emit [c.cur] c c.digitArm := by
  unfold Cursor.digitArm
  split
  · next hd => exact Emit.dateTime hd
  · split
    · exact Emit.time
    · split
      · exact Emit.number (sign := []) (Or.inl rfl) h
      · exact Emit.key ⟨c.cur, [], rfl, isKeyFirst_digit h, by simp⟩

theorem Emit.floatWord {sign : List Char} {c : Cursor} (hs : IsSign sign)
    (h : c.isKeyword ['i', 'n', 'f'] = true ∨ c.isKeyword ['n', 'a', 'n'] = true) :
    Emit (sign ++ [c.cur]) c ((Cursor.eatN 2 c).ok .FLOAT) := by
  rcases h with h | h
  · obtain ⟨h1, h2, h3⟩ := isKeyword_spec (by decide) (by decide) h
    refine .ok _ _ _ h2 (by decide) (Or.inl ⟨sign, hs, Or.inl ?_, h3⟩)
    rw [h1]; simp
  · obtain ⟨h1, h2, h3⟩ := isKeyword_spec (by decide) (by decide) h
    refine .ok _ _ _ h2 (by decide) (Or.inl ⟨sign, hs, Or.inr ?_, h3⟩)
    rw [h1]; simp

theorem Emit.plusArm {c : Cursor} (h : c.cur = '+') : Emit [c.cur] c c.plusArm := by
  unfold Cursor.plusArm
  simp only []
  cases hr : c.rest with
  | nil =>
    obtain ⟨h1, h2, h3⟩ := Adv.bump_nil hr
    have e1 : c.bump.isKeyword ['i', 'n', 'f'] = false := by
      simp [Cursor.isKeyword, Cursor.matches, h3, eofChar]
    have e2 : c.bump.isKeyword ['n', 'a', 'n'] = false := by
      simp [Cursor.isKeyword, Cursor.matches, h3, eofChar]
    have e3 : isAsciiDigit c.bump.cur = false := by rw [h3]; decide
    rw [e1, e2, e3]
    exact .of_adv h1 (Emit.eatFail _ _ _ _)
  | cons x xs =>
    obtain ⟨h1, h2, h3⟩ := Adv.bump_cons hr
    split
    · next hk =>
      rw [Bool.or_eq_true] at hk
      refine .of_adv h1 ?_
      have := Emit.floatWord (sign := ['+']) (Or.inr (Or.inl rfl)) hk
      rw [h3] at this
      rw [h]
      exact this
    · split
      · next hd =>
        refine .of_adv h1 ?_
        have := Emit.number (c := c.bump) (sign := ['+']) (Or.inr (Or.inl rfl)) hd
        rw [h3] at this
        rw [h]
        exact this
      · exact .of_adv h1 (Emit.eatFail _ _ _ _)

theorem Emit.minusArm {c : Cursor} (h : c.cur = '-') : Emit [c.cur] c c.minusArm := by
  unfold Cursor.minusArm
  split
  · next hk =>
    obtain ⟨h1, h2⟩ := Adv.eatN 3 c
    have h4 : c.rest = c.rest.take 3 ++ c.rest.drop 3 := (List.take_append_drop 3 c.rest).symm
    have h3 : SepAfter (Cursor.eatN 3 c).rest := by
      have hp := peek_nth_append h4
      have : (c.rest.take 3).length = 3 := by
        rcases hk.1 with hk | hk <;> (unfold Cursor.peeks at hk; rw [hk]; rfl)
      rw [this] at hp
      unfold SepAfter
      rw [h2, ← hp]
      exact hk.2
    refine .ok _ _ _ h1 (by decide) (Or.inl ⟨['-'], Or.inr (Or.inr rfl), ?_, h3⟩)
    rcases hk.1 with hk | hk <;> (unfold Cursor.peeks at hk; rw [hk, h]; simp)
  · split
    · next hd =>
      rw [Cursor.peek_one] at hd
      cases hr : c.rest with
      | nil => rw [hr] at hd; exact absurd hd (by decide)
      | cons x xs =>
        rw [hr] at hd
        simp at hd
        obtain ⟨h1, h2, h3⟩ := Adv.bump_cons hr
        simp only []
        split
        · refine .of_adv h1 ?_
          have := Emit.number (c := c.bump) (sign := ['-']) (Or.inr (Or.inr rfl)) (by rw [h3]; exact hd)
          rw [h3] at this
          rw [h]
          exact this
        · refine .of_adv h1 (Emit.key ⟨c.cur, [x], rfl, by rw [h]; decide, ?_⟩)
          intro d hd'
          simp at hd'
          subst hd'
          unfold isAsciiDigit at hd
          simp [isKeyChar, hd]
    · exact Emit.key ⟨c.cur, [], rfl, by rw [h]; decide, by simp⟩

theorem Emit.wordArm {c : Cursor} (h : isKeyFirst c.cur = true) : Emit [c.cur] c c.wordArm := by
  unfold Cursor.wordArm
  split
  · next hk =>
    rw [Bool.or_eq_true] at hk
    exact Emit.floatWord (sign := []) (Or.inl rfl) hk
  · split
    · next hk =>
      obtain ⟨h1, h2, h3⟩ := isKeyword_spec (by decide) (by decide) hk
      refine .ok _ _ _ h2 (by decide) ⟨Or.inl ?_, h3⟩
      rw [h1]; simp
    · split
      · next hk =>
        obtain ⟨h1, h2, h3⟩ := isKeyword_spec (by decide) (by decide) hk
        refine .ok _ _ _ h2 (by decide) ⟨Or.inr ?_, h3⟩
        rw [h1]; simp
      · exact Emit.key ⟨c.cur, [], rfl, h, by simp⟩

theorem Emit.ite {pre : List Char} {c : Cursor} {P : Prop} [Decidable P] {a b : LexStep × Cursor}
    (h1 : P → Emit pre c a) (h2 : ¬ P → Emit pre c b) : Emit pre c (if P then a else b) := by
  by_cases h : P
  · rw [if_pos h]; exact h1 h
  · rw [if_neg h]; exact h2 h

theorem Emit.dispatch (c : Cursor) : Emit [c.cur] c c.dispatch := by
  unfold Cursor.dispatch
  refine Emit.ite Emit.whitespace fun _ => ?_
  refine Emit.ite Emit.lineBreak fun _ => ?_
  refine Emit.ite Emit.lineComment fun _ => ?_
  refine Emit.ite (fun h => Emit.ite Emit.multiLineBasicString fun _ => Emit.basicString h)
    fun _ => ?_
  refine Emit.ite Emit.digitArm fun _ => ?_
  refine Emit.ite (fun h => Emit.ite Emit.multiLineLiteralString fun _ => Emit.literalString h)
    fun _ => ?_
  refine Emit.ite Emit.plusArm fun _ => ?_
  refine Emit.ite Emit.minusArm fun _ => ?_
  refine Emit.ite (fun h => Emit.single (by decide) (by rw [h]; rfl)) fun _ => ?_
  refine Emit.ite (fun h => Emit.single (by decide) (by rw [h]; rfl)) fun _ => ?_
  refine Emit.ite (fun h => Emit.single (by decide) (by rw [h]; rfl)) fun _ => ?_
  refine Emit.ite (fun h => Emit.single (by decide) (by rw [h]; rfl)) fun _ => ?_
  refine Emit.ite (fun h => Emit.single (by decide) (by rw [h]; rfl)) fun _ => ?_
  refine Emit.ite (fun h => Emit.single (by decide) (by rw [h]; rfl)) fun _ => ?_
  refine Emit.ite (fun h => Emit.single (by decide) (by rw [h]; rfl)) fun _ => ?_
  refine Emit.ite (fun h => ?_) fun _ => Emit.eatFail _ _ _ _
  refine Emit.wordArm ?_
  simp only [Bool.or_eq_true] at h
  simp only [isKeyFirst, Bool.or_eq_true]
  grind

end Tombi
