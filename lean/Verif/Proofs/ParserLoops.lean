import Verif.Proofs.ParserFloat
/-! The parser's loops and the parse functions without recursion. -/
namespace Tombi
open SyntaxKind

theorem ts_lineEnd {k : SyntaxKind} : TS_LINE_END.contains k = true ↔ k = LINE_BREAK ∨ k = EOF := by
  simp [TS_LINE_END, TokenSet.contains_new]
theorem ts_commentOrLineEnd {k : SyntaxKind} :
    TS_COMMENT_OR_LINE_END.contains k = true ↔ k = COMMENT ∨ k = LINE_BREAK ∨ k = EOF := by
  simp [TS_COMMENT_OR_LINE_END, TokenSet.contains_new]
theorem ts_nextSection {k : SyntaxKind} :
    TS_NEXT_SECTION.contains k = true ↔ k = BRACKET_START ∨ k = DOUBLE_BRACKET_START ∨ k = EOF := by
  simp [TS_NEXT_SECTION, TokenSet.contains_new]
theorem ts_inlineTableEnd {k : SyntaxKind} :
    TS_INLINE_TABLE_END.contains k = true ↔ k = BRACE_END ∨ k = EOF := by
  simp [TS_INLINE_TABLE_END, TokenSet.contains_new]
theorem ts_arrayEnd {k : SyntaxKind} : TS_ARRAY_END.contains k = true ↔ k = BRACKET_END ∨ k = EOF := by
  simp [TS_ARRAY_END, TokenSet.contains_new]
theorem ts_groupEnd {k : SyntaxKind} : TS_DANGLING_COMMENT_GROUP_END.contains k = true ↔
    k = BRACE_END ∨ k = BRACKET_END ∨ k = LINE_BREAK ∨ k = EOF := by
  simp [TS_DANGLING_COMMENT_GROUP_END, TokenSet.contains_new]
theorem ts_leading {k : SyntaxKind} :
    TS_LEADING_COMMENTS_KINDS.contains k = true ↔ k = COMMENT ∨ k = LINE_BREAK := by
  simp [TS_LEADING_COMMENTS_KINDS, TokenSet.contains_new]

/-- kinds a key may start with -/
def keyFirst (k : SyntaxKind) : Prop := TS_KEY_FIRST.contains k = true
/-- kinds a value may start with -/
def valueFirst (k : SyntaxKind) : Prop := TS_VALUE_FIRST.contains k = true

theorem keyFirst_iff {k : SyntaxKind} : keyFirst k ↔ k ∈ [BARE_KEY, BASIC_STRING, LITERAL_STRING,
    INTEGER_DEC, INTEGER_HEX, INTEGER_OCT, INTEGER_BIN, FLOAT, BOOLEAN, LOCAL_DATE] :=
  TokenSet.contains_new _ _

theorem valueFirst_iff {k : SyntaxKind} : valueFirst k ↔ k ∈ [BASIC_STRING, MULTI_LINE_BASIC_STRING,
    LITERAL_STRING, MULTI_LINE_LITERAL_STRING, INTEGER_DEC, INTEGER_BIN, INTEGER_OCT, INTEGER_HEX,
    FLOAT, BOOLEAN, OFFSET_DATE_TIME, LOCAL_DATE_TIME, LOCAL_DATE, LOCAL_TIME, BRACKET_START,
    BRACE_START, BARE_KEY] :=
  TokenSet.contains_new _ _

/-- what `peek_leading_comments` computes: `n` is where the leading comments starting at `i` end -/
inductive Peek (f : Nat → SyntaxKind) : Nat → Nat → Prop where
  | lb {i n : Nat} : f i = LINE_BREAK → Peek f (i + 1) n → Peek f i n
  | com {i n : Nat} : f i = COMMENT → f (i + 1) = LINE_BREAK → f (i + 2) ≠ LINE_BREAK →
      Peek f (i + 2) n → Peek f i n
  | stop {n : Nat} : f n ≠ LINE_BREAK →
      ¬ (f n = COMMENT ∧ f (n + 1) = LINE_BREAK ∧ f (n + 2) ≠ LINE_BREAK) → Peek f n n

namespace Peek

theorem stop_ne {f : Nat → SyntaxKind} {i n : Nat} (h : Peek f i n) : f n ≠ LINE_BREAK := by
  induction h with
  | lb _ _ ih => exact ih
  | com _ _ _ _ ih => exact ih
  | stop h _ => exact h

theorem le {f : Nat → SyntaxKind} {i n : Nat} (h : Peek f i n) : i ≤ n := by
  induction h with
  | lb _ _ ih => omega
  | com _ _ _ _ ih => omega
  | stop _ _ => omega

theorem skipped {f : Nat → SyntaxKind} {i n : Nat} (h : Peek f i n) :
    ∀ m, i ≤ m → m < n → f m = COMMENT ∨ f m = LINE_BREAK := by
  induction h with
  | @lb i n h1 _ ih =>
    intro m hm hn
    by_cases he : m = i
    · rw [he]; exact Or.inr h1
    · exact ih m (by omega) hn
  | @com i n h1 h2 _ _ ih =>
    intro m hm hn
    by_cases he : m = i
    · rw [he]; exact Or.inl h1
    · by_cases he' : m = i + 1
      · rw [he']; exact Or.inr h2
      · exact ih m (by omega) hn
  | stop _ _ => intro m hm hn; omega

theorem zero {f : Nat → SyntaxKind} {n : Nat} (h : Peek f 0 n) (h1 : f 0 ≠ LINE_BREAK)
    (h2 : f 0 ≠ COMMENT) : n = 0 := by
  cases h with
  | lb h _ => exact absurd h h1
  | com h _ _ _ => exact absurd h h2
  | stop _ _ => rfl

end Peek

/-- what the loop of `dangling_comment_group_len` computes -/
inductive DangLoop (f : Nat → SyntaxKind) : Nat → Option Nat → Prop where
  | noEnd {n : Nat} : ¬ (f (n + 1) = LINE_BREAK ∨ f (n + 1) = EOF) → DangLoop f n none
  | found {n : Nat} : (f (n + 1) = LINE_BREAK ∨ f (n + 1) = EOF) →
      TS_DANGLING_COMMENT_GROUP_END.contains (f (n + 2)) = true → DangLoop f n (some (n + 1))
  | other {n : Nat} : (f (n + 1) = LINE_BREAK ∨ f (n + 1) = EOF) →
      TS_DANGLING_COMMENT_GROUP_END.contains (f (n + 2)) = false → f (n + 2) ≠ COMMENT →
      DangLoop f n none
  | next {n : Nat} {r : Option Nat} : (f (n + 1) = LINE_BREAK ∨ f (n + 1) = EOF) →
      TS_DANGLING_COMMENT_GROUP_END.contains (f (n + 2)) = false → f (n + 2) = COMMENT →
      DangLoop f (n + 2) r → DangLoop f n r

theorem DangLoop.lt {f : Nat → SyntaxKind} {n m : Nat} (h : DangLoop f n (some m)) : n < m := by
  generalize hr : some m = r at h
  induction h with
  | noEnd _ => cases hr
  | found _ _ => cases hr; omega
  | other _ _ _ => cases hr
  | next _ _ _ _ ih => have := ih hr; omega

/-- after the dangling comment groups: not at a line break, and no dangling group ahead -/
def NoDangling (f : Nat → SyntaxKind) : Prop :=
  f 0 ≠ LINE_BREAK ∧ (f 0 = COMMENT → DangLoop f 0 none)

theorem NoDangling.peek_zero {f : Nat → SyntaxKind} {n : Nat} (h : NoDangling f) (hp : Peek f 0 n)
    (hn : f n = BRACE_END ∨ f n = BRACKET_END ∨ f n = EOF) : n = 0 := by
  obtain ⟨h1, h2⟩ := h
  have hge : TS_DANGLING_COMMENT_GROUP_END.contains (f n) = true := by
    rw [ts_groupEnd]
    rcases hn with h | h | h <;> simp [h]
  have key : ∀ i n, Peek f i n → TS_DANGLING_COMMENT_GROUP_END.contains (f n) = true →
      f i ≠ LINE_BREAK → (f i = COMMENT → DangLoop f i none) → i = n := by
    intro i n hp
    induction hp with
    | lb h _ _ => intro _ hne; exact absurd h hne
    | @com i n a b c hp' ih =>
      intro hge _ hd
      cases hd a with
      | noEnd h => exact absurd (Or.inl b) h
      | other _ h3 h4 =>
        have := ih hge c (fun h => absurd h h4)
        subst this
        rw [h3] at hge; cases hge
      | next _ h3 h4 h5 =>
        have := ih hge c (fun _ => h5)
        subst this
        rw [h3] at hge; cases hge
    | stop _ _ => intro _ _ _; rfl
  exact (key 0 n hp hge h1 h2).symm

namespace PM

theorem rem_lt_fuel (p : Parser) : p.rem < loopFuel p := by
  unfold Parser.rem loopFuel
  have h1 : (sig p.rest).length ≤ p.rest.length := List.length_filter_le _ _
  have h2 : p.rest.length ≤ p.input.length := by simp [Parser.rest]
  omega

theorem lt_rem {p : Parser} (hi : Inv p) {n : Nat} {k : SyntaxKind} (h : p.nth n = k) (hk : k ≠ EOF) :
    n < p.rem := by
  have : p.nth n ≠ EOF := by rw [h]; exact hk
  rw [ne_eq, hi.nth_eof] at this
  omega

theorem peekLoop_spec {p : Parser} (hi : Inv p) (fuel n : Nat) (hn : n ≤ p.rem)
    (hf : p.rem < n + fuel) :
    ∃ r, peekLeadingCommentsLoop p fuel n = .ok r ∧ Peek p.nth n r := by
  induction fuel generalizing n with
  | zero => omega
  | succ fuel ih =>
    rw [peekLeadingCommentsLoop]
    simp only [nthAt_plain (k := LINE_BREAK) rfl, nthAt_plain (k := COMMENT) rfl]
    by_cases h1 : p.nth n = LINE_BREAK
    · rw [if_pos (by simp [h1])]
      have := lt_rem hi h1 (by decide)
      obtain ⟨r, hr, hp⟩ := ih (n + 1) (by omega) (by omega)
      exact ⟨r, hr, .lb h1 hp⟩
    · rw [if_neg (by simp [h1])]
      by_cases h2 : p.nth n = COMMENT ∧ p.nth (n + 1) = LINE_BREAK ∧ p.nth (n + 2) ≠ LINE_BREAK
      · obtain ⟨a, b, c⟩ := h2
        rw [if_pos (by simp [a, b, c])]
        have := lt_rem hi b (by decide)
        obtain ⟨r, hr, hp⟩ := ih (n + 2) (by omega) (by omega)
        exact ⟨r, hr, .com a b c hp⟩
      · rw [if_neg]
        · exact ⟨n, rfl, .stop h1 h2⟩
        · simpa [and_assoc] using h2

theorem peek_spec {p : Parser} (hi : Inv p) :
    wp peekLeadingComments (fun n p' => p' = p ∧ Peek p.nth 0 n) p := by
  obtain ⟨r, h1, h2⟩ := peekLoop_spec hi (loopFuel p) 0 (by omega) (by have := rem_lt_fuel p; omega)
  refine ⟨r, p, ?_, rfl, h2⟩
  show (liftM (peekLeadingCommentsLoop p (loopFuel p) 0) : PM Nat) p = _
  rw [h1]
  rfl

theorem eatLoop_spec {k : SyntaxKind} (hk : k ≠ EOF) (hr : rawOf k = 1) (fuel : Nat) {p : Parser}
    (hi : Inv p) (hf : p.rem < fuel) :
    wp (eatLoop k fuel) (fun _ p' => ∃ j, Ran 0 0 j 0 p p' ∧ (∀ i < j, p.nth i = k) ∧ p'.nth 0 ≠ k) p := by
  induction fuel generalizing p with
  | zero => omega
  | succ fuel ih =>
    rw [eatLoop]
    refine wp.seq (eat_spec hi hk) ?_
    rintro b p1 ⟨hb, hran⟩
    rw [nthAt_plain hr] at hb
    cases b with
    | false =>
      refine wp.pure ⟨0, by simpa using hran, by simp, ?_⟩
      have := hran.nth 0
      simp at this
      rw [this]
      intro h; rw [h] at hb; simp at hb
    | true =>
      simp only [if_true, hr] at hran ⊢
      have h0 : p.nth 0 = k := by simpa using hb.symm
      have hrem := hran.rem
      refine (ih hran.inv (by omega)).mono ?_
      rintro _ p2 ⟨j, h1, h2, h3⟩
      refine ⟨1 + j, hran.trans h1, ?_, h3⟩
      intro i hlt
      cases i with
      | zero => exact h0
      | succ i => have := h2 i (by omega); rw [hran.nth] at this; exact this

theorem eatTsLoop_spec {ts : TokenSet} (hts : ∀ k, ts.contains k = true → k ≠ EOF ∧ rawOf k = 1)
    (fuel : Nat) {p : Parser} (hi : Inv p) (hf : p.rem < fuel) :
    wp (eatTsLoop ts fuel) (fun _ p' => ∃ j, Ran 0 0 j 0 p p' ∧
      (∀ i < j, ts.contains (p.nth i) = true) ∧ ts.contains (p'.nth 0) = false) p := by
  induction fuel generalizing p with
  | zero => omega
  | succ fuel ih =>
    rw [eatTsLoop]
    refine wp.seq (eatTs_spec hi hts) ?_
    rintro b p1 ⟨hb, hran⟩
    cases b with
    | false =>
      refine wp.pure ⟨0, by simpa using hran, by simp, ?_⟩
      have := hran.nth 0
      simp at this
      rw [this]
      exact hb.symm
    | true =>
      simp only [if_true] at hran ⊢
      have hrem := hran.rem
      refine (ih hran.inv (by omega)).mono ?_
      rintro _ p2 ⟨j, h1, h2, h3⟩
      refine ⟨1 + j, hran.trans h1, ?_, h3⟩
      intro i hlt
      cases i with
      | zero => exact hb.symm
      | succ i => have := h2 i (by omega); rw [hran.nth] at this; exact this

theorem leadingComments_spec {p : Parser} (hi : Inv p) :
    wp leadingComments (fun _ p' => ∃ j, Ran 0 0 j 0 p p' ∧
      (∀ i < j, p.nth i = COMMENT ∨ p.nth i = LINE_BREAK) ∧
      ¬ (p'.nth 0 = COMMENT ∨ p'.nth 0 = LINE_BREAK)) p := by
  refine wp.bind (wp.get ?_)
  refine (eatTsLoop_spec ?_ _ hi (rem_lt_fuel p)).mono ?_
  · intro k hk
    rcases ts_leading.mp hk with rfl | rfl <;> exact ⟨by decide, rfl⟩
  · rintro _ p' ⟨j, h1, h2, h3⟩
    refine ⟨j, h1, fun i hlt => ts_leading.mp (h2 i hlt), ?_⟩
    rw [← ts_leading, h3]; decide

/-- the leading comments that were peeked are the ones eaten -/
theorem leadingComments_peek {p : Parser} (hi : Inv p) {n : Nat} (hp : Peek p.nth 0 n)
    (hc : p.nth n ≠ COMMENT) :
    wp leadingComments (fun _ p' => Ran 0 0 n 0 p p') p := by
  refine (leadingComments_spec hi).mono ?_
  rintro _ p' ⟨j, h1, h2, h3⟩
  have hj : j = n := by
    rw [h1.nth] at h3
    simp only [Nat.zero_add] at h3
    by_cases hlt : j < n
    · exact absurd (hp.skipped j (by omega) hlt) h3
    · by_cases hgt : n < j
      · rcases h2 n hgt with h | h
        · exact absurd h hc
        · exact absurd h hp.stop_ne
      · omega
  subst hj
  exact h1

theorem trailingComment_spec {p : Parser} (hi : Inv p) :
    wp trailingComment (fun _ p' => ∃ j, Ran 0 0 j 0 p p' ∧ (∀ i < j, p.nth i = COMMENT) ∧
      p'.nth 0 ≠ COMMENT) p := by
  refine wp.bind (wp.get ?_)
  exact eatLoop_spec (by decide) rfl _ hi (rem_lt_fuel p)

theorem eatLineBreaks_spec {p : Parser} (hi : Inv p) :
    wp eatLineBreaks (fun _ p' => ∃ j, Ran 0 0 j 0 p p' ∧ (∀ i < j, p.nth i = LINE_BREAK) ∧
      p'.nth 0 ≠ LINE_BREAK) p := by
  refine wp.bind (wp.get ?_)
  exact eatLoop_spec (by decide) rfl _ hi (rem_lt_fuel p)

theorem bumpUntil_spec {ts : TokenSet} (hts : ts.contains EOF = true) (fuel : Nat) {p : Parser}
    (hi : Inv p) (hf : p.rem < fuel) :
    wp (bumpUntil ts fuel) (fun _ p' => ∃ j, Ran 0 0 j 0 p p' ∧
      (ts.contains (p.nth 0) = false → 1 ≤ j) ∧ ts.contains (p'.nth 0) = true) p := by
  induction fuel generalizing p with
  | zero => omega
  | succ fuel ih =>
    rw [bumpUntil]
    refine wp.bind (wp.read ?_)
    by_cases hc : ts.contains (p.nth 0) = true
    · rw [show p.atTs ts = true from hc]
      exact wp.pure ⟨0, Ran.refl hi 0 0, by simp [hc], hc⟩
    · rw [show p.atTs ts = false from Bool.eq_false_iff.mpr hc]
      have hne : p.nth 0 ≠ EOF := by intro h; rw [h] at hc; exact hc hts
      refine wp.seq (bumpAny_spec hi) ?_
      intro _ p1 hran
      rw [if_neg hne] at hran
      have hrem := hran.rem
      refine (ih hran.inv (by omega)).mono ?_
      rintro _ p2 ⟨j, h1, h2, h3⟩
      exact ⟨1 + j, hran.trans h1, by omega, h3⟩

theorem invalidLine_spec {p : Parser} (hi : Inv p) (k : PErrorKind) :
    wp (invalidLine k) (fun _ p' => ∃ j, Ran 0 0 j 1 p p' ∧ (p.nth 0 ≠ EOF → 1 ≤ j) ∧
      TS_LINE_END.contains (p'.nth 0) = true) p := by
  refine wp.seq (currentRange_spec hi) ?_
  rintro r p1 rfl
  refine wp.seq (error_spec hi _ _) ?_
  intro _ p2 h2
  refine wp.seq (bumpAny_spec h2.inv) ?_
  intro _ p3 h3
  refine wp.bind (wp.get ?_)
  refine (bumpUntil_spec (ts_lineEnd.mpr (Or.inr rfl)) _ h3.inv (rem_lt_fuel p3)).mono ?_
  rintro _ p4 ⟨j, h4, _, h5⟩
  refine ⟨_, (h2.trans h3).trans h4, ?_, h5⟩
  intro hne
  have : p2.nth 0 = p1.nth 0 := by simpa using h2.nth 0
  rw [if_neg (by rw [this]; exact hne)]
  omega

/-! ### keys -/

theorem eatKey_spec (G : Segmenter) {p : Parser} (hi : Inv p) :
    wp (eatKey G) (fun b p' => ∃ j e, Ran 1 0 j e p p' ∧ j + e = 1 ∧ (b = true ↔ j = 1) ∧
      (keyFirst (p.nth 0) ↔ j = 1)) p := by
  refine wp.bind (wp.read ?_)
  have hcur : p.current = p.nth 0 := rfl
  rw [hcur]
  have string : ∀ k, p.nth 0 = k → k ≠ EOF → rawOf k = 1 → k ≠ TOMBSTONE → nestOf k = 0 → keyFirst k →
      wp (do
        let m ← start
        bump k
        complete m k
        return true) (fun b p' => ∃ j e, Ran 1 0 j e p p' ∧ j + e = 1 ∧ (b = true ↔ j = 1) ∧
          (keyFirst k ↔ j = 1)) p := by
    intro k h1 h2 h3 h4 h5 h6
    refine wp.seq (start_spec hi) ?_
    rintro m p1 ⟨hs, hi1⟩
    refine wp.seq (bump_spec hi1 h2 h3 (by rw [hs.same.1]; exact h1)) ?_
    intro _ p2 hr
    refine wp.seq (complete_spec hs hr h4) ?_
    intro _ p3 h
    rw [h5] at h
    exact wp.pure ⟨1, 0, h, rfl, by simp, by simp [h6]⟩
  have remap : ∀ k, p.nth 0 = k → k ≠ EOF → keyFirst k →
      wp (do
        let m ← start
        bumpRemap BARE_KEY
        complete m BARE_KEY
        return true) (fun b p' => ∃ j e, Ran 1 0 j e p p' ∧ j + e = 1 ∧ (b = true ↔ j = 1) ∧
          (keyFirst k ↔ j = 1)) p := by
    intro k h1 h2 h6
    refine wp.seq (start_spec hi) ?_
    rintro m p1 ⟨hs, hi1⟩
    refine wp.seq (bumpRemap_spec hi1 _ (by rw [hs.same.1, h1]; exact h2)) ?_
    intro _ p2 hr
    refine wp.seq (complete_spec hs hr (by decide)) ?_
    intro _ p3 h
    exact wp.pure ⟨1, 0, h, rfl, by simp, by simp [h6]⟩
  have bad : ∀ k, ¬ keyFirst k → wp (do
        let m ← start
        error .ExpectedKey (← currentRange)
        complete m INVALID_TOKEN
        return false) (fun b p' => ∃ j e, Ran 1 0 j e p p' ∧ j + e = 1 ∧ (b = true ↔ j = 1) ∧
          (keyFirst k ↔ j = 1)) p := by
    intro k hk
    refine wp.seq (start_spec hi) ?_
    rintro m p1 ⟨hs, hi1⟩
    refine wp.seq (currentRange_spec hi1) ?_
    rintro r p2 rfl
    refine wp.seq (error_spec hi1 _ _) ?_
    intro _ p3 hr
    refine wp.seq (complete_spec hs hr (by decide)) ?_
    intro _ p4 h
    exact wp.pure ⟨0, 1, h, rfl, by simp, by simp [hk]⟩
  generalize hk : p.nth 0 = k at *
  cases k
  case BARE_KEY => exact string _ rfl (by decide) rfl (by decide) rfl (keyFirst_iff.mpr (by decide))
  case BASIC_STRING => exact string _ rfl (by decide) rfl (by decide) rfl (keyFirst_iff.mpr (by decide))
  case LITERAL_STRING => exact string _ rfl (by decide) rfl (by decide) rfl (keyFirst_iff.mpr (by decide))
  case INTEGER_DEC => exact remap _ rfl (by decide) (keyFirst_iff.mpr (by decide))
  case INTEGER_HEX => exact remap _ rfl (by decide) (keyFirst_iff.mpr (by decide))
  case INTEGER_OCT => exact remap _ rfl (by decide) (keyFirst_iff.mpr (by decide))
  case INTEGER_BIN => exact remap _ rfl (by decide) (keyFirst_iff.mpr (by decide))
  case BOOLEAN => exact remap _ rfl (by decide) (keyFirst_iff.mpr (by decide))
  case LOCAL_DATE => exact remap _ rfl (by decide) (keyFirst_iff.mpr (by decide))
  case FLOAT =>
    refine wp.seq (bumpFloatKey_spec G hi hk) ?_
    intro _ p' h
    exact wp.pure ⟨1, 0, h, rfl, by simp, by simp [keyFirst_iff]⟩
  all_goals exact bad _ (by rw [keyFirst_iff]; decide)

theorem eatKeysLoop_spec (G : Segmenter) (fuel : Nat) (he : Bool) {p : Parser} (hi : Inv p)
    (hf : p.rem < fuel) :
    wp (eatKeysLoop G fuel he) (fun b p' => ∃ j e, Ran 1 0 j e p p' ∧ e ≤ j + 1 ∧
      (keyFirst (p.nth 0) → 1 ≤ j ∧ b = !he)) p := by
  induction fuel generalizing p he with
  | zero => omega
  | succ fuel ih =>
    rw [eatKeysLoop]
    refine wp.seq (eatKey_spec G hi) ?_
    rintro b p1 ⟨j1, e1, h1, h1s, h1b, h1k⟩
    refine wp.seq (eat_spec h1.inv (by decide)) ?_
    rintro b2 p2 ⟨-, h2⟩
    have hb : keyFirst (p.nth 0) → (he || !b) = he := by
      intro hk
      have : b = true := by rw [h1b, ← h1k]; exact hk
      simp [this]
    cases b2 with
    | false =>
      simp only [if_false, Bool.false_eq_true] at h2
      refine wp.pure ⟨j1, e1, by simpa using h1.trans (h2.mono (by omega) (by omega)), by omega, ?_⟩
      intro hk
      exact ⟨by rw [h1k] at hk; omega, by rw [hb hk]⟩
    | true =>
      have h2' : Ran 1 0 1 0 p1 p2 := by simpa [rawOf] using h2.mono (by omega) (by omega)
      have h12 := h1.trans h2'
      simp only [Bool.not_true, if_false, Bool.false_eq_true]
      refine wp.bind (wp.read ?_)
      by_cases hk2 : keyFirst (p2.nth 0)
      · rw [show p2.atTs TS_KEY_FIRST = true from hk2]
        have hrem := h12.rem
        refine (ih (he || !b) h12.inv (by omega)).mono ?_
        rintro b' p3 ⟨j3, e3, h3, h3e, h3k⟩
        refine ⟨_, _, h12.trans h3, by omega, ?_⟩
        intro hk
        exact ⟨by omega, by rw [(h3k hk2).2, hb hk]⟩
      · rw [show p2.atTs TS_KEY_FIRST = false from Bool.eq_false_iff.mpr hk2]
        simp only [Bool.not_false, if_true]
        refine wp.seq (currentRange_spec h12.inv) ?_
        rintro r p3 rfl
        refine wp.seq (error_spec h12.inv _ _) ?_
        intro _ p4 h4
        refine wp.pure ⟨_, _, h12.trans (h4.mono (by omega) (by omega)), by omega, ?_⟩
        intro hk
        exact ⟨by omega, by rw [hb hk]⟩

theorem eatKeys_spec (G : Segmenter) {p : Parser} (hi : Inv p) :
    wp (eatKeys G) (fun b p' => ∃ j e, Ran 1 0 j e p p' ∧ e ≤ j + 1 ∧
      (keyFirst (p.nth 0) → 1 ≤ j ∧ b = true)) p := by
  refine wp.bind (wp.read ?_)
  split
  · refine wp.bind (wp.get ?_)
    refine (eatKeysLoop_spec G _ false hi (rem_lt_fuel p)).mono ?_
    rintro b p' ⟨j, e, h1, h2, h3⟩
    exact ⟨j, e, h1, h2, h3⟩
  · refine (eatKey_spec G hi).mono ?_
    rintro b p' ⟨j, e, h1, h2, h3, h4⟩
    exact ⟨j, e, h1, by omega, fun hk => ⟨by rw [h4] at hk; omega, by rw [h3, ← h4]; exact hk⟩⟩

theorem keys_spec (G : Segmenter) {p : Parser} (hi : Inv p) :
    wp (keys G) (fun _ p' => ∃ j e, Ran 2 0 j e p p' ∧ e ≤ j + 1 ∧
      (keyFirst (p.nth 0) → 1 ≤ j)) p := by
  refine wp.seq (start_spec hi) ?_
  rintro m p1 ⟨hs, hi1⟩
  refine wp.seq (eatKeys_spec G hi1) ?_
  rintro b p2 ⟨j, e, h1, h2, h3⟩
  rw [hs.same.1] at h3
  split
  · refine (complete_spec hs h1 (k := KEYS) (by decide)).mono ?_
    intro _ p3 h
    exact ⟨j, e, h, h2, fun hk => (h3 hk).1⟩
  · refine (complete_spec hs h1 (k := INVALID_TOKEN) (by decide)).mono ?_
    intro _ p3 h
    exact ⟨j, e, h, h2, fun hk => (h3 hk).1⟩

/-! ### comma, dangling comments -/

theorem comma_spec {p : Parser} (hi : Inv p) {n : Nat} (hp : Peek p.nth 0 n) (hc : p.nth n = COMMA) :
    wp comma (fun _ p' => ∃ j, Ran 1 0 j 0 p p' ∧ 1 ≤ j) p := by
  refine wp.seq (start_spec hi) ?_
  rintro m p1 ⟨hs, hi1⟩
  refine wp.seq (leadingComments_peek hi1 (n := n) (by rw [hs.same.1]; exact hp)
    (by rw [hs.same.1, hc]; decide)) ?_
  intro _ p2 h2
  have hat : p2.nthAt 0 COMMA = true := by
    rw [nthAt_plain rfl, h2.nth, hs.same.1]; simp [hc]
  refine wp.bind (wp.read ?_)
  refine wp.bind ?_
  rw [show p2.atKind COMMA = true from hat]
  refine ⟨(), p2, rfl, ?_⟩
  refine wp.seq (eat_spec h2.inv (by decide)) ?_
  rintro b p3 ⟨hb, h3⟩
  rw [hat] at hb
  subst hb
  refine wp.seq (trailingComment_spec h3.inv) ?_
  rintro _ p4 ⟨j, h4, -, -⟩
  refine (complete_spec hs ((h2.trans h3).trans h4) (k := COMMA) (by decide)).mono ?_
  intro _ p5 h5
  exact ⟨_, h5, by simp [rawOf]; omega⟩

theorem danglingLenLoop_spec {p : Parser} (hi : Inv p) (fuel n : Nat) (hn : n < p.rem)
    (hf : p.rem < n + fuel) : ∃ r, danglingLenLoop p fuel n = .ok r ∧ DangLoop p.nth n r := by
  induction fuel generalizing n with
  | zero => omega
  | succ fuel ih =>
    rw [danglingLenLoop]
    by_cases h1 : TS_LINE_END.contains (p.nth (n + 1)) = true
    · rw [if_neg (by simp [Parser.nthAtTs, h1])]
      have h1' := ts_lineEnd.mp h1
      by_cases h2 : TS_DANGLING_COMMENT_GROUP_END.contains (p.nth (n + 2)) = true
      · rw [if_pos (by simpa [Parser.nthAtTs] using h2)]
        exact ⟨_, rfl, .found h1' h2⟩
      · rw [if_neg (by simpa [Parser.nthAtTs] using h2), nthAt_plain (k := COMMENT) rfl]
        by_cases h3 : p.nth (n + 2) = COMMENT
        · rw [if_neg (by simp [h3])]
          have := lt_rem hi h3 (by decide)
          obtain ⟨r, hr, hd⟩ := ih (n + 2) (by omega) (by omega)
          exact ⟨r, hr, .next h1' (by simpa using h2) h3 hd⟩
        · rw [if_pos (by simp [h3])]
          exact ⟨none, rfl, .other h1' (by simpa using h2) h3⟩
    · rw [if_pos (by simpa [Parser.nthAtTs] using h1)]
      exact ⟨none, rfl, .noEnd (by rw [← ts_lineEnd]; exact h1)⟩

theorem danglingLen_spec {p : Parser} (hi : Inv p) :
    wp danglingLen (fun r p' => p' = p ∧ (p.nth 0 = COMMENT → DangLoop p.nth 0 r) ∧
      (p.nth 0 ≠ COMMENT → r = none)) p := by
  refine wp.bind (wp.get ?_)
  rw [nthAt_plain (k := COMMENT) rfl]
  by_cases h : p.nth 0 = COMMENT
  · rw [if_neg (by simp [h])]
    have := lt_rem hi h (by decide)
    obtain ⟨r, hr, hd⟩ := danglingLenLoop_spec hi (loopFuel p) 0 (by omega)
      (by have := rem_lt_fuel p; omega)
    refine ⟨r, p, ?_, rfl, fun _ => hd, fun hn => absurd h hn⟩
    show (liftM (danglingLenLoop p (loopFuel p) 0) : PM (Option Nat)) p = _
    rw [hr]; rfl
  · rw [if_pos (by simp [h])]
    exact wp.pure ⟨rfl, fun hc => absurd hc h, fun _ => rfl⟩

theorem bumpAnyN_spec (n : Nat) {p : Parser} (hi : Inv p) :
    wp (bumpAnyN n) (fun _ p' => ∃ j, Ran 0 0 j 0 p p' ∧ (0 < n → p.nth 0 ≠ EOF → 1 ≤ j)) p := by
  induction n generalizing p with
  | zero => exact wp.pure ⟨0, Ran.refl hi 0 0, by omega⟩
  | succ n ih =>
    rw [bumpAnyN]
    refine wp.seq (bumpAny_spec hi) ?_
    intro _ p1 h1
    refine (ih h1.inv).mono ?_
    rintro _ p2 ⟨j, h2, _⟩
    refine ⟨_, h1.trans h2, ?_⟩
    intro _ hne
    rw [if_neg hne]; omega

theorem danglingLoop_spec (fuel : Nat) {p : Parser} (hi : Inv p) (hf : p.rem < fuel) :
    wp (danglingLoop fuel) (fun _ p' => ∃ j, Ran 1 0 j 0 p p' ∧ NoDangling p'.nth) p := by
  induction fuel generalizing p with
  | zero => omega
  | succ fuel ih =>
    rw [danglingLoop]
    refine wp.seq (eatLineBreaks_spec hi) ?_
    rintro _ p1 ⟨j1, h1, -, h1n⟩
    refine wp.seq (danglingLen_spec h1.inv) ?_
    rintro r p2 ⟨rfl, hd, hn⟩
    have h1' : Ran 1 0 j1 0 p p2 := h1.mono (by omega) (by omega)
    cases r with
    | none => exact wp.pure ⟨j1, h1', h1n, hd⟩
    | some n =>
      have hc : p2.nth 0 = COMMENT := by
        apply Classical.byContradiction
        intro h; have := hn h; cases this
      have hpos := (hd hc).lt
      refine wp.seq (start_spec h1.inv) ?_
      rintro m p3 ⟨hs, hi3⟩
      refine wp.seq (bumpAnyN_spec n hi3) ?_
      rintro _ p4 ⟨j, h4, h4p⟩
      refine wp.seq (complete_spec hs h4 (k := DANGLING_COMMENT_GROUP) (by decide)) ?_
      intro _ p5 h5
      have hj : 1 ≤ j := h4p (by omega) (by rw [hs.same.1, hc]; decide)
      have h15 := h1'.trans h5
      have hrem := h15.rem
      refine (ih h5.inv (by omega)).mono ?_
      rintro _ p6 ⟨j6, h6, h6n⟩
      exact ⟨_, by simpa using h15.trans h6, h6n⟩

theorem danglingCommentGroups_spec {p : Parser} (hi : Inv p) :
    wp danglingCommentGroups (fun _ p' => ∃ j, Ran 1 0 j 0 p p' ∧ NoDangling p'.nth) p := by
  refine wp.bind (wp.get ?_)
  exact danglingLoop_spec _ hi (rem_lt_fuel p)

/-! ### values without recursion -/

theorem skipLoop_spec (fuel d : Nat) (r : Range) {p : Parser} (hi : Inv p) (hf : p.rem < fuel)
    (hd : 0 < d ∨ p.nth 0 = BRACKET_START ∨ p.nth 0 = BRACE_START) :
    wp (skipLoop fuel d r) (fun _ p' => ∃ j, Ran 0 0 j 0 p p' ∧ (p.nth 0 ≠ EOF → 1 ≤ j)) p := by
  induction fuel generalizing p d r with
  | zero => omega
  | succ fuel ih =>
    have step : ∀ d', p.nth 0 ≠ EOF → 0 < d' → wp (do
        let endRange ← currentRange
        bumpAny
        skipLoop fuel d' endRange) (fun _ p' => ∃ j, Ran 0 0 j 0 p p' ∧ (p.nth 0 ≠ EOF → 1 ≤ j)) p := by
      intro d' hne hd'
      refine wp.seq (currentRange_spec hi) ?_
      rintro r p1 rfl
      refine wp.seq (bumpAny_spec hi) ?_
      intro _ p2 h2
      rw [if_neg hne] at h2
      have hrem := h2.rem
      refine (ih d' r h2.inv (by omega) (Or.inl hd')).mono ?_
      rintro _ p3 ⟨j, h3, _⟩
      exact ⟨_, h2.trans h3, by omega⟩
    have close : p.nth 0 ≠ EOF → 0 < d → wp (do
        let endRange ← currentRange
        bumpAny
        match d with
        | 0 => panic
        | 1 => return endRange
        | d + 2 => skipLoop fuel (d + 1) endRange)
        (fun _ p' => ∃ j, Ran 0 0 j 0 p p' ∧ (p.nth 0 ≠ EOF → 1 ≤ j)) p := by
      intro hne hd'
      refine wp.seq (currentRange_spec hi) ?_
      rintro r p1 rfl
      refine wp.seq (bumpAny_spec hi) ?_
      intro _ p2 h2
      rw [if_neg hne] at h2
      match d, hd' with
      | 1, _ => exact wp.pure ⟨1, h2, by omega⟩
      | d + 2, _ =>
        have hrem := h2.rem
        refine (ih (d + 1) r h2.inv (by omega) (Or.inl (by omega))).mono ?_
        rintro _ p3 ⟨j, h3, _⟩
        exact ⟨_, h2.trans h3, by omega⟩
    rw [skipLoop]
    refine wp.bind (wp.read ?_)
    rw [show p.current = p.nth 0 from rfl]
    generalize hk : p.nth 0 = k at *
    cases k
    case EOF => exact wp.pure ⟨0, Ran.refl hi 0 0, by simp⟩
    case BRACKET_START => exact step (d + 1) (by decide) (by omega)
    case BRACE_START => exact step (d + 1) (by decide) (by omega)
    case BRACKET_END => exact close (by decide) (by simpa using hd)
    case BRACE_END => exact close (by decide) (by simpa using hd)
    all_goals exact step d (by decide) (by simpa using hd)

theorem skipTooDeepValue_spec {p : Parser} (hi : Inv p) {n : Nat} (hp : Peek p.nth 0 n)
    (hc : p.nth n = BRACKET_START ∨ p.nth n = BRACE_START) :
    wp skipTooDeepValue (fun _ p' => ∃ j, Ran 1 0 j 1 p p' ∧ 1 ≤ j) p := by
  refine wp.seq (start_spec hi) ?_
  rintro m p1 ⟨hs, hi1⟩
  refine wp.seq (leadingComments_peek hi1 (n := n) (by rw [hs.same.1]; exact hp)
    (by rw [hs.same.1]; rcases hc with h | h <;> rw [h] <;> decide)) ?_
  intro _ p2 h2
  have hc2 : p2.nth 0 = BRACKET_START ∨ p2.nth 0 = BRACE_START := by
    rw [h2.nth, hs.same.1]; simpa using hc
  refine wp.seq (currentRange_spec h2.inv) ?_
  rintro r p3 rfl
  refine wp.bind (wp.get ?_)
  refine wp.seq (skipLoop_spec _ 0 r h2.inv (rem_lt_fuel p3) (Or.inr hc2)) ?_
  rintro r' p4 ⟨j, h4, h4p⟩
  have hj := h4p (by rcases hc2 with h | h <;> rw [h] <;> decide)
  refine wp.seq (error_spec h4.inv _ _) ?_
  intro _ p5 h5
  refine wp.seq (trailingComment_spec h5.inv) ?_
  rintro _ p6 ⟨j6, h6, -, -⟩
  refine (complete_spec hs (((h2.trans h4).trans h5).trans h6) (k := INVALID_TOKEN) (by decide)).mono ?_
  intro _ p7 h7
  exact ⟨_, h7, by omega⟩

theorem literalValue_spec {p : Parser} (hi : Inv p) {n : Nat} {k : SyntaxKind} (hp : Peek p.nth 0 n)
    (hk : p.nth n = k) (h1 : k ≠ EOF) (h2 : rawOf k = 1) (h3 : k ≠ COMMENT) (h4 : k ≠ TOMBSTONE)
    (h5 : nestOf k = 0) :
    wp literalValue (fun _ p' => ∃ j, Ran 1 0 j 0 p p' ∧ 1 ≤ j) p := by
  refine wp.seq (start_spec hi) ?_
  rintro m p1 ⟨hs, hi1⟩
  refine wp.seq (leadingComments_peek hi1 (n := n) (by rw [hs.same.1]; exact hp)
    (by rw [hs.same.1, hk]; exact h3)) ?_
  intro _ p2 hr2
  have hc2 : p2.nth 0 = k := by rw [hr2.nth, hs.same.1]; simpa using hk
  refine wp.bind (wp.read ?_)
  rw [show p2.current = k from hc2]
  refine wp.seq (bump_spec hr2.inv h1 h2 hc2) ?_
  intro _ p3 hr3
  refine wp.seq (trailingComment_spec hr3.inv) ?_
  rintro _ p4 ⟨j4, hr4, -, -⟩
  refine (complete_spec hs ((hr2.trans hr3).trans hr4) h4).mono ?_
  intro _ p5 hr5
  rw [h5] at hr5
  exact ⟨_, hr5, by omega⟩

theorem invalidValueLoop_spec (fuel : Nat) (r : Range) {p : Parser} (hi : Inv p) (hf : p.rem < fuel) :
    wp (invalidValueLoop fuel r) (fun _ p' => ∃ j, Ran 0 0 j 0 p p' ∧
      (TS_COMMENT_OR_LINE_END.contains (p.nth 0) = false → 1 ≤ j) ∧
      TS_COMMENT_OR_LINE_END.contains (p'.nth 0) = true) p := by
  induction fuel generalizing p r with
  | zero => omega
  | succ fuel ih =>
    rw [invalidValueLoop]
    refine wp.bind (wp.read ?_)
    by_cases hc : TS_COMMENT_OR_LINE_END.contains (p.nth 0) = true
    · rw [show p.atTs TS_COMMENT_OR_LINE_END = true from hc]
      exact wp.pure ⟨0, Ran.refl hi 0 0, by simp [hc], hc⟩
    · rw [show p.atTs TS_COMMENT_OR_LINE_END = false from Bool.eq_false_iff.mpr hc]
      have hne : p.nth 0 ≠ EOF := by
        intro h; rw [h] at hc; exact hc (ts_commentOrLineEnd.mpr (Or.inr (Or.inr rfl)))
      refine wp.seq (currentRange_spec hi) ?_
      rintro r p0 rfl
      refine wp.seq (bumpAny_spec hi) ?_
      intro _ p1 hran
      rw [if_neg hne] at hran
      have hrem := hran.rem
      refine (ih r hran.inv (by omega)).mono ?_
      rintro _ p2 ⟨j, h1, h2, h3⟩
      exact ⟨1 + j, hran.trans h1, by omega, h3⟩

theorem invalidValue_spec {p : Parser} (hi : Inv p) {n : Nat} (hp : Peek p.nth 0 n)
    (hc : p.nth 0 ≠ LINE_BREAK ∧ p.nth 0 ≠ EOF) :
    wp (invalidValue n) (fun _ p' => ∃ j, Ran 1 0 j 1 p p' ∧ 1 ≤ j) p := by
  refine wp.seq (start_spec hi) ?_
  rintro m p1 ⟨hs, hi1⟩
  refine wp.bind (wp.read ?_)
  have hf : (decide (n > 1) && p1.nthAt n LINE_BREAK) = false := by
    rw [nthAt_plain rfl, hs.same.1]
    have := hp.stop_ne
    simp [this]
  rw [hf]
  simp only [Bool.false_eq_true, if_false]
  refine wp.seq (currentRange_spec hi1) ?_
  rintro r p2 rfl
  refine wp.bind (wp.get ?_)
  refine wp.seq (invalidValueLoop_spec _ r hi1 (rem_lt_fuel p2)) ?_
  rintro r' p3 ⟨j, h3, h3p, h3e⟩
  refine wp.seq (error_spec h3.inv _ _) ?_
  intro _ p4 h4
  refine wp.seq (trailingComment_spec h4.inv) ?_
  rintro _ p5 ⟨j5, h5, h5c, h5n⟩
  refine (complete_spec hs ((h3.trans h4).trans h5) (k := INVALID_TOKEN) (by decide)).mono ?_
  intro _ p6 h6
  refine ⟨_, h6, ?_⟩
  rw [hs.same.1] at h3p
  by_cases hcm : p.nth 0 = COMMENT
  · -- the loop stops at once, and the comment is eaten as a trailing comment
    apply Classical.byContradiction
    intro hz
    have hj : j = 0 := by omega
    have hj5 : j5 = 0 := by omega
    subst hj hj5
    apply h5n
    rw [h5.nth, h4.nth, h3.nth, hs.same.1]
    exact hcm
  · have : TS_COMMENT_OR_LINE_END.contains (p.nth 0) = false := by
      rw [Bool.eq_false_iff, ne_eq, ts_commentOrLineEnd]
      simp [hcm, hc.1, hc.2]
    have := h3p this
    omega

theorem bareKeyValue_spec (G : Segmenter) {p : Parser} (hi : Inv p) {n : Nat} (hp : Peek p.nth 0 n)
    (hk : p.nth n = BARE_KEY) :
    wp (bareKeyValue G n) (fun _ p' => ∃ j e, Ran 3 0 j e p p' ∧ 1 ≤ j ∧ e ≤ j + 2) p := by
  refine wp.bind (wp.read ?_)
  refine wp.seq (error_spec hi _ _) ?_
  intro _ p0 h0
  have hn0 : p0.nth = p.nth := by funext i; simpa using h0.nth i
  refine wp.seq (start_spec h0.inv) ?_
  rintro m p1 ⟨hs, hi1⟩
  refine wp.seq (leadingComments_peek hi1 (n := n) (by rw [hs.same.1, hn0]; exact hp)
    (by rw [hs.same.1, hn0, hk]; decide)) ?_
  intro _ p2 h2
  have hc2 : p2.nth 0 = BARE_KEY := by rw [h2.nth, hs.same.1, hn0]; simpa using hk
  refine wp.seq (start_spec h2.inv) ?_
  rintro m' p3 ⟨hs', hi3⟩
  refine wp.seq (eatKeys_spec G hi3) ?_
  rintro b p4 ⟨j, e, h4, h4e, h4k⟩
  rw [hs'.same.1] at h4k
  obtain ⟨hj, rfl⟩ := h4k (by rw [hc2]; exact keyFirst_iff.mpr (by decide))
  simp only [if_true]
  refine wp.seq (complete_spec hs' h4 (k := KEYS) (by decide)) ?_
  intro _ p5 h5
  refine wp.seq (trailingComment_spec h5.inv) ?_
  rintro _ p6 ⟨j6, h6, -, -⟩
  refine (complete_spec hs (((h2.mono (h' := 2) (n' := 0) (by omega) (by omega)).trans h5).trans
    (h6.mono (by omega) (by omega))) (k := KEY_VALUE) (by decide)).mono ?_
  intro _ p7 h7
  exact ⟨_, _, (h0.mono (by omega) (by omega)).trans h7, by omega, by omega⟩

end PM
end Tombi
