import Verif.Spec.Strings
import Verif.Proofs.LexLoop
/-! The string sub-lexers accept every well-formed literal. -/
namespace Tombi
open Spec

theorem peek1_of {c : Cursor} {x : Char} {xs : List Char} (h : c.rest = x :: xs) : c.peek 1 = x := by
  rw [Cursor.peek_one, h]; rfl
theorem peek2_of {c : Cursor} {x y : Char} {xs : List Char} (h : c.rest = x :: y :: xs) :
    c.peek 2 = y := by
  unfold Cursor.peek; rw [h]; rfl

theorem basicLoop_accepts (items : List Item) (hi : ∀ i ∈ items, i.single) (post : List Char) (c : Cursor)
    (hc : c.rest = render items ++ '"' :: post) :
    ∃ c1, Adv c c1 (render items ++ ['"'])
      ∧ Cursor.basicStringLoop (render items ++ '"' :: post) c = c1.ok .BASIC_STRING := by
  induction items generalizing c with
  | nil =>
    obtain ⟨h1, -, -⟩ := Adv.bump_cons hc
    refine ⟨_, h1, ?_⟩
    show Cursor.basicStringLoop ('"' :: post) c = _
    unfold Cursor.basicStringLoop
    simp
  | cons i is ih =>
    have his : ∀ i ∈ is, i.single := fun j hj => hi j (by simp [hj])
    have hi1 := hi i (by simp)
    have headlb : ∀ (d : Char) (r : List Char), render is ++ '"' :: post = d :: r →
        isLineBreak d = false := by
      intro d r hd
      cases is with
      | nil => simp [render] at hd; rw [← hd.1]; decide
      | cons j js =>
        have hj := his j (by simp)
        cases j with
        | quote => exact absurd hj (by simp [Item.single])
        | chr e =>
          simp [render, Item.text] at hd
          rw [← hd.1]
          simp [Item.single] at hj
          simp [isLineBreak, hj]
        | esc e =>
          simp [render, Item.text] at hd
          rw [← hd.1]; decide
    have step : ∀ (c1 : Cursor), c1.rest = render is ++ '"' :: post → isLineBreak (c1.peek 1) = false := by
      intro c1 h1
      cases hr : render is ++ '"' :: post with
      | nil => simp at hr
      | cons d r =>
        rw [hr] at h1
        rw [peek1_of h1]
        exact headlb d r hr
    cases i with
    | quote => exact absurd hi1 (by simp [Item.single])
    | chr x =>
      simp only [Item.single] at hi1
      have hc' : c.rest = x :: (render is ++ '"' :: post) := by rw [hc]; simp [render, Item.text]
      obtain ⟨h1, h2, h3⟩ := Adv.bump_cons hc'
      obtain ⟨c1, h4, h5⟩ := ih his c.bump h2
      refine ⟨c1, ?_, ?_⟩
      · have := h1.trans h4
        simpa [render, Item.text] using this
      · show Cursor.basicStringLoop (x :: (render is ++ '"' :: post)) c = _
        unfold Cursor.basicStringLoop
        simp only []
        rw [if_neg hi1.1, if_neg (by simp [hi1.2.1]), step _ h2]
        simpa using h5
    | esc e =>
      simp only [Item.single] at hi1
      have hc' : c.rest = '\\' :: e :: (render is ++ '"' :: post) := by rw [hc]; simp [render, Item.text]
      obtain ⟨h1, h2, h3⟩ := Adv.bump_cons hc'
      obtain ⟨h1', h2', h3'⟩ := Adv.bump_cons h2
      obtain ⟨c1, h4, h5⟩ := ih his c.bump.bump h2'
      refine ⟨c1, ?_, ?_⟩
      · have := h1.trans (h1'.trans h4)
        simpa [render, Item.text] using this
      · show Cursor.basicStringLoop ('\\' :: e :: (render is ++ '"' :: post)) c = _
        unfold Cursor.basicStringLoop
        simp only []
        rw [if_neg (by decide), peek1_of h2]
        by_cases hq : e = '"' ∨ e = '\\'
        · rw [if_pos ⟨trivial, hq⟩]
          exact h5
        · rw [if_neg (by simp only [true_and]; exact hq)]
          have : isLineBreak e = false := by simp [isLineBreak, hi1]
          rw [this]
          simp only [Bool.false_eq_true, if_false]
          unfold Cursor.basicStringLoop
          simp only []
          simp only [not_or] at hq
          rw [if_neg hq.1, if_neg (by simp [hq.2]), step _ h2']
          simpa using h5

theorem dispatch_quote {c : Cursor} (h : c.cur = '"') :
    c.dispatch = if c.matches ['"', '"', '"'] then c.multiLineBasicString else c.basicString := by
  unfold Cursor.dispatch
  rw [h]
  simp [isWhitespace, isLineBreak]

theorem dispatch_apos {c : Cursor} (h : c.cur = '\'') :
    c.dispatch = if c.matches ['\'', '\'', '\''] then c.multiLineLiteralString else c.literalString := by
  unfold Cursor.dispatch
  rw [h]
  have h1 : isWhitespace '\'' = false := by decide
  have h2 : isLineBreak '\'' = false := by decide
  have h3 : isAsciiDigit '\'' = false := by decide
  simp [h1, h2, h3]

theorem advance_cons {c : Cursor} {x : Char} {xs : List Char} (h : c.rest = x :: xs) :
    c.advanceToken = c.bump.dispatch := by
  unfold Cursor.advanceToken
  rw [h]

theorem not_matches3 {c : Cursor} {q : Char} (hq : q ≠ '\x00')
    (h : ∀ t, c.rest ≠ q :: q :: t) : c.matches [q, q, q] = false := by
  rw [Bool.eq_false_iff]
  intro hm
  rw [Cursor.matches_iff c q [q, q] (by simp [Ne.symm hq])] at hm
  obtain ⟨-, t, ht⟩ := hm
  exact h t ht

theorem accepts_basic {lit post : List Char} (h : BasicString lit)
    (hp : lit = ['"', '"'] → post.head? ≠ some '"') : Accepts .BASIC_STRING lit post := by
  obtain ⟨items, hi, rfl⟩ := h
  intro c hc
  have hc' : c.rest = '"' :: (render items ++ '"' :: post) := by rw [hc]; simp
  obtain ⟨h1, h2, h3⟩ := Adv.bump_cons hc'
  obtain ⟨c1, h4, h5⟩ := basicLoop_accepts items hi post c.bump h2
  refine ⟨c1, by simpa using h1.trans h4, ?_⟩
  rw [advance_cons hc', dispatch_quote h3]
  have : c.bump.matches ['"', '"', '"'] = false := by
    refine not_matches3 (by decide) ?_
    intro t ht
    rw [h2] at ht
    cases items with
    | nil =>
      simp [render] at ht
      have := hp (by simp [render])
      rw [ht] at this
      simp at this
    | cons i is =>
      have := hi i (by simp)
      cases i with
      | quote => exact absurd this (by simp [Item.single])
      | chr x => simp [render, Item.text] at ht; simp [Item.single] at this; exact this.1 ht.1
      | esc e => simp [render, Item.text] at ht
  rw [this]
  simp only [Bool.false_eq_true, if_false]
  unfold Cursor.basicString
  rw [h2]
  exact h5

theorem literalLoop_accepts (body post : List Char) (hb : '\'' ∉ body ∧ '\n' ∉ body ∧ '\r' ∉ body)
    (c : Cursor) (hc : c.rest = body ++ '\'' :: post) :
    ∃ c1, Adv c c1 (body ++ ['\''])
      ∧ Cursor.literalStringLoop (body ++ '\'' :: post) c = c1.ok .LITERAL_STRING := by
  induction body generalizing c with
  | nil =>
    obtain ⟨h1, -, -⟩ := Adv.bump_cons hc
    exact ⟨_, h1, by simp [Cursor.literalStringLoop]⟩
  | cons x xs ih =>
    simp only [List.mem_cons, not_or] at hb
    obtain ⟨h1, h2, h3⟩ := Adv.bump_cons (x := x) (xs := xs ++ '\'' :: post) hc
    obtain ⟨c1, h4, h5⟩ := ih ⟨hb.1.2, hb.2.1.2, hb.2.2.2⟩ c.bump h2
    refine ⟨c1, h1.trans h4, ?_⟩
    simp only [List.cons_append]
    unfold Cursor.literalStringLoop
    simp only []
    have : isLineBreak (c.bump.peek 1) = false := by
      cases xs with
      | nil => rw [peek1_of h2]; decide
      | cons y ys =>
        rw [peek1_of h2]
        simp only [List.mem_cons, not_or] at hb
        simp [isLineBreak]
        exact ⟨Ne.symm hb.2.2.2.1, Ne.symm hb.2.1.2.1⟩
    rw [if_neg (Ne.symm hb.1.1), this]
    simpa using h5

theorem accepts_literal {lit post : List Char} (h : LiteralString lit)
    (hp : lit = ['\'', '\''] → post.head? ≠ some '\'') : Accepts .LITERAL_STRING lit post := by
  obtain ⟨body, hb1, hb2, hb3, rfl⟩ := h
  intro c hc
  have hc' : c.rest = '\'' :: (body ++ '\'' :: post) := by rw [hc]; simp
  obtain ⟨h1, h2, h3⟩ := Adv.bump_cons hc'
  obtain ⟨c1, h4, h5⟩ := literalLoop_accepts body post ⟨hb1, hb2, hb3⟩ c.bump h2
  refine ⟨c1, by simpa using h1.trans h4, ?_⟩
  rw [advance_cons hc', dispatch_apos h3]
  have : c.bump.matches ['\'', '\'', '\''] = false := by
    refine not_matches3 (by decide) ?_
    intro t ht
    rw [h2] at ht
    cases body with
    | nil =>
      simp at ht
      have := hp (by simp)
      rw [ht] at this
      simp at this
    | cons i is =>
      simp at ht
      simp at hb1
      exact hb1.1 ht.1.symm
  rw [this]
  simp only [Bool.false_eq_true, if_false]
  unfold Cursor.literalString
  rw [h2]
  exact h5

theorem takeWhile_quotes (q : Char) (n : Nat) (post : List Char) (hp : post.head? ≠ some q) :
    (List.replicate n q ++ post).takeWhile (· == q) = List.replicate n q
      ∧ (List.replicate n q ++ post).dropWhile (· == q) = post := by
  induction n with
  | zero =>
    cases post with
    | nil => simp
    | cons x xs =>
      simp at hp
      simp [hp]
  | succ n ih => simp [List.replicate_succ, ih]

/-- a run of `n` quotes (3 to 5) closes a multi-line basic string -/
theorem mlb_close (n : Nat) (h3 : 3 ≤ n) (h5 : n ≤ 5) (post : List Char) (hp : post.head? ≠ some '"')
    (c : Cursor) (hc : c.rest = List.replicate n '"' ++ post) :
    ∃ c1, Adv c c1 (List.replicate n '"')
      ∧ Cursor.multiLineBasicStringLoop (List.replicate n '"' ++ post) false c
        = c1.ok .MULTI_LINE_BASIC_STRING := by
  obtain ⟨m, rfl⟩ : ∃ m, n = m + 3 := ⟨n - 3, by omega⟩
  have hsplit : List.replicate (m + 3) '"' ++ post = '"' :: (List.replicate (m + 2) '"' ++ post) := by
    simp [List.replicate_succ]
  rw [hsplit] at hc ⊢
  obtain ⟨h1, h2, hcur⟩ := Adv.bump_cons hc
  obtain ⟨h4, h6⟩ := Adv.eatWhile (· == '"') c.bump
  have ht := takeWhile_quotes '"' (m + 2) post hp
  rw [h2, ht.1] at h4
  refine ⟨_, h1.trans h4, ?_⟩
  unfold Cursor.multiLineBasicStringLoop
  simp only []
  have hr : c.bump.rest = '"' :: '"' :: (List.replicate m '"' ++ post) := by
    rw [h2]; simp [List.replicate_succ]
  rw [peek1_of hr, peek2_of hr, hcur]
  simp only [Bool.not_false, beq_self_eq_true, Bool.and_self, if_true]
  unfold Cursor.peekWhile
  rw [h2, ht.1, utf8Len_ascii (by intro c hc; rw [List.mem_replicate] at hc; rw [hc.2]; decide)]
  rw [if_neg (by simp; omega)]

theorem mlbLoop_accepts (items : List Item) (hi : ∀ i ∈ items, i.multi)
    (h3 : ¬ [Item.quote, .quote, .quote] <:+: items) (hlast : items.getLast? ≠ some (.esc '\\'))
    (post : List Char) (hp : post.head? ≠ some '"') (b : Bool) (hb : b = true → items ≠ [])
    (c : Cursor) (hc : c.rest = render items ++ '"' :: '"' :: '"' :: post) :
    ∃ c1, Adv c c1 (render items ++ ['"', '"', '"'])
      ∧ Cursor.multiLineBasicStringLoop (render items ++ '"' :: '"' :: '"' :: post) b c
        = c1.ok .MULTI_LINE_BASIC_STRING := by
  induction items generalizing c b with
  | nil =>
    have : b = false := by
      cases b with
      | false => rfl
      | true => exact absurd rfl (hb rfl)
    subst this
    exact mlb_close 3 (by omega) (by omega) post hp c hc
  | cons i is ih =>
    have his : ∀ i ∈ is, i.multi := fun j hj => hi j (by simp [hj])
    have h3s : ¬ [Item.quote, .quote, .quote] <:+: is := fun h => h3 (List.infix_cons h)
    have hlasts : is.getLast? ≠ some (.esc '\\') := by
      intro h
      apply hlast
      rw [List.getLast?_cons, h]
      rfl
    have hi1 := hi i (by simp)
    cases i with
    | chr x =>
      simp only [Item.multi] at hi1
      have hc' : c.rest = x :: (render is ++ '"' :: '"' :: '"' :: post) := by
        rw [hc]; simp [render, Item.text]
      obtain ⟨h1, h2, h4⟩ := Adv.bump_cons hc'
      obtain ⟨c1, h5, h6⟩ := ih his h3s hlasts false (by simp) c.bump h2
      refine ⟨c1, by simpa [render, Item.text] using h1.trans h5, ?_⟩
      show Cursor.multiLineBasicStringLoop (x :: (render is ++ '"' :: '"' :: '"' :: post)) b c = _
      unfold Cursor.multiLineBasicStringLoop
      simp only []
      rw [h4]
      have : (x == '"') = false := by simp [hi1.1]
      rw [this]
      simp only [Bool.and_false, Bool.false_and, Bool.false_eq_true, if_false]
      rw [if_neg hi1.2]
      exact h6
    | esc e =>
      have hc' : c.rest = '\\' :: e :: (render is ++ '"' :: '"' :: '"' :: post) := by
        rw [hc]; simp [render, Item.text]
      obtain ⟨h1, h2, h4⟩ := Adv.bump_cons hc'
      obtain ⟨h1', h2', h4'⟩ := Adv.bump_cons h2
      obtain ⟨c1, h5, h6⟩ := ih his h3s hlasts (e == '\\') (by
        intro he hnil
        simp at he
        subst he hnil
        simp at hlast) c.bump.bump h2'
      refine ⟨c1, by simpa [render, Item.text] using h1.trans (h1'.trans h5), ?_⟩
      show Cursor.multiLineBasicStringLoop ('\\' :: e :: (render is ++ '"' :: '"' :: '"' :: post)) b c = _
      unfold Cursor.multiLineBasicStringLoop
      simp only []
      rw [h4]
      have : ('\\' == '"') = false := by decide
      rw [this]
      simp only [Bool.and_false, Bool.false_and, Bool.false_eq_true, if_false, if_true]
      unfold Cursor.multiLineBasicStringLoop
      simp only [Bool.not_true, Bool.false_and, Bool.false_eq_true, if_false]
      rw [← h6]
      by_cases he : e = '\\'
      · simp [he]
      · have : (e == '\\') = false := by simp [he]
        rw [if_neg he, this]
    | quote =>
      have hc' : c.rest = '"' :: (render is ++ '"' :: '"' :: '"' :: post) := by
        rw [hc]; simp [render, Item.text]
      obtain ⟨h1, h2, h4⟩ := Adv.bump_cons hc'
      obtain ⟨c1, h5, h6⟩ := ih his h3s hlasts false (by simp) c.bump h2
      -- the general step, when no closing run starts here
      have skip : (b = true ∨ ∀ t, c.bump.rest ≠ '"' :: '"' :: t) →
          ∃ c1, Adv c c1 (render (.quote :: is) ++ ['"', '"', '"'])
          ∧ Cursor.multiLineBasicStringLoop (render (.quote :: is) ++ '"' :: '"' :: '"' :: post) b c
            = c1.ok .MULTI_LINE_BASIC_STRING := by
        intro hskip
        refine ⟨c1, by simpa [render, Item.text] using h1.trans h5, ?_⟩
        show Cursor.multiLineBasicStringLoop ('"' :: (render is ++ '"' :: '"' :: '"' :: post)) b c = _
        unfold Cursor.multiLineBasicStringLoop
        simp only []
        rw [h4]
        have : (!b && '"' == '"' && c.bump.peek 1 == '"' && c.bump.peek 2 == '"') = false := by
          rcases hskip with rfl | hskip
          · rfl
          · rw [Bool.eq_false_iff]
            intro hm
            simp only [Bool.and_eq_true, beq_iff_eq] at hm
            cases hr : c.bump.rest with
            | nil => rw [h2] at hr; simp at hr
            | cons x xs =>
              cases xs with
              | nil => rw [h2] at hr
                       have := congrArg List.length hr
                       simp at this
                       omega
              | cons y ys =>
                have e1 := hm.1.2
                have e2 := hm.2
                rw [peek1_of hr] at e1
                rw [peek2_of hr] at e2
                subst e1 e2
                exact hskip ys hr
        rw [this]
        simp only [Bool.false_eq_true, if_false]
        rw [if_neg (by decide)]
        exact h6
      by_cases hbt : b = true
      · exact skip (Or.inl hbt)
      · have hbf : b = false := by simpa using hbt
        cases is with
        | nil =>
          subst hbf
          exact mlb_close 4 (by omega) (by omega) post hp c hc
        | cons j js =>
          cases j with
          | chr y =>
            apply skip; right; intro t ht
            rw [h2] at ht
            have := his (.chr y) (by simp)
            simp [Item.multi] at this
            simp [render, Item.text] at ht
            exact this.1 ht.1
          | esc y =>
            apply skip; right; intro t ht
            rw [h2] at ht
            simp [render, Item.text] at ht
          | quote =>
            cases js with
            | nil =>
              subst hbf
              exact mlb_close 5 (by omega) (by omega) post hp c hc
            | cons k ks =>
              cases k with
              | quote => exact absurd ⟨[], ks, rfl⟩ h3
              | chr y =>
                apply skip; right; intro t ht
                rw [h2] at ht
                have := his (.chr y) (by simp)
                simp [Item.multi] at this
                simp [render, Item.text] at ht
                exact this.1 ht.1
              | esc y =>
                apply skip; right; intro t ht
                rw [h2] at ht
                simp [render, Item.text] at ht

theorem accepts_multi_basic {items : List Item} {lit post : List Char} (h : MultiBasicString items lit)
    (hlast : items.getLast? ≠ some (.esc '\\')) (hp : post.head? ≠ some '"') :
    Accepts .MULTI_LINE_BASIC_STRING lit post := by
  obtain ⟨hi, h3, rfl⟩ := h
  intro c hc
  have hc' : c.rest = '"' :: '"' :: '"' :: (render items ++ '"' :: '"' :: '"' :: post) := by
    rw [hc]; simp
  obtain ⟨h1, h2, hcur⟩ := Adv.bump_cons hc'
  obtain ⟨h4, h5⟩ := Adv.eatN 2 c.bump
  rw [h2] at h4 h5
  simp only [List.take_succ_cons, List.take_zero, List.drop_succ_cons, List.drop_zero] at h4 h5
  obtain ⟨c1, h6, h7⟩ := mlbLoop_accepts items hi h3 hlast post hp false (by simp) _ h5
  refine ⟨c1, by simpa using h1.trans (h4.trans h6), ?_⟩
  rw [advance_cons hc', dispatch_quote hcur]
  have : c.bump.matches ['"', '"', '"'] = true := by
    rw [Cursor.matches_iff _ _ _ (by decide)]
    exact ⟨hcur, _, h2⟩
  rw [this]
  simp only [if_true]
  unfold Cursor.multiLineBasicString
  rw [h5]
  exact h7

/-- a run of `n` quotes (3 to 5) closes a multi-line literal string -/
theorem mll_close (n : Nat) (h3 : 3 ≤ n) (h5 : n ≤ 5) (post : List Char) (hp : post.head? ≠ some '\'')
    (c : Cursor) (hc : c.rest = List.replicate n '\'' ++ post) :
    ∃ c1, Adv c c1 (List.replicate n '\'')
      ∧ Cursor.multiLineLiteralStringLoop (List.replicate n '\'' ++ post) c
        = c1.ok .MULTI_LINE_LITERAL_STRING := by
  obtain ⟨m, rfl⟩ : ∃ m, n = m + 3 := ⟨n - 3, by omega⟩
  have hsplit : List.replicate (m + 3) '\'' ++ post = '\'' :: (List.replicate (m + 2) '\'' ++ post) := by
    simp [List.replicate_succ]
  rw [hsplit] at hc ⊢
  obtain ⟨h1, h2, hcur⟩ := Adv.bump_cons hc
  obtain ⟨h4, h6⟩ := Adv.eatWhile (· == '\'') c.bump
  have ht := takeWhile_quotes '\'' (m + 2) post hp
  rw [h2, ht.1] at h4
  refine ⟨_, h1.trans h4, ?_⟩
  unfold Cursor.multiLineLiteralStringLoop
  simp only []
  have hr : c.bump.rest = '\'' :: '\'' :: (List.replicate m '\'' ++ post) := by
    rw [h2]; simp [List.replicate_succ]
  rw [peek1_of hr, peek2_of hr, hcur]
  simp only [beq_self_eq_true, Bool.and_self, if_true]
  unfold Cursor.peekWhile
  rw [h2, ht.1, utf8Len_ascii (by intro c hc; rw [List.mem_replicate] at hc; rw [hc.2]; decide)]
  rw [if_neg (by simp; omega)]

theorem mllLoop_accepts (body : List Char) (h3 : ¬ ['\'', '\'', '\''] <:+: body)
    (post : List Char) (hp : post.head? ≠ some '\'')
    (c : Cursor) (hc : c.rest = body ++ '\'' :: '\'' :: '\'' :: post) :
    ∃ c1, Adv c c1 (body ++ ['\'', '\'', '\''])
      ∧ Cursor.multiLineLiteralStringLoop (body ++ '\'' :: '\'' :: '\'' :: post) c
        = c1.ok .MULTI_LINE_LITERAL_STRING := by
  induction body generalizing c with
  | nil => exact mll_close 3 (by omega) (by omega) post hp c hc
  | cons x xs ih =>
    have h3s : ¬ ['\'', '\'', '\''] <:+: xs := fun h => h3 (List.infix_cons h)
    obtain ⟨h1, h2, h4⟩ := Adv.bump_cons (x := x) (xs := xs ++ '\'' :: '\'' :: '\'' :: post) hc
    obtain ⟨c1, h5, h6⟩ := ih h3s c.bump h2
    have skip : (x ≠ '\'' ∨ ∀ t, c.bump.rest ≠ '\'' :: '\'' :: t) →
          ∃ c1, Adv c c1 (x :: xs ++ ['\'', '\'', '\''])
          ∧ Cursor.multiLineLiteralStringLoop (x :: xs ++ '\'' :: '\'' :: '\'' :: post) c
            = c1.ok .MULTI_LINE_LITERAL_STRING := by
      intro hskip
      refine ⟨c1, h1.trans h5, ?_⟩
      simp only [List.cons_append]
      unfold Cursor.multiLineLiteralStringLoop
      simp only []
      rw [h4]
      have : (x == '\'' && c.bump.peek 1 == '\'' && c.bump.peek 2 == '\'') = false := by
        rcases hskip with hskip | hskip
        · simp [hskip]
        · rw [Bool.eq_false_iff]
          intro hm
          simp only [Bool.and_eq_true, beq_iff_eq] at hm
          cases hr : c.bump.rest with
          | nil => rw [h2] at hr; simp at hr
          | cons x' xs' =>
            cases xs' with
            | nil => rw [h2] at hr
                     have := congrArg List.length hr
                     simp at this
                     omega
            | cons y ys =>
              have e1 := hm.1.2
              have e2 := hm.2
              rw [peek1_of hr] at e1
              rw [peek2_of hr] at e2
              subst e1 e2
              exact hskip ys hr
      rw [this]
      simp only [Bool.false_eq_true, if_false]
      exact h6
    by_cases hx : x = '\''
    · subst hx
      cases xs with
      | nil => exact mll_close 4 (by omega) (by omega) post hp c hc
      | cons y ys =>
        by_cases hy : y = '\''
        · subst hy
          cases ys with
          | nil => exact mll_close 5 (by omega) (by omega) post hp c hc
          | cons z zs =>
            by_cases hz : z = '\''
            · subst hz; exact absurd ⟨[], zs, rfl⟩ h3
            · apply skip; right; intro t ht
              rw [h2] at ht
              simp at ht
              exact hz ht.1
        · apply skip; right; intro t ht
          rw [h2] at ht
          simp at ht
          exact hy ht.1
    · exact skip (Or.inl hx)

theorem accepts_multi_literal {lit post : List Char} (h : MultiLiteralString lit)
    (hp : post.head? ≠ some '\'') : Accepts .MULTI_LINE_LITERAL_STRING lit post := by
  obtain ⟨body, h3, rfl⟩ := h
  intro c hc
  have hc' : c.rest = '\'' :: '\'' :: '\'' :: (body ++ '\'' :: '\'' :: '\'' :: post) := by
    rw [hc]; simp
  obtain ⟨h1, h2, hcur⟩ := Adv.bump_cons hc'
  obtain ⟨h4, h5⟩ := Adv.eatN 2 c.bump
  rw [h2] at h4 h5
  simp only [List.take_succ_cons, List.take_zero, List.drop_succ_cons, List.drop_zero] at h4 h5
  obtain ⟨c1, h6, h7⟩ := mllLoop_accepts body h3 post hp _ h5
  refine ⟨c1, by simpa using h1.trans (h4.trans h6), ?_⟩
  rw [advance_cons hc', dispatch_apos hcur]
  have : c.bump.matches ['\'', '\'', '\''] = true := by
    rw [Cursor.matches_iff _ _ _ (by decide)]
    exact ⟨hcur, _, h2⟩
  rw [this]
  simp only [if_true]
  unfold Cursor.multiLineLiteralString
  rw [h5]
  exact h7

end Tombi
