import Verif.Spec.TextOps
/-! Lines, editor positions and text edits. -/
namespace Tombi
open Spec

/-! ### lines -/

theorem lines_exist (s : List Char) : ∃ ls, Lines s ls := by
  induction s with
  | nil => exact ⟨[[]], .last (by simp)⟩
  | cons c s ih =>
    obtain ⟨ls, h⟩ := ih
    by_cases hc : c = '\n'
    · subst hc
      exact ⟨[] :: ls, Lines.cons (l := []) (t := ['\n']) (by simp) (.inl rfl) (fun _ l' e => (by simp at e)) h⟩
    · cases h with
      | last hl => exact ⟨[c :: s], .last (by simp [hl, Ne.symm hc])⟩
      | @cons l t s' ls' hl ht hcr hs =>
        by_cases hx : c = '\r' ∧ l = [] ∧ t = ['\n']
        · obtain ⟨rfl, rfl, rfl⟩ := hx
          exact ⟨[] :: ls', Lines.cons (l := []) (t := ['\r', '\n']) (by simp) (.inr rfl) (fun e => (by cases e)) hs⟩
        · refine ⟨(c :: l) :: ls', Lines.cons (l := c :: l) (t := t) (by simp [hl, Ne.symm hc]) ht (fun e l' e' => ?_) hs⟩
          cases l' with
          | nil =>
            simp only [List.nil_append, List.cons.injEq] at e'
            exact hx ⟨e'.1, e'.2, e⟩
          | cons d l' =>
            simp only [List.cons_append, List.cons.injEq] at e'
            exact hcr e l' e'.2

/-- the character before the end of `l` -/
def lastOr (prev : Option Char) (l : List Char) : Option Char :=
  match l.getLast? with
  | some c => some c
  | none => prev

theorem lastOr_cons (prev : Option Char) (c : Char) (l : List Char) : lastOr prev (c :: l) = lastOr (some c) l := by
  unfold lastOr
  cases l with
  | nil => rfl
  | cons d l => rw [List.getLast?_cons_cons]; cases h : (d :: l).getLast? <;> simp_all

theorem lineLoop_append (idx start : Nat) (prev : Option Char) (l r : List Char) (hl : '\n' ∉ l) :
    lineLoop idx start prev (l ++ r) = lineLoop (idx + utf8Len l) start (lastOr prev l) r := by
  induction l generalizing idx prev with
  | nil => rfl
  | cons c l ih =>
    have hc : c ≠ '\n' := fun e => hl (by simp [e])
    rw [List.cons_append, lineLoop, if_neg hc, ih _ _ (fun h => hl (by simp [h])), lastOr_cons, utf8Len_cons,
      Nat.add_assoc]

/-- the spans of the lines of a text that begins at byte `base` -/
inductive LineSpans : Nat → List Char → List (List Char) → List Span → Prop
  | last {base : Nat} {l : List Char} : '\n' ∉ l → LineSpans base l [l] [⟨base, base + utf8Len l⟩]
  | cons {base : Nat} {l t s : List Char} {ls : List (List Char)} {spans : List Span} :
      '\n' ∉ l → Terminator t → (t = ['\n'] → ∀ l', l ≠ l' ++ ['\r']) →
      LineSpans (base + utf8Len l + utf8Len t) s ls spans →
      LineSpans base (l ++ t ++ s) (l :: ls) (⟨base, base + utf8Len l⟩ :: spans)

theorem lineLoop_spans {s : List Char} {ls : List (List Char)} (h : Lines s ls) (base : Nat) (prev : Option Char) :
    LineSpans base s ls (lineLoop base base prev s) := by
  induction h generalizing base prev with
  | @last l hl =>
    have := lineLoop_append base base prev l [] hl
    rw [List.append_nil] at this
    rw [this, lineLoop]
    exact .last hl
  | @cons l t s ls hl ht hcr hs ih =>
    rcases ht with rfl | rfl
    · have e : lineLoop base base prev (l ++ ['\n'] ++ s)
          = ⟨base, base + utf8Len l⟩ :: lineLoop (base + utf8Len l + 1) (base + utf8Len l + 1) (some '\n') s := by
        rw [List.append_assoc, lineLoop_append base base prev l _ hl, List.cons_append, lineLoop, if_pos rfl, if_neg]
        · rfl
        · rintro ⟨h1, h2⟩
          cases hx : l.getLast? with
          | none =>
            rw [List.getLast?_eq_none_iff] at hx
            subst hx
            exact absurd h1 (by simp)
          | some c =>
            rw [lastOr, hx] at h2
            cases h2
            obtain ⟨l', e⟩ := List.getLast?_eq_some_iff.mp hx
            exact hcr rfl l' e
      rw [e]
      exact .cons hl (.inl rfl) hcr (ih _ _)
    · have e : lineLoop base base prev (l ++ ['\r', '\n'] ++ s)
          = ⟨base, base + utf8Len l⟩ :: lineLoop (base + utf8Len l + 2) (base + utf8Len l + 2) (some '\n') s := by
        have e1 : l ++ ['\r', '\n'] ++ s = (l ++ ['\r']) ++ '\n' :: s := by simp
        have e2 : utf8Len (l ++ ['\r']) = utf8Len l + 1 := by rw [utf8Len_append]; rfl
        rw [e1, lineLoop_append base base prev _ _ (by simp [hl]), lineLoop, if_pos rfl, if_pos, e2]
        · rfl
        · refine ⟨by rw [e2]; omega, ?_⟩
          rw [lastOr, List.getLast?_concat]
      rw [e]
      exact .cons hl (.inr rfl) hcr (ih _ _)

theorem byteSlice_mid (a m b : List Char) {i j : Nat} (hi : i = utf8Len a) (hj : j = utf8Len a + utf8Len m) :
    byteSlice i j (a ++ m ++ b) = some m := by
  subst hi; subst hj; exact byteSlice_append a m b

theorem lineSpans_text {base : Nat} {s : List Char} {ls : List (List Char)} {spans : List Span}
    (h : LineSpans base s ls spans) (pre : List Char) (hp : utf8Len pre = base) (i : Nat) :
    ((spans[i]?).bind fun span => byteSlice span.start span.stop (pre ++ s)) = ls[i]? := by
  induction h generalizing pre i with
  | @last base l hl =>
    cases i with
    | zero =>
      have := byteSlice_mid pre l [] hp.symm (j := base + utf8Len l) (by rw [hp])
      rw [List.append_nil] at this
      exact this
    | succ i => rfl
  | @cons base l t s ls spans hl ht hcr hs ih =>
    cases i with
    | zero =>
      have := byteSlice_mid pre l (t ++ s) hp.symm (j := base + utf8Len l) (by rw [hp])
      simp only [List.append_assoc] at this ⊢
      exact this
    | succ i =>
      have := ih (pre ++ l ++ t) (by simp [hp, Nat.add_assoc]) i
      simp only [List.append_assoc] at this ⊢
      exact this

theorem lineText_lines {s : List Char} {ls : List (List Char)} (h : Lines s ls) (e : EncodingKind) (i : Nat) :
    (LineIndex.new s e).lineText i = ls[i]? :=
  lineSpans_text (lineLoop_spans h 0 none) [] rfl i

/-! ### editor positions -/

theorem measure_eq (e : EncodingKind) (s : List Char) : e.measure s = codeUnits e s := by
  unfold EncodingKind.measure codeUnits
  congr 1
  apply List.map_congr_left
  intro c _
  cases e with
  | utf16 =>
    show (if c.toNat < 0x10000 then 1 else 2) = if c.toNat ≤ 0xFFFF then 1 else 2
    by_cases h : c.toNat < 0x10000
    · rw [if_pos h, if_pos (by omega)]
    · rw [if_neg h, if_neg (by omega)]
  | _ => rfl

theorem codeUnits_append (e : EncodingKind) (a b : List Char) : codeUnits e (a ++ b) = codeUnits e a + codeUnits e b := by
  unfold codeUnits
  rw [List.map_append, List.sum_append]

theorem codeUnits_pos (e : EncodingKind) {s : List Char} (h : s ≠ []) : 0 < codeUnits e s := by
  cases s with
  | nil => exact absurd rfl h
  | cons c s =>
    rw [← measure_eq]
    unfold EncodingKind.measure
    rw [List.map_cons, List.sum_cons]
    have : 0 < e.units c := by
      cases e with
      | utf8 => exact c.utf8Size_pos
      | utf16 => unfold EncodingKind.units; simp only []; split <;> decide
      | utf32 => exact Nat.one_pos
    omega

theorem foldl_measure (e : EncodingKind) (gs : List (List Char)) (n : Nat) :
    gs.foldl (fun acc g => acc + e.measure g) n = n + codeUnits e gs.flatten := by
  induction gs generalizing n with
  | nil => rfl
  | cons g gs ih => rw [List.foldl_cons, ih, measure_eq, List.flatten_cons, codeUnits_append, Nat.add_assoc]

theorem Spec.Segments.take {G : Segmenter} (hG : Segments G) (s : List Char) (n : Nat) :
    G.graphemes ((G.graphemes s).take n).flatten = (G.graphemes s).take n := by
  have := hG.stable s 0 n
  rwa [List.drop_zero] at this

theorem Spec.Segments.drop {G : Segmenter} (hG : Segments G) (s : List Char) (n : Nat) :
    G.graphemes ((G.graphemes s).drop n).flatten = (G.graphemes s).drop n := by
  have := hG.stable s n (G.graphemes s).length
  rwa [List.take_of_length_le (by rw [List.length_drop]; omega)] at this

/-- the loop finds the longest sequence of graphemes that fits -/
theorem takeColumnLoop_spec (e : EncodingKind) (target consumed : Nat) (before : List Char) (gs : List (List Char))
    (hne : [] ∉ gs) (hc : consumed < target) :
    ∃ k, k ≤ gs.length ∧ takeColumnLoop e target consumed before gs = before ++ (gs.take k).flatten
      ∧ consumed + codeUnits e (gs.take k).flatten ≤ target
      ∧ (k < gs.length → target < consumed + codeUnits e (gs.take (k + 1)).flatten) := by
  induction gs generalizing consumed before with
  | nil => exact ⟨0, by simp, by simp [takeColumnLoop], by simpa [codeUnits] using Nat.le_of_lt hc, by simp⟩
  | cons g gs ih =>
    rw [takeColumnLoop, measure_eq]
    by_cases h1 : consumed + codeUnits e g > target
    · rw [if_pos h1]
      exact ⟨0, by simp, by simp, by simpa [codeUnits] using Nat.le_of_lt hc, fun _ => by simpa using h1⟩
    · rw [if_neg h1]
      by_cases h2 : consumed + codeUnits e g = target
      · rw [if_pos h2]
        refine ⟨1, by simp, by simp, by simp [h2], fun h => ?_⟩
        cases gs with
        | nil => simp at h
        | cons g' gs =>
          have : 0 < codeUnits e g' := codeUnits_pos e (fun x => hne (by simp [x]))
          simp only [List.take_succ_cons, List.flatten_cons, codeUnits_append, List.take_zero, List.flatten_nil]
          omega
      · rw [if_neg h2]
        obtain ⟨k, hk, e1, e2, e3⟩ := ih (consumed + codeUnits e g) (before ++ g) (fun h => hne (by simp [h])) (by omega)
        refine ⟨k + 1, by simp [hk], ?_, ?_, fun h => ?_⟩
        · rw [e1]; simp [List.append_assoc]
        · rw [List.take_succ_cons, List.flatten_cons, codeUnits_append]; omega
        · have := e3 (by simpa using h)
          rw [List.take_succ_cons, List.flatten_cons, codeUnits_append]; omega

theorem takeColumnText_spec (G : Segmenter) (line : List Char) (target : Nat) (e : EncodingKind) :
    ∃ k, k ≤ (G.graphemes line).length ∧ takeColumnText G line target e = ((G.graphemes line).take k).flatten
      ∧ codeUnits e ((G.graphemes line).take k).flatten ≤ target
      ∧ (k < (G.graphemes line).length → target < codeUnits e ((G.graphemes line).take (k + 1)).flatten) := by
  unfold takeColumnText
  by_cases h : target = 0
  · rw [if_pos h]
    refine ⟨0, by simp, by simp, by simp [codeUnits], fun hk => ?_⟩
    cases hg : G.graphemes line with
    | nil => rw [hg] at hk; simp at hk
    | cons g gs =>
      have : 0 < codeUnits e g := codeUnits_pos e (fun x => G.ne_nil line (by rw [hg]; simp [x]))
      simpa [h] using this
  · rw [if_neg h]
    obtain ⟨k, hk, e1, e2, e3⟩ := takeColumnLoop_spec e target 0 [] (G.graphemes line) (G.ne_nil line) (by omega)
    exact ⟨k, hk, by simpa using e1, by simpa using e2, by simpa using e3⟩

/-- code units grow with the number of graphemes -/
theorem units_take_mono (e : EncodingKind) (gs : List (List Char)) {i j : Nat} (h : i ≤ j) :
    codeUnits e (gs.take i).flatten ≤ codeUnits e (gs.take j).flatten := by
  have : gs.take j = gs.take i ++ (gs.drop i).take (j - i) := by
    rw [← List.take_add, Nat.add_sub_of_le h]
  rw [this, List.flatten_append, codeUnits_append]
  omega

theorem units_take_lt (e : EncodingKind) (gs : List (List Char)) (hne : [] ∉ gs) {i j : Nat} (h : i < j)
    (hj : j ≤ gs.length) : codeUnits e (gs.take i).flatten < codeUnits e (gs.take j).flatten := by
  have : gs.take j = gs.take i ++ (gs.drop i).take (j - i) := by
    rw [← List.take_add, Nat.add_sub_of_le (Nat.le_of_lt h)]
  rw [this, List.flatten_append, codeUnits_append]
  have : 0 < codeUnits e ((gs.drop i).take (j - i)).flatten := by
    apply codeUnits_pos
    intro hx
    rw [List.flatten_eq_nil_iff] at hx
    have hl : 0 < ((gs.drop i).take (j - i)).length := by rw [List.length_take, List.length_drop]; omega
    obtain ⟨g, hg⟩ := List.exists_mem_of_length_pos hl
    have hmem : g ∈ gs := List.mem_of_mem_drop (List.mem_of_mem_take hg)
    rw [hx g hg] at hmem
    exact hne hmem
  omega

/-! ### text edits -/

theorem lastLine_append_lf {a b : List Char} (hb : '\n' ∉ b) : lastLine (a ++ '\n' :: b) = b := by
  unfold lastLine
  rw [List.reverse_append, List.reverse_cons, List.append_assoc, List.takeWhile_append_of_pos]
  · simp
  · intro c hc
    have : c ≠ '\n' := fun e => hb (by rw [← e]; exact List.mem_reverse.mp hc)
    simpa using this

theorem lastLine_no_lf {b : List Char} (hb : '\n' ∉ b) : lastLine b = b := by
  unfold lastLine
  have : b.reverse.takeWhile (· ≠ '\n') = b.reverse := by
    have := List.takeWhile_append_of_pos (p := fun c : Char => decide (c ≠ '\n')) (l₁ := b.reverse) (l₂ := []) (by
      intro c hc
      have : c ≠ '\n' := fun e => hb (by rw [← e]; exact List.mem_reverse.mp hc)
      simpa using this)
    simpa using this
  rw [this, List.reverse_reverse]

/-- `pre` ends in line `n`, after `j` graphemes of the line's text -/
structure Place (G : Segmenter) (ls : List (List Char)) (pre : List Char) (n j : Nat) : Prop where
  ex : ∃ l pl, ls[n]? = some l ∧ '\n' ∉ l ∧ j ≤ (G.graphemes l).length
    ∧ pre = pl ++ ((G.graphemes l).take j).flatten ∧ (pl = [] ∨ ∃ q, pl = q ++ ['\n']) ∧ pl.count '\n' = n

theorem take_no_lf {G : Segmenter} {l : List Char} (hl : '\n' ∉ l) (j : Nat) :
    '\n' ∉ ((G.graphemes l).take j).flatten := by
  intro h
  apply hl
  have e : l = ((G.graphemes l).take j).flatten ++ ((G.graphemes l).drop j).flatten := by
    rw [← List.flatten_append, List.take_append_drop, G.flatten_graphemes]
  rw [e]
  exact List.mem_append_left _ h

theorem take_prefix {G : Segmenter} (l : List Char) (j : Nat) :
    l = ((G.graphemes l).take j).flatten ++ ((G.graphemes l).drop j).flatten := by
  rw [← List.flatten_append, List.take_append_drop, G.flatten_graphemes]

theorem Place.facts {G : Segmenter} {ls : List (List Char)} {pre : List Char} {n j : Nat} (h : Place G ls pre n j) :
    pre.count '\n' = n ∧ ∃ l, ls[n]? = some l ∧ j ≤ (G.graphemes l).length
      ∧ lastLine pre = ((G.graphemes l).take j).flatten := by
  obtain ⟨l, pl, h1, h2, h3, h4, h5, h6⟩ := h.ex
  have hn := take_no_lf (G := G) h2 j
  refine ⟨?_, l, h1, h3, ?_⟩
  · rw [h4, List.count_append, List.count_eq_zero.mpr hn, h6]; rfl
  · rcases h5 with rfl | ⟨q, rfl⟩
    · rw [h4, List.nil_append, lastLine_no_lf hn]
    · rw [h4, List.append_assoc]
      exact lastLine_append_lf hn

theorem positionLoop_inLine {G : Segmenter} (hG : Segments G) (ix : LineIndex) (base line : Nat) (last : Nat × List Char)
    (l : List Char) (ls : List (List Char)) (rest : List Span) (k : Nat) (hl : '\n' ∉ l)
    (ht : ix.lineText line = some l) (hk : k ≤ (G.graphemes l).length) :
    positionAtOffsetLoop G ix (base + utf8Len ((G.graphemes l).take k).flatten) line last
        (⟨base, base + utf8Len l⟩ :: rest) = some ⟨line + 0, k⟩
      ∧ Place G (l :: ls) ((G.graphemes l).take k).flatten 0 k := by
  have e := take_prefix (G := G) l k
  have hle : utf8Len ((G.graphemes l).take k).flatten ≤ utf8Len l := by
    conv => rhs; rw [e]
    rw [utf8Len_append]; omega
  constructor
  · rw [positionAtOffsetLoop]
    simp only [ht, Option.getD_some]
    rw [if_pos (by omega), Nat.add_sub_cancel_left,
      show Nat.min (utf8Len ((G.graphemes l).take k).flatten) (utf8Len l) = utf8Len ((G.graphemes l).take k).flatten
        from Nat.min_eq_left hle]
    have : byteTake (utf8Len ((G.graphemes l).take k).flatten) l = some ((G.graphemes l).take k).flatten := by
      conv => lhs; arg 2; rw [e]
      exact byteTake_append _ _
    rw [this, Option.map_some, hG.take, List.length_take, Nat.min_eq_left hk]
    rfl
  · exact ⟨l, [], rfl, hl, hk, rfl, .inl rfl, rfl⟩

theorem positionLoop_place {G : Segmenter} (hG : Segments G) (ix : LineIndex) {base : Nat} {s : List Char}
    {ls : List (List Char)} {spans : List Span} (h : LineSpans base s ls spans) (line : Nat) (last : Nat × List Char)
    (hix : ∀ i, ix.lineText (line + i) = ls[i]?) (k : Nat) (hk : k ≤ (G.graphemes s).length) :
    ∃ n j, positionAtOffsetLoop G ix (base + utf8Len ((G.graphemes s).take k).flatten) line last spans
        = some ⟨line + n, j⟩ ∧ Place G ls ((G.graphemes s).take k).flatten n j := by
  induction h generalizing line last k with
  | @last base l hl =>
    obtain ⟨h1, h2⟩ := positionLoop_inLine hG ix base line last l [] [] k hl (by have := hix 0; simpa using this) hk
    exact ⟨0, k, h1, h2⟩
  | @cons base l t s ls spans hl ht hcr hs ih =>
    rw [hG.line l t s ht hcr] at hk ⊢
    have hix0 : ix.lineText line = some l := by have := hix 0; simpa using this
    by_cases hkl : k ≤ (G.graphemes l).length
    · rw [List.take_append_of_le_length hkl]
      obtain ⟨h1, h2⟩ := positionLoop_inLine hG ix base line last l ls spans k hl hix0 hkl
      exact ⟨0, k, h1, h2⟩
    · obtain ⟨k', rfl⟩ : ∃ k', k = (G.graphemes l).length + (k' + 1) := ⟨k - (G.graphemes l).length - 1, by omega⟩
      have e1 : (G.graphemes l ++ t :: G.graphemes s).take ((G.graphemes l).length + (k' + 1))
          = G.graphemes l ++ t :: (G.graphemes s).take k' := by
        rw [List.take_length_add_append, List.take_succ_cons]
      have e2 : (G.graphemes l ++ t :: (G.graphemes s).take k').flatten = l ++ t ++ ((G.graphemes s).take k').flatten := by
        rw [List.flatten_append, List.flatten_cons, G.flatten_graphemes, List.append_assoc]
      have hk' : k' ≤ (G.graphemes s).length := by
        rw [List.length_append, List.length_cons] at hk; omega
      obtain ⟨n, j, h1, h2⟩ := ih (line + 1) (line, l) (fun i => by
          have := hix (i + 1)
          rw [List.getElem?_cons_succ] at this
          rw [← this]; congr 1; omega) k' hk'
      have ht0 : 0 < utf8Len t := by rcases ht with rfl | rfl <;> decide
      refine ⟨n + 1, j, ?_, ?_⟩
      · rw [e1, e2, utf8Len_append, utf8Len_append, positionAtOffsetLoop]
        simp only [hix0, Option.getD_some]
        rw [if_neg (by omega)]
        have : base + (utf8Len l + utf8Len t + utf8Len ((G.graphemes s).take k').flatten)
            = base + utf8Len l + utf8Len t + utf8Len ((G.graphemes s).take k').flatten := by omega
        rw [this, h1]
        congr 2; omega
      · obtain ⟨l1, pl, g1, g2, g3, g4, g5, g6⟩ := h2.ex
        refine ⟨l1, l ++ t ++ pl, by simpa using g1, g2, g3, ?_, .inr ?_, ?_⟩
        · rw [e1, e2, List.append_assoc (l ++ t), ← g4]
        · rcases g5 with rfl | ⟨q, rfl⟩
          · rcases ht with rfl | rfl
            · exact ⟨l, by simp⟩
            · exact ⟨l ++ ['\r'], by simp⟩
          · exact ⟨l ++ t ++ q, by simp⟩
        · have : t.count '\n' = 1 := by rcases ht with rfl | rfl <;> decide
          rw [List.count_append, List.count_append, List.count_eq_zero.mpr hl, this, g6]; omega

end Tombi
