import Verif.Proofs.VersionSort
import Verif.Spec.Numbers
/-! Version sort compares numbers by value, and identifies only texts that differ in `_` and `-`. -/
namespace Tombi.VersionSort
open Spec

/-! ### chunks partition the text -/

/-- the text of a chunk -/
def Chunk.text : Chunk → List Char
  | .underscore => ['_']
  | .hyphen => ['-']
  | .versionOp s => s
  | .str s => s
  | .number _ _ s => s

theorem strRun_append (s : List Char) : (strRun s).1 ++ (strRun s).2 = s := by
  induction s with
  | nil => rfl
  | cons c cs ih =>
    rw [strRun]
    split
    · rfl
    · simp [ih]

theorem versionOperator_prefix {s op : List Char} (h : versionOperator s = some op) : op ∈ operators ∧ op <+: s := by
  refine ⟨List.mem_of_find?_eq_some h, ?_⟩
  have := List.find?_some h
  simpa using this

theorem operators_nonempty : ∀ op ∈ operators, op ≠ [] ∧ ∀ c ∈ op, isAsciiDigit c = false := by decide

theorem next_text {s r : List Char} {k : Chunk} (h : next s = some (k, r)) : k.text ++ r = s ∧ k.text ≠ [] := by
  cases s with
  | nil => cases h
  | cons c cs =>
    rw [next] at h
    by_cases h1 : c = '_'
    · rw [if_pos h1] at h; cases h; subst h1; exact ⟨rfl, by simp [Chunk.text]⟩
    rw [if_neg h1] at h
    by_cases h2 : c = '-'
    · rw [if_pos h2] at h; cases h; subst h2; exact ⟨rfl, by simp [Chunk.text]⟩
    rw [if_neg h2] at h
    by_cases h3 : isAsciiDigit c = true
    · rw [if_pos h3] at h
      unfold numericChunk at h
      simp only [] at h
      split at h
      · cases h
        refine ⟨List.takeWhile_append_dropWhile, ?_⟩
        rw [Chunk.text, List.takeWhile_cons_of_pos h3]; simp
      · cases h
    rw [if_neg h3] at h
    split at h
    · rename_i op ho
      obtain ⟨hm, t, ht⟩ := versionOperator_prefix ho
      cases h
      refine ⟨?_, (operators_nonempty op hm).1⟩
      show op ++ _ = _
      rw [← ht, List.drop_left]
    · cases h
      refine ⟨?_, by simp [Chunk.text]⟩
      show (c :: (strRun cs).1) ++ _ = _
      rw [List.cons_append, strRun_append]

theorem next_shorter {s r : List Char} {k : Chunk} (h : next s = some (k, r)) : r.length < s.length := by
  obtain ⟨h1, h2⟩ := next_text h
  rw [← h1, List.length_append]
  have : 0 < k.text.length := List.length_pos_iff.mpr h2
  omega

theorem chunkLoop_fuel (n m : Nat) (s : List Char) (hn : s.length ≤ n) (hm : s.length ≤ m) :
    chunkLoop n s = chunkLoop m s := by
  induction n generalizing m s with
  | zero =>
    have : s = [] := List.length_eq_zero_iff.mp (by omega)
    subst this
    cases m <;> rfl
  | succ n ih =>
    cases m with
    | zero =>
      have : s = [] := List.length_eq_zero_iff.mp (by omega)
      subst this; rfl
    | succ m =>
      rw [chunkLoop, chunkLoop]
      cases h : next s with
      | none => rfl
      | some p =>
        have := next_shorter (k := p.1) (r := p.2) h
        simp only []
        rw [ih m p.2 (by omega) (by omega)]

theorem chunks_cons {s r : List Char} {k : Chunk} (h : next s = some (k, r)) : chunks s = k :: chunks r := by
  have hs := next_shorter h
  unfold chunks
  rw [show s.length = (s.length - 1) + 1 by omega, chunkLoop, h]
  simp only []
  rw [chunkLoop_fuel _ r.length r (by omega) (by omega)]

theorem chunks_nil : chunks [] = [] := rfl

/-! ### numbers -/

theorem digit_not_underscore {c : Char} (h : isAsciiDigit c = true) : c ≠ '_' := by
  rintro rfl; exact absurd h (by decide)

theorem digitVal_digit {c : Char} (h : isAsciiDigit c = true) : digitVal c = c.toNat - 48 ∧ digitVal c < 10 := by
  have hr := digit_range.mp h
  have : c ≤ '9' := by show c.toNat ≤ 57; omega
  unfold digitVal
  rw [if_pos this]
  exact ⟨rfl, by show c.toNat - 48 < 10; omega⟩

theorem digitCount_digits {s : List Char} (h : ∀ c ∈ s, isAsciiDigit c = true) : digitCount s = s.length := by
  unfold digitCount
  rw [List.filter_eq_self.mpr]
  intro c hc
  simpa using digit_not_underscore (h c hc)

theorem posValue_cons {c : Char} {s : List Char} (hc : isAsciiDigit c = true) (h : ∀ c ∈ s, isAsciiDigit c = true) :
    posValue 10 (c :: s) = digitVal c * 10 ^ s.length + posValue 10 s := by
  rw [posValue, if_neg (digit_not_underscore hc), digitCount_digits h]

theorem posValue_lt {s : List Char} (h : ∀ c ∈ s, isAsciiDigit c = true) : posValue 10 s < 10 ^ s.length := by
  induction s with
  | nil => decide
  | cons c s ih =>
    have hs : ∀ c ∈ s, isAsciiDigit c = true := fun d hd => h d (by simp [hd])
    rw [posValue_cons (h c (by simp)) hs]
    have h1 := (digitVal_digit (h c (by simp))).2
    have h2 := ih hs
    have h3 : digitVal c * 10 ^ s.length ≤ 9 * 10 ^ s.length := Nat.mul_le_mul_right _ (by omega)
    rw [List.length_cons, Nat.pow_succ]
    omega

theorem parseUsize_eq (s : List Char) (h : ∀ c ∈ s, isAsciiDigit c = true) (acc : Nat) (ha : acc < 2 ^ 64) :
    parseUsize acc s = if acc * 10 ^ s.length + posValue 10 s < 2 ^ 64
      then some (acc * 10 ^ s.length + posValue 10 s) else none := by
  induction s generalizing acc with
  | nil => simp only [parseUsize, List.length_nil, Nat.pow_zero, Nat.mul_one, posValue, Nat.add_zero, if_pos ha]
  | cons c s ih =>
    have hs : ∀ c ∈ s, isAsciiDigit c = true := fun d hd => h d (by simp [hd])
    have hv := digitVal_digit (h c (by simp))
    rw [posValue_cons (h c (by simp)) hs]
    have e : acc * 10 ^ (c :: s).length + (digitVal c * 10 ^ s.length + posValue 10 s)
        = (acc * 10 + digitVal c) * 10 ^ s.length + posValue 10 s := by
      rw [List.length_cons, Nat.pow_succ, Nat.add_mul, Nat.mul_assoc, Nat.mul_comm 10, Nat.add_assoc]
    rw [e]
    have e2 : acc * 10 + (c.toNat - '0'.toNat) = acc * 10 + digitVal c := by rw [hv.1]; rfl
    show (if acc * 10 + (c.toNat - '0'.toNat) < 2 ^ 64 then parseUsize (acc * 10 + (c.toNat - '0'.toNat)) s else none) = _
    rw [e2]
    by_cases hlt : acc * 10 + digitVal c < 2 ^ 64
    · rw [if_pos hlt, ih hs _ hlt]
    · rw [if_neg hlt, if_neg]
      have : 1 ≤ 10 ^ s.length := Nat.one_le_pow _ _ (by decide)
      have : (acc * 10 + digitVal c) * 1 ≤ (acc * 10 + digitVal c) * 10 ^ s.length := Nat.mul_le_mul_left _ this
      omega

theorem parseUsize_zero (s : List Char) (h : ∀ c ∈ s, isAsciiDigit c = true) :
    parseUsize 0 s = if posValue 10 s < 2 ^ 64 then some (posValue 10 s) else none := by
  rw [parseUsize_eq s h 0 (by decide), Nat.zero_mul, Nat.zero_add]

/-- a text in which every number fits 64 bits -/
def Fits (s : List Char) : Prop := ∀ d, d <:+: s → (∀ c ∈ d, isAsciiDigit c = true) → posValue 10 d < 2 ^ 64

theorem Fits.suffix {s p r : List Char} (h : Fits s) (e : p ++ r = s) : Fits r := by
  intro d hd
  exact h d (hd.trans (by rw [← e]; exact (List.suffix_append p r).isInfix))

theorem takeWhile_all {p : Char → Bool} (s : List Char) : ∀ c ∈ s.takeWhile p, p c = true := by
  induction s with
  | nil => intro c hc; cases hc
  | cons a s ih =>
    intro c hc
    by_cases h : p a = true
    · rw [List.takeWhile_cons_of_pos h] at hc
      rcases List.mem_cons.mp hc with rfl | hc
      · exact h
      · exact ih c hc
    · rw [List.takeWhile_cons_of_neg h] at hc; cases hc

/-- the chunk of a number that fits -/
theorem numericChunk_some {s : List Char} (h : posValue 10 (s.takeWhile isAsciiDigit) < 2 ^ 64) :
    numericChunk s = some (.number (posValue 10 (s.takeWhile isAsciiDigit))
      ((s.takeWhile isAsciiDigit).takeWhile (· == '0')).length (s.takeWhile isAsciiDigit), s.dropWhile isAsciiDigit) := by
  unfold numericChunk
  simp only []
  rw [parseUsize_zero _ (takeWhile_all s), if_pos h]

theorem next_isSome {s : List Char} (hf : Fits s) (hs : s ≠ []) : ∃ k r, next s = some (k, r) := by
  cases s with
  | nil => exact absurd rfl hs
  | cons c cs =>
    rw [next]
    repeat' split
    · exact ⟨_, _, rfl⟩
    · exact ⟨_, _, rfl⟩
    · exact ⟨_, _, numericChunk_some (hf _ (List.takeWhile_prefix _).isInfix (takeWhile_all _))⟩
    · exact ⟨_, _, rfl⟩
    · exact ⟨_, _, rfl⟩

/-- the chunks of a text whose numbers fit are the whole text -/
theorem chunks_text (s : List Char) (hf : Fits s) : (chunks s).flatMap Chunk.text = s := by
  induction h : s.length using Nat.strongRecOn generalizing s with
  | _ n ih =>
    by_cases hs : s = []
    · subst hs; rfl
    · obtain ⟨k, r, hk⟩ := next_isSome hf hs
      have ht := (next_text hk).1
      rw [chunks_cons hk, List.flatMap_cons, ih r.length (by rw [← h]; exact next_shorter hk) r (hf.suffix ht) rfl, ht]

/-! ### chunks of a text followed by a number -/

/-- a text that is empty or begins with a digit -/
def NumberStart (w : List Char) : Prop := ∀ c r, w = c :: r → isAsciiDigit c = true

theorem prefix_before_digit {op p w : List Char} (ho : ∀ c ∈ op, isAsciiDigit c = false) (hw : NumberStart w) :
    op.isPrefixOf (p ++ w) = op.isPrefixOf p := by
  induction op generalizing p with
  | nil => simp
  | cons c op ih =>
    cases p with
    | nil =>
      cases w with
      | nil => rfl
      | cons d w =>
        have h1 := hw d w rfl
        have h2 := ho c (by simp)
        have : (c == d) = false := by
          apply beq_eq_false_iff_ne.mpr
          rintro rfl
          rw [h1] at h2; cases h2
        show (c == d && _) = false
        rw [this]; rfl
    | cons d p =>
      rw [List.cons_append, List.isPrefixOf, List.isPrefixOf, ih (fun c hc => ho c (by simp [hc]))]

theorem find?_congr' {p q : List Char → Bool} {l : List (List Char)} (h : ∀ x ∈ l, p x = q x) : l.find? p = l.find? q := by
  induction l with
  | nil => rfl
  | cons a l ih =>
    rw [List.find?_cons, List.find?_cons, h a (by simp), ih (fun x hx => h x (by simp [hx]))]

theorem versionOperator_append {p w : List Char} (hw : NumberStart w) :
    versionOperator (p ++ w) = versionOperator p :=
  find?_congr' fun op ho => prefix_before_digit (operators_nonempty op ho).2 hw

theorem strRun_append_number {p w : List Char} (hw : NumberStart w) :
    strRun (p ++ w) = ((strRun p).1, (strRun p).2 ++ w) := by
  induction p with
  | nil =>
    cases w with
    | nil => rfl
    | cons c w =>
      have : strRun (c :: w) = ([], c :: w) := by
        rw [strRun, if_pos (Or.inr (Or.inr (Or.inl (hw c w rfl))))]
      exact this
  | cons c p ih =>
    rw [List.cons_append, strRun, strRun, ← List.cons_append, versionOperator_append hw]
    split
    · rfl
    · rw [ih]

/-- no digit at the end -/
def NumberEnd (p : List Char) : Prop := ∀ q c, p = q ++ [c] → isAsciiDigit c = false

theorem dropWhile_digits_ne {p : List Char} (hp : NumberEnd p) (hne : p ≠ []) : p.dropWhile isAsciiDigit ≠ [] := by
  intro h
  have hall : ∀ c ∈ p, isAsciiDigit c = true := by
    have : p.takeWhile isAsciiDigit = p := by
      have := List.takeWhile_append_dropWhile (p := isAsciiDigit) (l := p)
      rw [h, List.append_nil] at this; exact this
    rw [← this]; exact takeWhile_all p
  have h1 := hall (p.getLast hne) (List.getLast_mem hne)
  have h2 := hp p.dropLast (p.getLast hne) (List.dropLast_concat_getLast hne).symm
  rw [h1] at h2; cases h2

theorem takeWhile_append_of_dropWhile {q : Char → Bool} {p w : List Char} (h : p.dropWhile q ≠ []) :
    (p ++ w).takeWhile q = p.takeWhile q ∧ (p ++ w).dropWhile q = p.dropWhile q ++ w := by
  induction p with
  | nil => exact absurd rfl h
  | cons c p ih =>
    by_cases hc : q c = true
    · rw [List.dropWhile_cons_of_pos hc] at h
      rw [List.cons_append, List.takeWhile_cons_of_pos hc, List.takeWhile_cons_of_pos hc,
        List.dropWhile_cons_of_pos hc, List.dropWhile_cons_of_pos hc, (ih h).1, (ih h).2]
      exact ⟨rfl, rfl⟩
    · rw [List.cons_append, List.takeWhile_cons_of_neg hc, List.takeWhile_cons_of_neg hc,
        List.dropWhile_cons_of_neg hc, List.dropWhile_cons_of_neg hc]
      exact ⟨rfl, rfl⟩

theorem next_append {p w r : List Char} {k : Chunk} (hp : NumberEnd p) (hw : NumberStart w)
    (h : next p = some (k, r)) : next (p ++ w) = some (k, r ++ w) := by
  cases p with
  | nil => cases h
  | cons c cs =>
    rw [List.cons_append, next]
    rw [next] at h
    by_cases h1 : c = '_'
    · rw [if_pos h1] at h ⊢; cases h; rfl
    rw [if_neg h1] at h ⊢
    by_cases h2 : c = '-'
    · rw [if_pos h2] at h ⊢; cases h; rfl
    rw [if_neg h2] at h ⊢
    by_cases h3 : isAsciiDigit c = true
    · rw [if_pos h3] at h ⊢
      obtain ⟨e1, e2⟩ := takeWhile_append_of_dropWhile (w := w) (dropWhile_digits_ne hp (by simp))
      rw [← List.cons_append]
      unfold numericChunk at h ⊢
      simp only [e1, e2] at h ⊢
      split at h
      · rename_i e; cases h; rfl
      · cases h
    rw [if_neg h3] at h ⊢
    rw [← List.cons_append, versionOperator_append hw]
    cases ho : versionOperator (c :: cs) with
    | some op =>
      rw [ho] at h
      cases h
      obtain ⟨_, t, ht⟩ := versionOperator_prefix ho
      simp only [← ht, List.append_assoc, List.drop_left]
    | none =>
      rw [ho] at h
      cases h
      simp only [strRun_append_number hw]

theorem NumberEnd.suffix {p q r : List Char} (h : NumberEnd p) (e : q ++ r = p) : NumberEnd r := by
  intro s c hs
  exact h (q ++ s) c (by rw [← e, hs, List.append_assoc])

theorem chunks_append (p w : List Char) (hf : Fits p) (hp : NumberEnd p) (hw : NumberStart w) :
    chunks (p ++ w) = chunks p ++ chunks w := by
  induction h : p.length using Nat.strongRecOn generalizing p with
  | _ n ih =>
    by_cases hs : p = []
    · subst hs; rfl
    · obtain ⟨k, r, hk⟩ := next_isSome hf hs
      have ht := (next_text hk).1
      rw [chunks_cons hk, chunks_cons (next_append hp hw hk),
        ih r.length (by rw [← h]; exact next_shorter hk) r (hf.suffix ht) (hp.suffix ht) rfl]
      rfl

theorem next_number {m r : List Char} (hm : m ≠ []) (hd : ∀ c ∈ m, isAsciiDigit c = true)
    (hr : ∀ c q, r = c :: q → isAsciiDigit c = false) (hv : posValue 10 m < 2 ^ 64) :
    next (m ++ r) = some (.number (posValue 10 m) (m.takeWhile (· == '0')).length m, r) := by
  have e1 : (m ++ r).takeWhile isAsciiDigit = m ∧ (m ++ r).dropWhile isAsciiDigit = r := by
    clear hv hm
    induction m with
    | nil =>
      cases r with
      | nil => exact ⟨rfl, rfl⟩
      | cons c r =>
        have := hr c r rfl
        rw [List.nil_append, List.takeWhile_cons_of_neg (by simp [this]), List.dropWhile_cons_of_neg (by simp [this])]
        exact ⟨rfl, rfl⟩
    | cons c m ih =>
      have := ih (fun d h => hd d (by simp [h]))
      rw [List.cons_append, List.takeWhile_cons_of_pos (hd c (by simp)), List.dropWhile_cons_of_pos (hd c (by simp)),
        this.1, this.2]
      exact ⟨rfl, rfl⟩
  have e2 : numericChunk (m ++ r) = some (.number (posValue 10 m) (m.takeWhile (· == '0')).length m, r) := by
    rw [numericChunk_some (by rw [e1.1]; exact hv), e1.1, e1.2]
  cases m with
  | nil => exact absurd rfl hm
  | cons c m =>
    have hc := hd c (by simp)
    rw [List.cons_append] at e2 ⊢
    rw [next, if_neg (by rintro rfl; exact absurd hc (by decide)), if_neg (by rintro rfl; exact absurd hc (by decide)),
      if_pos hc, e2]

theorem lex_common {α : Type} {c : α → α → Ordering} (hc : ∀ a, c a a = .eq) (p x y : List α) :
    lexList c (p ++ x) (p ++ y) = lexList c x y := by
  induction p with
  | nil => rfl
  | cons a p ih => rw [List.cons_append, List.cons_append, lexList, hc, ih]; rfl

theorem cmpKey_cmp : Cmp cmpKey := cmp_nat.lex.comap Chunk.key

theorem versionSort_number {p m n r q : List Char} (hf : Fits p) (hp : NumberEnd p)
    (hm : m ≠ []) (hmd : ∀ c ∈ m, isAsciiDigit c = true) (hn : n ≠ []) (hnd : ∀ c ∈ n, isAsciiDigit c = true)
    (hr : ∀ c t, r = c :: t → isAsciiDigit c = false) (hq : ∀ c t, q = c :: t → isAsciiDigit c = false)
    (hlt : posValue 10 m < posValue 10 n) (hv : posValue 10 n < 2 ^ 64) :
    versionSort (p ++ (m ++ r)) (p ++ (n ++ q)) = .lt := by
  have hs : ∀ {m r : List Char}, m ≠ [] → (∀ c ∈ m, isAsciiDigit c = true) → NumberStart (m ++ r) := by
    intro m r hm hd c t h
    cases m with
    | nil => exact absurd rfl hm
    | cons d m => cases h; exact hd c (by simp)
  rw [versionSort_eq, chunks_append p _ hf hp (hs hm hmd), chunks_append p _ hf hp (hs hn hnd),
    lex_common cmpKey_cmp.refl, chunks_cons (next_number hm hmd hr (by omega)), chunks_cons (next_number hn hnd hq hv),
    lexList]
  have : cmpKey (.number (posValue 10 m) (m.takeWhile (· == '0')).length m)
      (.number (posValue 10 n) (n.takeWhile (· == '0')).length n) = .lt := by
    show lexList cmpNat [3, _] [3, _] = _
    rw [lex_rank_eq]
    exact lex_rank_lt hlt
  rw [this]; rfl

/-! ### equal texts -/

/-- `-` read as `_` -/
def blank (c : Char) : Char := if c = '-' then '_' else c

theorem cmpNat_eq {a b : Nat} (h : cmpNat a b = .eq) : a = b := Nat.compare_eq_eq.mp h

theorem lexNat_eq {a b : List Nat} (h : lexList cmpNat a b = .eq) : a = b := by
  induction a generalizing b with
  | nil =>
    cases b with
    | nil => rfl
    | cons => cases h
  | cons x a ih =>
    cases b with
    | nil => cases h
    | cons y b =>
      rw [lexList, Ordering.then_eq_eq] at h
      rw [cmpNat_eq h.1, ih h.2]

theorem map_toNat_inj {a b : List Char} (h : a.map Char.toNat = b.map Char.toNat) : a = b := by
  induction a generalizing b with
  | nil => cases b with
    | nil => rfl
    | cons => cases h
  | cons x a ih => cases b with
    | nil => cases h
    | cons y b =>
      simp only [List.map_cons, List.cons.injEq] at h
      rw [ih h.2]
      congr 1
      apply Char.ext
      apply UInt32.toNat_inj.mp
      exact h.1

/-- digits of equal length and value are equal -/
theorem digits_inj {a b : List Char} (ha : ∀ c ∈ a, isAsciiDigit c = true) (hb : ∀ c ∈ b, isAsciiDigit c = true)
    (hl : a.length = b.length) (hv : posValue 10 a = posValue 10 b) : a = b := by
  induction a generalizing b with
  | nil => cases b with
    | nil => rfl
    | cons => cases hl
  | cons x a ih => cases b with
    | nil => cases hl
    | cons y b =>
      have ha' : ∀ c ∈ a, isAsciiDigit c = true := fun d hd => ha d (by simp [hd])
      have hb' : ∀ c ∈ b, isAsciiDigit c = true := fun d hd => hb d (by simp [hd])
      have hl' : a.length = b.length := by simpa using hl
      rw [posValue_cons (ha x (by simp)) ha', posValue_cons (hb y (by simp)) hb', ← hl'] at hv
      have la := posValue_lt ha'
      have lb := posValue_lt hb'
      rw [← hl'] at lb
      have e1 : digitVal x = digitVal y := by
        have h1 : (digitVal x * 10 ^ a.length + posValue 10 a) / 10 ^ a.length = digitVal x := by
          rw [Nat.mul_comm, Nat.mul_add_div (by omega), Nat.div_eq_of_lt la, Nat.add_zero]
        have h2 : (digitVal y * 10 ^ a.length + posValue 10 b) / 10 ^ a.length = digitVal y := by
          rw [Nat.mul_comm, Nat.mul_add_div (by omega), Nat.div_eq_of_lt lb, Nat.add_zero]
        rw [← h1, ← h2, hv]
      have hx := digitVal_digit (ha x (by simp))
      have hy := digitVal_digit (hb y (by simp))
      have rx := digit_range.mp (ha x (by simp))
      have ry := digit_range.mp (hb y (by simp))
      have exy : x = y := by
        apply Char.ext
        apply UInt32.toNat_inj.mp
        show x.toNat = y.toNat
        omega
      rw [e1] at hv
      rw [exy, ih ha' hb' hl' (by omega)]

theorem zeros_value (s : List Char) (h : ∀ c ∈ s, isAsciiDigit c = true) :
    posValue 10 s = posValue 10 (s.dropWhile (· == '0')) := by
  induction s with
  | nil => rfl
  | cons c s ih =>
    have hs : ∀ c ∈ s, isAsciiDigit c = true := fun d hd => h d (by simp [hd])
    by_cases hc : c = '0'
    · subst hc
      rw [posValue_cons (h _ (by simp)) hs, List.dropWhile_cons_of_pos (by simp), ← ih hs]
      show 0 * _ + _ = _
      omega
    · rw [List.dropWhile_cons_of_neg (by simpa using hc)]

theorem leading_value {c : Char} {s : List Char} (hc : isAsciiDigit c = true) (hz : c ≠ '0')
    (h : ∀ c ∈ s, isAsciiDigit c = true) : 10 ^ s.length ≤ posValue 10 (c :: s) := by
  rw [posValue_cons hc h]
  have hv := digitVal_digit hc
  have hr := digit_range.mp hc
  have : 1 ≤ digitVal c := by
    rw [hv.1]
    have : c.toNat ≠ 48 := by
      intro e
      apply hz
      apply Char.ext
      apply UInt32.toNat_inj.mp
      exact e
    omega
  have : 1 * 10 ^ s.length ≤ digitVal c * 10 ^ s.length := Nat.mul_le_mul_right _ this
  omega

theorem dropWhile_mem {p : Char → Bool} {s : List Char} {c : Char} (h : c ∈ s.dropWhile p) : c ∈ s :=
  (List.dropWhile_suffix p).subset h

theorem dropWhile_head {s : List Char} {c : Char} {r : List Char} (h : s.dropWhile (· == '0') = c :: r) : c ≠ '0' := by
  induction s with
  | nil => cases h
  | cons d s ih =>
    by_cases hd : d = '0'
    · rw [List.dropWhile_cons_of_pos (by simp [hd])] at h; exact ih h
    · rw [List.dropWhile_cons_of_neg (by simp [hd])] at h
      cases h; exact hd

/-- the digits of a number without leading zeros are determined by its value -/
theorem stripped_inj {a b : List Char} (ha : ∀ c ∈ a, isAsciiDigit c = true) (hb : ∀ c ∈ b, isAsciiDigit c = true)
    (za : ∀ c r, a = c :: r → c ≠ '0') (zb : ∀ c r, b = c :: r → c ≠ '0') (hv : posValue 10 a = posValue 10 b) : a = b := by
  apply digits_inj ha hb ?_ hv
  have key : ∀ {a b : List Char}, (∀ c ∈ a, isAsciiDigit c = true) → (∀ c ∈ b, isAsciiDigit c = true) →
      (∀ c r, a = c :: r → c ≠ '0') → posValue 10 a = posValue 10 b → a.length ≤ b.length := by
    intro a b ha hb za hv
    cases a with
    | nil => exact Nat.zero_le _
    | cons c a =>
      have h1 := leading_value (s := a) (ha c (by simp)) (za c a rfl) (fun d hd => ha d (by simp [hd]))
      have h2 := posValue_lt hb
      rw [hv] at h1
      apply Classical.byContradiction
      intro h
      have h3 : b.length ≤ a.length := by simp at h; omega
      have := Nat.pow_le_pow_right (n := 10) (by decide) h3
      omega
  have := key ha hb za hv
  have := key hb ha zb hv.symm
  omega

theorem number_inj {a b : List Char} (ha : ∀ c ∈ a, isAsciiDigit c = true) (hb : ∀ c ∈ b, isAsciiDigit c = true)
    (hv : posValue 10 a = posValue 10 b) (hz : (a.takeWhile (· == '0')).length = (b.takeWhile (· == '0')).length) : a = b := by
  have ea := List.takeWhile_append_dropWhile (p := (· == '0')) (l := a)
  have eb := List.takeWhile_append_dropWhile (p := (· == '0')) (l := b)
  have e1 : a.dropWhile (· == '0') = b.dropWhile (· == '0') :=
    stripped_inj (fun c h => ha c (dropWhile_mem h)) (fun c h => hb c (dropWhile_mem h))
      (fun c r h => dropWhile_head h) (fun c r h => dropWhile_head h)
      (by rw [← zeros_value a ha, ← zeros_value b hb, hv])
  have rep : ∀ s : List Char, s.takeWhile (· == '0') = List.replicate (s.takeWhile (· == '0')).length '0' := by
    intro s
    apply List.eq_replicate_iff.mpr
    refine ⟨rfl, fun c hc => ?_⟩
    have := takeWhile_all s c hc
    simpa using this
  rw [← ea, ← eb, e1, rep a, rep b, hz]

/-- the number chunks the iterator makes -/
def Chunk.Num : Chunk → Prop
  | .number v z s => (∀ c ∈ s, isAsciiDigit c = true) ∧ v = posValue 10 s ∧ z = (s.takeWhile (· == '0')).length
  | _ => True

theorem next_num {s r : List Char} {k : Chunk} (h : next s = some (k, r)) : k.Num := by
  cases s with
  | nil => cases h
  | cons c cs =>
    rw [next] at h
    by_cases h1 : c = '_'
    · rw [if_pos h1] at h; cases h; trivial
    rw [if_neg h1] at h
    by_cases h2 : c = '-'
    · rw [if_pos h2] at h; cases h; trivial
    rw [if_neg h2] at h
    by_cases h3 : isAsciiDigit c = true
    · rw [if_pos h3] at h
      unfold numericChunk at h
      simp only [] at h
      rw [parseUsize_zero _ (takeWhile_all _)] at h
      split at h
      · rename_i v hv
        split at hv
        · cases hv; cases h; exact ⟨takeWhile_all _, rfl, rfl⟩
        · cases hv
      · cases h
    rw [if_neg h3] at h
    split at h
    · cases h; trivial
    · cases h; trivial

theorem chunks_num (s : List Char) : ∀ k ∈ chunks s, k.Num := by
  unfold chunks
  generalize s.length = fuel
  induction fuel generalizing s with
  | zero => intro k hk; cases hk
  | succ n ih =>
    intro k hk
    rw [chunkLoop] at hk
    split at hk
    · cases hk
    · rename_i c r h
      rcases List.mem_cons.mp hk with rfl | hk
      · exact next_num h
      · exact ih r k hk

theorem chunk_eq {a b : Chunk} (wa : a.Num) (wb : b.Num) (hk : cmpKey a b = .eq) (hz : cmpZeros a b = .eq) :
    a.text.map blank = b.text.map blank := by
  have hk := lexNat_eq hk
  have hz := cmpNat_eq hz
  have hstr : ∀ s n l, n ≠ 2 → n ≠ 4 → (Chunk.str s).key ≠ n :: l := by
    intro s n l h2 h4 h
    obtain ⟨m, hm, e⟩ := key_head_str s
    rw [e] at h
    simp only [List.cons.injEq] at h
    omega
  have hnum : ∀ v z s w y t, (Chunk.number v z s).Num → (Chunk.number w y t).Num →
      (Chunk.number v z s).key = (Chunk.number w y t).key →
      (Chunk.number w y t).zeroCount = (Chunk.number v z s).zeroCount → s = t := by
    intro v z s w y t wa wb hk hz
    obtain ⟨d1, v1, z1⟩ := wa
    obtain ⟨d2, v2, z2⟩ := wb
    simp only [Chunk.key, List.cons.injEq, and_true, true_and] at hk
    exact number_inj d1 d2 (by rw [← v1, ← v2, hk]) (by rw [← z1, ← z2]; exact hz.symm)
  cases a with
  | str s =>
    cases b with
    | str t =>
      obtain ⟨m, hm, e⟩ := key_head_str s
      obtain ⟨n, hn, e'⟩ := key_head_str t
      rw [e, e'] at hk
      simp only [List.cons.injEq] at hk
      rw [Chunk.text, Chunk.text, map_toNat_inj hk.2]
    | versionOp t => exact absurd hk (hstr _ _ _ (by decide) (by decide))
    | underscore => exact absurd hk (hstr _ _ _ (by decide) (by decide))
    | hyphen => exact absurd hk (hstr _ _ _ (by decide) (by decide))
    | number v z t => exact absurd hk (hstr _ _ _ (by decide) (by decide))
  | versionOp s =>
    cases b with
    | str t => exact absurd hk.symm (hstr _ _ _ (by decide) (by decide))
    | versionOp t =>
      simp only [Chunk.key, List.cons.injEq, true_and] at hk
      rw [Chunk.text, Chunk.text, map_toNat_inj hk]
    | _ => cases hk
  | underscore =>
    cases b with
    | str t => exact absurd hk.symm (hstr _ _ _ (by decide) (by decide))
    | underscore => rfl
    | hyphen => rfl
    | _ => cases hk
  | hyphen =>
    cases b with
    | str t => exact absurd hk.symm (hstr _ _ _ (by decide) (by decide))
    | underscore => rfl
    | hyphen => rfl
    | _ => cases hk
  | number v z s =>
    cases b with
    | str t => exact absurd hk.symm (hstr _ _ _ (by decide) (by decide))
    | number w y t => rw [Chunk.text, Chunk.text, hnum v z s w y t wa wb hk hz]
    | _ => cases hk

theorem versionSort_eq_blank {a b : List Char} (ha : Fits a) (hb : Fits b) (h : versionSort a b = .eq) :
    a.map blank = b.map blank := by
  rw [versionSort_eq, Ordering.then_eq_eq] at h
  have key : ∀ {x y : List Chunk}, (∀ k ∈ x, k.Num) → (∀ k ∈ y, k.Num) → lexList cmpKey x y = .eq → lexList cmpZeros x y = .eq →
      (x.flatMap Chunk.text).map blank = (y.flatMap Chunk.text).map blank := by
    intro x
    induction x with
    | nil => intro y _ _ h1 _; cases y with
      | nil => rfl
      | cons => cases h1
    | cons k x ih => intro y hx hy h1 h2; cases y with
      | nil => cases h1
      | cons l y =>
        rw [lexList, Ordering.then_eq_eq] at h1 h2
        rw [List.flatMap_cons, List.flatMap_cons, List.map_append, List.map_append,
          chunk_eq (hx k (by simp)) (hy l (by simp)) h1.1 h2.1,
          ih (fun k hk => hx k (by simp [hk])) (fun k hk => hy k (by simp [hk])) h1.2 h2.2]
  have := key (chunks_num a) (chunks_num b) h.1 h.2
  rwa [chunks_text a ha, chunks_text b hb] at this

/-! ### texts that differ in `_` and `-` -/

def Chunk.blank : Chunk → Chunk
  | .hyphen => .underscore
  | k => k

theorem blank_digit (c : Char) : isAsciiDigit (VersionSort.blank c) = isAsciiDigit c := by
  unfold VersionSort.blank
  split
  · rename_i h; subst h; decide
  · rfl

theorem operators_blank : ∀ op ∈ operators, ∀ c ∈ op, c ≠ '-' ∧ c ≠ '_' := by decide

theorem blank_eq_iff {c d : Char} (h1 : c ≠ '-') (h2 : c ≠ '_') : (c == VersionSort.blank d) = (c == d) := by
  unfold VersionSort.blank
  split
  · rename_i h
    subst h
    rw [beq_eq_false_iff_ne.mpr h1, beq_eq_false_iff_ne.mpr h2]
  · rfl

theorem isPrefixOf_blank {op s : List Char} (h : ∀ c ∈ op, c ≠ '-' ∧ c ≠ '_') :
    op.isPrefixOf (s.map VersionSort.blank) = op.isPrefixOf s := by
  induction op generalizing s with
  | nil => simp
  | cons c op ih =>
    cases s with
    | nil => rfl
    | cons d s =>
      have hc := h c (by simp)
      show (c == VersionSort.blank d && op.isPrefixOf (s.map VersionSort.blank)) = (c == d && op.isPrefixOf s)
      rw [blank_eq_iff hc.1 hc.2, ih (fun c hc => h c (by simp [hc]))]

theorem versionOperator_blank (s : List Char) : versionOperator (s.map VersionSort.blank) = versionOperator s :=
  find?_congr' fun op ho => isPrefixOf_blank (operators_blank op ho)

theorem blank_stop (c : Char) : (VersionSort.blank c = '_' ∨ VersionSort.blank c = '-') ↔ (c = '_' ∨ c = '-') := by
  unfold VersionSort.blank
  split
  · rename_i h; simp [h]
  · rfl

theorem blank_id {c : Char} (h : c ≠ '-') : VersionSort.blank c = c := by
  unfold VersionSort.blank; rw [if_neg h]

theorem strRun_blank (s : List Char) :
    strRun (s.map VersionSort.blank) = ((strRun s).1, (strRun s).2.map VersionSort.blank) := by
  induction s with
  | nil => rfl
  | cons c s ih =>
    have ho := versionOperator_blank (c :: s)
    rw [List.map_cons] at ho ⊢
    rw [strRun, strRun, ho, blank_digit]
    by_cases h : c = '_' ∨ c = '-'
    · rw [if_pos ?_, if_pos ?_]
      · rfl
      · rcases h with h | h
        · exact .inl h
        · exact .inr (.inl h)
      · rcases (blank_stop c).mpr h with h | h
        · exact .inl h
        · exact .inr (.inl h)
    · have hb : ¬ (VersionSort.blank c = '_' ∨ VersionSort.blank c = '-') := fun x => h ((blank_stop c).mp x)
      simp only [not_or] at h hb
      by_cases h2 : isAsciiDigit c = true ∨ (versionOperator (c :: s)).isSome = true
      · rw [if_pos (.inr (.inr h2)), if_pos (.inr (.inr h2))]; rfl
      · rw [if_neg (fun x => x.elim hb.1 fun x => x.elim hb.2 h2),
          if_neg (fun x => x.elim h.1 fun x => x.elim h.2 h2), ih,
          blank_id h.2]

theorem takeWhile_blank (s : List Char) : (s.map VersionSort.blank).takeWhile isAsciiDigit = s.takeWhile isAsciiDigit
    ∧ (s.map VersionSort.blank).dropWhile isAsciiDigit = (s.dropWhile isAsciiDigit).map VersionSort.blank := by
  induction s with
  | nil => exact ⟨rfl, rfl⟩
  | cons c s ih =>
    rw [List.map_cons]
    by_cases h : isAsciiDigit c = true
    · rw [List.takeWhile_cons_of_pos (by rw [blank_digit, h]), List.takeWhile_cons_of_pos h,
        List.dropWhile_cons_of_pos (by rw [blank_digit, h]), List.dropWhile_cons_of_pos h, ih.1, ih.2,
        blank_id (by rintro rfl; exact absurd h (by decide))]
      exact ⟨rfl, rfl⟩
    · rw [List.takeWhile_cons_of_neg (by rw [blank_digit]; exact h), List.takeWhile_cons_of_neg h,
        List.dropWhile_cons_of_neg (by rw [blank_digit]; exact h), List.dropWhile_cons_of_neg h]
      exact ⟨rfl, rfl⟩

theorem numericChunk_blank (s : List Char) : numericChunk (s.map VersionSort.blank)
    = (numericChunk s).map fun p => (p.1.blank, p.2.map VersionSort.blank) := by
  unfold numericChunk
  simp only [(takeWhile_blank s).1, (takeWhile_blank s).2]
  split <;> rfl

theorem next_blank (s : List Char) : next (s.map VersionSort.blank)
    = (next s).map fun p => (p.1.blank, p.2.map VersionSort.blank) := by
  cases s with
  | nil => rfl
  | cons c s =>
    have ho := versionOperator_blank (c :: s)
    have hn := numericChunk_blank (c :: s)
    rw [List.map_cons] at ho hn ⊢
    rw [next, next, ho, hn, blank_digit]
    by_cases h1 : c = '_'
    · subst h1; rfl
    by_cases h2 : c = '-'
    · subst h2; rfl
    rw [blank_id h2, if_neg h1, if_neg h1, if_neg h2, if_neg h2]
    by_cases h3 : isAsciiDigit c = true
    · rw [if_pos h3, if_pos h3]
    rw [if_neg h3, if_neg h3]
    cases versionOperator (c :: s) with
    | some op =>
      show some (_, ((c :: s.map VersionSort.blank).drop op.length)) = some (_, ((c :: s).drop op.length).map VersionSort.blank)
      rw [List.map_drop, List.map_cons, blank_id h2]; rfl
    | none =>
      show some (_, _) = some (_, _)
      simp only [strRun_blank]; rfl

theorem chunks_blank (s : List Char) : chunks (s.map VersionSort.blank) = (chunks s).map Chunk.blank := by
  unfold chunks
  rw [List.length_map]
  generalize s.length = n
  induction n generalizing s with
  | zero => rfl
  | succ n ih =>
    rw [chunkLoop, chunkLoop, next_blank]
    cases next s with
    | none => rfl
    | some p => 
      show p.1.blank :: chunkLoop n _ = p.1.blank :: (chunkLoop n p.2).map Chunk.blank
      rw [ih]

theorem key_blank (k : Chunk) : k.blank.key = k.key := by cases k <;> rfl
theorem zeros_blank (k : Chunk) : k.blank.zeroCount = k.zeroCount := by cases k <;> rfl

theorem versionSort_blank (a b : List Char) :
    versionSort (a.map VersionSort.blank) (b.map VersionSort.blank) = versionSort a b := by
  rw [versionSort_eq, versionSort_eq, chunks_blank, chunks_blank, lexList_map, lexList_map]
  have e1 : (fun x y : Chunk => cmpKey x.blank y.blank) = cmpKey := by
    funext x y; unfold cmpKey; rw [key_blank, key_blank]
  have e2 : (fun x y : Chunk => cmpZeros x.blank y.blank) = cmpZeros := by
    funext x y; unfold cmpZeros; rw [zeros_blank, zeros_blank]
  rw [e1, e2]

end Tombi.VersionSort
