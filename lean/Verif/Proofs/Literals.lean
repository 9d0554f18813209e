import Verif.Model.Literals
import Verif.Spec.Numbers
import Verif.Proofs.Numbers
import Verif.Proofs.TomlText
/-! Evaluation of number literals. -/
namespace Tombi
open Rx Spec Literals

/-! ### digits -/

/-- the digits of a base -/
def digitOf (radix : Nat) (c : Char) : Prop := toDigit radix c = some (digitVal c)

theorem radixLoop_digits (radix : Nat) (ds : List Char) (h : ∀ c ∈ ds, digitOf radix c ∧ c ≠ '_') (acc : Nat) :
    radixLoop radix acc ds = some (acc * radix ^ ds.length + posValue radix ds) := by
  induction ds generalizing acc with
  | nil => simp [radixLoop, posValue]
  | cons c cs ih =>
    have hc := h c (by simp)
    rw [radixLoop, hc.1]
    simp only []
    rw [ih (fun d hd => h d (by simp [hd])), posValue, if_neg hc.2]
    have : digitCount cs = cs.length := by
      unfold digitCount
      congr 1
      exact List.filter_eq_self.mpr fun d hd => by simpa using (h d (by simp [hd])).2
    rw [this, List.length_cons, Nat.pow_succ, Nat.add_mul, Nat.mul_comm (radix ^ _) radix, Nat.mul_assoc]
    congr 1
    omega

theorem radixLoop_bad (radix : Nat) (ds : List Char) (h : ∃ c ∈ ds, toDigit radix c = none) (acc : Nat) :
    radixLoop radix acc ds = none := by
  induction ds generalizing acc with
  | nil => obtain ⟨c, hc, _⟩ := h; cases hc
  | cons c cs ih =>
    rw [radixLoop]
    cases hd : toDigit radix c with
    | none => rfl
    | some d =>
      obtain ⟨e, he, hn⟩ := h
      rcases List.mem_cons.mp he with rfl | he
      · rw [hd] at hn; cases hn
      · exact ih ⟨e, he, hn⟩ _

theorem posValue_strip (b : Nat) (s : List Char) : posValue b (stripUnderscores s) = posValue b s := by
  have hcount : ∀ s, digitCount (stripUnderscores s) = digitCount s := by
    intro s; unfold digitCount stripUnderscores; rw [List.filter_filter]; simp
  induction s with
  | nil => rfl
  | cons c cs ih =>
    by_cases hc : c = '_'
    · subst hc; rw [posValue, if_pos rfl, ← ih]; rfl
    · have : stripUnderscores (c :: cs) = c :: stripUnderscores cs := by simp [stripUnderscores, hc]
      rw [this, posValue, posValue, if_neg hc, if_neg hc, ih, hcount]

theorem mem_strip {c : Char} {s : List Char} : c ∈ stripUnderscores s ↔ c ∈ s ∧ c ≠ '_' := by
  simp [stripUnderscores]

instance (v : Int) : Decidable (InI64 v) := inferInstanceAs (Decidable (_ ∧ _))

/-- the value of a stripped text that starts with a digit -/
theorem i64_digits (radix : Nat) (ds : List Char) (h : ∀ c ∈ ds, digitOf radix c ∧ c ≠ '_') (h0 : ds ≠ []) :
    i64FromStrRadix radix ds = (if InI64 (posValue radix ds) then some (posValue radix ds : Int) else none) := by
  cases ds with
  | nil => exact absurd rfl h0
  | cons c cs =>
    have hp : c ≠ '+' := by
      rintro rfl
      have := (h '+' (by simp)).1
      simp [digitOf, toDigit] at this
    have hm : c ≠ '-' := by
      rintro rfl
      have := (h '-' (by simp)).1
      simp [digitOf, toDigit] at this
    unfold i64FromStrRadix
    have e : signSplit (c :: cs) = (false, c :: cs) := by
      unfold signSplit
      split
      · next h => cases h; exact absurd rfl hp
      · next h => cases h; exact absurd rfl hm
      · rfl
    rw [e]
    simp only []
    rw [if_neg (by simp), radixLoop_digits radix _ h 0]
    simp only [Nat.zero_mul, Nat.zero_add, InI64]
    rfl

theorem i64_plus (radix : Nat) (ds : List Char) (h : ∀ c ∈ ds, digitOf radix c ∧ c ≠ '_') (h0 : ds ≠ []) :
    i64FromStrRadix radix ('+' :: ds) = (if InI64 (posValue radix ds) then some (posValue radix ds : Int) else none) := by
  unfold i64FromStrRadix
  simp only [signSplit]
  rw [if_neg h0, radixLoop_digits radix _ h 0]
  simp only [Nat.zero_mul, Nat.zero_add, InI64]
  rfl

theorem i64_minus (radix : Nat) (ds : List Char) (h : ∀ c ∈ ds, digitOf radix c ∧ c ≠ '_') (h0 : ds ≠ []) :
    i64FromStrRadix radix ('-' :: ds) =
      (if InI64 (-(posValue radix ds : Int)) then some (-(posValue radix ds : Int)) else none) := by
  unfold i64FromStrRadix
  simp only [signSplit]
  rw [if_neg h0, radixLoop_digits radix _ h 0]
  simp only [Nat.zero_mul, Nat.zero_add, InI64]
  rfl

theorem i64_bad (radix : Nat) (s : List Char) (h : ∃ c ∈ s, toDigit radix c = none ∧ c ≠ '+' ∧ c ≠ '-') :
    i64FromStrRadix radix s = none := by
  obtain ⟨c, hc, hd, h1, h2⟩ := h
  unfold i64FromStrRadix
  have e : ∃ neg ds, signSplit s = (neg, ds) ∧ c ∈ ds := by
    unfold signSplit
    split
    · next ds => exact ⟨_, _, rfl, by simpa [h1] using hc⟩
    · next ds => exact ⟨_, _, rfl, by simpa [h2] using hc⟩
    · exact ⟨_, _, rfl, hc⟩
  obtain ⟨neg, ds, e, hm⟩ := e
  rw [e]
  simp only []
  rw [radixLoop_bad radix ds ⟨c, hm, hd⟩]
  split <;> rfl

/-! ### literals of the grammar -/

theorem toDigit_of {radix : Nat} {c : Char} {d : Nat} (hr : d < radix)
    (h : (48 ≤ c.toNat ∧ c.toNat ≤ 57 ∧ d = c.toNat - 48) ∨ (97 ≤ c.toNat ∧ c.toNat ≤ 102 ∧ d = c.toNat - 87)
      ∨ (65 ≤ c.toNat ∧ c.toNat ≤ 70 ∧ d = c.toNat - 55)) : toDigit radix c = some d := by
  have e : (if 48 ≤ c.toNat ∧ c.toNat ≤ 57 then c.toNat - 48
    else if 97 ≤ c.toNat ∧ c.toNat ≤ 102 then c.toNat - 87
    else if 65 ≤ c.toNat ∧ c.toNat ≤ 70 then c.toNat - 55
    else radix) = d := by
    rcases h with h | h | h
    · rw [if_pos (by omega)]; omega
    · rw [if_neg (by omega), if_pos (by omega)]; omega
    · rw [if_neg (by omega), if_neg (by omega), if_pos (by omega)]; omega
  unfold toDigit
  simp only [e]
  rw [if_pos hr]

theorem digitOf_of {radix : Nat} {c : Char} (h : (48 ≤ c.toNat ∧ c.toNat ≤ 57 ∧ c.toNat < 48 + radix) ∨
    (radix = 16 ∧ 97 ≤ c.toNat ∧ c.toNat ≤ 102) ∨ (radix = 16 ∧ 65 ≤ c.toNat ∧ c.toNat ≤ 70)) :
    digitOf radix c ∧ c ≠ '_' := by
  constructor
  · unfold digitOf digitVal
    simp only [char_le]
    have e1 : '0'.toNat = 48 := rfl
    have e2 : '9'.toNat = 57 := rfl
    have e3 : 'a'.toNat = 97 := rfl
    have e5 : 'A'.toNat = 65 := rfl
    have e6 : 'F'.toNat = 70 := rfl
    rw [e1, e2, e3, e5, e6]
    rcases h with h | h | h
    · rw [if_pos h.2.1]; exact toDigit_of (by omega) (by omega)
    · rw [if_neg (by omega), if_neg (by omega)]; exact toDigit_of (by omega) (by omega)
    · rw [if_neg (by omega), if_pos (by omega)]; exact toDigit_of (by omega) (by omega)
  · rintro rfl
    have : '_'.toNat = 95 := rfl
    omega

theorem strip_cons {c : Char} (hc : c ≠ '_') (s : List Char) :
    stripUnderscores (c :: s) = c :: stripUnderscores s := by simp [stripUnderscores, hc]

/-- the result on a text of digits and underscores, with the sign handled -/
theorem i64_strip (radix : Nat) {s : List Char} (hd : ∀ c ∈ s, c = '_' ∨ digitOf radix c)
    (h0 : ∃ c ∈ s, c ≠ '_') (v : Int) :
    (i64FromStrRadix radix (stripUnderscores s) = some v ↔ v = posValue radix s ∧ InI64 v)
    ∧ (i64FromStrRadix radix ('+' :: stripUnderscores s) = some v ↔ v = posValue radix s ∧ InI64 v)
    ∧ (i64FromStrRadix radix ('-' :: stripUnderscores s) = some v ↔ v = -(posValue radix s : Int) ∧ InI64 v) := by
  have h1 : ∀ c ∈ stripUnderscores s, digitOf radix c ∧ c ≠ '_' := by
    intro c hc
    have := mem_strip.mp hc
    exact ⟨(hd c this.1).resolve_left this.2, this.2⟩
  have h2 : stripUnderscores s ≠ [] := by
    obtain ⟨c, hc, hn⟩ := h0
    exact List.ne_nil_of_mem (mem_strip.mpr ⟨hc, hn⟩)
  have key : ∀ w : Int, ((if InI64 w then some w else none) = some v) ↔ v = w ∧ InI64 v := by
    intro w
    split
    · next hi => simp only [Option.some.injEq]; exact ⟨fun h => by subst h; exact ⟨rfl, hi⟩, fun h => h.1.symm⟩
    · next hi => exact ⟨fun h => (by cases h), fun h => absurd (h.1 ▸ h.2) hi⟩
  rw [i64_digits radix _ h1 h2, i64_plus radix _ h1 h2, i64_minus radix _ h1 h2, posValue_strip]
  exact ⟨key _, key _, key _⟩

/-- a character that occurs in no text of an expression over other characters -/
theorem not_mem_lang {r : Rx} {c : Char} {w : List Char} (h : r.over (· ≠ c) = true) (hw : r.Lang w) : c ∉ w := by
  intro hc
  have := Rx.over_lang h hw c hc
  simp at this

/-- decimal tokens -/
theorem dec_eval {mid : List Char} (h : ∃ sign body, IsSign sign ∧ mid = sign ++ body ∧
    LexRx.integerDec.Lang body ∧ ∃ d w, body = d :: w ∧ isAsciiDigit d = true) (v : Int) :
    tryFromDecimal mid = some v ↔ Toml.decInt.Lang mid ∧ v = decValue mid ∧ InI64 v := by
  obtain ⟨sign, body, hs, rfl, hb, d, w, hbody, hd⟩ := h
  by_cases hc : ':' ∈ body
  · have h1 : ¬ Toml.decInt.Lang (sign ++ body) := fun hl =>
      not_mem_lang (c := ':') (by decide) hl (by simp [hc])
    have h2 : tryFromDecimal (sign ++ body) = none :=
      i64_bad 10 _ ⟨':', mem_strip.mpr ⟨by simp [hc], by decide⟩, by decide, by decide, by decide⟩
    rw [h2]
    exact ⟨fun h => (by cases h), fun h => absurd h.1 h1⟩
  · have hl : Toml.decInt.Lang (sign ++ body) := ⟨sign, body, rfl, sign_of hs, unsignedDecInt_of hb hc⟩
    have hall : ∀ c ∈ body, c = '_' ∨ digitOf 10 c := by
      intro c hcm
      have := Rx.over_lang (p := fun c => c == '_' || (48 ≤ c.toNat && c.toNat ≤ 57)) (by decide)
        (unsignedDecInt_of hb hc) c hcm
      simp only [Bool.or_eq_true, beq_iff_eq, Bool.and_eq_true, decide_eq_true_eq] at this
      rcases this with h | h
      · exact .inl h
      · exact .inr (digitOf_of (.inl ⟨h.1, h.2, by omega⟩)).1
    have hdu : d ≠ '_' := by rintro rfl; exact absurd hd (by decide)
    have h0 : ∃ c ∈ body, c ≠ '_' := ⟨d, by simp [hbody], hdu⟩
    have key := i64_strip 10 hall h0 v
    have hval : v = decValue (sign ++ body) ↔
        v = (if sign = ['-'] then -(posValue 10 body : Int) else posValue 10 body) := by
      rcases hs with rfl | rfl | rfl
      · rw [List.nil_append, if_neg (by simp)]
        have : decValue body = posValue 10 body := by
          unfold decValue
          split
          · next s => cases hbody; exact absurd hd (by decide)
          · next s => cases hbody; exact absurd hd (by decide)
          · rfl
        rw [this]
      · rfl
      · rfl
    rw [hval]
    simp only [hl, true_and]
    unfold tryFromDecimal
    rcases hs with rfl | rfl | rfl
    · simpa using key.1
    · rw [List.cons_append, strip_cons (by decide)]; simpa using key.2.1
    · rw [List.cons_append, strip_cons (by decide)]; simpa using key.2.2

/-- tokens with a prefix: `p` is its letter, `lx` the lexer's expression and `gr` the grammar's -/
theorem prefixed_eval {radix : Nat} {p : Char} {digits gr : Rx}
    (hp : toDigit radix p = none) (hpu : p ≠ '_' ∧ p ≠ '+' ∧ p ≠ '-' ∧ p.utf8Size = 1)
    (hgr : gr = seq [ch '0', ch p, digits, .star (Toml.sep digits)])
    (hdig : ∀ w, digits.Lang w → ∃ c, w = [c] ∧ digitOf radix c ∧ c ≠ '_')
    {sign body : List Char} (hs : IsSign sign)
    (hb : ∃ rest, body = '0' :: p :: rest)
    (hbad : (∃ c ∈ body, c ≠ '_' ∧ c ≠ '+' ∧ c ≠ '-' ∧ toDigit radix c = none ∧ c ≠ p ∧ c ≠ '0' ∧ ¬ digits.Lang [c])
      ∨ gr.Lang body) (v : Int) :
    tryFromPrefixed radix (sign ++ body) = some (some v) ↔
      gr.Lang (sign ++ body) ∧ v = prefixedValue radix (sign ++ body) ∧ InI64 v := by
  obtain ⟨rest, hrest⟩ := hb
  have hz : '0'.utf8Size = 1 := by decide
  have hsome : ∀ {w : List Char}, gr.Lang w → ∃ rest, w = '0' :: p :: rest ∧
      (∀ c ∈ rest, c = '_' ∨ (digits.Lang [c] ∧ digitOf radix c)) ∧ ∃ c ∈ rest, c ≠ '_' := by
    intro w hw
    subst hgr
    obtain ⟨u1, v1, rfl, h1, u2, v2, rfl, h2, u3, v3, rfl, h3, u4, v4, rfl, h4, rfl⟩ := hw
    rw [lang_ch] at h1 h2
    subst h1 h2
    obtain ⟨c, rfl, hc1, hc2⟩ := hdig _ h3
    refine ⟨c :: u4, by simp, ?_, c, by simp, hc2⟩
    intro x hx
    rcases List.mem_cons.mp hx with rfl | hx
    · exact .inr ⟨h3, hc1⟩
    · have h4' : StarL (Toml.sep digits).Lang u4 := h4
      clear h4
      induction h4' with
      | nil => cases hx
      | cons a b ha _ ih =>
        rcases List.mem_append.mp hx with hx | hx
        · rcases ha with ha | ⟨y, z, rfl, hy, hz⟩
          · obtain ⟨d, rfl, hd, _⟩ := hdig _ ha
            simp at hx; subst hx; exact .inr ⟨ha, hd⟩
          · rw [show Toml.underscore = ch '_' from rfl, lang_ch] at hy
            obtain ⟨d, rfl, hd, _⟩ := hdig _ hz
            subst hy
            simp at hx
            rcases hx with rfl | rfl
            · exact .inl rfl
            · exact .inr ⟨hz, hd⟩
        · exact ih (by simp [hx]) hx
  rcases hs with rfl | rfl | rfl
  · rw [List.nil_append]
    have hdrop : byteDrop 2 body = some rest := by
      subst hrest
      have := byteDrop_append ['0', p] rest
      simpa [utf8Len, hz, hpu.2.2.2] using this
    unfold tryFromPrefixed
    rw [hdrop]
    simp only [Option.map_some, Option.some.injEq]
    rcases hbad with ⟨c, hc, h1, h2, h3, h4, h5, h6, h7⟩ | hg
    · have hcr : c ∈ rest := by
        subst hrest
        simpa [h5, h6] using hc
      rw [i64_bad radix _ ⟨c, mem_strip.mpr ⟨hcr, h1⟩, h4, h2, h3⟩]
      refine ⟨fun h => (by cases h), fun h => ?_⟩
      obtain ⟨r, hr, hall, _⟩ := hsome h.1
      rw [hrest] at hr
      cases hr
      rcases hall c hcr with rfl | h
      · exact absurd rfl h1
      · exact absurd h.1 h7
    · obtain ⟨r, hr, hall, h0⟩ := hsome hg
      rw [hrest] at hr
      cases hr
      have := (i64_strip radix (fun c hc => (hall c hc).imp_right And.right) h0 v).1
      rw [this]
      have hg' : gr.Lang ('0' :: p :: rest) := hrest ▸ hg
      simp only [hg', true_and, prefixedValue, hrest, List.drop_succ_cons, List.drop_zero]
  all_goals
    have hdrop : ∀ x : Char, x.utf8Size = 1 → byteDrop 2 ([x] ++ body) = some (p :: rest) := by
      intro x hx
      subst hrest
      have := byteDrop_append [x, '0'] (p :: rest)
      simpa [utf8Len, hz, hx] using this
    unfold tryFromPrefixed
    rw [hdrop _ (by decide)]
    simp only [Option.map_some, Option.some.injEq]
    rw [i64_bad radix _ ⟨p, mem_strip.mpr ⟨by simp, hpu.1⟩, hp, hpu.2.1, hpu.2.2.1⟩]
    refine ⟨fun h => (by cases h), fun h => ?_⟩
    obtain ⟨r, hr, _⟩ := hsome h.1
    cases hr

theorem prefixed_total {radix : Nat} {p : Char} (hp : p.utf8Size = 1) {sign body : List Char} (hs : IsSign sign)
    (hb : ∃ rest, body = '0' :: p :: rest) : tryFromPrefixed radix (sign ++ body) ≠ none := by
  obtain ⟨rest, rfl⟩ := hb
  have hz : '0'.utf8Size = 1 := by decide
  have h1 : byteDrop 2 ('0' :: p :: rest) = some rest := by
    have := byteDrop_append ['0', p] rest
    simpa [utf8Len, hz, hp] using this
  have h2 : ∀ x : Char, x.utf8Size = 1 → byteDrop 2 (x :: '0' :: p :: rest) = some (p :: rest) := by
    intro x hx
    have := byteDrop_append [x, '0'] (p :: rest)
    simpa [utf8Len, hz, hx] using this
  unfold tryFromPrefixed
  rcases hs with rfl | rfl | rfl
  · rw [List.nil_append, h1]; simp
  · rw [List.cons_append, List.nil_append, h2 _ (by decide)]; simp
  · rw [List.cons_append, List.nil_append, h2 _ (by decide)]; simp

theorem hexdig_digits : ∀ w, Toml.hexdig.Lang w → ∃ c, w = [c] ∧ digitOf 16 c ∧ c ≠ '_' := by
  rintro w ⟨c, rfl, hc⟩
  simp only [inCls, List.any_cons, List.any_nil, Bool.or_false, Bool.or_eq_true, Bool.and_eq_true,
    decide_eq_true_eq] at hc
  refine ⟨c, rfl, digitOf_of ?_⟩
  rcases hc with ⟨h1, h2⟩ | ⟨h1, h2⟩ | ⟨h1, h2⟩
  · have h1 : 48 ≤ c.toNat := h1
    have h2 : c.toNat ≤ 57 := h2
    exact .inl ⟨h1, h2, by omega⟩
  · exact .inr (.inr ⟨rfl, h1, h2⟩)
  · exact .inr (.inl ⟨rfl, h1, h2⟩)

theorem octdig_digits : ∀ w, Toml.digit07.Lang w → ∃ c, w = [c] ∧ digitOf 8 c ∧ c ≠ '_' := by
  rintro w ⟨c, rfl, hc⟩
  simp only [inCls, List.any_cons, List.any_nil, Bool.or_false, Bool.and_eq_true, decide_eq_true_eq] at hc
  have h1 : 48 ≤ c.toNat := hc.1
  have h2 : c.toNat ≤ 55 := hc.2
  exact ⟨c, rfl, digitOf_of (.inl ⟨h1, by omega, by omega⟩)⟩

theorem bindig_digits : ∀ w, Toml.digit01.Lang w → ∃ c, w = [c] ∧ digitOf 2 c ∧ c ≠ '_' := by
  rintro w ⟨c, rfl, hc⟩
  simp only [inCls, List.any_cons, List.any_nil, Bool.or_false, Bool.and_eq_true, decide_eq_true_eq] at hc
  have h1 : 48 ≤ c.toNat := hc.1
  have h2 : c.toNat ≤ 49 := hc.2
  exact ⟨c, rfl, digitOf_of (.inl ⟨h1, by omega, by omega⟩)⟩

end Tombi
