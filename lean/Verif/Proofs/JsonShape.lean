import Verif.Spec.Json
import Verif.Proofs.JsonLex
import Verif.Proofs.Numbers
/-! The shape of every kind of JSON token, and which texts become which tokens. -/
namespace Tombi.Json
open Tombi.Spec.Json Tombi.Rx

/-! ### numbers -/

theorem lang_digit {w : List Char} : Rxs.digit.Lang w ↔ ∃ c, w = [c] ∧ Digit c := by
  show (∃ c, w = [c] ∧ inCls c [('0', '9')] = true) ↔ _
  simp [inCls, Digit]

theorem star_digits {w : List Char} : StarL Rxs.digit.Lang w ↔ ∀ c ∈ w, Digit c := by
  constructor
  · intro h
    induction h with
    | nil => simp
    | cons u v hu _ ih =>
      obtain ⟨c, rfl, hc⟩ := lang_digit.mp hu
      intro d hd
      simp at hd
      rcases hd with rfl | hd
      · exact hc
      · exact ih d hd
  · intro h
    induction w with
    | nil => exact .nil
    | cons c w ih =>
      exact StarL.cons [c] w (lang_digit.mpr ⟨c, rfl, h c (by simp)⟩)
        (ih fun d hd => h d (by simp [hd]))

theorem plus_digits {w : List Char} : (plus Rxs.digit).Lang w ↔ Digits w := by
  constructor
  · rintro ⟨u, v, rfl, hu, hv⟩
    obtain ⟨c, rfl, hc⟩ := lang_digit.mp hu
    have := star_digits.mp hv
    refine ⟨by simp, ?_⟩
    intro d hd
    simp at hd
    rcases hd with rfl | hd
    · exact hc
    · exact this d hd
  · rintro ⟨h1, h2⟩
    cases w with
    | nil => exact absurd rfl h1
    | cons c w =>
      exact ⟨[c], w, rfl, lang_digit.mpr ⟨c, rfl, h2 c (by simp)⟩,
        star_digits.mpr fun d hd => h2 d (by simp [hd])⟩

theorem lang_minus {w : List Char} : (opt (ch '-')).Lang w ↔ w = [] ∨ w = ['-'] := by
  rw [lang_opt, lang_ch]
  exact Or.comm

theorem colon_free {w : List Char} (h : (opt (ch ':')).Lang w) (hc : ':' ∉ w) : w = [] := by
  rcases h with h | h
  · rw [lang_ch.mp h] at hc; simp at hc
  · exact h

theorem lang_exp {w : List Char} :
    (seq [.cls [('e', 'e'), ('E', 'E')], opt (.cls [('+', '+'), ('-', '-')]), plus Rxs.digit]).Lang w
      ↔ ExpPart w := by
  constructor
  · rintro ⟨u1, v1, rfl, ⟨e, rfl, he⟩, u2, v2, rfl, hs, u3, v3, rfl, hd, rfl⟩
    refine ⟨e, u2, u3, by simp, ?_, ?_, plus_digits.mp hd⟩
    · simp [inCls] at he
      rcases he with ⟨h1, h2⟩ | ⟨h1, h2⟩
      · exact Or.inl (Char.le_antisymm h2 h1)
      · exact Or.inr (Char.le_antisymm h2 h1)
    · rcases hs with ⟨s, rfl, hs⟩ | rfl
      · simp [inCls] at hs
        rcases hs with ⟨h1, h2⟩ | ⟨h1, h2⟩
        · exact Or.inr (Or.inl (by rw [Char.le_antisymm h2 h1]))
        · exact Or.inr (Or.inr (by rw [Char.le_antisymm h2 h1]))
      · exact Or.inl rfl
  · rintro ⟨e, sign, ds, rfl, he, hs, hd⟩
    refine ⟨[e], _, rfl, ⟨e, rfl, ?_⟩, sign, _, rfl, ?_, ds, [], by simp, plus_digits.mpr hd, rfl⟩
    · rcases he with rfl | rfl <;> decide
    · rcases hs with rfl | rfl | rfl
      · exact Or.inr rfl
      · exact Or.inl ⟨'+', rfl, by decide⟩
      · exact Or.inl ⟨'-', rfl, by decide⟩

theorem lang_frac {w : List Char} : (seq [ch '.', plus Rxs.digit]).Lang w ↔ FracPart w := by
  constructor
  · rintro ⟨u1, v1, rfl, h1, u2, v2, rfl, h2, rfl⟩
    rw [lang_ch.mp h1]
    exact ⟨u2, by simp, plus_digits.mp h2⟩
  · rintro ⟨ds, rfl, h⟩
    exact ⟨['.'], ds, rfl, lang_ch.mpr rfl, ds, [], by simp, plus_digits.mpr h, rfl⟩

/-- The float pattern, on texts without colons. -/
theorem lang_float {w : List Char} (hc : ':' ∉ w) :
    Rxs.float.Lang w ↔ ∃ sign int frac exp, NumberParts w sign int frac exp
      ∧ (frac ≠ [] ∨ exp ≠ []) := by
  constructor
  · rintro ⟨sign, v1, rfl, h1, int, v2, rfl, h2, v3, v4, rfl, h3, rfl⟩
    simp only [List.mem_append, not_or] at hc
    rcases h3 with h3 | h3
    · obtain ⟨u4, v4, rfl, h4, u5, v5, rfl, h5, h6⟩ := h3
      simp only [List.mem_append, not_or] at hc
      have h4' := colon_free h4 hc.2.2.1.1
      subst h4'
      refine ⟨sign, int, u5, v5, ⟨by simp, lang_minus.mp h1, plus_digits.mp h2, ?_,
        Or.inr (lang_exp.mp h6)⟩, Or.inr ?_⟩
      · rcases h5 with h5 | h5
        · obtain ⟨u7, v7, rfl, h7, h8⟩ := h5
          simp only [List.mem_append, not_or] at hc
          have h7' := colon_free h7 hc.2.2.1.2.1.1
          subst h7'
          exact Or.inr (lang_frac.mp h8)
        · exact Or.inl h5
      · obtain ⟨e, s, ds, rfl, -⟩ := lang_exp.mp h6
        simp
    · refine ⟨sign, int, v3, [], ⟨by simp, lang_minus.mp h1, plus_digits.mp h2,
        Or.inr (lang_frac.mp h3), Or.inl rfl⟩, Or.inl ?_⟩
      obtain ⟨ds, rfl, -⟩ := lang_frac.mp h3
      simp
  · rintro ⟨sign, int, frac, exp, ⟨rfl, h1, h2, h3, h4⟩, h5⟩
    refine ⟨sign, int ++ (frac ++ exp), by simp, lang_minus.mpr h1, int, frac ++ exp, rfl,
      plus_digits.mpr h2, frac ++ exp, [], by simp, ?_, rfl⟩
    rcases h4 with rfl | h4
    · rcases h3 with rfl | h3
      · simp at h5
      · rw [List.append_nil]
        exact Or.inr (lang_frac.mpr h3)
    · refine Or.inl ⟨[], frac ++ exp, rfl, Or.inr rfl, frac, exp, rfl, ?_, lang_exp.mpr h4⟩
      rcases h3 with rfl | h3
      · exact Or.inr rfl
      · exact Or.inl ⟨[], frac, rfl, Or.inr rfl, lang_frac.mpr h3⟩

theorem digit19 {c : Char} : inCls c [('1', '9')] = true ↔ Digit c ∧ c ≠ '0' := by
  simp only [inCls, List.any_cons, List.any_nil, Bool.or_false, Bool.and_eq_true,
    decide_eq_true_eq, Digit]
  constructor
  · rintro ⟨h1, h2⟩
    refine ⟨⟨Char.le_trans (by decide) h1, h2⟩, ?_⟩
    rintro rfl
    exact absurd h1 (by decide)
  · rintro ⟨⟨h1, h2⟩, h3⟩
    refine ⟨?_, h2⟩
    have h4 : ('0' : Char).toNat ≤ c.toNat := h1
    have h5 : c.toNat ≠ 48 := fun h => h3 (Char.toNat_inj.mp h)
    show ('1' : Char).toNat ≤ c.toNat
    have h6 : ('0' : Char).toNat = 48 := rfl
    have h7 : ('1' : Char).toNat = 49 := rfl
    omega

/-- The integer pattern, on texts without colons. -/
theorem lang_integer {w : List Char} (hc : ':' ∉ w) :
    Rxs.integer.Lang w ↔ ∃ sign int, w = sign ++ int ∧ (sign = [] ∨ sign = ['-']) ∧ IntPart int := by
  constructor
  · rintro ⟨sign, v1, rfl, h1, h2⟩
    refine ⟨sign, v1, rfl, lang_minus.mp h1, ?_⟩
    simp only [List.mem_append, not_or] at hc
    rcases h2 with h2 | h2
    · obtain ⟨u1, v1, rfl, h2, u2, v2, rfl, ⟨d, rfl, hd⟩, u3, v3, rfl, h4, rfl⟩ := h2
      simp only [List.mem_append, not_or] at hc
      have h2' := colon_free h2 hc.2.1
      subst h2'
      have h5 : StarL Rxs.digit.Lang u3 := by
        refine StarL.mono (P := (':' ∉ ·)) (fun u v => not_mem_split u v) ?_ h4 hc.2.2.2.1
        rintro w hw ⟨a, b, rfl, ha, b', c', rfl, hb, rfl⟩
        simp only [List.mem_append, not_or] at hw
        rw [colon_free ha hw.1]
        simpa using hb
      have h6 := star_digits.mp h5
      have h7 := digit19.mp hd
      refine ⟨⟨by simp, ?_⟩, Or.inr ?_⟩
      · intro c hc'
        simp at hc'
        rcases hc' with rfl | hc'
        · exact h7.1
        · exact h6 c hc'
      · simp; exact h7.2
    · rw [lang_ch.mp h2]
      exact ⟨⟨by simp, fun c hc => by simp at hc; subst hc; exact ⟨by decide, by decide⟩⟩, Or.inl rfl⟩
  · rintro ⟨sign, int, rfl, h1, ⟨h2, h3⟩, h4⟩
    refine ⟨sign, int, rfl, lang_minus.mpr h1, ?_⟩
    rcases h4 with rfl | h4
    · exact Or.inr (lang_ch.mpr rfl)
    · cases int with
      | nil => exact absurd rfl h2
      | cons d ds =>
        refine Or.inl ⟨[], d :: ds, rfl, Or.inr rfl, [d], ds, rfl, ⟨d, rfl, ?_⟩, ds, [], by simp, ?_,
          rfl⟩
        · exact digit19.mpr ⟨h3 d (by simp), by simpa using h4⟩
        · have : StarL Rxs.digit.Lang ds := star_digits.mpr fun c hc => h3 c (by simp [hc])
          refine StarL.mono (P := fun _ => True) (fun _ _ _ => ⟨trivial, trivial⟩) ?_ this trivial
          intro w _ hw
          exact ⟨[], w, rfl, Or.inr rfl, w, [], by simp, hw, rfl⟩

/-- The two patterns together, on texts without colons. -/
theorem number_iff {w : List Char} (hc : ':' ∉ w) :
    (Rxs.float.matchAll w || Rxs.integer.matchAll w) = true ↔ TombiNumber w := by
  rw [Bool.or_eq_true, matchAll_iff, matchAll_iff, lang_float hc, lang_integer hc]
  constructor
  · rintro (⟨sign, int, frac, exp, h1, h2⟩ | ⟨sign, int, rfl, h1, h2⟩)
    · exact ⟨sign, int, frac, exp, h1, Or.inr h2⟩
    · exact ⟨sign, int, [], [], ⟨by simp, h1, h2.1, Or.inl rfl, Or.inl rfl⟩, Or.inl h2⟩
  · rintro ⟨sign, int, frac, exp, h1, h2⟩
    by_cases h : frac = [] ∧ exp = []
    · refine Or.inr ⟨sign, int, ?_, h1.sign, ?_⟩
      · rw [h1.eq, h.1, h.2]; simp
      · rcases h2 with h2 | h2 | h2
        · exact h2
        · exact absurd h.1 h2
        · exact absurd h.2 h2
    · refine Or.inl ⟨sign, int, frac, exp, h1, ?_⟩
      by_cases hf : frac = []
      · exact Or.inr fun he => h ⟨hf, he⟩
      · exact Or.inl hf

/-! ### characters of numbers -/

theorem digit_not_sep {c : Char} (h : Digit c) : isSep c = false := by
  have h1 : ('0' : Char).toNat ≤ c.toNat := h.1
  have h2 : c.toNat ≤ ('9' : Char).toNat := h.2
  have h3 : ('0' : Char).toNat = 48 := rfl
  have h4 : ('9' : Char).toNat = 57 := rfl
  have ne : ∀ d : Char, d.toNat < 48 ∨ 57 < d.toNat → (c == d) = false := by
    intro d hd
    rw [beq_eq_false_iff_ne]
    rintro rfl
    omega
  unfold isSep isWhitespace isLineBreak
  rw [ne ' ' (by decide), ne '\t' (by decide), ne '\n' (by decide), ne '\r' (by decide),
    ne '{' (by decide), ne '}' (by decide), ne '[' (by decide), ne ']' (by decide),
    ne ',' (by decide), ne ':' (by decide), ne '"' (by decide), ne '\x00' (by decide)]
  rfl

theorem exp_chars {w : List Char} (h : ExpPart w) : ∀ c ∈ w, isSep c = false := by
  obtain ⟨e, s, ds, rfl, he, hs, hd⟩ := h
  intro c hc
  simp only [List.mem_cons, List.mem_append] at hc
  rcases hc with rfl | hc | hc
  · rcases he with rfl | rfl <;> decide
  · rcases hs with rfl | rfl | rfl
    · simp at hc
    · simp at hc; subst hc; decide
    · simp at hc; subst hc; decide
  · exact digit_not_sep (hd.2 c hc)

theorem number_chars {w : List Char} (h : TombiNumber w) : ∀ c ∈ w, isSep c = false := by
  obtain ⟨sign, int, frac, exp, h1, -⟩ := h
  rw [h1.eq]
  intro c hc
  simp only [List.mem_append] at hc
  rcases hc with ((hc | hc) | hc) | hc
  · rcases h1.sign with h | h <;> rw [h] at hc
    · simp at hc
    · simp at hc; subst hc; decide
  · exact digit_not_sep (h1.int.2 c hc)
  · rcases h1.frac with h | ⟨ds, h, hd⟩ <;> rw [h] at hc
    · simp at hc
    · simp at hc
      rcases hc with rfl | hc
      · decide
      · exact digit_not_sep (hd.2 c hc)
  · rcases h1.exp with h | h
    · rw [h] at hc; simp at hc
    · exact exp_chars h c hc

theorem digit_isAscii {c : Char} : isAsciiDigit c = true ↔ Digit c := by
  simp [isAsciiDigit, inRange, Digit]

theorem number_head {w : List Char} (h : TombiNumber w) :
    ∃ x xs, w = x :: xs ∧ (isAsciiDigit x || x == '-') = true := by
  obtain ⟨sign, int, frac, exp, h1, -⟩ := h
  have h2 := h1.int
  cases hi : int with
  | nil => exact absurd hi h2.1
  | cons d ds =>
    rcases h1.sign with h | h
    · refine ⟨d, ds ++ frac ++ exp, by rw [h1.eq, h, hi]; simp, ?_⟩
      have : isAsciiDigit d = true := digit_isAscii.mpr (h2.2 d (by simp [hi]))
      rw [this]; rfl
    · exact ⟨'-', d :: ds ++ frac ++ exp, by rw [h1.eq, h, hi]; simp, by decide⟩

/-! ### strings -/

theorem hexDigit_isSome {c : Char} : (hexDigit c).isSome = isHex c := by
  unfold hexDigit isHex inRange
  by_cases h1 : '0' ≤ c ∧ c ≤ '9'
  · simp [h1]
  · by_cases h2 : 'a' ≤ c ∧ c ≤ 'f'
    · simp [h1, h2]
    · by_cases h3 : 'A' ≤ c ∧ c ≤ 'F'
      · simp [h1, h2, h3]
      · simp only [h1, h2, h3, if_false, Option.isSome_none]
        rw [← Bool.decide_and, ← Bool.decide_and, ← Bool.decide_and]
        simp [h1, h2, h3]

theorem hexDigit_eq {c : Char} (h : isHex c = true) : hexDigit c = some (hexVal c) := by
  unfold isHex inRange at h
  unfold hexDigit hexVal inRange
  by_cases h1 : '0' ≤ c ∧ c ≤ '9'
  · simp [h1]
  · by_cases h2 : 'a' ≤ c ∧ c ≤ 'f'
    · have h3 : ('a' : Char).toNat ≤ c.toNat := h2.1
      have h4 : ('a' : Char).toNat = 97 := rfl
      rw [if_neg h1, if_pos h2, if_neg (by rw [← Bool.decide_and]; simpa using h1),
        if_pos (by rw [← Bool.decide_and]; simpa using h2)]
      congr 1
      omega
    · by_cases h3 : 'A' ≤ c ∧ c ≤ 'F'
      · have h4 : ('A' : Char).toNat ≤ c.toNat := h3.1
        have h5 : ('A' : Char).toNat = 65 := rfl
        rw [if_neg h1, if_neg h2, if_pos h3, if_neg (by rw [← Bool.decide_and]; simpa using h1),
          if_neg (by rw [← Bool.decide_and]; simpa using h2)]
        congr 1
        omega
      · rw [← Bool.decide_and, ← Bool.decide_and, ← Bool.decide_and] at h
        simp [h1, h2, h3] at h

theorem hex4_iff {ds : List Char} {n : Nat} :
    Hex4 ds n ↔ ∃ a b c d, ds = [a, b, c, d] ∧ isHex a = true ∧ isHex b = true ∧ isHex c = true
      ∧ isHex d = true ∧ n = ((hexVal a * 16 + hexVal b) * 16 + hexVal c) * 16 + hexVal d := by
  constructor
  · rintro ⟨a, b, c, d, na, nb, nc, nd, rfl, ha, hb, hc, hd, rfl⟩
    have ha' : isHex a = true := by rw [← hexDigit_isSome, ha]; rfl
    have hb' : isHex b = true := by rw [← hexDigit_isSome, hb]; rfl
    have hc' : isHex c = true := by rw [← hexDigit_isSome, hc]; rfl
    have hd' : isHex d = true := by rw [← hexDigit_isSome, hd]; rfl
    rw [hexDigit_eq ha'] at ha
    rw [hexDigit_eq hb'] at hb
    rw [hexDigit_eq hc'] at hc
    rw [hexDigit_eq hd'] at hd
    cases ha; cases hb; cases hc; cases hd
    refine ⟨a, b, c, d, rfl, ha', hb', hc', hd', ?_⟩
    omega
  · rintro ⟨a, b, c, d, rfl, ha, hb, hc, hd, rfl⟩
    refine ⟨a, b, c, d, _, _, _, _, rfl, hexDigit_eq ha, hexDigit_eq hb, hexDigit_eq hc,
      hexDigit_eq hd, ?_⟩
    omega

theorem simpleEscape_iff {e c : Char} : simpleEscape e = some c ↔ (e, c) ∈ escapes := by
  unfold simpleEscape escapes
  constructor
  · intro h
    repeat' split at h
    all_goals first | (cases h; done) | skip
    all_goals (next he => subst he; simp at h; subst h; decide)
  · intro h
    simp at h
    rcases h with ⟨rfl, rfl⟩ | ⟨rfl, rfl⟩ | ⟨rfl, rfl⟩ | ⟨rfl, rfl⟩ | ⟨rfl, rfl⟩ | ⟨rfl, rfl⟩ |
      ⟨rfl, rfl⟩ | ⟨rfl, rfl⟩ <;> decide

theorem isSimpleEscape_iff {e : Char} : isSimpleEscape e = true ↔ ∃ c, (e, c) ∈ escapes := by
  unfold isSimpleEscape escapes
  simp only [Bool.or_eq_true, beq_iff_eq, List.mem_cons, Prod.mk.injEq, List.not_mem_nil, or_false]
  constructor
  · rintro (((((((rfl | rfl) | rfl) | rfl) | rfl) | rfl) | rfl) | rfl)
    · exact ⟨'"', by simp⟩
    · exact ⟨'\\', by simp⟩
    · exact ⟨'/', by simp⟩
    · exact ⟨'\x08', by simp⟩
    · exact ⟨'\x0C', by simp⟩
    · exact ⟨'\n', by simp⟩
    · exact ⟨'\r', by simp⟩
    · exact ⟨'\t', by simp⟩
  · rintro ⟨c, h⟩
    rcases h with h | h | h | h | h | h | h | h <;> simp [h.1]

/-- with an error recorded the string never becomes a token -/
theorem strCut_true (m : StrMode) (xs : List Char) :
    (strCut m true xs).1 = .error .InvalidString := by
  induction xs generalizing m with
  | nil => cases m <;> rfl
  | cons x xs ih =>
    cases m with
    | plain => simp only [strCut, if_true]; repeat' split
               all_goals first | rfl | exact ih _
    | escape => simp only [strCut]; repeat' split
                all_goals first | rfl | exact ih _
    | hex n => cases n <;> simp only [strCut] <;> split <;> exact ih _

/-- What a string token looks like from inside, in each mode. -/
def StrOk : StrMode → List Char → Prop
  | .plain, w => ∃ b, w = b ++ ['"'] ∧ StringBody b
  | .escape, w => ∃ b, w = b ++ ['"'] ∧ StringBody ('\\' :: b)
  | .hex n, w => ∃ ds b, w = ds ++ (b ++ ['"']) ∧ ds.length = n + 1 ∧ (∀ c ∈ ds, isHex c = true)
      ∧ StringBody b

theorem strCut_ok {m : StrMode} {xs : List Char} {k : Kind} (h : (strCut m false xs).1 = .ok k) :
    k = .STRING ∧ StrOk m (strCut m false xs).2 := by
  induction xs generalizing m with
  | nil => cases m <;> simp [strCut] at h
  | cons x xs ih =>
    cases m with
    | plain =>
      simp only [strCut] at h ⊢
      split at h
      · next hx =>
        rw [if_pos hx]
        simp at h
        exact ⟨h.symm, [], by simp [hx], .nil⟩
      · next hx =>
        rw [if_neg hx]
        split at h
        · rw [strCut_true] at h; cases h
        · next hc =>
          rw [if_neg hc]
          split at h
          · next hb =>
            rw [if_pos hb]
            obtain ⟨h1, b, h2, h3⟩ := ih h
            refine ⟨h1, x :: b, by simp [h2], ?_⟩
            rw [hb]; exact h3
          · next hb =>
            rw [if_neg hb]
            obtain ⟨h1, b, h2, h3⟩ := ih h
            exact ⟨h1, x :: b, by simp [h2], .plain x b (by omega) hx hb h3⟩
    | escape =>
      simp only [strCut] at h ⊢
      split at h
      · next hx =>
        rw [if_pos hx]
        obtain ⟨h1, b, h2, h3⟩ := ih h
        obtain ⟨c, hc⟩ := isSimpleEscape_iff.mp hx
        exact ⟨h1, x :: b, by simp [h2], .escape x c b hc h3⟩
      · next hx =>
        rw [if_neg hx]
        split at h
        · next hu =>
          rw [if_pos hu]
          obtain ⟨h1, ds, b, h2, h3, h4, h5⟩ := ih h
          refine ⟨h1, x :: (ds ++ b), by simp [h2], ?_⟩
          rw [hu]
          match ds, h3 with
          | [p, q, r, s], _ =>
            simp at h4
            exact .unicode [p, q, r, s] _ b (hex4_iff.mpr ⟨p, q, r, s, rfl, h4.1, h4.2.1, h4.2.2.1,
              h4.2.2.2, rfl⟩) h5
        · rw [strCut_true] at h; cases h
    | hex n =>
      cases n with
      | zero =>
        simp only [strCut] at h ⊢
        split at h
        · next hx =>
          rw [if_pos hx]
          obtain ⟨h1, b, h2, h3⟩ := ih h
          exact ⟨h1, [x], b, by simp [h2], rfl, by simpa using hx, h3⟩
        · rw [strCut_true] at h; cases h
      | succ n =>
        simp only [strCut] at h ⊢
        split at h
        · next hx =>
          rw [if_pos hx]
          obtain ⟨h1, ds, b, h2, h3, h4, h5⟩ := ih h
          refine ⟨h1, x :: ds, b, by simp [h2], by simp [h3], ?_, h5⟩
          intro c hc
          simp at hc
          rcases hc with rfl | hc
          · exact hx
          · exact h4 c hc
        · rw [strCut_true] at h; cases h

theorem strCut_body {b : List Char} (hb : StringBody b) (after : List Char) :
    strCut .plain false (b ++ '"' :: after) = (.ok .STRING, b ++ ['"']) := by
  induction hb with
  | nil => rfl
  | plain c b h1 h2 h3 _ ih =>
    rw [List.cons_append, strCut, if_neg h2, if_neg (by omega), if_neg h3, ih]
    rfl
  | escape e c b h1 _ ih =>
    rw [List.cons_append, strCut, if_neg (by decide), if_neg (by decide), if_pos rfl,
      List.cons_append, strCut, if_pos (isSimpleEscape_iff.mpr ⟨c, h1⟩), ih]
    rfl
  | unicode ds n b h1 _ ih =>
    obtain ⟨p, q, r, s, rfl, hp, hq, hr, hs, -⟩ := hex4_iff.mp h1
    simp only [List.cons_append, List.nil_append]
    rw [strCut, if_neg (by decide), if_neg (by decide), if_pos rfl, strCut, if_neg (by decide),
      if_pos rfl, strCut, if_pos hp, strCut, if_pos hq, strCut, if_pos hr, strCut, if_pos hs, ih]

theorem Decodes.body {b t : List Char} (h : Decodes b t) : StringBody b := by
  induction h with
  | nil => exact .nil
  | plain c b t h1 h2 h3 _ ih => exact .plain c b h1 h2 h3 ih
  | escape e c b t h1 _ ih => exact .escape e c b h1 ih
  | unicode ds c b t h1 _ ih => exact .unicode ds _ b h1 ih
  | pair hs ls hi lo c b t h1 _ _ h2 _ _ _ _ ih =>
    have := StringBody.unicode hs hi _ h1 (.unicode ls lo b h2 ih)
    exact this

/-! ### white space -/

theorem TombiWs.append {a b : List Char} (ha : TombiWs a) (hb : TombiWs b) : TombiWs (a ++ b) := by
  induction ha with
  | nil => exact hb
  | space w _ ih => exact .space _ ih
  | tab w _ ih => exact .tab _ ih
  | crlf w _ ih => exact .crlf _ ih
  | lf n w _ ih =>
    rw [List.cons_append, List.append_assoc]
    exact .lf n _ ih

theorem TombiWs.blanks {w : List Char} (h : ∀ c ∈ w, isWhitespace c = true) : TombiWs w := by
  induction w with
  | nil => exact .nil
  | cons c w ih =>
    have h1 := h c (by simp)
    have h2 := ih fun d hd => h d (by simp [hd])
    simp [isWhitespace] at h1
    rcases h1 with rfl | rfl
    · exact .space _ h2
    · exact .tab _ h2

/-- is it a character of white space? -/
def isWs (c : Char) : Bool := isWhitespace c || isLineBreak c

theorem TombiWs.chars {w : List Char} (h : TombiWs w) : ∀ c ∈ w, isWs c = true := by
  induction h with
  | nil => simp
  | space w _ ih =>
    intro c hc
    simp at hc
    rcases hc with rfl | hc
    · rfl
    · exact ih c hc
  | tab w _ ih =>
    intro c hc
    simp at hc
    rcases hc with rfl | hc
    · rfl
    · exact ih c hc
  | crlf w _ ih =>
    intro c hc
    simp at hc
    rcases hc with rfl | rfl | hc
    · rfl
    · rfl
    · exact ih c hc
  | lf n w _ ih =>
    intro c hc
    simp at hc
    rcases hc with rfl | ⟨-, rfl⟩ | hc
    · rfl
    · rfl
    · exact ih c hc

theorem TombiWs.dropBlanks {w : List Char} (h : TombiWs w) : TombiWs (w.dropWhile isWhitespace) := by
  induction h with
  | nil => exact .nil
  | space w _ ih => exact ih
  | tab w _ ih => exact ih
  | crlf w h _ => exact .crlf w h
  | lf n w h _ => exact .lf n w h

theorem TombiWs.dropCrs {w : List Char} (h : TombiWs w) : TombiWs (w.dropWhile (· == '\r')) := by
  cases h with
  | nil => exact .nil
  | space w h => exact .space w h
  | tab w h => exact .tab w h
  | crlf w h => exact .lf 0 w h
  | lf n w h => exact .lf n w h

/-! ### every token has the shape of its kind -/

/-- The texts of the tokens of each kind. -/
def KShape : Kind → List Char → Prop
  | .WHITESPACE, w => ∀ c ∈ w, isWhitespace c = true
  | .LINE_BREAK, w => w = ['\r', '\n'] ∨ ∃ n, w = '\n' :: List.replicate n '\r'
  | .BRACE_START, w => w = ['{']
  | .BRACE_END, w => w = ['}']
  | .BRACKET_START, w => w = ['[']
  | .BRACKET_END, w => w = [']']
  | .COMMA, w => w = [',']
  | .COLON, w => w = [':']
  | .STRING, w => ∃ b, w = '"' :: (b ++ ['"']) ∧ StringBody b
  | .NUMBER, w => TombiNumber w
  | .BOOLEAN, w => w = ['t', 'r', 'u', 'e'] ∨ w = ['f', 'a', 'l', 's', 'e']
  | .NULL, w => w = ['n', 'u', 'l', 'l']
  | .EOF, _ => False
  | .INVALID_TOKEN, _ => False

theorem all_takeWhile {p : Char → Bool} (xs : List Char) : ∀ c ∈ xs.takeWhile p, p c = true := by
  induction xs with
  | nil => simp
  | cons x xs ih =>
    rw [List.takeWhile_cons]
    split
    · next h =>
      intro c hc
      simp at hc
      rcases hc with rfl | hc
      · exact h
      · exact ih c hc
    · simp

theorem isSep_colon : isSep ':' = true := by decide

theorem cut_shape_lineBreak {x : Char} {xs : List Char} (h : isLineBreak x = true)
    (hw : isWhitespace x = false) {k : Kind} (hk : (cut x xs).1 = .ok k) :
    KShape k (x :: (cut x xs).2) := by
  unfold cut at hk ⊢
  rw [if_neg (by simp [hw]), if_pos h] at hk ⊢
  by_cases hx : x = '\r'
  · rw [if_pos hx] at hk ⊢
    by_cases hn : xs.headD eofChar = '\n'
    · rw [if_pos hn] at hk ⊢
      cases hk
      cases xs with
      | nil => exact absurd hn (by decide)
      | cons y ys =>
        simp at hn
        exact Or.inl (by simp [hx, hn])
    · rw [if_neg hn] at hk
      cases hk
  · rw [if_neg hx] at hk ⊢
    cases hk
    simp [isLineBreak, hx] at h
    refine Or.inr ⟨(xs.takeWhile (· == '\r')).length, ?_⟩
    rw [h]
    congr 1
    rw [List.eq_replicate_iff]
    exact ⟨rfl, fun c hc => by simpa using all_takeWhile xs c hc⟩

/-- A token that is not an error has the shape of its kind. -/
theorem cut_shape {x : Char} {xs : List Char} {k : Kind} (hk : (cut x xs).1 = .ok k) :
    KShape k (x :: (cut x xs).2) := by
  by_cases h1 : isWhitespace x = true
  · unfold cut at hk ⊢
    rw [if_pos h1] at hk ⊢
    cases hk
    intro c hc
    simp at hc
    rcases hc with rfl | hc
    · exact h1
    · exact all_takeWhile xs c hc
  · by_cases h2 : isLineBreak x = true
    · exact cut_shape_lineBreak h2 (by simpa using h1) hk
    · unfold cut at hk ⊢
      rw [if_neg h1, if_neg h2] at hk ⊢
      by_cases h : x = '{'
      · rw [if_pos h] at hk ⊢; cases hk; rw [h]; rfl
      rw [if_neg h] at hk ⊢; clear h
      by_cases h : x = '}'
      · rw [if_pos h] at hk ⊢; cases hk; rw [h]; rfl
      rw [if_neg h] at hk ⊢; clear h
      by_cases h : x = '['
      · rw [if_pos h] at hk ⊢; cases hk; rw [h]; rfl
      rw [if_neg h] at hk ⊢; clear h
      by_cases h : x = ']'
      · rw [if_pos h] at hk ⊢; cases hk; rw [h]; rfl
      rw [if_neg h] at hk ⊢; clear h
      by_cases h : x = ','
      · rw [if_pos h] at hk ⊢; cases hk; rw [h]; rfl
      rw [if_neg h] at hk ⊢; clear h
      by_cases h : x = ':'
      · rw [if_pos h] at hk ⊢; cases hk; rw [h]; rfl
      rw [if_neg h] at hk ⊢; clear h
      by_cases h : x = '"'
      · rw [if_pos h] at hk ⊢
        obtain ⟨rfl, b, h3, h4⟩ := strCut_ok hk
        exact ⟨b, by rw [h, h3], h4⟩
      rw [if_neg h] at hk ⊢; clear h
      by_cases h : (isAsciiDigit x || x == '-') = true
      · rw [if_pos h] at hk ⊢
        simp only [] at hk ⊢
        split at hk
        · next hm =>
          cases hk
          refine (number_iff ?_).mp hm
          intro hc
          simp at hc
          rcases hc with rfl | hc
          · exact absurd h (by decide)
          · have := all_takeWhile xs _ hc
            simp [isSep_colon] at this
        · cases hk
      rw [if_neg h] at hk ⊢; clear h
      by_cases h : x = 't'
      · rw [if_pos h] at hk ⊢
        split at hk
        · next hm => rw [if_pos hm]; cases hk; exact Or.inl (by rw [hm, h])
        · cases hk
      rw [if_neg h] at hk ⊢; clear h
      by_cases h : x = 'f'
      · rw [if_pos h] at hk ⊢
        split at hk
        · next hm => rw [if_pos hm]; cases hk; exact Or.inr (by rw [hm, h])
        · cases hk
      rw [if_neg h] at hk ⊢; clear h
      by_cases h : x = 'n'
      · rw [if_pos h] at hk ⊢
        split at hk
        · next hm => rw [if_pos hm]; cases hk; show _ = _; rw [hm, h]
        · cases hk
      · rw [if_neg h] at hk; cases hk

end Tombi.Json
