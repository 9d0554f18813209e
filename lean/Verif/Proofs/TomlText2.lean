import Verif.Proofs.TomlText
import Verif.Spec.Strings
/-! The strict and the lenient reading of strings, and the rendering of strings. -/
namespace Tombi
open Spec TomlText

/-- Texts on which the code's reading of a string and TOML's agree: the only white space is space, tab,
LF and CRLF; no line feed in a single-line string; no `+` as first digit of an escape. -/
structure Regular (multi : Bool) (s : List Char) : Prop where
  ws : ∀ c ∈ s, charIsWhitespace c = true → c = ' ' ∨ c = '\t' ∨ c = '\n' ∨ c = '\r'
  cr : multi = true → ∀ a b, s = a ++ '\r' :: b → b.head? = some '\n'
  nl : multi = false → '\n' ∉ s
  plus : ∀ a k b, s = a ++ '\\' :: k :: '+' :: b → k ≠ 'u' ∧ k ≠ 'U' ∧ k ≠ 'x'

theorem Regular.tail {multi : Bool} {a s : List Char} (h : Regular multi (a ++ s)) : Regular multi s where
  ws c hc := h.ws c (by simp [hc])
  cr hm x y he := h.cr hm (a ++ x) y (by rw [he]; simp)
  nl hm hc := h.nl hm (by simp [hc])
  plus x k b he := h.plus (a ++ x) k b (by rw [he]; simp)

theorem Regular.tail1 {multi : Bool} {c : Char} {s : List Char} (h : Regular multi (c :: s)) :
    Regular multi s := Regular.tail (a := [c]) h

theorem hexNumber_plus (ds : List Char) : hexNumber ('+' :: ds) = none := by
  have : hexVal '+' = none := by decide
  unfold hexNumber
  rw [List.foldl_cons, this]
  exact hexNumber_foldl_none ds

theorem lenient_of_strict {ds : List Char} {n : Nat} (h : hexNumber ds = some n) :
    lenient.hex ds = some n := by
  unfold lenient
  simp only []
  split
  · next d ds => rw [hexNumber_plus] at h; cases h
  · exact h

theorem strict_of_lenient {ds : List Char} {n : Nat} (h : lenient.hex ds = some n)
    (hp : ∀ b, ds ≠ '+' :: b) : hexNumber ds = some n := by
  unfold lenient at h
  simp only [] at h
  split at h
  · next d ds => exact absurd rfl (hp _)
  · exact h

theorem Spec.WsNewlines.white {w : List Char} (h : WsNewlines w) : ∀ c ∈ w, charIsWhitespace c = true := by
  induction h with
  | nil => simp
  | crlf _ ih =>
    intro c hc
    simp at hc
    rcases hc with rfl | rfl | hc
    · decide
    · decide
    · exact ih c hc
  | _ _ ih =>
    intro c hc
    simp at hc
    rcases hc with rfl | hc
    · decide
    · exact ih c hc

theorem wsNewlines_of {w s : List Char} (hw : ∀ c ∈ w, charIsWhitespace c = true)
    (hs : ∀ c, s.head? = some c → charIsWhitespace c = false) (hr : Regular true (w ++ s)) : WsNewlines w := by
  generalize hn : w.length = n
  induction n using Nat.strongRecOn generalizing w with
  | ind n ih =>
    cases w with
    | nil => exact .nil
    | cons c w =>
      have ih1 : WsNewlines w := by
        by_cases hc : c = '\r'
        · exact ih _ (by subst hn; simp) (fun x hx => hw x (by simp [hx])) hr.tail1 rfl
        · exact ih _ (by subst hn; simp) (fun x hx => hw x (by simp [hx])) hr.tail1 rfl
      rcases hr.ws c (by simp) (hw c (by simp)) with rfl | rfl | rfl | rfl
      · exact .space ih1
      · exact .tab ih1
      · exact .lf ih1
      · have h1 := hr.cr rfl [] (w ++ s) rfl
        cases w with
        | nil =>
          have := hs '\n' (by simpa using h1)
          exact absurd this (by decide)
        | cons d w =>
          simp at h1
          subst h1
          exact .crlf (ih _ (by subst hn; simp; omega) (fun x hx => hw x (by simp [hx]))
            hr.tail1.tail1 rfl)

/-- the only white space is that of TOML -/
def PlainWs (s : List Char) : Prop :=
  ∀ c ∈ s, charIsWhitespace c = true → c = ' ' ∨ c = '\t' ∨ c = '\n' ∨ c = '\r'

theorem PlainWs.tail {a s : List Char} (h : PlainWs (a ++ s)) : PlainWs s := fun c hc => h c (by simp [hc])

theorem PlainWs.tail1 {c : Char} {s : List Char} (h : PlainWs (c :: s)) : PlainWs s :=
  PlainWs.tail (a := [c]) h

theorem lenient_of_toml {v : TomlVersion} {multi : Bool} {s o : List Char} (hr : PlainWs s)
    (h : Decodes toml v multi s o) : Decodes lenient v multi s o := by
  induction h with
  | nil => exact .nil
  | chr c hc _ ih => exact .chr c hc (ih hr.tail1)
  | esc e c he _ ih => exact .esc e c he (ih hr.tail1.tail1)
  | escE hv _ ih => exact .escE hv (ih hr.tail1.tail1)
  | escX ds n hv h1 h2 h3 _ ih => exact .escX ds n hv h1 (lenient_of_strict h2) h3 (ih (((hr.tail1).tail1).tail))
  | escU4 ds n h1 h2 h3 _ ih => exact .escU4 ds n h1 (lenient_of_strict h2) h3 (ih (((hr.tail1).tail1).tail))
  | escU8 ds n h1 h2 h3 _ ih => exact .escU8 ds n h1 (lenient_of_strict h2) h3 (ih (((hr.tail1).tail1).tail))
  | lf hm _ ih => exact .lf hm (ih hr.tail1)
  | crlf hm _ ih => exact .crlf hm (ih hr.tail1.tail1)
  | cont w hc _ ih =>
    obtain ⟨hm, h1, h2, h3⟩ := hc
    refine .cont w ⟨?_, h1.white, h2, ?_⟩ (ih hr.tail1.tail)
    · rintro rfl; cases h2
    · intro c hc
      have hne := h3 c hc
      apply Bool.eq_false_iff.mpr
      intro hw
      rcases hr c (List.mem_cons_of_mem _ (List.mem_append_right _ (List.mem_of_mem_head? hc))) hw with rfl | rfl | rfl | rfl
      · exact hne.1 rfl
      · exact hne.2.1 rfl
      · exact hne.2.2.1 rfl
      · exact hne.2.2.2 rfl

theorem decodes_iff {v : TomlVersion} {multi : Bool} {s o : List Char} (hr : Regular multi s) :
    Decodes toml v multi s o ↔ Decodes lenient v multi s o := by
  have hexOk : ∀ {ds t : List Char} {k : Char} {n : Nat}, Regular multi ('\\' :: k :: (ds ++ t)) →
      (k = 'u' ∨ k = 'U' ∨ k = 'x') → lenient.hex ds = some n → toml.hex ds = some n := by
    intro ds t k n hr hk h
    refine strict_of_lenient h ?_
    rintro b rfl
    have := hr.plus [] k (b ++ t) rfl
    rcases hk with rfl | rfl | rfl
    · exact this.1 rfl
    · exact this.2.1 rfl
    · exact this.2.2 rfl
  refine ⟨lenient_of_toml hr.ws, ?_⟩
  · intro h
    induction h with
    | nil => exact .nil
    | chr c hc _ ih => exact .chr c hc (ih hr.tail1)
    | esc e c he _ ih => exact .esc e c he (ih hr.tail1.tail1)
    | escE hv _ ih => exact .escE hv (ih hr.tail1.tail1)
    | escX ds n hv h1 h2 h3 _ ih =>
      exact .escX ds n hv h1 (hexOk hr (by simp) h2) h3 (ih hr.tail1.tail1.tail)
    | escU4 ds n h1 h2 h3 _ ih => exact .escU4 ds n h1 (hexOk hr (by simp) h2) h3 (ih hr.tail1.tail1.tail)
    | escU8 ds n h1 h2 h3 _ ih => exact .escU8 ds n h1 (hexOk hr (by simp) h2) h3 (ih hr.tail1.tail1.tail)
    | lf hm _ ih => exact .lf hm (ih hr.tail1)
    | crlf hm _ ih => exact .crlf hm (ih hr.tail1.tail1)
    | cont w hc _ ih =>
      obtain ⟨_, h1, h2, h3⟩ := hc
      have hm : multi = true := by
        cases hmu : multi with
        | true => rfl
        | false => exact absurd (by simp [h2]) (hr.nl hmu)
      refine .cont w ⟨hm, ?_, h2, ?_⟩ (ih hr.tail1.tail)
      · subst hm; exact wsNewlines_of h1 h3 hr.tail1
      · intro c hc
        have := h3 c hc
        refine ⟨?_, ?_, ?_, ?_⟩ <;> rintro rfl <;> exact absurd this (by decide)

/-! ### fuel -/

theorem skipWhite_length (seen : Bool) (s : List Char) : (skipWhite seen s).2.length ≤ s.length := by
  induction s generalizing seen with
  | nil => simp [skipWhite]
  | cons c cs ih =>
    rw [skipWhite]
    split
    · have := ih (seen || c == '\n'); simp; omega
    · simp

theorem unicodeEscape_length {k : Nat} {cs rest : List Char} {c : Char}
    (h : unicodeEscape k cs = .ok (c, rest)) : rest.length ≤ cs.length := by
  unfold unicodeEscape at h
  split at h
  · cases h
  · next heq =>
    obtain ⟨rfl, _⟩ := takeChars_some.mp heq
    split at h
    · cases h
    · split at h
      · cases h
      · cases h; simp

theorem escape_err {v : TomlVersion} {cs : List Char} : escape v cs ≠ .error .outOfFuel := by
  have hu : ∀ k r, unicodeEscape k r ≠ .error .outOfFuel := by
    intro k r
    unfold unicodeEscape
    split
    · simp
    · split
      · simp
      · split <;> simp
  have hm : ∀ k r, (unicodeEscape k r).map (fun (x, rest) => ([x], rest)) ≠ .error .outOfFuel := by
    intro k r h
    apply hu k r
    cases hx : unicodeEscape k r with
    | ok a => rw [hx] at h; cases h
    | error e => rw [hx] at h; simpa [Except.map] using h
  have ite_ne : ∀ {α : Type} {p : Prop} [Decidable p] {a b x : α}, a ≠ x → b ≠ x →
      (if p then a else b) ≠ x := by
    intro α p _ a b x ha hb
    split
    · exact ha
    · exact hb
  have hok : ∀ x : List Char × List Char, (Except.ok x : Except TextError _) ≠ .error .outOfFuel := by
    intro x h; cases h
  unfold escape
  split
  · simp
  · exact ite_ne (hok _) (ite_ne (ite_ne (by simp) (hok _)) (ite_ne (hok _) (ite_ne (hok _) (ite_ne (hok _)
      (ite_ne (hok _) (ite_ne (hok _) (ite_ne (hok _) (ite_ne (hm _ _) (ite_ne (hm _ _)
      (ite_ne (ite_ne (by simp) (hm _ _)) (ite_ne (ite_ne (hok _) (by simp)) (by simp))))))))))))

theorem basicStep_err {v : TomlVersion} {multi : Bool} {c : Char} {cs : List Char} :
    basicStep v multi c cs ≠ .error .outOfFuel := by
  unfold basicStep
  split
  · exact escape_err
  · split
    · split
      · split <;> simp
      · simp
    · split <;> simp

theorem basicStep_length {v : TomlVersion} {multi : Bool} {c : Char} {cs x rest : List Char}
    (h : basicStep v multi c cs = .ok (x, rest)) : rest.length ≤ cs.length := by
  have ite_ok : ∀ {α : Type} {p : Prop} [Decidable p] {a b x : α} {Q : Prop}, (if p then a else b) = x →
      (a = x → Q) → (b = x → Q) → Q := by
    intro α p _ a b x Q h ha hb
    split at h
    · exact ha h
    · exact hb h
  have hm : ∀ {k : Nat} {r : List Char}, (unicodeEscape k r).map (fun (x, rest) => ([x], rest)) = .ok (x, rest) →
      rest.length ≤ (c :: r).length := by
    intro k r h
    obtain ⟨⟨y, z⟩, h1, h2⟩ := map_ok.mp h
    cases h2
    have := unicodeEscape_length h1
    simp; omega
  unfold basicStep at h
  split at h
  · unfold escape at h
    split at h
    · cases h
    · next e r =>
      have hok : ∀ {y : List Char}, (Except.ok (y, r) : Except TextError _) = .ok (x, rest) →
          rest.length ≤ (e :: r).length := by
        intro y h; cases h; simp
      have hm : ∀ {k : Nat}, (unicodeEscape k r).map (fun (x, rest) => ([x], rest)) = .ok (x, rest) →
          rest.length ≤ (e :: r).length := fun h => by simpa using hm h
      refine ite_ok h hok fun h => ite_ok h (fun h => ite_ok h (fun h => by cases h) hok) fun h =>
        ite_ok h hok fun h => ite_ok h hok fun h => ite_ok h hok fun h => ite_ok h hok fun h =>
        ite_ok h hok fun h => ite_ok h hok fun h => ite_ok h hm fun h => ite_ok h hm fun h =>
        ite_ok h (fun h => ite_ok h (fun h => by cases h) hm) fun h => ite_ok h (fun h => ite_ok h (fun h => ?_)
          fun h => by cases h) fun h => by cases h
      cases h
      have := skipWhite_length (e == '\n') r
      simp; omega
  · split at h
    · split at h
      · split at h
        · cases h; simp
        · cases h
      · cases h; simp
    · split at h
      · cases h
      · cases h; simp

theorem basicLoop_fuel (v : TomlVersion) (multi : Bool) (fuel : Nat) (out s : List Char)
    (h : s.length < fuel) : basicLoop v multi fuel out s ≠ .error .outOfFuel := by
  induction fuel generalizing out s with
  | zero => omega
  | succ fuel ih =>
    cases s with
    | nil => simp [basicLoop]
    | cons c cs =>
      rw [basicLoop]
      split
      · next x rest hs =>
        have := basicStep_length hs
        exact ih _ _ (by simp at h; omega)
      · next e hs =>
        intro he
        cases he
        exact basicStep_err hs

/-! ### literal strings -/

theorem literalOk_cons {multi : Bool} {c : Char} {cs : List Char} : LiteralOk multi (c :: cs) ↔
    (isForbidden c = false ∧ LiteralOk multi cs) ∨ (multi = true ∧ c = '\n' ∧ LiteralOk multi cs) ∨
      (multi = true ∧ c = '\r' ∧ ∃ r, cs = '\n' :: r ∧ LiteralOk multi r) := by
  constructor
  · intro h
    cases h with
    | chr _ h1 h2 => exact .inl ⟨forbidden_of h1, h2⟩
    | lf h1 h2 => exact .inr (.inl ⟨h1, rfl, h2⟩)
    | crlf h1 h2 => exact .inr (.inr ⟨h1, rfl, _, rfl, h2⟩)
  · rintro (⟨h1, h2⟩ | ⟨h1, rfl, h2⟩ | ⟨h1, rfl, r, rfl, h2⟩)
    · by_cases hc : c = '\\'
      · subst hc; exact .chr _ (by decide) h2
      · exact .chr _ (not_forbidden h1 hc).2 h2
    · exact .lf h1 h2
    · exact .crlf h1 h2

theorem literalLoop_ok (multi : Bool) (out s r : List Char) :
    literalLoop multi out s = .ok r ↔ r = out ++ s ∧ LiteralOk multi s := by
  have hcr : isForbidden '\r' = true := by decide
  have hlf : isForbidden '\n' = true := by decide
  fun_induction literalLoop multi out s with
  | case1 out =>
    constructor
    · intro h; cases h; exact ⟨by simp, .nil⟩
    · rintro ⟨rfl, _⟩; simp
  | case2 out rest hm ih =>
    refine Iff.trans ih ?_
    rw [literalOk_cons]
    simp [hm, hcr]
  | case3 out rest hm => simp [literalOk_cons, hm, hcr]
  | case4 out cs hx hm =>
    simp only [reduceCtorEq, false_iff, not_and]
    rintro rfl h
    rw [literalOk_cons] at h
    rcases h with ⟨h, _⟩ | ⟨_, h, _⟩ | ⟨_, _, r, h, _⟩
    · rw [hcr] at h; cases h
    · cases h
    · exact hx r rfl h
  | case5 out c cs hx hm hc ih =>
    refine Iff.trans ih ?_
    rw [literalOk_cons]
    have : c = '\n' := by rcases hm.1 with h | h; exact absurd h hc; exact h
    subst this
    simp [hm.2, hlf]
  | case6 out c cs hx hm hf =>
    simp only [reduceCtorEq, false_iff, not_and]
    rintro rfl h
    rw [literalOk_cons, hf] at h
    rcases h with ⟨h, _⟩ | ⟨h1, h2, _⟩ | ⟨h1, h2, _⟩
    · cases h
    · exact hm ⟨.inr h2, h1⟩
    · exact hm ⟨.inl h2, h1⟩
  | case7 out c cs hx hm hf ih =>
    refine Iff.trans ih ?_
    rw [literalOk_cons]
    have hf' := Bool.eq_false_iff.mpr hf
    constructor
    · rintro ⟨rfl, h⟩; exact ⟨by simp, .inl ⟨hf', h⟩⟩
    · rintro ⟨rfl, h⟩
      refine ⟨by simp, ?_⟩
      rcases h with ⟨_, h⟩ | ⟨h1, h2, _⟩ | ⟨h1, h2, _⟩
      · exact h
      · exact absurd ⟨.inr h2, h1⟩ hm
      · exact absurd ⟨.inl h2, h1⟩ hm

/-! ### rendering -/

/-- the characters `to_basic_string` writes with an escape the decoder does not know -/
def badChar (v : TomlVersion) (c : Char) : Bool :=
  c == '\x00' || c == '\x07' || c == '\x0b' || (c == '\x1b' && v == .V1_0_0)

theorem hexVal_hexDigit (n : Nat) (h : n < 16) : hexVal (hexDigit n) = some n := by
  have : ∀ m : Fin 16, hexVal (hexDigit m.1) = some m.1 := by decide
  exact this ⟨n, h⟩

theorem hexDigit_ne_plus (n : Nat) (h : n < 16) : hexDigit n ≠ '+' := by
  have : ∀ m : Fin 16, hexDigit m.1 ≠ '+' := by decide
  exact this ⟨n, h⟩

theorem control_lt {c : Char} (h : charIsControl c = true) : c.toNat < 160 := by
  simp [charIsControl] at h
  omega

theorem unicode_formatU (n : Nat) (h : n < 160) (rest : List Char) :
    unicodeEscape 4 ([hexDigit (n / 4096 % 16), hexDigit (n / 256 % 16), hexDigit (n / 16 % 16), hexDigit (n % 16)]
      ++ rest) = .ok (Char.ofNat n, rest) := by
  refine (unicodeEscape_ok (by omega) (by omega)).mpr ⟨_, n, rfl, rfl, ?_, .inl (by omega), rfl⟩
  apply lenient_of_strict
  unfold hexNumber
  simp only [List.foldl_cons, List.foldl_nil, hexVal_hexDigit _ (Nat.mod_lt _ (by omega : 0 < 16))]
  simp
  omega

theorem basicStep_escapeChar (v : TomlVersion) (c : Char) : ∃ h t, escapeChar c = h :: t ∧ ∀ rest,
    if badChar v c = true then ∃ e, basicStep v false h (t ++ rest) = .error e
    else basicStep v false h (t ++ rest) = .ok ([c], rest) := by
  unfold escapeChar
  by_cases h1 : c = '"'
  · subst h1; exact ⟨_, _, rfl, fun rest => by simp [badChar, basicStep, escape]⟩
  rw [if_neg h1]
  by_cases h2 : c = '\\'
  · subst h2; exact ⟨_, _, rfl, fun rest => by simp [badChar, basicStep, escape]⟩
  rw [if_neg h2]
  by_cases h3 : c = '\x00'
  · subst h3; exact ⟨_, _, rfl, fun rest => ⟨.InvalidEscapeSequence, rfl⟩⟩
  rw [if_neg h3]
  by_cases h4 : c = '\x07'
  · subst h4; exact ⟨_, _, rfl, fun rest => ⟨.InvalidEscapeSequence, rfl⟩⟩
  rw [if_neg h4]
  by_cases h5 : c = '\x08'
  · subst h5; exact ⟨_, _, rfl, fun rest => by simp [badChar, basicStep, escape]⟩
  rw [if_neg h5]
  by_cases h6 : c = '\x09'
  · subst h6; exact ⟨_, _, rfl, fun rest => by simp [badChar, basicStep, escape]⟩
  rw [if_neg h6]
  by_cases h7 : c = '\x0a'
  · subst h7; exact ⟨_, _, rfl, fun rest => by simp [badChar, basicStep, escape]⟩
  rw [if_neg h7]
  by_cases h8 : c = '\x0b'
  · subst h8; exact ⟨_, _, rfl, fun rest => ⟨.InvalidEscapeSequence, rfl⟩⟩
  rw [if_neg h8]
  by_cases h9 : c = '\x0c'
  · subst h9; exact ⟨_, _, rfl, fun rest => by simp [badChar, basicStep, escape]⟩
  rw [if_neg h9]
  by_cases h10 : c = '\x0d'
  · subst h10; exact ⟨_, _, rfl, fun rest => by simp [badChar, basicStep, escape]⟩
  rw [if_neg h10]
  by_cases h11 : c = '\x1b'
  · subst h11
    refine ⟨_, _, rfl, fun rest => ?_⟩
    cases v
    · exact ⟨.EscapeCharacter, rfl⟩
    · rfl
    · rfl
  rw [if_neg h11]
  have hb : badChar v c = false := by simp [badChar, h3, h4, h8, h11]
  by_cases h12 : charIsControl c = true
  · rw [if_pos h12]
    refine ⟨_, _, rfl, fun rest => ?_⟩
    rw [if_neg (by simp [hb])]
    have := unicode_formatU c.toNat (control_lt h12) rest
    simp only [basicStep, if_true, escape, List.cons_append, List.nil_append] at this ⊢
    rw [this]
    have hc : Char.ofNat c.toNat = c := Char.ofNat_toNat c
    simp [Except.map, hc]
  · rw [if_neg h12]
    refine ⟨_, _, rfl, fun rest => ?_⟩
    rw [if_neg (by simp [hb])]
    have h12' : isForbidden c = false := by
      have h12 := Bool.eq_false_iff.mpr h12
      simp only [charIsControl, isForbidden, Bool.or_eq_false_iff, Bool.and_eq_false_iff,
        decide_eq_false_iff_not, beq_eq_false_iff_ne] at h12 ⊢
      omega
    simp [basicStep, h2, h12']

/-- decoding a rendered text -/
theorem basicLoop_escapes (v : TomlVersion) (s : List Char) : ∀ (fuel : Nat) (out : List Char),
    ((s.map escapeChar).flatten).length < fuel →
    if s.any (badChar v) = true then ∃ e, basicLoop v false fuel out (s.map escapeChar).flatten = .error e
    else basicLoop v false fuel out (s.map escapeChar).flatten = .ok (out ++ s) := by
  induction s with
  | nil =>
    intro fuel out hf
    obtain ⟨f, rfl⟩ : ∃ f, fuel = f + 1 := ⟨fuel - 1, by simp at hf; omega⟩
    simp [basicLoop]
  | cons c cs ih =>
    intro fuel out hf
    obtain ⟨h, t, he, hs⟩ := basicStep_escapeChar v c
    obtain ⟨f, rfl⟩ : ∃ f, fuel = f + 1 := ⟨fuel - 1, by omega⟩
    simp only [List.map_cons, List.flatten_cons, he, List.cons_append] at hf ⊢
    have hs := hs (cs.map escapeChar).flatten
    rw [basicLoop]
    by_cases hb : badChar v c = true
    · rw [if_pos hb] at hs
      obtain ⟨e, hs⟩ := hs
      rw [if_pos (by simp [hb]), hs]
      exact ⟨e, rfl⟩
    · rw [if_neg hb] at hs
      rw [hs]
      simp only []
      have := ih f (out ++ [c]) (by rw [List.length_cons, List.length_append] at hf; omega)
      have hany : (c :: cs).any (badChar v) = cs.any (badChar v) := by simp [hb]
      rw [hany]
      split
      · next h => rw [if_pos h] at this; exact this
      · next h => rw [if_neg h] at this; rw [this]; simp

theorem inner_quotes (q : Char) (hq : q.utf8Size = 1) (s : List Char) : inner 1 ([q] ++ s ++ [q]) = some s := by
  have h1 : utf8Len ([q] ++ s ++ [q]) = utf8Len s + 2 := by simp [hq]; omega
  have h2 := byteSlice_append [q] s [q]
  unfold inner
  rw [if_pos (by omega), h1]
  have : utf8Len [q] = 1 := by simp [hq]
  rw [this] at h2
  rw [show utf8Len s + 2 - 1 = 1 + utf8Len s by omega]
  exact h2

theorem inner_quotes3 (q : Char) (hq : q.utf8Size = 1) (s : List Char) :
    inner 3 ([q, q, q] ++ s ++ [q, q, q]) = some s := by
  have h1 : utf8Len ([q, q, q] ++ s ++ [q, q, q]) = utf8Len s + 6 := by simp [hq]; omega
  have h2 := byteSlice_append [q, q, q] s [q, q, q]
  unfold inner
  rw [if_pos (by omega), h1]
  have : utf8Len [q, q, q] = 3 := by simp [hq]
  rw [this] at h2
  rw [show utf8Len s + 6 - 3 = 3 + utf8Len s by omega]
  exact h2

/-- a rendered character is a sequence of items of a basic string literal -/
theorem escapeChar_items (c : Char) : ∃ items, (∀ i ∈ items, i.single) ∧ escapeChar c = render items := by
  unfold escapeChar
  by_cases h1 : c = '"'
  · exact ⟨[.esc '"'], by simp [Item.single], by simp [h1, render, Item.text]⟩
  rw [if_neg h1]
  by_cases h2 : c = '\\'
  · exact ⟨[.esc '\\'], by simp [Item.single], by simp [h2, render, Item.text]⟩
  rw [if_neg h2]
  have key : ∀ e : Char, e ≠ '\n' → e ≠ '\r' → ∃ items, (∀ i ∈ items, Item.single i) ∧ ['\\', e] = render items :=
    fun e he1 he2 => ⟨[.esc e], by simp [Item.single, he1, he2], by simp [render, Item.text]⟩
  split; exact key _ (by decide) (by decide)
  split; exact key _ (by decide) (by decide)
  split; exact key _ (by decide) (by decide)
  split; exact key _ (by decide) (by decide)
  split; exact key _ (by decide) (by decide)
  split; exact key _ (by decide) (by decide)
  split; exact key _ (by decide) (by decide)
  split; exact key _ (by decide) (by decide)
  split; exact key _ (by decide) (by decide)
  next h3 h4 h5 h6 h7 h8 h9 h10 h11 =>
  by_cases h12 : charIsControl c = true
  · rw [if_pos h12]
    have hd : ∀ n, (Item.chr (hexDigit (n % 16))).single := by
      intro n
      have : ∀ m : Fin 16, (hexDigit m.1 ≠ '"' ∧ hexDigit m.1 ≠ '\\' ∧ hexDigit m.1 ≠ '\n' ∧
        hexDigit m.1 ≠ '\r') := by decide
      exact this ⟨n % 16, Nat.mod_lt _ (by omega)⟩
    refine ⟨[.esc 'u', .chr (hexDigit (c.toNat / 4096 % 16)), .chr (hexDigit (c.toNat / 256 % 16)),
      .chr (hexDigit (c.toNat / 16 % 16)), .chr (hexDigit (c.toNat % 16))], ?_, ?_⟩
    · intro i hi
      simp only [List.mem_cons, List.not_mem_nil, or_false] at hi
      rcases hi with rfl | rfl | rfl | rfl | rfl
      · simp [Item.single]
      · exact hd _
      · exact hd _
      · exact hd _
      · exact hd _
    · simp [render, Item.text, formatU]
  · rw [if_neg h12]
    exact ⟨[.chr c], by simp [Item.single, h1, h2, h7, h10], by simp [render, Item.text]⟩

theorem render_append (a b : List Item) : render (a ++ b) = render a ++ render b := by
  induction a with
  | nil => rfl
  | cons i is ih => simp [render, ih]

theorem toBasicString_literal (s : List Char) : BasicString (toBasicString s) := by
  have : ∃ items, (∀ i ∈ items, Item.single i) ∧ (s.map escapeChar).flatten = render items := by
    induction s with
    | nil => exact ⟨[], by simp, rfl⟩
    | cons c cs ih =>
      obtain ⟨i1, h1, h2⟩ := escapeChar_items c
      obtain ⟨i2, h3, h4⟩ := ih
      refine ⟨i1 ++ i2, ?_, by simp [h2, h4, render_append]⟩
      intro i hi
      rcases List.mem_append.mp hi with hi | hi
      · exact h1 i hi
      · exact h3 i hi
  obtain ⟨items, h1, h2⟩ := this
  exact ⟨items, h1, by simp [toBasicString, h2]⟩

end Tombi
