import Verif.Proofs.JsonShape
/-! Decoding of JSON strings. -/
namespace Tombi.Json
open Tombi.Spec.Json

theorem charOf_some {n : Nat} {c : Char} : charOf n = some c ↔ c.toNat = n := by
  unfold charOf
  split
  · next h =>
    constructor
    · intro hc
      cases hc
      rfl
    · rintro rfl
      congr 1
  · next h =>
    constructor
    · intro hc; cases hc
    · rintro rfl
      exact absurd c.valid h

theorem isValidChar_of {n : Nat} (h : n < 0xD800 ∨ (0xDFFF < n ∧ n < 0x110000)) : n.isValidChar := h

theorem hexVal_lt {c : Char} (h : isHex c = true) : hexVal c < 16 := by
  unfold isHex at h
  unfold hexVal
  have h0 : ('0' : Char).toNat = 48 := rfl
  have h9 : ('9' : Char).toNat = 57 := rfl
  have ha : ('a' : Char).toNat = 97 := rfl
  have hf : ('f' : Char).toNat = 102 := rfl
  have hA : ('A' : Char).toNat = 65 := rfl
  have hF : ('F' : Char).toNat = 70 := rfl
  split
  · next h1 =>
    simp [inRange] at h1
    have : c.toNat ≤ ('9' : Char).toNat := h1.2
    omega
  · next h1 =>
    split
    · next h2 =>
      simp [inRange] at h2
      have : c.toNat ≤ ('f' : Char).toNat := h2.2
      omega
    · next h2 =>
      simp [h1, h2] at h
      simp [inRange] at h
      have : c.toNat ≤ ('F' : Char).toNat := h.2
      omega

theorem hex4_some {s rest : List Char} {n : Nat} (h : hex4 s = some (n, rest)) :
    ∃ ds, s = ds ++ rest ∧ Hex4 ds n ∧ n < 65536 := by
  unfold hex4 at h
  split at h
  · next a b c d rest' =>
    split at h
    · next hh =>
      simp at h
      simp at hh
      obtain ⟨h1, rfl⟩ := h
      have := hexVal_lt hh.1.1.1
      have := hexVal_lt hh.1.1.2
      have := hexVal_lt hh.1.2
      have := hexVal_lt hh.2
      exact ⟨[a, b, c, d], rfl, hex4_iff.mpr ⟨a, b, c, d, rfl, hh.1.1.1, hh.1.1.2, hh.1.2, hh.2,
        h1.symm⟩, by omega⟩
    · cases h
  · cases h

theorem hex4_append {ds : List Char} {n : Nat} (h : Hex4 ds n) (rest : List Char) :
    hex4 (ds ++ rest) = some (n, rest) := by
  obtain ⟨a, b, c, d, rfl, ha, hb, hc, hd, rfl⟩ := hex4_iff.mp h
  simp [hex4, ha, hb, hc, hd]

theorem hex4_length {ds : List Char} {n : Nat} (h : Hex4 ds n) : ds.length = 4 := by
  obtain ⟨a, b, c, d, rfl, -⟩ := hex4_iff.mp h
  rfl

theorem body_plain_inv {c : Char} {b : List Char} (hc : c ≠ '\\') (h : StringBody (c :: b)) :
    0x20 ≤ c.toNat ∧ c ≠ '"' ∧ StringBody b := by
  cases h with
  | plain _ _ h1 h2 _ h4 => exact ⟨h1, h2, h4⟩
  | escape _ _ _ _ _ => exact absurd rfl hc
  | unicode _ _ _ _ _ => exact absurd rfl hc

theorem body_escape_inv {e : Char} {b : List Char} (he : e ≠ 'u')
    (h : StringBody ('\\' :: e :: b)) : (∃ c, (e, c) ∈ escapes) ∧ StringBody b := by
  cases h with
  | plain _ _ _ _ h3 _ => exact absurd rfl h3
  | escape _ c _ h1 h2 => exact ⟨⟨c, h1⟩, h2⟩
  | unicode _ _ _ _ _ => exact absurd rfl he

theorem body_unicode_inv {ds b : List Char} (hd : ds.length = 4)
    (h : StringBody ('\\' :: 'u' :: (ds ++ b))) : (∃ n, Hex4 ds n) ∧ StringBody b := by
  generalize hs : ds ++ b = s at h
  cases h with
  | plain _ _ _ _ h3 _ => exact absurd rfl h3
  | escape _ c _ h1 h2 => simp [escapes] at h1
  | unicode ds' n b' h1 h2 =>
    have := List.append_inj hs (by rw [hd, (hex4_length h1)])
    rw [this.1, this.2]
    exact ⟨⟨n, h1⟩, h2⟩

theorem body_end_inv (h : StringBody ['\\']) : False := by
  cases h with
  | plain _ _ _ _ h3 _ => exact absurd rfl h3

/-- One `\u` escape (or a pair of them). -/
theorem unicodeEscape_ok {s rest : List Char} {c : Char} (h : unicodeEscape s = .ok (c, rest)) :
    (∃ ds, s = ds ++ rest ∧ Hex4 ds c.toNat)
    ∨ ∃ hs ls hi lo, s = hs ++ '\\' :: 'u' :: (ls ++ rest) ∧ Hex4 hs hi ∧ 0xD800 ≤ hi ∧ hi < 0xDC00
        ∧ Hex4 ls lo ∧ 0xDC00 ≤ lo ∧ lo < 0xE000
        ∧ c.toNat = 0x10000 + (hi - 0xD800) * 0x400 + (lo - 0xDC00) := by
  unfold unicodeEscape at h
  split at h
  · cases h
  · next cp rest1 h1 =>
    obtain ⟨hs, rfl, h2, h3⟩ := hex4_some h1
    split at h
    · next hhi =>
      split at h
      · next rest2 =>
        split at h
        · cases h
        · next lo rest3 h4 =>
          obtain ⟨ls, rfl, h5, h6⟩ := hex4_some h4
          split at h
          · next hlo =>
            split at h
            · next c' hc =>
              cases h
              exact Or.inr ⟨hs, ls, cp, lo, rfl, h2, hhi.1, by omega, h5, hlo.1, by omega,
                charOf_some.mp hc⟩
            · cases h
          · cases h
      · cases h
    · split at h
      · cases h
      · split at h
        · next c' hc =>
          cases h
          exact Or.inl ⟨hs, rfl, by rw [charOf_some.mp hc]; exact h2⟩
        · cases h

theorem unicodeEscape_single {ds : List Char} {c : Char} (h : Hex4 ds c.toNat) (rest : List Char) :
    unicodeEscape (ds ++ rest) = .ok (c, rest) := by
  unfold unicodeEscape
  rw [hex4_append h]
  have hv := c.valid
  have h1 : ¬ (0xD800 ≤ c.toNat ∧ c.toNat ≤ 0xDBFF) := by
    intro hh
    rcases hv with hv | hv
    · have : c.toNat < 0xD800 := hv
      omega
    · have : 0xDFFF < c.toNat := hv.1
      omega
  have h2 : ¬ (0xDC00 ≤ c.toNat ∧ c.toNat ≤ 0xDFFF) := by
    intro hh
    rcases hv with hv | hv
    · have : c.toNat < 0xD800 := hv
      omega
    · have : 0xDFFF < c.toNat := hv.1
      omega
  simp only []
  rw [if_neg h1, if_neg h2, charOf_some.mpr rfl]

theorem unicodeEscape_pair {hs ls : List Char} {hi lo : Nat} {c : Char} (h1 : Hex4 hs hi)
    (h2 : 0xD800 ≤ hi) (h3 : hi < 0xDC00) (h4 : Hex4 ls lo) (h5 : 0xDC00 ≤ lo) (h6 : lo < 0xE000)
    (h7 : c.toNat = 0x10000 + (hi - 0xD800) * 0x400 + (lo - 0xDC00)) (rest : List Char) :
    unicodeEscape (hs ++ '\\' :: 'u' :: (ls ++ rest)) = .ok (c, rest) := by
  unfold unicodeEscape
  rw [hex4_append h1]
  simp only []
  rw [if_pos ⟨h2, by omega⟩]
  simp only [hex4_append h4]
  rw [if_pos ⟨h5, by omega⟩, charOf_some.mpr h7]

theorem decodeLoop_cons (n : Nat) (c : Char) (cs : List Char) :
    decodeLoop (n + 1) (c :: cs) =
      if c = '\\' then
        match cs with
        | [] => .error .invalidEscape
        | e :: cs =>
          match simpleEscape e with
          | some x =>
            match decodeLoop n cs with
            | .ok t => .ok (x :: t)
            | .error e => .error e
          | none =>
            if e = 'u' then
              match unicodeEscape cs with
              | .error e => .error e
              | .ok (x, rest) =>
                match decodeLoop n rest with
                | .ok t => .ok (x :: t)
                | .error e => .error e
            else .error .invalidEscape
      else
        match decodeLoop n cs with
        | .ok t => .ok (c :: t)
        | .error e => .error e := by
  rw [decodeLoop.eq_def]
  rfl

theorem decodeLoop_complete {b t : List Char} (h : Decodes b t) :
    ∀ n, b.length ≤ n → decodeLoop n b = .ok t := by
  induction h with
  | nil => intro n _; cases n <;> rfl
  | plain c b t h1 h2 h3 _ ih =>
    intro n hn
    cases n with
    | zero => simp at hn
    | succ n =>
      simp at hn
      rw [decodeLoop_cons, if_neg h3, ih n hn]
  | escape e c b t h1 _ ih =>
    intro n hn
    cases n with
    | zero => simp at hn
    | succ n =>
      simp at hn
      rw [decodeLoop_cons, if_pos rfl]
      simp only [simpleEscape_iff.mpr h1]
      rw [ih n (by omega)]
  | unicode ds c b t h1 _ ih =>
    intro n hn
    cases n with
    | zero => simp at hn
    | succ n =>
      simp at hn
      rw [decodeLoop_cons, if_pos rfl]
      have hu : simpleEscape 'u' = none := by decide
      simp only [hu, if_true, unicodeEscape_single h1]
      rw [ih n (by omega)]
  | pair hs ls hi lo c b t h1 h2 h3 h4 h5 h6 h7 _ ih =>
    intro n hn
    cases n with
    | zero => simp at hn
    | succ n =>
      simp at hn
      rw [decodeLoop_cons, if_pos rfl]
      have hu : simpleEscape 'u' = none := by decide
      simp only [hu, if_true, unicodeEscape_pair h1 h2 h3 h4 h5 h6 h7]
      rw [ih n (by omega)]

/-- The decoder on the body of a string token: a result is right, and running out of fuel or
panicking does not happen. -/
theorem decodeLoop_sound (n : Nat) (b : List Char) (hn : b.length ≤ n) (hb : StringBody b) :
    match decodeLoop n b with
    | .ok t => Decodes b t
    | .error e => e ≠ .panic ∧ e ≠ .outOfFuel := by
  induction n generalizing b with
  | zero =>
    simp at hn
    subst hn
    exact .nil
  | succ n ih =>
    cases b with
    | nil => exact .nil
    | cons c cs =>
      rw [decodeLoop_cons]
      by_cases hc : c = '\\'
      · subst hc
        rw [if_pos rfl]
        cases cs with
        | nil => exact absurd (body_end_inv hb) id
        | cons e cs =>
          simp at hn
          simp only []
          cases hs : simpleEscape e with
          | some x =>
            have he := simpleEscape_iff.mp hs
            have hu : e ≠ 'u' := by rintro rfl; simp [escapes] at he
            obtain ⟨-, hb'⟩ := body_escape_inv hu hb
            have := ih cs (by omega) hb'
            simp only []
            cases hd : decodeLoop n cs with
            | ok t => rw [hd] at this; exact .escape e x cs t he this
            | error e => rw [hd] at this; exact this
          | none =>
            simp only []
            by_cases hu : e = 'u'
            · subst hu
              rw [if_pos rfl]
              cases hue : unicodeEscape cs with
              | error e =>
                simp only []
                -- only the errors for bad escapes
                unfold unicodeEscape at hue
                repeat' split at hue
                all_goals first
                  | (cases hue; done)
                  | (simp only [Except.error.injEq] at hue; subst hue; simp; done)
              | ok p =>
                obtain ⟨x, rest⟩ := p
                simp only []
                rcases unicodeEscape_ok hue with ⟨ds, rfl, h1⟩ | ⟨hs', ls, hi, lo, rfl, h1, h2, h3,
                  h4, h5, h6, h7⟩
                · obtain ⟨-, hb'⟩ := body_unicode_inv (hex4_length h1) hb
                  have hl := (hex4_length h1)
                  simp at hn
                  have := ih rest (by omega) hb'
                  cases hd : decodeLoop n rest with
                  | ok t => rw [hd] at this; exact .unicode ds x rest t h1 this
                  | error e => rw [hd] at this; exact this
                · obtain ⟨-, hb'⟩ := body_unicode_inv (hex4_length h1) hb
                  obtain ⟨-, hb''⟩ := body_unicode_inv (hex4_length h4) hb'
                  simp at hn
                  have := ih rest (by omega) hb''
                  cases hd : decodeLoop n rest with
                  | ok t =>
                    rw [hd] at this
                    exact .pair hs' ls hi lo x rest t h1 h2 h3 h4 h5 h6 h7 this
                  | error e => rw [hd] at this; exact this
            · rw [if_neg hu]
              simp
      · rw [if_neg hc]
        obtain ⟨h1, h2, h3⟩ := body_plain_inv hc hb
        simp at hn
        have := ih cs hn h3
        cases hd : decodeLoop n cs with
        | ok t => rw [hd] at this; exact .plain c cs t h1 h2 hc this
        | error e => rw [hd] at this; exact this

theorem decodeToken_eq (b : List Char) :
    decodeToken ('"' :: (b ++ ['"'])) = decodeLoop b.length b := by
  unfold decodeToken
  have hq : ('"' : Char).utf8Size = 1 := by decide
  have h1 : utf8Len ('"' :: (b ++ ['"'])) = 1 + utf8Len b + 1 := by
    simp [hq]; omega
  rw [if_neg (by omega), h1]
  have h2 : byteSlice 1 (1 + utf8Len b + 1 - 1) ('"' :: (b ++ ['"'])) = some b := by
    have := byteSlice_append ['"'] b ['"']
    simp only [utf8Len_cons, utf8Len_nil, hq, Nat.add_zero] at this
    simpa using this
  rw [h2]

end Tombi.Json
