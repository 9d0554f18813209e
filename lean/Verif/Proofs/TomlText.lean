import Verif.Spec.TomlText
/-! The string decoder of `tombi-toml-text` against its specification. -/
namespace Tombi
open Spec TomlText

theorem char_le {a b : Char} : a ≤ b ↔ a.toNat ≤ b.toNat := Iff.rfl

theorem toDigit_hex (c : Char) : toDigit 16 c = hexVal c := by
  simp only [toDigit, hexVal, char_le]
  have e1 : '0'.toNat = 48 := rfl
  have e2 : '9'.toNat = 57 := rfl
  have e3 : 'a'.toNat = 97 := rfl
  have e4 : 'f'.toNat = 102 := rfl
  have e5 : 'A'.toNat = 65 := rfl
  have e6 : 'F'.toNat = 70 := rfl
  rw [e1, e2, e3, e4, e5, e6]
  by_cases h1 : 48 ≤ c.toNat ∧ c.toNat ≤ 57
  · simp only [h1, and_self, if_true]; rw [if_pos (by omega)]
  · by_cases h2 : 97 ≤ c.toNat ∧ c.toNat ≤ 102
    · simp only [h1, h2, and_self, if_true, if_false]; rw [if_pos (by omega)]
      congr 1; omega
    · by_cases h3 : 65 ≤ c.toNat ∧ c.toNat ≤ 70
      · simp only [h1, h2, h3, and_self, if_true, if_false]; rw [if_pos (by omega)]
        congr 1; omega
      · simp [h1, h2, h3]

theorem hexNumber_foldl_none (ds : List Char) :
    ds.foldl (fun acc c => do return (← acc) * 16 + (← hexVal c)) (none : Option Nat) = none := by
  induction ds with
  | nil => rfl
  | cons d ds ih => exact ih

theorem radixLoop_hex (acc : Nat) (ds : List Char) : radixLoop 16 acc ds =
    ds.foldl (fun acc c => do return (← acc) * 16 + (← hexVal c)) (some acc) := by
  induction ds generalizing acc with
  | nil => rfl
  | cons d ds ih =>
    rw [radixLoop, toDigit_hex, List.foldl_cons]
    cases h : hexVal d with
    | none => exact (hexNumber_foldl_none ds).symm
    | some x => exact ih _

theorem hexVal_lt {c : Char} {n : Nat} (h : hexVal c = some n) : n < 16 := by
  unfold hexVal at h
  simp only [char_le] at h
  have e1 : '0'.toNat = 48 := rfl
  have e2 : '9'.toNat = 57 := rfl
  have e3 : 'a'.toNat = 97 := rfl
  have e4 : 'f'.toNat = 102 := rfl
  have e5 : 'A'.toNat = 65 := rfl
  have e6 : 'F'.toNat = 70 := rfl
  rw [e1, e2, e3, e4, e5, e6] at h
  split at h
  · have := Option.some.inj h; omega
  · split at h
    · have := Option.some.inj h; omega
    · split at h
      · have := Option.some.inj h; omega
      · exact absurd h (by simp)

theorem hexFold_lt {ds : List Char} : ∀ {acc n : Nat},
    ds.foldl (fun acc c => do return (← acc) * 16 + (← hexVal c)) (some acc) = some n →
    n < (acc + 1) * 16 ^ ds.length := by
  induction ds with
  | nil => intro acc n h; cases h; simp
  | cons d ds ih =>
    intro acc n h
    rw [List.foldl_cons] at h
    cases hd : hexVal d with
    | none => rw [hd] at h; rw [show (do return (← some acc) * 16 + (← (none : Option Nat))) = none from rfl,
        hexNumber_foldl_none] at h; cases h
    | some x =>
      rw [hd] at h
      have h' := ih (acc := acc * 16 + x) h
      have := hexVal_lt hd
      refine Nat.lt_of_lt_of_le h' ?_
      rw [List.length_cons, Nat.pow_succ, Nat.mul_comm (16 ^ _) 16, ← Nat.mul_assoc]
      exact Nat.mul_le_mul_right _ (by omega)

theorem hexNumber_lt {ds : List Char} {n : Nat} (h : hexNumber ds = some n) : n < 16 ^ ds.length := by
  have := hexFold_lt (acc := 0) h
  simpa using this

/-- `u32::from_str_radix(_, 16)` on up to eight characters -/
theorem u32FromStrRadix_hex {ds : List Char} (h0 : ds ≠ []) (hl : ds.length ≤ 8) :
    u32FromStrRadix 16 ds = lenient.hex ds := by
  have hlt : ∀ {es : List Char} {n : Nat}, es.length ≤ 8 → hexNumber es = some n → n < 2 ^ 32 := by
    intro es n hes hn
    have := hexNumber_lt hn
    have h16 : 16 ^ es.length ≤ 16 ^ 8 := Nat.pow_le_pow_right (by omega) hes
    have : (16 : Nat) ^ 8 = 2 ^ 32 := by decide
    omega
  have key : ∀ es : List Char, es.length ≤ 8 → (match radixLoop 16 0 es with
      | some n => if n < 2 ^ 32 then some n else none
      | none => none) = hexNumber es := by
    intro es hes
    rw [radixLoop_hex]
    show (match hexNumber es with
      | some n => if n < 2 ^ 32 then some n else none
      | none => none) = hexNumber es
    cases hn : hexNumber es with
    | none => rfl
    | some n => simp only []; rw [if_pos (hlt hes hn)]
  match ds, h0, hl with
  | '+' :: d :: ds, _, hl =>
    unfold u32FromStrRadix lenient
    simp only []
    rw [if_neg (by simp)]
    exact key (d :: ds) (by simp at hl ⊢; omega)
  | ['+'], _, _ => rfl
  | c :: ds, _, hl =>
    by_cases hc : c = '+'
    · subst hc
      cases ds with
      | nil => rfl
      | cons d ds =>
        unfold u32FromStrRadix lenient
        simp only []
        rw [if_neg (by simp)]
        exact key (d :: ds) (by simp at hl ⊢; omega)
    · unfold u32FromStrRadix lenient
      simp only []
      split
      · next ds' heq => cases heq; exact absurd rfl hc
      · rw [if_neg (by simp)]
        refine (key (c :: ds) hl).trans ?_
        split
        · next heq => cases heq; exact absurd rfl hc
        · rfl

theorem charFromU32_some {n : Nat} {c : Char} : charFromU32 n = some c ↔ IsScalar n ∧ c = Char.ofNat n := by
  have hv : n.isValidChar ↔ IsScalar n := by
    unfold Nat.isValidChar IsScalar; omega
  unfold charFromU32
  split
  · next h => rw [hv] at h; simp [h, eq_comm]
  · next h => rw [hv] at h; simp [h]

theorem takeChars_some {n : Nat} {cs ds rest : List Char} :
    takeChars n cs = some (ds, rest) ↔ cs = ds ++ rest ∧ ds.length = n := by
  induction n generalizing cs ds with
  | zero =>
    simp only [takeChars, Option.some.injEq, Prod.mk.injEq]
    constructor
    · rintro ⟨rfl, rfl⟩; simp
    · rintro ⟨rfl, h⟩
      have := List.length_eq_zero_iff.mp h
      subst this; simp
  | succ n ih =>
    cases cs with
    | nil =>
      simp only [takeChars, false_iff, reduceCtorEq]
      rintro ⟨h1, h2⟩
      have := congrArg List.length h1
      simp at this; omega
    | cons c cs =>
      simp only [takeChars, Option.map_eq_some_iff, Prod.mk.injEq]
      constructor
      · rintro ⟨⟨a, b⟩, h1, rfl, rfl⟩
        obtain ⟨rfl, rfl⟩ := ih.mp h1
        simp
      · rintro ⟨h1, h2⟩
        cases ds with
        | nil => simp at h2
        | cons d ds =>
          simp at h1 h2
          obtain ⟨rfl, h1⟩ := h1
          exact ⟨(ds, rest), ih.mpr ⟨h1, h2⟩, rfl, rfl⟩

theorem unicodeEscape_ok {k : Nat} {cs rest : List Char} {c : Char} (h0 : 0 < k) (h8 : k ≤ 8) :
    unicodeEscape k cs = .ok (c, rest) ↔
      ∃ ds n, cs = ds ++ rest ∧ ds.length = k ∧ lenient.hex ds = some n ∧ IsScalar n ∧ c = Char.ofNat n := by
  constructor
  · intro h
    unfold unicodeEscape at h
    split at h
    · cases h
    · next ds r heq =>
      obtain ⟨rfl, hl⟩ := takeChars_some.mp heq
      split at h
      · cases h
      · next n hn =>
        rw [u32FromStrRadix_hex (by rintro rfl; simp at hl; omega) (by omega)] at hn
        split at h
        · cases h
        · next x hx =>
          cases h
          have := charFromU32_some.mp hx
          exact ⟨ds, n, rfl, hl, hn, this.1, this.2⟩
  · rintro ⟨ds, n, rfl, hl, hn, hs, rfl⟩
    unfold unicodeEscape
    rw [takeChars_some.mpr ⟨rfl, hl⟩]
    simp only []
    rw [u32FromStrRadix_hex (by rintro rfl; simp at hl; omega) (by omega), hn]
    simp only []
    rw [charFromU32_some.mpr ⟨hs, rfl⟩]

theorem skipWhite_spec (seen : Bool) (w rest : List Char) (hw : ∀ c ∈ w, charIsWhitespace c = true)
    (hr : ∀ c, rest.head? = some c → charIsWhitespace c = false) :
    skipWhite seen (w ++ rest) = (seen || w.contains '\n', rest) := by
  induction w generalizing seen with
  | nil =>
    cases rest with
    | nil => simp [skipWhite]
    | cons c cs => simp [skipWhite, hr c rfl]
  | cons c cs ih =>
    simp only [List.cons_append, skipWhite, hw c (by simp), if_true]
    rw [ih _ (fun x hx => hw x (by simp [hx]))]
    by_cases hc : c = '\n'
    · subst hc; simp
    · have h1 : ('\n' == c) = false := beq_eq_false_iff_ne.mpr (Ne.symm hc)
      have h2 : (c == '\n') = false := beq_eq_false_iff_ne.mpr hc
      rw [List.contains_cons, h1, h2, Bool.or_false, Bool.false_or]

theorem skipWhite_split (s : List Char) : ∃ w rest, s = w ++ rest ∧ (∀ c ∈ w, charIsWhitespace c = true) ∧
    ∀ c, rest.head? = some c → charIsWhitespace c = false := by
  induction s with
  | nil => exact ⟨[], [], rfl, by simp, by simp⟩
  | cons c cs ih =>
    by_cases hc : charIsWhitespace c = true
    · obtain ⟨w, r, rfl, h1, h2⟩ := ih
      refine ⟨c :: w, r, rfl, ?_, h2⟩
      intro x hx
      rcases List.mem_cons.mp hx with rfl | hx
      · exact hc
      · exact h1 x hx
    · refine ⟨[], c :: cs, rfl, by simp, ?_⟩
      intro x hx
      cases hx
      exact Bool.eq_false_iff.mpr hc

theorem not_forbidden {c : Char} (h : isForbidden c = false) (hc : c ≠ '\\') : Literal c := by
  simp only [isForbidden, Bool.or_eq_false_iff, Bool.and_eq_false_iff, decide_eq_false_iff_not,
    beq_eq_false_iff_ne, ne_eq] at h
  refine ⟨hc, ?_⟩
  by_cases h9 : c.toNat = 9
  · left
    apply Char.ext; apply UInt32.toNat_inj.mp; exact h9
  · right; omega

theorem forbidden_of {c : Char} (h : c = '\t' ∨ (0x20 ≤ c.toNat ∧ c.toNat ≠ 0x7F)) : isForbidden c = false := by
  simp only [isForbidden, Bool.or_eq_false_iff, Bool.and_eq_false_iff, decide_eq_false_iff_not,
    beq_eq_false_iff_ne, ne_eq]
  rcases h with rfl | h
  · decide
  · omega

theorem literal_ne {c : Char} (h : c = '\t' ∨ (0x20 ≤ c.toNat ∧ c.toNat ≠ 0x7F)) : c ≠ '\r' ∧ c ≠ '\n' := by
  constructor <;> rintro rfl <;> revert h <;> decide

theorem map_ok {α β ε : Type} {x : Except ε α} {f : α → β} {b : β} :
    x.map f = .ok b ↔ ∃ a, x = .ok a ∧ f a = b := by
  cases x with
  | ok a => simp [Except.map]
  | error e => simp [Except.map]

/-- one round: the text split off at the front decodes to what is pushed -/
theorem basicStep_ok {v : TomlVersion} {multi : Bool} {c : Char} {cs x rest : List Char}
    (h : basicStep v multi c cs = .ok (x, rest)) {o : List Char} (ho : Decodes lenient v multi rest o) :
    Decodes lenient v multi (c :: cs) (x ++ o) := by
  unfold basicStep at h
  split at h
  · next hc =>
    subst hc
    unfold escape at h
    split at h
    · cases h
    · next e r =>
      by_cases he : e = 'b'
      · rw [if_pos he] at h; subst he; cases h; exact .esc 'b' _ rfl ho
      rw [if_neg he] at h; clear he
      by_cases he : e = 'e'
      · rw [if_pos he] at h
        subst he
        split at h
        · cases h
        · next hv => cases h; exact .escE hv ho
      rw [if_neg he] at h; clear he
      by_cases he : e = 't'
      · rw [if_pos he] at h; subst he; cases h; exact .esc 't' _ rfl ho
      rw [if_neg he] at h; clear he
      by_cases he : e = 'n'
      · rw [if_pos he] at h; subst he; cases h; exact .esc 'n' _ rfl ho
      rw [if_neg he] at h; clear he
      by_cases he : e = 'f'
      · rw [if_pos he] at h; subst he; cases h; exact .esc 'f' _ rfl ho
      rw [if_neg he] at h; clear he
      by_cases he : e = 'r'
      · rw [if_pos he] at h; subst he; cases h; exact .esc 'r' _ rfl ho
      rw [if_neg he] at h; clear he
      by_cases he : e = '"'
      · rw [if_pos he] at h; subst he; cases h; exact .esc '"' _ rfl ho
      rw [if_neg he] at h; clear he
      by_cases he : e = '\\'
      · rw [if_pos he] at h; subst he; cases h; exact .esc '\\' _ rfl ho
      rw [if_neg he] at h; clear he
      by_cases he : e = 'u'
      · rw [if_pos he] at h
        subst he
        obtain ⟨⟨y, r'⟩, hu, he⟩ := map_ok.mp h
        cases he
        obtain ⟨ds, n, rfl, h1, h2, h3, rfl⟩ := (unicodeEscape_ok (by omega) (by omega)).mp hu
        exact .escU4 ds n h1 h2 h3 ho
      rw [if_neg he] at h; clear he
      by_cases he : e = 'U'
      · rw [if_pos he] at h
        subst he
        obtain ⟨⟨y, r'⟩, hu, he⟩ := map_ok.mp h
        cases he
        obtain ⟨ds, n, rfl, h1, h2, h3, rfl⟩ := (unicodeEscape_ok (by omega) (by omega)).mp hu
        exact .escU8 ds n h1 h2 h3 ho
      rw [if_neg he] at h; clear he
      by_cases he : e = 'x'
      · rw [if_pos he] at h
        subst he
        split at h
        · cases h
        · next hv =>
          obtain ⟨⟨y, r'⟩, hu, he⟩ := map_ok.mp h
          cases he
          obtain ⟨ds, n, rfl, h1, h2, h3, rfl⟩ := (unicodeEscape_ok (by omega) (by omega)).mp hu
          exact .escX ds n hv h1 h2 h3 ho
      rw [if_neg he] at h; clear he
      split at h
      · next hw =>
        obtain ⟨w, rest', rfl, h1, h2⟩ := skipWhite_split r
        rw [skipWhite_spec _ _ _ h1 h2] at h
        split at h
        · next hs =>
          cases h
          have := Decodes.cont (D := lenient) (v := v) (multi := multi) (e :: w) (s := rest') (o := o)
            ⟨by simp, ?_, ?_, h2⟩ ho
          · simpa using this
          · intro x hx
            rcases List.mem_cons.mp hx with rfl | hx
            · exact hw
            · exact h1 x hx
          · simp only [Bool.or_eq_true, beq_iff_eq, List.contains_iff_mem] at hs
            rcases hs with rfl | hs
            · simp
            · simp [hs]
        · cases h
      · cases h
  · next hc =>
    split at h
    · next hm =>
      obtain ⟨hm1, hm2⟩ := hm
      split at h
      · next hr =>
        subst hr
        split at h
        · cases h; exact .crlf hm2 ho
        · cases h
      · next hr =>
        have : c = '\n' := by rcases hm1 with h | h; exact absurd h hr; exact h
        subst this
        cases h
        exact .lf hm2 ho
    · split at h
      · cases h
      · next hf =>
        cases h
        exact .chr c (not_forbidden (Bool.eq_false_iff.mpr hf) hc) ho

/-- The decoder returns only what the specification, read with the code's dialect, allows. -/
theorem basicLoop_sound (v : TomlVersion) (multi : Bool) (fuel : Nat) (out s r : List Char)
    (h : basicLoop v multi fuel out s = .ok r) : ∃ o, r = out ++ o ∧ Decodes lenient v multi s o := by
  induction fuel generalizing out s with
  | zero => cases h
  | succ fuel ih =>
    cases s with
    | nil => cases h; exact ⟨[], by simp, .nil⟩
    | cons c cs =>
      rw [basicLoop] at h
      split at h
      · next x rest hs =>
        obtain ⟨o, h1, h2⟩ := ih _ _ h
        exact ⟨x ++ o, by rw [h1]; simp, basicStep_ok hs h2⟩
      · cases h

theorem basicLoop_step {v : TomlVersion} {multi : Bool} {c : Char} {cs x rest o : List Char}
    (hs : basicStep v multi c cs = .ok (x, rest)) (hl : rest.length ≤ cs.length)
    (ih : ∀ (fuel : Nat) (out : List Char), rest.length < fuel →
      basicLoop v multi fuel out rest = .ok (out ++ o)) (fuel : Nat) (out : List Char)
    (hf : (c :: cs).length < fuel) : basicLoop v multi fuel out (c :: cs) = .ok (out ++ (x ++ o)) := by
  obtain ⟨f, rfl⟩ : ∃ f, fuel = f + 1 := ⟨fuel - 1, by simp at hf; omega⟩
  rw [basicLoop, hs]
  simp only []
  rw [ih f _ (by simp at hf; omega)]
  simp

/-- The decoder returns everything the specification, read with the code's dialect, allows. -/
theorem basicLoop_complete {v : TomlVersion} {multi : Bool} {s o : List Char}
    (h : Decodes lenient v multi s o) : ∀ (fuel : Nat) (out : List Char), s.length < fuel →
    basicLoop v multi fuel out s = .ok (out ++ o) := by
  induction h with
  | nil =>
    intro fuel out hf
    obtain ⟨f, rfl⟩ : ∃ f, fuel = f + 1 := ⟨fuel - 1, by simp at hf; omega⟩
    simp [basicLoop]
  | chr c hc _ ih =>
    refine basicLoop_step (x := [c]) ?_ (Nat.le_refl _) ih
    unfold basicStep
    rw [if_neg hc.1, if_neg, if_neg]
    · rw [forbidden_of hc.2]; simp
    · rintro ⟨h1 | h1, _⟩
      · exact (literal_ne hc.2).1 h1
      · exact (literal_ne hc.2).2 h1
  | esc e c he _ ih =>
    refine basicLoop_step (x := [c]) ?_ (by simp) ih
    unfold simpleEscape at he
    split at he <;> cases he <;> rfl
  | escE hv _ ih =>
    refine basicLoop_step (x := ['\x1b']) ?_ (by simp) ih
    simp [basicStep, escape, hv]
  | @escX s _ ds n hv h1 h2 h3 _ ih =>
    refine basicLoop_step (x := [Char.ofNat n]) ?_ (by simp; omega) ih
    have hu := (unicodeEscape_ok (k := 2) (cs := ds ++ s) (by omega) (by omega)).mpr ⟨ds, n, rfl, h1, h2, h3, rfl⟩
    simp [basicStep, escape, hv, hu, Except.map]
  | @escU4 s _ ds n h1 h2 h3 _ ih =>
    refine basicLoop_step (x := [Char.ofNat n]) ?_ (by simp; omega) ih
    have hu := (unicodeEscape_ok (k := 4) (cs := ds ++ s) (by omega) (by omega)).mpr ⟨ds, n, rfl, h1, h2, h3, rfl⟩
    simp [basicStep, escape, hu, Except.map]
  | @escU8 s _ ds n h1 h2 h3 _ ih =>
    refine basicLoop_step (x := [Char.ofNat n]) ?_ (by simp; omega) ih
    have hu := (unicodeEscape_ok (k := 8) (cs := ds ++ s) (by omega) (by omega)).mpr ⟨ds, n, rfl, h1, h2, h3, rfl⟩
    simp [basicStep, escape, hu, Except.map]
  | lf hm _ ih =>
    refine basicLoop_step (x := ['\n']) ?_ (by simp) ih
    simp [basicStep, hm]
  | crlf hm _ ih =>
    refine basicLoop_step (x := ['\r', '\n']) ?_ (by simp) ih
    simp [basicStep, hm]
  | @cont s _ w hc _ ih =>
    obtain ⟨h1, h2, h3, h4⟩ := hc
    refine basicLoop_step (x := []) (rest := s) ?_ (by simp) ih
    unfold basicStep
    rw [if_pos rfl]
    cases w with
    | nil => exact absurd rfl h1
    | cons e w =>
      have he := h2 e (by simp)
      have hne : ∀ x : Char, charIsWhitespace x = false → e ≠ x := by
        rintro x hx rfl; rw [he] at hx; cases hx
      unfold escape
      simp only [List.cons_append]
      rw [if_neg (hne _ (by decide)), if_neg (hne _ (by decide)), if_neg (hne _ (by decide)),
        if_neg (hne _ (by decide)), if_neg (hne _ (by decide)), if_neg (hne _ (by decide)),
        if_neg (hne _ (by decide)), if_neg (hne _ (by decide)), if_neg (hne _ (by decide)),
        if_neg (hne _ (by decide)), if_neg (hne _ (by decide)), if_pos he,
        skipWhite_spec _ _ _ (fun x hx => h2 x (by simp [hx])) h4]
      rw [if_pos]
      simp only [Bool.or_eq_true, beq_iff_eq, List.contains_iff_mem]
      rcases List.mem_cons.mp h3 with h | h
      · left; exact h.symm
      · right; exact h

theorem parseBasicString_ok (v : TomlVersion) (multi : Bool) (s o : List Char) :
    parseBasicString s v multi = .ok o ↔ Decodes lenient v multi s o := by
  constructor
  · intro h
    obtain ⟨o', h1, h2⟩ := basicLoop_sound v multi _ [] s o h
    rw [h1]; simpa using h2
  · intro h
    have := basicLoop_complete h (s.length + 1) [] (by omega)
    simpa [parseBasicString] using this

end Tombi
