import Verif.Spec.Pointer
/-! C85: references by JSON pointers. -/
namespace Tombi.Pointer
open Tombi.SchemaFile (Json)
open Tombi.Offer (Text)

theorem hexValue_of {c : Char} {n : Nat} (h : HexDigit c n) : hexValue c = some n ∧ n < 16 := by
  have hn : n < 16 := by
    rcases h with h | h <;> exact (List.getElem?_eq_some_iff.1 h).1
  refine ⟨?_, hn⟩
  have key : ∀ n < 16, ∀ d, ("0123456789abcdef".toList[n]? = some d ∨ "0123456789ABCDEF".toList[n]? = some d) → hexValue d = some n := by
    intro n hn d hd
    have : n = 0 ∨ n = 1 ∨ n = 2 ∨ n = 3 ∨ n = 4 ∨ n = 5 ∨ n = 6 ∨ n = 7 ∨ n = 8 ∨ n = 9 ∨ n = 10 ∨ n = 11 ∨ n = 12 ∨ n = 13 ∨ n = 14
      ∨ n = 15 := by omega
    rcases this with rfl | rfl | rfl | rfl | rfl | rfl | rfl | rfl | rfl | rfl | rfl | rfl | rfl | rfl | rfl | rfl <;>
      rcases hd with hd | hd <;> cases hd <;> decide
  exact key n hn c h

theorem decode_bytes {bytes : List UInt8} {h w : Text} (hp : PercentBytes bytes h) :
    percentDecode (h ++ w) = bytes ++ percentDecode w := by
  induction hp with
  | nil => rfl
  | @cons byte bytes a b h ha hb _ ih =>
    obtain ⟨a1, a2⟩ := hexValue_of ha
    obtain ⟨b1, b2⟩ := hexValue_of hb
    simp only [List.cons_append]
    rw [percentDecode, if_pos rfl]
    simp only [a1, b1]
    rw [ih]
    have : 16 * (byte.toNat / 16) + byte.toNat % 16 = byte.toNat := by omega
    rw [this, UInt8.ofNat_toNat]

/-- Percent-encoding is undone. -/
theorem decode_fragment {s w : Text} (h : Fragment s w) : percentDecode w = s.flatMap String.utf8EncodeChar := by
  induction h with
  | nil => rw [percentDecode]; rfl
  | @plain c s w hc _ ih => rw [percentDecode.eq_def]; simp only [if_neg hc, ih, List.flatMap_cons]
  | @coded c h s w hp _ ih => rw [decode_bytes hp, ih, List.flatMap_cons]

/-- `~1` of an escaped token. -/
def half : Text → Text
  | [] => []
  | '~' :: cs => '~' :: '0' :: half cs
  | c :: cs => c :: half cs

theorem replace_skip {a b new c : Char} {s : Text} (h : c ≠ a) : replace2 a b new (c :: s) = c :: replace2 a b new s := by
  cases s with
  | nil => rfl
  | cons d s => rw [replace2, if_neg (fun e => h e.1)]

theorem replace_slash (s : Text) : replace2 '~' '1' '/' (escape s) = half s := by
  induction s with
  | nil => rfl
  | cons c s ih =>
    by_cases h1 : c = '~'
    · subst h1
      rw [escape, half, replace2, if_neg (by decide), replace_skip (by decide), ih]
    · by_cases h2 : c = '/'
      · subst h2
        rw [escape, replace2, if_pos ⟨rfl, rfl⟩, ih, half]
        intro h; cases h
      · rw [escape, half, replace_skip h1, ih]
        · exact h1
        · exact h1
        · exact h2

theorem replace_tilde (s : Text) : replace2 '~' '0' '~' (half s) = s := by
  induction s with
  | nil => rfl
  | cons c s ih =>
    by_cases h1 : c = '~'
    · subst h1
      rw [half, replace2, if_pos ⟨rfl, rfl⟩, ih]
    · rw [half, replace_skip h1, ih]
      exact h1

theorem unescape_escape (s : Text) : unescape (escape s) = s := by rw [unescape, replace_slash, replace_tilde]

theorem escape_no_slash (s : Text) : '/' ∉ escape s := by
  induction s with
  | nil => simp [escape]
  | cons c s ih =>
    by_cases h1 : c = '~'
    · subst h1; rw [escape]; simp [ih]
    · by_cases h2 : c = '/'
      · subst h2; rw [escape]; simp [ih]
      · rw [escape]
        · simp only [List.mem_cons, not_or]; exact ⟨fun e => h2 e.symm, ih⟩
        · exact h1
        · exact h2

theorem escape_ne_nil {s : Text} (h : s ≠ []) : escape s ≠ [] := by
  cases s with
  | nil => exact absurd rfl h
  | cons c s =>
    by_cases h1 : c = '~'
    · subst h1; rw [escape]; simp
    · by_cases h2 : c = '/'
      · subst h2; rw [escape]; simp
      · rw [escape]
        · simp
        · exact h1
        · exact h2

theorem split_word {w s : Text} (h : '/' ∉ w) : splitSlash (w ++ '/' :: s) = w :: splitSlash s := by
  induction w with
  | nil => rw [List.nil_append, splitSlash, if_pos rfl]
  | cons c w ih =>
    simp only [List.mem_cons, not_or] at h
    rw [List.cons_append, splitSlash, if_neg (fun e => h.1 e.symm), ih h.2]

theorem split_last {w : Text} (h : '/' ∉ w) : splitSlash w = [w] := by
  induction w with
  | nil => rfl
  | cons c w ih =>
    simp only [List.mem_cons, not_or] at h
    rw [splitSlash, if_neg (fun e => h.1 e.symm), ih h.2]

theorem split_pointer (w : Text) (hw : '/' ∉ w) (ts : List Text) : splitSlash (w ++ pointer ts) = w :: ts.map escape := by
  induction ts generalizing w with
  | nil => rw [pointer, List.append_nil, split_last hw]; rfl
  | cons t ts ih =>
    rw [pointer, List.cons_append, split_word hw, ih _ (escape_no_slash t)]; rfl

theorem segments_pointer {ts : List Text} (h : [] ∉ ts) : (splitSlash (pointer ts)).filter (fun s => s ≠ []) = ts.map escape := by
  have := split_pointer [] (by simp) ts
  rw [List.nil_append] at this
  rw [this, List.filter_cons, if_neg (by simp), List.filter_eq_self.2]
  intro s hs
  obtain ⟨t, ht, rfl⟩ := List.mem_map.1 hs
  simpa using escape_ne_nil (s := t) (fun e => h (e ▸ ht))

/-! ### indices -/

theorem digits_of {i : Nat} : (Nat.toDigits 10 i).all Char.isDigit = true := by
  rw [List.all_eq_true]
  intro c hc
  exact Nat.isDigit_of_mem_toDigits (by decide) (by decide) hc

theorem head_ne_plus {i : Nat} : (Nat.toDigits 10 i).head? ≠ some '+' := by
  intro h
  have hm : '+' ∈ Nat.toDigits 10 i := List.mem_of_head? h
  have := Nat.isDigit_of_mem_toDigits (b := 10) (by decide) (by decide) hm
  exact absurd this (by decide)

theorem parse_digits {i : Nat} (h : i < 2 ^ 64) : parseUsize (Nat.toDigits 10 i) = some i := by
  unfold parseUsize
  simp only [if_neg head_ne_plus, Nat.ofDigitChars_ten_toDigits]
  rw [if_pos ⟨Nat.toDigits_ne_nil, digits_of, h⟩]

theorem digit_char {c : Char} (h : c.isDigit = true) : c.toNat - '0'.toNat < 10 ∧ (c.toNat - '0'.toNat).digitChar = c := by
  have hb : 48 ≤ c.toNat ∧ c.toNat ≤ 57 := by
    simp only [Char.isDigit, Bool.and_eq_true, decide_eq_true_eq] at h
    exact ⟨UInt32.le_iff_toNat_le.1 h.1, UInt32.le_iff_toNat_le.1 h.2⟩
  have h0 : '0'.toNat = 48 := rfl
  refine ⟨by omega, ?_⟩
  have hc : c = Char.ofNat c.toNat := (Char.ofNat_toNat c).symm
  rw [h0]
  have key : ∀ n, 48 ≤ n → n ≤ 57 → (n - 48).digitChar = Char.ofNat n := by
    intro n h1 h2
    have : n = 48 ∨ n = 49 ∨ n = 50 ∨ n = 51 ∨ n = 52 ∨ n = 53 ∨ n = 54 ∨ n = 55 ∨ n = 56 ∨ n = 57 := by omega
    rcases this with rfl | rfl | rfl | rfl | rfl | rfl | rfl | rfl | rfl | rfl <;> decide
  rw [key _ hb.1 hb.2]; exact hc.symm

/-- Digits without leading zeros are those of their number. -/
theorem digits_canonical : ∀ (n : Nat) (s : Text), s.length = n → s ≠ [] → s.all Char.isDigit = true →
    (∀ d ds, s ≠ '0' :: d :: ds) → Nat.toDigits 10 (Nat.ofDigitChars 10 s 0) = s
  | 0, s, hn, hs, _, _ => absurd (List.eq_nil_of_length_eq_zero hn) hs
  | 1, s, hn, _, hd, _ => by
    cases s with
    | nil => cases hn
    | cons c s =>
      have : s = [] := List.eq_nil_of_length_eq_zero (by simpa using hn)
      subst this
      simp only [List.all_cons, List.all_nil, Bool.and_true] at hd
      obtain ⟨h1, h2⟩ := digit_char hd
      rw [Nat.ofDigitChars_cons, Nat.ofDigitChars_nil, Nat.mul_zero, Nat.zero_add, Nat.toDigits_of_lt_base h1, h2]
  | n + 2, s, hn, hs, hd, hz => by
    obtain ⟨l, c, rfl⟩ : ∃ l c, s = l ++ [c] := ⟨s.dropLast, s.getLast hs, (List.dropLast_concat_getLast hs).symm⟩
    rw [List.length_append, List.length_singleton] at hn
    rw [List.all_append, Bool.and_eq_true] at hd
    have hl : l ≠ [] := by intro e; subst e; simp at hn
    have hd2 : c.isDigit = true := by simpa using hd.2
    obtain ⟨h1, h2⟩ := digit_char hd2
    have ih := digits_canonical (n + 1) l (by omega) hl hd.1 (fun d ds e => hz d (ds ++ [c]) (by rw [e]; rfl))
    have hpos : 0 < Nat.ofDigitChars 10 l 0 := by
      apply Nat.pos_of_ne_zero
      intro e
      rw [e, Nat.toDigits_zero] at ih
      rw [← ih] at hz
      exact hz c [] rfl
    rw [Nat.ofDigitChars_append, Nat.ofDigitChars_cons, Nat.ofDigitChars_nil, ← Nat.toDigits_append_toDigits (by decide) hpos h1, ih,
      Nat.toDigits_of_lt_base h1, h2]

theorem parse_strict {t : Text} {i : Nat} (h : parseUsize t = some i) (hl : ¬ LooseNumber t) : t = Nat.toDigits 10 i := by
  unfold parseUsize at h
  have hh : t.head? ≠ some '+' := by
    intro e
    cases t with
    | nil => cases e
    | cons c s => simp only [List.head?_cons, Option.some.injEq] at e; exact hl (Or.inl ⟨s, by rw [e]⟩)
  simp only [if_neg hh] at h
  split at h
  · next hc =>
    cases h
    exact (digits_canonical _ t rfl hc.1 hc.2.1 fun d ds e => hl (Or.inr ⟨d, ds, e⟩)).symm
  · cases h

theorem walk_selects {ts : List Text} {root v : Json} (hs : ∀ t ∈ ts, ¬ LooseNumber t) (h : walk root (ts.map escape) = some v) :
    Selects root ts v := by
  induction ts generalizing root with
  | nil => rw [List.map_nil, walk] at h; cases h; exact .here _
  | cons t ts ih =>
    have hs' : ∀ t ∈ ts, ¬ LooseNumber t := fun t ht => hs t (List.mem_cons_of_mem _ ht)
    rw [List.map_cons, walk.eq_def] at h
    cases root with
    | obj o =>
      simp only [unescape_escape] at h
      obtain ⟨c, hc, hw⟩ := Option.bind_eq_some_iff.1 h
      exact .member hc (ih hs' hw)
    | arr xs =>
      simp only [unescape_escape] at h
      obtain ⟨c, hc, hw⟩ := Option.bind_eq_some_iff.1 h
      obtain ⟨i, hi, hx⟩ := Option.bind_eq_some_iff.1 hc
      rw [parse_strict hi (hs t List.mem_cons_self)]
      exact .element hx (ih hs' hw)
    | _ => cases h

/-- The arrays of a value are shorter than the memory of a machine. -/
def Small (root : Json) : Prop := ∀ ts xs, Selects root ts (.arr xs) → xs.length ≤ 2 ^ 64

theorem selects_walk {ts : List Text} {root v : Json} (hm : Small root) (h : Selects root ts v) : walk root (ts.map escape) = some v := by
  induction h with
  | here j => rw [List.map_nil, walk]
  | @member o name j v rest ho _ ih =>
    rw [List.map_cons, walk.eq_def]
    simp only [unescape_escape, ho, Option.bind_some]
    exact ih fun ts xs hx => hm (name :: ts) xs (.member ho hx)
  | @element xs i j v rest hx _ ih =>
    rw [List.map_cons, walk.eq_def]
    have hi : i < 2 ^ 64 := Nat.lt_of_lt_of_le (List.getElem?_eq_some_iff.1 hx).1 (hm [] xs (.here _))
    simp only [unescape_escape, parse_digits hi, Option.bind_some, hx]
    exact ih fun ts ys hy => hm (Nat.toDigits 10 i :: ts) ys (.element hx hy)

/-- **C85 (partial).** A reference that is a JSON pointer, written as a fragment of a URI in any way, finds exactly the value that it
selects. Missing: pointers with an empty name, which find the value without it (`C85_empty_name_false`), and indices with a sign or leading
zeros, which select nothing but find an element (`C85_loose_index_false`). -/
theorem C85_pointer_partial {lossy : List UInt8 → Text} (hu : ReadsUtf8 lossy) {root : Json} (hm : Small root) {ts : List Text}
    (hn : [] ∉ ts) (hs : ∀ t ∈ ts, ¬ LooseNumber t) {w : Text} (hw : Fragment (pointer ts) w) (v : Json) :
    resolve lossy root ('#' :: w) = some v ↔ Selects root ts v := by
  have he : resolve lossy root ('#' :: w) = walk root (ts.map escape) := by
    rw [resolve]
    by_cases h0 : w = []
    · rw [if_pos h0]
      subst h0
      cases ts with
      | nil => rw [List.map_nil, walk]
      | cons t ts =>
        have hne : ∀ {s w : Text}, Fragment s w → w = [] → s = [] := by
          intro s w h e
          cases h with
          | nil => rfl
          | plain _ _ => cases e
          | @coded c _ _ _ hp _ =>
            cases hp' : String.utf8EncodeChar c with
            | nil => exact absurd hp' String.utf8EncodeChar_ne_nil
            | cons b bs => rw [hp'] at hp; cases hp; cases e
        have := hne hw rfl
        rw [pointer] at this
        cases this
    · rw [if_neg h0, segments, decode_fragment hw, hu, segments_pointer hn]
  rw [he]
  exact ⟨walk_selects hs, selects_walk hm⟩

/-- The text of bytes that are the bytes of a text. -/
def readUtf8 (bytes : List UInt8) : Text := (bytes.toByteArray.utf8Decode?.map Array.toList).getD []

theorem readUtf8_reads : ReadsUtf8 readUtf8 := by
  intro s
  have := List.utf8Decode?_utf8Encode (l := s)
  rw [List.utf8Encode] at this
  rw [readUtf8, this]; rfl

theorem lookup_one {n a : Text} {x j : Json} (h : List.lookup n [(a, x)] = some j) : j = x := by
  rw [List.lookup_cons] at h
  split at h
  · exact (Option.some.inj h).symm
  · cases h

theorem fragment_plain {s t w : Text} (h : s.all (fun c => c != '%') = true) (hf : Fragment t w) : Fragment (s ++ t) (s ++ w) := by
  induction s with
  | nil => exact hf
  | cons c s ih =>
    simp only [List.all_cons, Bool.and_eq_true, bne_iff_ne] at h
    exact .plain h.1 (ih h.2)

/-- The hypotheses are met by `#/definitions/a~1b%2E/1`: the element 1 of the definition `a/b.`. -/
example : resolve readUtf8 (.obj [("definitions".toList, .obj [("a/b.".toList, .arr [.bool true, .bool false])])])
    ('#' :: "/definitions/a~1b%2E/1".toList) = some (.bool false) :=
  have hs : Selects (.obj [("definitions".toList, .obj [("a/b.".toList, .arr [.bool true, .bool false])])])
      ["definitions".toList, "a/b.".toList, Nat.toDigits 10 1] (.bool false) :=
    .member (by rfl) (.member (by rfl) (.element (by rfl) (.here _)))
  have hm : Small (.obj [("definitions".toList, .obj [("a/b.".toList, .arr [.bool true, .bool false])])]) := by
    intro ts xs h
    cases h with
    | member ho h =>
      obtain rfl := lookup_one ho
      cases h with
      | member ho h =>
        obtain rfl := lookup_one ho
        cases h with
        | here => decide
        | @element _ i _ _ _ hx h =>
          match i, hx with
          | 0, hx => cases hx; cases h
          | 1, hx => cases hx; cases h
          | i + 2, hx => cases hx
  have hd : Nat.toDigits 10 1 = ['1'] := by decide
  (C85_pointer_partial readUtf8_reads hm (by decide) (by
    rw [hd]
    intro t ht hl
    rcases hl with ⟨ds, rfl⟩ | ⟨d, ds, rfl⟩ <;> revert ht <;> simp) (by
      have : pointer ["definitions".toList, "a/b.".toList, Nat.toDigits 10 1] = "/definitions/a~1b".toList ++ '.' :: "/1".toList := by
        decide +kernel
      rw [this]
      exact fragment_plain (s := "/definitions/a~1b".toList) (by decide) (.coded (h := ['%', '2', 'E']) (.cons (Or.inl (by decide)) (Or.inr (by decide)) .nil)
        (fragment_plain (s := "/1".toList) (w := []) (t := []) (by decide) .nil))) _).2 hs

/-- A text of ASCII characters from its bytes. -/
def asciiText (bytes : List UInt8) : Text := bytes.map fun b => Char.ofNat b.toNat

theorem resolve_path {lossy : List UInt8 → Text} {root : Json} {path : Text} (h : path ≠ []) :
    resolve lossy root ('#' :: path) = walk root (segments lossy path) := by rw [resolve, if_neg h]

theorem walk_member {o : SchemaFile.Members} {s name : Text} {c : Json} {rest : List Text} (hs : unescape s = name)
    (h : o.lookup name = some c) : walk (.obj o) (s :: rest) = walk c rest := by
  rw [walk.eq_def]; simp only [hs, h, Option.bind_some]

theorem walk_element {xs : List Json} {s : Text} {i : Nat} {c : Json} {rest : List Text} (hs : parseUsize (unescape s) = some i)
    (h : xs[i]? = some c) : walk (.arr xs) (s :: rest) = walk c rest := by
  rw [walk.eq_def]; simp only [hs, h, Option.bind_some]

/-- **C85**, where it fails: a pointer with an empty name finds another value than the one it selects. `#/definitions//a` selects
the member `a` of the definition without a name, and finds the definition `a`. -/
theorem C85_empty_name_false : ∃ (root : Json) (ts : List Text) (v v' : Json), Selects root ts v ∧
    pointer ts = "/definitions//a".toList ∧ resolve asciiText root ('#' :: "/definitions//a".toList) = some v' ∧ v ≠ v' :=
  ⟨.obj [("definitions".toList, .obj [([], .obj [("a".toList, .bool true)]), ("a".toList, .bool false)])],
    ["definitions".toList, [], "a".toList], .bool true, .bool false,
    .member (by rfl) (.member (by rfl) (.member (by rfl) (.here _))), by decide +kernel, by
      have h : segments asciiText "/definitions//a".toList = ["definitions".toList, "a".toList] := by decide +kernel
      have h1 : unescape "definitions".toList = "definitions".toList := by decide +kernel
      have h2 : unescape "a".toList = "a".toList := by decide +kernel
      rw [resolve_path (path := "/definitions//a".toList) (by decide), h, walk_member h1 (by rfl), walk_member h2 (by rfl), walk], by simp⟩

theorem selects_member {o : SchemaFile.Members} {name : Text} {rest : List Text} {v : Json} (h : Selects (.obj o) (name :: rest) v) :
    ∃ j, o.lookup name = some j ∧ Selects j rest v := by
  generalize hr : (Offer.J.obj o : Json) = root at h
  generalize ht : name :: rest = ts at h
  cases h with
  | here => cases ht
  | element => cases hr
  | member ho hrest => cases hr; cases ht; exact ⟨_, ho, hrest⟩

theorem selects_element {xs : List Json} {t : Text} {rest : List Text} {v : Json} (h : Selects (.arr xs) (t :: rest) v) :
    ∃ i, t = Nat.toDigits 10 i := by
  generalize hr : (Offer.J.arr xs : Json) = root at h
  generalize ht : t :: rest = ts at h
  cases h with
  | here => cases ht
  | member => cases hr
  | @element ys i => injection ht with h1 h2; exact ⟨i, h1⟩

/-- **C85**, where it fails: `#/oneOf/+0` and `#/oneOf/00` select nothing, and find the first element. -/
theorem C85_loose_index_false : ∃ (root : Json), (∀ v, ¬ Selects root ["oneOf".toList, "+0".toList] v) ∧
    resolve asciiText root ('#' :: "/oneOf/+0".toList) = some (.bool true) ∧
    resolve asciiText root ('#' :: "/oneOf/00".toList) = some (.bool true) := by
  refine ⟨.obj [("oneOf".toList, .arr [.bool true])], fun v h => ?_, ?_, ?_⟩
  rotate_left
  · have h : segments asciiText "/oneOf/+0".toList = ["oneOf".toList, "+0".toList] := by decide +kernel
    have h1 : unescape "oneOf".toList = "oneOf".toList := by decide +kernel
    have h2 : parseUsize (unescape "+0".toList) = some 0 := by decide +kernel
    rw [resolve_path (path := "/oneOf/+0".toList) (by decide), h, walk_member h1 (by rfl), walk_element h2 (by rfl), walk]
  · have h : segments asciiText "/oneOf/00".toList = ["oneOf".toList, "00".toList] := by decide +kernel
    have h1 : unescape "oneOf".toList = "oneOf".toList := by decide +kernel
    have h2 : parseUsize (unescape "00".toList) = some 0 := by decide +kernel
    rw [resolve_path (path := "/oneOf/00".toList) (by decide), h, walk_member h1 (by rfl), walk_element h2 (by rfl), walk]
  obtain ⟨j, hj, h⟩ := selects_member h
  have : j = .arr [.bool true] := by
    have : List.lookup "oneOf".toList [("oneOf".toList, (Offer.J.arr [Offer.J.bool true] : Json))] = some (.arr [.bool true]) := by rfl
    rw [this] at hj; exact (Option.some.inj hj).symm
  subst this
  obtain ⟨i, hi⟩ := selects_element h
  have := head_ne_plus (i := i)
  rw [← hi] at this
  exact this (by decide)

end Tombi.Pointer
