/-!
Shared vocabulary on texts. A text is a `List Char`; Lean's `Char` is a Unicode scalar value,
exactly like Rust's `char`.
-/
deriving instance DecidableEq for Except

namespace Tombi

/-- UTF-8 byte length of a text (`str::len`). -/
def utf8Len : List Char → Nat
  | [] => 0
  | c :: cs => c.utf8Size + utf8Len cs

@[simp] theorem utf8Len_nil : utf8Len [] = 0 := rfl
@[simp] theorem utf8Len_cons (c : Char) (cs : List Char) :
    utf8Len (c :: cs) = c.utf8Size + utf8Len cs := rfl

@[simp] theorem utf8Len_append (a b : List Char) : utf8Len (a ++ b) = utf8Len a + utf8Len b := by
  induction a with
  | nil => simp
  | cons c cs ih => simp [ih, Nat.add_assoc]

theorem utf8Len_pos {s : List Char} (h : s ≠ []) : 0 < utf8Len s := by
  cases s with
  | nil => exact absurd rfl h
  | cons c cs => have := c.utf8Size_pos; simp; omega

theorem length_le_utf8Len (s : List Char) : s.length ≤ utf8Len s := by
  induction s with
  | nil => simp
  | cons c cs ih => have := c.utf8Size_pos; simp; omega

/-- `&s[n..]` on a `str`: the suffix starting at byte `n`; `none` = panic (out of range or not on a
character boundary). -/
def byteDrop (n : Nat) : List Char → Option (List Char)
  | [] => if n = 0 then some [] else none
  | c :: cs =>
    if n = 0 then some (c :: cs)
    else if c.utf8Size ≤ n then byteDrop (n - c.utf8Size) cs
    else none

/-- `&s[..n]` on a `str`: the prefix of `n` bytes; `none` = panic (out of range or not on a
character boundary). Structural in the text. -/
def byteTake (n : Nat) : List Char → Option (List Char)
  | [] => if n = 0 then some [] else none
  | c :: cs =>
    if n = 0 then some []
    else if c.utf8Size ≤ n then (byteTake (n - c.utf8Size) cs).map (c :: ·)
    else none

theorem byteDrop_append (a b : List Char) : byteDrop (utf8Len a) (a ++ b) = some b := by
  induction a with
  | nil => cases b <;> simp [byteDrop]
  | cons c cs ih =>
    have h : c.utf8Size ≠ 0 := Nat.ne_of_gt c.utf8Size_pos
    simp [byteDrop, h, ih]

theorem byteTake_append (a b : List Char) : byteTake (utf8Len a) (a ++ b) = some a := by
  induction a with
  | nil => cases b <;> simp [byteTake]
  | cons c cs ih =>
    have h : c.utf8Size ≠ 0 := Nat.ne_of_gt c.utf8Size_pos
    simp [byteTake, h, ih]

/-- `&s[a..b]` on a `str`: `none` = panic (out of range, `a > b`, or not on character
boundaries). -/
def byteSlice (a b : Nat) (s : List Char) : Option (List Char) :=
  if a ≤ b then
    match byteDrop a s with
    | some t => byteTake (b - a) t
    | none => none
  else none

theorem byteSlice_append (a m b : List Char) :
    byteSlice (utf8Len a) (utf8Len a + utf8Len m) (a ++ m ++ b) = some m := by
  simp [byteSlice, byteDrop_append, List.append_assoc, byteTake_append]

end Tombi
