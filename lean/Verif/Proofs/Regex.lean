import Verif.Basic.Text
import Verif.Basic.Regex
import Verif.Model.Lexer
/-! Helper lemmas about regular expressions: alphabet, fixed length, prefix matching. -/
namespace Tombi
namespace Rx

/-- all characters of matched texts are below `n` -/
def charsBelow (n : Nat) : Rx → Bool
  | .void => true
  | .eps => true
  | .cls rs => rs.all fun r => decide (r.2.toNat < n)
  | .cat a b => charsBelow n a && charsBelow n b
  | .alt a b => charsBelow n a && charsBelow n b
  | .star a => charsBelow n a

theorem charsBelow_lang {n : Nat} {r : Rx} (h : r.charsBelow n = true) {w : List Char} (hw : r.Lang w) :
    ∀ c ∈ w, c.toNat < n := by
  induction r generalizing w with
  | void => exact absurd hw (by simp [Lang])
  | eps => simp [Lang] at hw; simp [hw]
  | cls rs =>
    obtain ⟨c, rfl, hc⟩ := hw
    simp [inCls] at hc
    obtain ⟨a, b, hm, h1, h2⟩ := hc
    simp [charsBelow] at h
    intro d hd
    simp at hd
    subst hd
    have := h a b hm
    exact Nat.lt_of_le_of_lt h2 this
  | cat a b iha ihb =>
    simp [charsBelow] at h
    obtain ⟨u, v, rfl, hu, hv⟩ := hw
    intro c hc
    rcases List.mem_append.mp hc with hc | hc
    · exact iha h.1 hu c hc
    · exact ihb h.2 hv c hc
  | alt a b iha ihb =>
    simp [charsBelow] at h
    rcases hw with hw | hw
    · exact iha h.1 hw
    · exact ihb h.2 hw
  | star a iha =>
    simp [charsBelow] at h
    simp only [Lang] at hw
    induction hw with
    | nil => simp
    | cons u v hu _ ih =>
      intro c hc
      rcases List.mem_append.mp hc with hc | hc
      · exact iha h hu c hc
      · exact ih c hc

/-- the length of all matched texts, if it is fixed -/
def fixedLen : Rx → Option Nat
  | .void => none
  | .eps => some 0
  | .cls _ => some 1
  | .cat a b => do return (← fixedLen a) + (← fixedLen b)
  | .alt a b => do
    let x ← fixedLen a
    let y ← fixedLen b
    if x = y then some x else none
  | .star _ => none

theorem fixedLen_lang {n : Nat} {r : Rx} (h : r.fixedLen = some n) {w : List Char}
    (hw : r.Lang w) : w.length = n := by
  induction r generalizing w n with
  | void => simp [fixedLen] at h
  | eps => simp [fixedLen] at h; simp [Lang] at hw; simp [hw, ← h]
  | cls rs => simp [fixedLen] at h; obtain ⟨c, rfl, _⟩ := hw; simp [← h]
  | cat a b iha ihb =>
    obtain ⟨u, v, rfl, hu, hv⟩ := hw
    simp only [fixedLen] at h
    cases ha : a.fixedLen with
    | none => simp [ha] at h
    | some x =>
      cases hb : b.fixedLen with
      | none => simp [ha, hb] at h
      | some y =>
        simp [ha, hb] at h
        rw [List.length_append, iha ha hu, ihb hb hv, h]
  | alt a b iha ihb =>
    simp only [fixedLen] at h
    cases ha : a.fixedLen with
    | none => simp [ha] at h
    | some x =>
      cases hb : b.fixedLen with
      | none => simp [ha, hb] at h
      | some y =>
        simp [ha, hb] at h
        obtain ⟨rfl, rfl⟩ := h
        rcases hw with hw | hw
        · exact iha ha hw
        · exact ihb hb hw
  | star a _ => simp [fixedLen] at h

/-- every matched text only has characters of the class -/
def over (p : Char → Bool) : Rx → Bool
  | .void => true
  | .eps => true
  | .cls rs => rs.all fun r => (List.range (r.2.toNat + 1)).all fun n =>
      n < r.1.toNat || p (Char.ofNat n)
  | .cat a b => over p a && over p b
  | .alt a b => over p a && over p b
  | .star a => over p a

theorem over_lang {p : Char → Bool} {r : Rx} (h : r.over p = true) {w : List Char}
    (hw : r.Lang w) : ∀ c ∈ w, p c = true := by
  induction r generalizing w with
  | void => exact absurd hw (by simp [Lang])
  | eps => simp [Lang] at hw; simp [hw]
  | cls rs =>
    obtain ⟨c, rfl, hc⟩ := hw
    simp only [inCls, List.any_eq_true, Bool.and_eq_true, decide_eq_true_eq] at hc
    obtain ⟨⟨a, b⟩, hm, h1, h2⟩ := hc
    simp only [over, List.all_eq_true, List.mem_range] at h
    intro d hd
    simp at hd
    subst hd
    have h2' : d.toNat ≤ b.toNat := h2
    have h1' : a.toNat ≤ d.toNat := h1
    have := h (a, b) hm d.toNat (by show d.toNat < b.toNat + 1; omega)
    simp only [Bool.or_eq_true, decide_eq_true_eq] at this
    rcases this with h3 | h3
    · have h3' : d.toNat < a.toNat := h3
      omega
    · rwa [Char.ofNat_toNat] at h3
  | cat a b iha ihb =>
    simp [over] at h
    obtain ⟨u, v, rfl, hu, hv⟩ := hw
    intro c hc
    rcases List.mem_append.mp hc with hc | hc
    · exact iha h.1 hu c hc
    · exact ihb h.2 hv c hc
  | alt a b iha ihb =>
    simp [over] at h
    rcases hw with hw | hw
    · exact iha h.1 hw
    · exact ihb h.2 hw
  | star a iha =>
    simp [over] at h
    simp only [Lang] at hw
    induction hw with
    | nil => simp
    | cons u v hu _ ih =>
      intro c hc
      rcases List.mem_append.mp hc with hc | hc
      · exact iha h hu c hc
      · exact ih c hc

theorem matchPrefix_iff (r : Rx) (s : List Char) :
    r.matchPrefix s = true ↔ ∃ u v, s = u ++ v ∧ r.Lang u := by
  induction s generalizing r with
  | nil =>
    simp only [matchPrefix, nullable_iff]
    constructor
    · intro h; exact ⟨[], [], rfl, h⟩
    · rintro ⟨u, v, h, hu⟩
      have := List.append_eq_nil_iff.mp h.symm
      rwa [this.1] at hu
  | cons c cs ih =>
    simp only [matchPrefix, Bool.or_eq_true, nullable_iff, ih]
    constructor
    · rintro (h | ⟨u, v, rfl, hu⟩)
      · exact ⟨[], c :: cs, rfl, h⟩
      · exact ⟨c :: u, v, rfl, (deriv_iff c r u).mp hu⟩
    · rintro ⟨u, v, h, hu⟩
      cases u with
      | nil => exact Or.inl hu
      | cons d u' =>
        simp at h
        obtain ⟨rfl, rfl⟩ := h
        exact Or.inr ⟨u', v, rfl, (deriv_iff c r u').mpr hu⟩

theorem findEnd_some {r : Rx} {line : List Char} {e : Nat} (h : r.findEnd line = some e) :
    r.Lang line ∧ e = utf8Len line := by
  unfold findEnd at h
  split at h
  · next hm => simp at h; exact ⟨(matchAll_iff r line).mp hm, h.symm⟩
  · simp at h

theorem findEnd_of_lang {r : Rx} {line : List Char} (h : r.Lang line) :
    r.findEnd line = some (utf8Len line) := by
  simp [findEnd, (matchAll_iff r line).mpr h]

theorem findEnd_none {r : Rx} {line : List Char} : r.findEnd line = none ↔ ¬ r.Lang line := by
  unfold findEnd
  split
  · next hm => simp [(matchAll_iff r line).mp hm]
  · next hm => simp; exact fun h => hm ((matchAll_iff r line).mpr h)

end Rx

theorem utf8Size_ascii {c : Char} (h : c.toNat < 128) : c.utf8Size = 1 := by
  rw [Char.utf8Size_eq_one_iff]
  have : c.val.toNat < 128 := h
  exact UInt32.le_iff_toNat_le.mpr (by show c.val.toNat ≤ 127; omega)

theorem utf8Len_ascii {s : List Char} (h : ∀ c ∈ s, c.toNat < 128) : utf8Len s = s.length := by
  induction s with
  | nil => rfl
  | cons c cs ih =>
    simp only [utf8Len_cons, List.length_cons]
    rw [utf8Size_ascii (h c (by simp)), ih (fun d hd => h d (by simp [hd]))]
    omega

end Tombi
