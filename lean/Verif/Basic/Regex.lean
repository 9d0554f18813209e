/-!
Regular expressions: abstract syntax, textbook language semantics, and a derivative matcher that
is proved to decide that semantics. The `regex` crate itself is trusted to implement the textbook
semantics for the anchored patterns used by the lexer.
-/
namespace Tombi

/-- Abstract syntax of the regular expressions used in tombi. -/
inductive Rx where
  | void
  | eps
  /-- a character class, given by inclusive ranges -/
  | cls (ranges : List (Char × Char))
  | cat (a b : Rx)
  | alt (a b : Rx)
  | star (a : Rx)
  deriving DecidableEq, Repr

/-- Kleene closure of a language. -/
inductive StarL (L : List Char → Prop) : List Char → Prop where
  | nil : StarL L []
  | cons (u v : List Char) : L u → StarL L v → StarL L (u ++ v)

namespace Rx

/-- Membership in a character class. -/
def inCls (c : Char) (rs : List (Char × Char)) : Bool :=
  rs.any fun r => decide (r.1 ≤ c) && decide (c ≤ r.2)

/-- Textbook semantics: the set of texts matched in full. -/
def Lang : Rx → List Char → Prop
  | .void, _ => False
  | .eps, w => w = []
  | .cls rs, w => ∃ c, w = [c] ∧ inCls c rs = true
  | .cat a b, w => ∃ u v, w = u ++ v ∧ Lang a u ∧ Lang b v
  | .alt a b, w => Lang a w ∨ Lang b w
  | .star a, w => StarL (Lang a) w

def nullable : Rx → Bool
  | .void => false
  | .eps => true
  | .cls _ => false
  | .cat a b => nullable a && nullable b
  | .alt a b => nullable a || nullable b
  | .star _ => true

/-- Smart constructors keep derivatives small. -/
def mkCat : Rx → Rx → Rx
  | .void, _ => .void
  | .eps, b => b
  | a, b => .cat a b

def mkAlt : Rx → Rx → Rx
  | .void, b => b
  | a, .void => a
  | a, b => .alt a b

/-- Brzozowski derivative. -/
def deriv (c : Char) : Rx → Rx
  | .void => .void
  | .eps => .void
  | .cls rs => if inCls c rs then .eps else .void
  | .cat a b =>
    if nullable a then mkAlt (mkCat (deriv c a) b) (deriv c b) else mkCat (deriv c a) b
  | .alt a b => mkAlt (deriv c a) (deriv c b)
  | .star a => mkCat (deriv c a) (.star a)

/-- Full match. -/
def matchAll (r : Rx) : List Char → Bool
  | [] => nullable r
  | c :: cs => matchAll (deriv c r) cs

/-- `r?` -/
def opt (r : Rx) : Rx := .alt r .eps
/-- `r+` -/
def plus (r : Rx) : Rx := .cat r (.star r)
/-- `r{n}` -/
def rep (r : Rx) : Nat → Rx
  | 0 => .eps
  | n + 1 => .cat r (rep r n)
/-- a single character -/
def ch (c : Char) : Rx := .cls [(c, c)]
/-- a literal text -/
def lit : List Char → Rx
  | [] => .eps
  | c :: cs => .cat (ch c) (lit cs)
/-- concatenation of several expressions -/
def seq : List Rx → Rx
  | [] => .eps
  | r :: rs => .cat r (seq rs)

theorem lang_mkCat (a b : Rx) (w : List Char) : (mkCat a b).Lang w ↔ (Rx.cat a b).Lang w := by
  cases a <;> simp only [mkCat, Lang, false_and, and_false, exists_false]
  constructor
  · intro h; exact ⟨[], w, rfl, rfl, h⟩
  · rintro ⟨u, v, rfl, rfl, h⟩; exact h

theorem lang_mkAlt (a b : Rx) (w : List Char) : (mkAlt a b).Lang w ↔ (Rx.alt a b).Lang w := by
  cases a <;> cases b <;> simp [mkAlt, Lang]

theorem nullable_iff (r : Rx) : r.nullable = true ↔ r.Lang [] := by
  induction r with
  | void => simp [nullable, Lang]
  | eps => simp [nullable, Lang]
  | cls rs => simp [nullable, Lang]
  | cat a b iha ihb =>
    simp only [nullable, Bool.and_eq_true, Lang, iha, ihb]
    constructor
    · rintro ⟨h1, h2⟩; exact ⟨[], [], rfl, h1, h2⟩
    · rintro ⟨u, v, h, h1, h2⟩
      have := List.append_eq_nil_iff.mp h.symm
      rw [this.1] at h1; rw [this.2] at h2; exact ⟨h1, h2⟩
  | alt a b iha ihb => simp [nullable, Lang, iha, ihb]
  | star a _ => simp [nullable, Lang]; exact StarL.nil

theorem star_cons_inv {L : List Char → Prop} {c : Char} {w : List Char} (h : StarL L (c :: w)) :
    ∃ u v, w = u ++ v ∧ L (c :: u) ∧ StarL L v := by
  generalize hx : c :: w = x at h
  induction h with
  | nil => cases hx
  | cons u v hu hv ih =>
    cases u with
    | nil => exact ih hx
    | cons d u' =>
      simp at hx
      obtain ⟨rfl, rfl⟩ := hx
      exact ⟨u', v, rfl, hu, hv⟩

theorem deriv_iff (c : Char) (r : Rx) (w : List Char) : (deriv c r).Lang w ↔ r.Lang (c :: w) := by
  induction r generalizing w with
  | void => simp [deriv, Lang]
  | eps => simp [deriv, Lang]
  | cls rs =>
    by_cases h : inCls c rs = true
    · simp only [deriv, h, if_true, Lang]
      constructor
      · rintro rfl; exact ⟨c, rfl, h⟩
      · rintro ⟨d, hd, _⟩; simp at hd; exact hd.2
    · simp only [deriv, h, Lang]
      constructor
      · intro hf; exact absurd hf (by simp [Lang])
      · rintro ⟨d, hd, hc⟩; simp at hd; rw [← hd.1] at hc; exact absurd hc h
  | cat a b iha ihb =>
    have key : (Rx.cat (deriv c a) b).Lang w ↔ ∃ u v, w = u ++ v ∧ a.Lang (c :: u) ∧ b.Lang v := by
      simp only [Lang, iha]
    by_cases h : nullable a = true
    · simp only [deriv, h, if_true, lang_mkAlt]
      simp only [Lang, lang_mkCat, iha, ihb]
      constructor
      · rintro (⟨u, v, rfl, h1, h2⟩ | h1)
        · exact ⟨c :: u, v, rfl, h1, h2⟩
        · exact ⟨[], c :: w, rfl, (nullable_iff a).mp h, h1⟩
      · rintro ⟨u, v, huv, h1, h2⟩
        cases u with
        | nil => simp at huv; subst huv; exact Or.inr h2
        | cons d u' =>
          simp at huv; obtain ⟨rfl, rfl⟩ := huv
          exact Or.inl ⟨u', v, rfl, h1, h2⟩
    · simp only [deriv, h]
      constructor
      · intro hw
        obtain ⟨u, v, rfl, h1, h2⟩ := key.mp (by simpa [lang_mkCat] using hw)
        exact ⟨c :: u, v, rfl, h1, h2⟩
      · rintro ⟨u, v, huv, h1, h2⟩
        cases u with
        | nil => exact absurd ((nullable_iff a).mpr h1) h
        | cons d u' =>
          simp at huv; obtain ⟨rfl, rfl⟩ := huv
          simp only [Bool.false_eq_true, if_false, lang_mkCat]
          exact key.mpr ⟨u', v, rfl, h1, h2⟩
  | alt a b iha ihb => simp only [deriv, lang_mkAlt]; simp only [Lang, iha, ihb]
  | star a iha =>
    simp only [deriv, lang_mkCat]
    simp only [Lang, iha]
    constructor
    · rintro ⟨u, v, rfl, h1, h2⟩
      exact StarL.cons (c :: u) v h1 h2
    · intro h; exact star_cons_inv h

/-- The matcher decides the language. -/
theorem matchAll_iff (r : Rx) (w : List Char) : r.matchAll w = true ↔ r.Lang w := by
  induction w generalizing r with
  | nil => simp [matchAll, nullable_iff]
  | cons c cs ih => simp [matchAll, ih, deriv_iff]

end Rx
end Tombi
