import Verif.Model.TokenSet
import Verif.Model.Tree
/-! A token set contains exactly the kinds it was built from. -/
namespace Tombi
namespace TokenSet

theorem toNat_lt (k : SyntaxKind) : k.toNat < 64 := by cases k <;> decide

theorem ofNat?_toNat (k : SyntaxKind) : SyntaxKind.ofNat? k.toNat = some k := by cases k <;> rfl

theorem toNat_inj {a b : SyntaxKind} (h : a.toNat = b.toNat) : a = b := by
  have := ofNat?_toNat a
  rw [h, ofNat?_toNat b] at this
  exact (Option.some.inj this).symm

/-- bit `i` of word 0 -/
def bit (s : TokenSet) (i : Nat) : Bool := (s.words[0]?.getD 0#64).getLsbD i

theorem and_shl_ne_zero (w : BitVec 64) (i : Nat) (h : i < 64) :
    (w &&& (1#64 <<< i) != 0#64) = w.getLsbD i := by
  rw [Bool.eq_iff_iff]
  simp only [bne_iff_ne]
  constructor
  · intro hne
    apply Classical.byContradiction
    intro hb
    apply hne
    apply BitVec.eq_of_getLsbD_eq
    intro j hj
    by_cases hij : i = j
    · subst hij; simp at hb; simp [hb]
    · simp only [BitVec.getLsbD_and, BitVec.getLsbD_shiftLeft, BitVec.getLsbD_zero]
      by_cases hlt : j < i
      · simp [hlt]
      · simp [hlt, hj]
        intro _
        omega
  · intro hb hz
    have := congrArg (fun v => BitVec.getLsbD v i) hz
    rw [BitVec.getLsbD_and, hb] at this
    simp [h] at this

theorem contains_eq_bit (s : TokenSet) (k : SyntaxKind) : s.contains k = s.bit k.toNat := by
  have h := toNat_lt k
  unfold contains bit
  simp only []
  rw [Nat.div_eq_of_lt h, Nat.mod_eq_of_lt h]
  exact and_shl_ne_zero _ _ h

theorem bit_insert (s : TokenSet) (hs : 0 < s.words.length) (k : SyntaxKind) (i : Nat) (hi : i < 64) :
    (s.insert k).bit i = (s.bit i || i == k.toNat) ∧ 0 < (s.insert k).words.length := by
  have h := toNat_lt k
  constructor
  · unfold insert bit
    simp only [Nat.div_eq_of_lt h, Nat.mod_eq_of_lt h]
    obtain ⟨ws⟩ := s
    cases ws with
    | nil => simp at hs
    | cons w ws =>
      simp
      by_cases hik : i = k.toNat
      · subst hik; simp [h]
      · have h1 : (i == k.toNat) = false := by simpa using hik
        have h2 : (!decide (i < k.toNat) && decide (i - k.toNat = 0)) = false := by
          rw [Bool.and_eq_false_iff]
          by_cases hlt : i < k.toNat
          · simp [hlt]
          · right; simp; omega
        simp [hi, h1, h2]
  · simpa [insert] using hs

theorem foldl_bit (kinds : List SyntaxKind) (s : TokenSet) (hs : 0 < s.words.length) (i : Nat)
    (hi : i < 64) :
    (kinds.foldl insert s).bit i = (s.bit i || kinds.any (fun k => i == k.toNat)) := by
  induction kinds generalizing s with
  | nil => simp
  | cons k ks ih =>
    simp only [List.foldl_cons, List.any_cons]
    obtain ⟨h1, h2⟩ := bit_insert s hs k i hi
    rw [ih _ h2, h1, Bool.or_assoc]

theorem contains_new (kinds : List SyntaxKind) (k : SyntaxKind) :
    (TokenSet.new kinds).contains k = true ↔ k ∈ kinds := by
  rw [contains_eq_bit, new, foldl_bit kinds _ (by simp) _ (toNat_lt k)]
  simp [bit]
  constructor
  · rintro ⟨a, ha, h⟩; rwa [toNat_inj h]
  · intro h; exact ⟨k, h, rfl⟩

end TokenSet
end Tombi
