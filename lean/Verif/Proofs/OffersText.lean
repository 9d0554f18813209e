import Verif.Proofs.Offers
import Verif.Proofs.SerializeWords
/-! What completion inserts is a literal for the value. -/
namespace Tombi.Offer
open Tombi.Spec
open SyntaxKind
open Tombi.Reading (LiteralMeans)

variable {F : Type}

theorem quoteText_decodes (v : TomlVersion) : (s : Text) → (∀ c ∈ s, Literal c) → Decodes toml v false (quoteText s) s
  | [], _ => .nil
  | c :: s, h => by
    have ih := quoteText_decodes v s fun x hx => h x (by simp [hx])
    by_cases hc : c = '"'
    · subst hc
      exact .esc '"' '"' rfl ih
    · have : quoteText (c :: s) = c :: quoteText s := by simp [quoteText, hc]
      rw [this]
      exact .chr c (h c (by simp)) ih

theorem quoteText_items : (s : Text) → (∀ c ∈ s, Literal c) → BasicString ('"' :: (quoteText s ++ ['"'])) := by
  intro s h
  refine ⟨s.map fun c => if c = '"' then Item.esc '"' else Item.chr c, ?_, ?_⟩
  · intro i hi
    obtain ⟨c, hc, rfl⟩ := List.mem_map.mp hi
    obtain ⟨h2, h3⟩ := h c hc
    by_cases he : c = '"'
    · rw [if_pos he]; exact ⟨by decide, by decide⟩
    · rw [if_neg he]
      refine ⟨he, h2, ?_, ?_⟩ <;> (rintro rfl; revert h3; decide)
  · congr 2
    clear h
    induction s with
    | nil => rfl
    | cons c s ih =>
      by_cases he : c = '"'
      · subst he
        simpa [render, Item.text, quoteText] using ih
      · simpa [render, Item.text, quoteText, he] using ih

theorem insertText_writes {fl : Floats F} (v : TomlVersion) {x : J F} {t : Text} (hw : Writable fl x) (h : insertText fl x = some t) :
    Writes fl v x t := by
  cases x with
  | null => cases h
  | bool b =>
    cases b <;> cases h
    · exact ⟨BOOLEAN, _, rfl, .boolean (.inr ((Rx.matchAll_iff _ _).mp (by decide))), .false_⟩
    · exact ⟨BOOLEAN, _, rfl, .boolean (.inl ((Rx.matchAll_iff _ _).mp (by decide))), .true_⟩
  | int i =>
    cases h
    refine ⟨INTEGER_DEC, .integer i, rfl, .dec (Serializing.showInt_lang i), ?_⟩
    have := LiteralMeans.dec (v := v) (t := Serializing.showInt i) (by rw [Serializing.showInt_value]; exact hw)
    rw [Serializing.showInt_value] at this
    exact this
  | float f =>
    cases h
    refine ⟨FLOAT, .float (fl.text f), rfl, .float hw.1, ?_⟩
    have := LiteralMeans.float (v := v) (t := fl.text f)
    have e : (fl.text f).filter (· ≠ '_') = fl.text f := List.filter_eq_self.mpr fun c hc => by
      simpa using fun e : c = '_' => hw.2 (e ▸ hc)
    rw [e] at this
    exact this
  | str s =>
    cases h
    exact ⟨BASIC_STRING, .string s, rfl, .basic (quoteText_items s hw), .basic (quoteText_decodes v s hw)⟩
  | arr _ => cases h
  | obj _ => cases h

theorem insertText_some {fl : Floats F} {x : J F} {s : Reading.Scalar} (h : scalarOf fl x = some s) : ∃ t, insertText fl x = some t := by
  cases x with
  | bool b => cases b <;> exact ⟨_, rfl⟩
  | null => cases h
  | arr _ => cases h
  | obj _ => cases h
  | _ => exact ⟨_, rfl⟩

theorem scalar_same {fl : Floats F} {x y : J F} {s : Reading.Scalar} (h : SameJson y x) (hs : scalarOf fl x = some s) : y = x := by
  unfold SameJson at h
  cases x <;> simp only [scalarOf, reduceCtorEq] at hs <;> cases y <;> simp [J.sorted] at h
  all_goals rw [h]

end Tombi.Offer
