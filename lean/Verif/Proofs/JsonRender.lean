import Verif.Proofs.JsonComplete
/-! Standard JSON texts are texts of tombi's dialect; every value has a standard text. -/
namespace Tombi.Json
open Tombi.Spec Tombi.Spec.Json

theorem rfcLines_ws {w : List Char} (h : rfcLines.ws w) : TombiWs w := by
  obtain ⟨h1, h2⟩ := h
  have key : ∀ n (w : List Char), w.length ≤ n → RfcWs w →
      (∀ a b, w = a ++ '\r' :: b → ∃ c, b = '\n' :: c) → TombiWs w := by
    intro n
    induction n with
    | zero => intro w hl _ _; simp at hl; subst hl; exact .nil
    | succ n ih =>
      intro w hl h1 h2
      cases w with
      | nil => exact .nil
      | cons c w =>
        have ht : w.length ≤ n := by simp at hl; omega
        have h1' : RfcWs w := fun d hd => h1 d (by simp [hd])
        have h2' : ∀ a b, w = a ++ '\r' :: b → ∃ c, b = '\n' :: c := by
          intro a b hab
          exact h2 (c :: a) b (by simp [hab])
        rcases h1 c (by simp) with rfl | rfl | rfl | rfl
        · exact .space _ (ih w ht h1' h2')
        · exact .tab _ (ih w ht h1' h2')
        · exact .lf 0 w (ih w ht h1' h2')
        · obtain ⟨v, rfl⟩ := h2 [] w rfl
          refine .crlf v (ih v (by simp at ht; omega) (fun d hd => h1' d (by simp [hd])) ?_)
          intro a b hab
          exact h2' ('\n' :: a) b (by simp [hab])
  exact key _ w (Nat.le_refl _) h1 h2

theorem rfcNumber_tombi {w : List Char} (h : RfcNumber w) : TombiNumber w := by
  obtain ⟨s, i, f, e, h1, h2⟩ := h
  exact ⟨s, i, f, e, h1, .inl h2⟩

/-- the grammar is monotone in the dialect -/
structure Dialect.le (D D' : Dialect) : Prop where
  ws : ∀ {w}, D.ws w → D'.ws w
  number : ∀ {w}, D.number w → D'.number w
  trailing : D.trailingComma → D'.trailingComma

theorem value_mono {D D' : Dialect} (hD : Dialect.le D D') {v : Val} {t : List Char}
    (h : Value D v t) : Value D' v t :=
  Value.rec (motive_1 := fun v t _ => Value D' v t) (motive_2 := fun xs t _ => Items D' xs t)
    (motive_3 := fun ms t _ => Members D' ms t) (motive_4 := fun k x t _ => Member D' k x t)
    .null .true .false (fun w h => .num w (hD.number h)) (fun b s h => .str b s h)
    (fun w h => .arrEmpty w (hD.ws h)) (fun xs t _ ih => .arr xs t ih)
    (fun w h => .objEmpty w (hD.ws h)) (fun ms t _ ih => .obj ms t ih)
    (fun a t b x h1 _ h3 ih => .one a t b x (hD.ws h1) ih (hD.ws h3))
    (fun a t b c x h0 h1 _ h3 h4 ih =>
      .trailing a t b c x (hD.trailing h0) (hD.ws h1) ih (hD.ws h3) (hD.ws h4))
    (fun a t b r x xs h1 _ h3 _ ih1 ih2 => .cons a t b r x xs (hD.ws h1) ih1 (hD.ws h3) ih2)
    (fun a t b k x h1 _ h3 ih => .one a t b k x (hD.ws h1) ih (hD.ws h3))
    (fun a t b c k x h0 h1 _ h3 h4 ih =>
      .trailing a t b c k x (hD.trailing h0) (hD.ws h1) ih (hD.ws h3) (hD.ws h4))
    (fun a t b r k x xs h1 _ h3 _ ih1 ih2 => .cons a t b r k x xs (hD.ws h1) ih1 (hD.ws h3) ih2)
    (fun k b w1 w2 t x h1 h2 h3 _ ih => .mk k b w1 w2 t x h1 (hD.ws h2) (hD.ws h3) ih)
    h

theorem rfcLines_value {v : Val} {t : List Char} (h : Value rfcLines v t) : Value tombi v t :=
  value_mono ⟨rfcLines_ws, rfcNumber_tombi, fun _ => trivial⟩ h

/-! ### rendering -/

theorem hexDigit_hexChar {n : Nat} (h : n < 16) : hexDigit (hexChar n) = some n := by
  have : ∀ k : Fin 16, hexDigit (hexChar k.val) = some k.val := by decide
  exact this ⟨n, h⟩

theorem render_decodes (s : List Char) : Decodes (s.flatMap renderChar) s := by
  induction s with
  | nil => exact .nil
  | cons c s ih =>
    rw [List.flatMap_cons]
    unfold renderChar
    split
    · next h => subst h; exact .escape '"' '"' _ _ (by decide) ih
    split
    · next h => subst h; exact .escape '\\' '\\' _ _ (by decide) ih
    split
    · next h =>
      have := Decodes.unicode ['0', '0', hexChar (c.toNat / 16), hexChar (c.toNat % 16)] c _ _
        ⟨'0', '0', _, _, 0, 0, c.toNat / 16, c.toNat % 16, rfl, by decide, by decide,
          hexDigit_hexChar (by omega), hexDigit_hexChar (by omega), by omega⟩ ih
      exact this
    · next h1 h2 h3 => exact .plain c _ _ (by omega) h1 h2 ih

theorem nil_ws : rfcLines.ws [] := ⟨by intro c hc; simp at hc, by intro a b h; simp at h⟩

mutual
theorem render_value : (v : Val) → RfcNumbers v → Value rfcLines v (render v)
  | .null, _ => .null
  | .bool true, _ => .true
  | .bool false, _ => .false
  | .num w, h => .num w h
  | .str s, _ => .str _ s (render_decodes s)
  | .arr [], _ => .arrEmpty [] nil_ws
  | .arr (x :: xs), h => .arr _ _ (render_items (x :: xs) (by simp) h)
  | .obj [], _ => .objEmpty [] nil_ws
  | .obj (m :: ms), h => .obj _ _ (render_members (m :: ms) (by simp) h)
theorem render_items : (xs : List Val) → xs ≠ [] → RfcNumbersAll xs →
    Items rfcLines xs (renderItems xs)
  | [], h, _ => absurd rfl h
  | [x], _, h => by
    have := Items.one [] (render x) [] x nil_ws (render_value x h.1) nil_ws
    simpa [renderItems] using this
  | x :: y :: xs, _, h => by
    have := Items.cons [] (render x) [] _ x _ nil_ws (render_value x h.1) nil_ws
      (render_items (y :: xs) (by simp) h.2)
    simpa [renderItems] using this
theorem render_members : (ms : List (List Char × Val)) → ms ≠ [] → RfcNumbersMembers ms →
    Members rfcLines ms (renderMembers ms)
  | [], h, _ => absurd rfl h
  | [(k, x)], _, h => by
    have hm := Member.mk k _ [] [] (render x) x (render_decodes k) nil_ws nil_ws (render_value x h.1)
    have := Members.one [] _ [] k x nil_ws hm nil_ws
    simpa [renderMembers, renderString] using this
  | (k, x) :: y :: ms, _, h => by
    have hm := Member.mk k _ [] [] (render x) x (render_decodes k) nil_ws nil_ws (render_value x h.1)
    have := Members.cons [] _ [] _ k x _ nil_ws hm nil_ws (render_members (y :: ms) (by simp) h.2)
    simpa [renderMembers, renderString] using this
end

end Tombi.Json
