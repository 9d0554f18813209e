import Verif.Proofs.FileLex
/-! The grammar with fewer words has fewer texts. -/
namespace Tombi.TomlFile
open SyntaxKind
open Tombi.Format (AstKey)
open Tombi.Formatter
open Tombi.Spec

/-- The words of `L` are words of `L'`. -/
structure Words.Le (L L' : Words) : Prop where
  key : ∀ k, L.key k → L'.key k
  keyBeforeDot : ∀ k, L.keyBeforeDot k → L'.keyBeforeDot k
  literal : ∀ k t, L.literal k t → L'.literal k t
  beforeComma : ∀ g, L.beforeComma g → L'.beforeComma g

variable {L L' : Words}

theorem KeyText.mono (h : L.Le L') {ks : List AstKey} {t : Text} (hk : KeyText L ks t) : KeyText L' ks t := by
  induction hk with
  | last hk => exact .last (h.key _ hk)
  | dot hk ha hb _ ih => exact .dot (h.keyBeforeDot _ hk) ha hb ih

mutual
theorem Val.Text.mono (h : L.Le L') : (v : Val) → (t : Text) → v.Text L t → v.Text L' t
  | .lit k t, x, hv => by rw [Val.Text] at hv ⊢; exact ⟨h.literal _ _ hv.1, hv.2⟩
  | .array items, x, hv => by
    rw [Val.Text] at hv ⊢
    obtain ⟨t, hi, e⟩ := hv
    exact ⟨t, itemsText.mono h items t hi, e⟩
  | .table pairs, x, hv => by
    rw [Val.Text] at hv ⊢
    obtain ⟨t, hi, e⟩ := hv
    exact ⟨t, pairsText.mono h pairs t hi, e⟩
theorem Pair.Text.mono (h : L.Le L') : (p : Pair) → (t : Text) → p.Text L t → p.Text L' t
  | .mk ks v, x, hp => by
    rw [Pair.Text] at hp ⊢
    obtain ⟨k, a, b, t, hk, ha, hb, hv, e⟩ := hp
    exact ⟨k, a, b, t, hk.mono h, ha, hb, Val.Text.mono h v t hv, e⟩
theorem itemsText.mono (h : L.Le L') : (vs : List Val) → (t : Text) → itemsText L vs t → itemsText L' vs t
  | [], x, hv => by rw [itemsText] at hv ⊢; exact hv
  | v :: rest, x, hv => by
    rw [itemsText] at hv ⊢
    obtain ⟨g, t, g', hg, hv, ⟨h1, h2, h3⟩ | ⟨t', h1, h2, h3⟩⟩ := hv
    · exact ⟨g, t, g', hg, Val.Text.mono h v t hv, .inl ⟨h1, h2, h3⟩⟩
    · exact ⟨g, t, g', hg, Val.Text.mono h v t hv, .inr ⟨t', h.beforeComma _ h1, itemsText.mono h rest t' h2, h3⟩⟩
theorem pairsText.mono (h : L.Le L') : (ps : List Pair) → (t : Text) → pairsText L ps t → pairsText L' ps t
  | [], x, hv => by rw [pairsText] at hv ⊢; exact hv
  | p :: rest, x, hv => by
    rw [pairsText] at hv ⊢
    obtain ⟨g, t, g', hg, hv, ⟨h1, h2, h3⟩ | ⟨t', h1, h2, h3⟩⟩ := hv
    · exact ⟨g, t, g', hg, Pair.Text.mono h p t hv, .inl ⟨h1, h2, h3⟩⟩
    · exact ⟨g, t, g', hg, Pair.Text.mono h p t hv, .inr ⟨t', h.beforeComma _ h1, pairsText.mono h rest t' h2, h3⟩⟩
end

theorem HeaderText.mono (h : L.Le L') {arr : Bool} {ks : List AstKey} {t : Text} (hh : HeaderText L arr ks t) : HeaderText L' arr ks t := by
  obtain ⟨a, k, b, ha, hk, hb, e⟩ := hh
  exact ⟨a, k, b, ha, hk.mono h, hb, e⟩

theorem Lines.mono (h : L.Le L') {ps : List Pair} {ss : List Sec} {t : Text} (hl : Lines L ps ss t) : Lines L' ps ss t := by
  induction hl with
  | end_ hw hc => exact .end_ hw hc
  | blank hw hc hn _ ih => exact .blank hw hc hn ih
  | pairEnd hw hp hw' hc => exact .pairEnd hw (Pair.Text.mono h _ _ hp) hw' hc
  | pair hw hp hw' hc hn _ ih => exact .pair hw (Pair.Text.mono h _ _ hp) hw' hc hn ih
  | headerEnd hw hh hw' hc => exact .headerEnd hw (hh.mono h) hw' hc
  | header hw hh hw' hc hn _ ih => exact .header hw (hh.mono h) hw' hc hn ih

theorem usual_key (k : AstKey) (h : Words.usual.key k) : Words.toml.key k := by
  cases k with
  | bare t => exact ⟨h.1, h.2.1⟩
  | basic t => exact h
  | literal t => exact h

theorem usual_le : Words.usual.Le Words.toml :=
  ⟨usual_key, fun k h => usual_key k (before_key h), fun _ _ h => .inl h, fun _ h => tight_gap h⟩

end Tombi.TomlFile
