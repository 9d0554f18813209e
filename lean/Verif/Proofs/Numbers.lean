import Verif.Spec.TomlGrammar
import Verif.Proofs.LexLoop
/-! Language inclusions between the lexer's regular expressions and the TOML grammar. -/
namespace Tombi
open Rx Spec

theorem lang_opt {r : Rx} {w : List Char} : (opt r).Lang w ↔ r.Lang w ∨ w = [] := Iff.rfl
theorem lang_cat {a b : Rx} {w : List Char} : (Rx.cat a b).Lang w ↔ ∃ u v, w = u ++ v ∧ a.Lang u ∧ b.Lang v :=
  Iff.rfl
theorem lang_alt {a b : Rx} {w : List Char} : (Rx.alt a b).Lang w ↔ a.Lang w ∨ b.Lang w := Iff.rfl
theorem lang_seq_nil {w : List Char} : (seq []).Lang w ↔ w = [] := Iff.rfl
theorem lang_seq_cons {r : Rx} {rs : List Rx} {w : List Char} :
    (seq (r :: rs)).Lang w ↔ ∃ u v, w = u ++ v ∧ r.Lang u ∧ (seq rs).Lang v := Iff.rfl
theorem lang_ch {c : Char} {w : List Char} : (ch c).Lang w ↔ w = [c] := by
  show (∃ d, w = [d] ∧ inCls d [(c, c)] = true) ↔ _
  constructor
  · rintro ⟨d, rfl, h⟩
    simp [inCls] at h
    rw [Char.le_antisymm h.1 h.2]
  · rintro rfl
    exact ⟨c, rfl, by simp [inCls]⟩
theorem lang_plus {r : Rx} {w : List Char} : (plus r).Lang w ↔ ∃ u v, w = u ++ v ∧ r.Lang u ∧ StarL r.Lang v :=
  Iff.rfl
theorem lang_star {r : Rx} {w : List Char} : (Rx.star r).Lang w ↔ StarL r.Lang w := Iff.rfl

theorem StarL.mono {L M : List Char → Prop} {P : List Char → Prop}
    (hP : ∀ u v, P (u ++ v) → P u ∧ P v) (h : ∀ w, P w → L w → M w) {w : List Char}
    (hw : StarL L w) (hp : P w) : StarL M w := by
  induction hw with
  | nil => exact .nil
  | cons u v hu _ ih => exact .cons u v (h u (hP u v hp).1 hu) (ih (hP u v hp).2)

theorem not_mem_split {c : Char} (u v : List Char) (h : c ∉ u ++ v) : c ∉ u ∧ c ∉ v := by
  simpa using h

/-- `(:?_?X)*` without a colon is `(X / _X)*` -/
theorem tail_sep {x y : Rx} {w : List Char} {P : List Char → Prop}
    (hP : ∀ u v, P (u ++ v) → P u ∧ P v) (hcol : ∀ w, P w → ':' ∉ w)
    (hxy : ∀ w, P w → x.Lang w → y.Lang w) (h : (LexRx.tail x).Lang w) (hp : P w) :
    (Rx.star (Toml.sep y)).Lang w := by
  refine StarL.mono hP ?_ h hp
  rintro w hw ⟨u1, v1, rfl, h1, u2, v2, rfl, h2, u3, v3, rfl, h3, rfl⟩
  have hs := hP _ _ hw
  have hs2 := hP _ _ hs.2
  have hs3 := hP _ _ hs2.2
  rcases h1 with h1 | rfl
  · rw [lang_ch] at h1
    subst h1
    exact absurd (by simp) (hcol _ hw)
  · have hy := hxy u3 hs3.1 h3
    rcases h2 with h2 | rfl
    · right
      exact ⟨u2, u3, by simp, h2, hy⟩
    · left; simpa using hy

theorem cls_lang {rs : List (Char × Char)} {w : List Char} :
    (Rx.cls rs).Lang w ↔ ∃ c, w = [c] ∧ inCls c rs = true := Iff.rfl

theorem hexInt_of {w : List Char} (h : LexRx.integerHex.Lang w) (hc : ':' ∉ w) : Toml.hexInt.Lang w := by
  obtain ⟨u1, v1, rfl, h1, u2, v2, rfl, h2, u3, v3, rfl, h3, u4, v4, rfl, h4, rfl⟩ := h
  refine ⟨u1, _, rfl, h1, u2, _, rfl, h2, u3, _, rfl, h3, u4, _, rfl, ?_, rfl⟩
  exact tail_sep (P := (':' ∉ ·)) (fun u v => not_mem_split u v) (fun _ h => h) (fun _ _ h => h) h4
    (by simp at hc; exact hc.2.2.2)

theorem octInt_of {w : List Char} (h : LexRx.integerOct.Lang w) (hc : ':' ∉ w) : Toml.octInt.Lang w := by
  obtain ⟨u1, v1, rfl, h1, u2, v2, rfl, h2, u3, v3, rfl, h3, u4, v4, rfl, h4, rfl⟩ := h
  refine ⟨u1, _, rfl, h1, u2, _, rfl, h2, u3, _, rfl, h3, u4, _, rfl, ?_, rfl⟩
  exact tail_sep (P := (':' ∉ ·)) (fun u v => not_mem_split u v) (fun _ h => h) (fun _ _ h => h) h4
    (by simp at hc; exact hc.2.2.2)

theorem bin01_of {w : List Char} (hp : '|' ∉ w) (h : LexRx.bin.Lang w) : Toml.digit01.Lang w := by
  obtain ⟨c, rfl, hc⟩ := h
  refine ⟨c, rfl, ?_⟩
  simp only [inCls, List.any_cons, List.any_nil, Bool.or_false, Bool.or_eq_true, Bool.and_eq_true,
    decide_eq_true_eq] at hc ⊢
  rcases hc with h | h | h
  · rw [← Char.le_antisymm h.1 h.2]; decide
  · rw [← Char.le_antisymm h.1 h.2] at hp; simp at hp
  · rw [← Char.le_antisymm h.1 h.2]; decide

theorem binInt_of {w : List Char} (h : LexRx.integerBin.Lang w) (hc : ':' ∉ w) (hb : '|' ∉ w) :
    Toml.binInt.Lang w := by
  obtain ⟨u1, v1, rfl, h1, u2, v2, rfl, h2, u3, v3, rfl, h3, u4, v4, rfl, h4, rfl⟩ := h
  simp only [List.mem_append, not_or] at hc hb
  refine ⟨u1, _, rfl, h1, u2, _, rfl, h2, u3, _, rfl, bin01_of hb.2.2.1 h3, u4, _, rfl, ?_, rfl⟩
  exact tail_sep (P := fun w => ':' ∉ w ∧ '|' ∉ w)
    (fun u v h => ⟨⟨(not_mem_split u v h.1).1, (not_mem_split u v h.2).1⟩,
      ⟨(not_mem_split u v h.1).2, (not_mem_split u v h.2).2⟩⟩) (fun _ h => h.1)
    (fun _ h => bin01_of h.2) h4 ⟨hc.2.2.2.1, hb.2.2.2.1⟩

theorem unsignedDecInt_of {w : List Char} (h : LexRx.integerDec.Lang w) (hc : ':' ∉ w) :
    Toml.unsignedDecInt.Lang w := by
  rcases h with h | h
  · obtain ⟨u1, v1, rfl, h1, u2, v2, rfl, h2, u3, v3, rfl, h3, rfl⟩ := h
    simp only [List.mem_append, not_or] at hc
    rcases h1 with h1 | rfl
    · rw [lang_ch] at h1; subst h1; exact absurd (by simp) hc.1
    · have h4 := tail_sep (P := (':' ∉ ·)) (fun u v => not_mem_split u v) (fun _ h => h)
        (fun _ _ h => h) h3 hc.2.2.1
      generalize hw : u3 = w at h4
      cases h4 with
      | nil =>
        left
        obtain ⟨c, rfl, h⟩ := h2
        subst hw
        refine ⟨c, by simp, ?_⟩
        simp [inCls] at h ⊢
        exact ⟨Char.le_trans (by decide) h.1, h.2⟩
      | cons a b ha hb => right; exact ⟨u2, a ++ b, by simp, h2, a, b, rfl, ha, hb⟩
  · left
    rw [lang_ch] at h
    subst h
    exact ⟨'0', rfl, by decide⟩

theorem digit_of_digitU {w : List Char} (hu : '_' ∉ w) (h : LexRx.digitU.Lang w) : Toml.digit.Lang w := by
  obtain ⟨c, rfl, hc⟩ := h
  refine ⟨c, rfl, ?_⟩
  simp only [inCls, List.any_cons, List.any_nil, Bool.or_false, Bool.or_eq_true, Bool.and_eq_true,
    decide_eq_true_eq] at hc ⊢
  rcases hc with h | h
  · exact h
  · rw [← Char.le_antisymm h.1 h.2] at hu; simp at hu

theorem plusDigit_of {w : List Char} (hu : '_' ∉ w) (h : (plus LexRx.digitU).Lang w) :
    (plus Toml.digit).Lang w := by
  obtain ⟨u, v, rfl, h1, h2⟩ := h
  have hs := not_mem_split u v hu
  exact ⟨u, v, rfl, digit_of_digitU hs.1 h1,
    StarL.mono (P := ('_' ∉ ·)) (fun u v => not_mem_split u v) (fun _ hp hl => digit_of_digitU hp hl) h2 hs.2⟩

theorem zeroPrefixable_of {w : List Char} (h : (plus Toml.digit).Lang w) :
    Toml.zeroPrefixableInt.Lang w := by
  obtain ⟨u, v, rfl, h1, h2⟩ := h
  exact ⟨u, v, rfl, h1, StarL.mono (P := fun _ => True) (fun _ _ _ => ⟨trivial, trivial⟩)
    (fun _ _ h => Or.inl h) h2 trivial⟩

theorem zeroPrefixedFloat_of {w : List Char} (h : LexRx.float.Lang w) (hc : ':' ∉ w) (hu : '_' ∉ w) :
    Toml.zeroPrefixedFloat.Lang w := by
  obtain ⟨a, b, rfl, h1, h2⟩ := h
  simp only [List.mem_append, not_or] at hc hu
  refine ⟨a, b, rfl, plusDigit_of hu.1 h1, ?_⟩
  rcases h2 with h2 | h2
  · obtain ⟨u1, v1, rfl, g1, u2, v2, rfl, g2, u3, v3, rfl, g3, u4, v4, rfl, g4, u5, v5, rfl, g5, rfl⟩ := h2
    simp only [List.mem_append, not_or] at hc hu
    have hexp : Toml.exp.Lang (u3 ++ (u4 ++ u5)) :=
      ⟨u3, _, rfl, g3, u4, u5, rfl, g4, u5, [], by simp,
        zeroPrefixable_of (plusDigit_of hu.2.2.2.2.2.1 g5), rfl⟩
    rcases g1 with g1 | rfl
    · rw [lang_ch] at g1; subst g1; exact absurd (by simp) hc.2.1
    · rcases g2 with g2 | rfl
      · obtain ⟨p1, q1, rfl, k1, p2, q2, rfl, k2, p3, q3, rfl, k3, rfl⟩ := g2
        simp only [List.mem_append, not_or] at hc hu
        rcases k1 with k1 | rfl
        · rw [lang_ch] at k1; subst k1; exact absurd (by simp) hc.2.2.1.1
        · right
          exact ⟨p2 ++ p3, u3 ++ (u4 ++ u5), by simp, ⟨p2, p3, rfl, k2, plusDigit_of hu.2.2.1.2.2.1 k3⟩,
            Or.inl hexp⟩
      · left; simpa using hexp
  · obtain ⟨u1, v1, rfl, g1, u2, v2, rfl, g2, rfl⟩ := h2
    simp only [List.mem_append, not_or] at hc hu
    right
    exact ⟨u1 ++ u2, [], by simp, ⟨u1, u2, rfl, g1, plusDigit_of hu.2.2.1 g2⟩, Or.inr rfl⟩

theorem dot_of {w : List Char} (hc : ',' ∉ w) (h : (Rx.cls [('.', '.'), (',', ',')]).Lang w) : w = ['.'] := by
  obtain ⟨c, rfl, h⟩ := h
  simp only [inCls, List.any_cons, List.any_nil, Bool.or_false, Bool.or_eq_true, Bool.and_eq_true,
    decide_eq_true_eq] at h
  rcases h with h | h
  · rw [Char.le_antisymm h.2 h.1]
  · rw [Char.le_antisymm h.2 h.1] at hc; simp at hc

theorem time_of {w : List Char} (h : LexRx.time.Lang w) (hcm : ',' ∉ w) :
    Toml.partialTime.Lang w ∨ Toml.laxTime.Lang w := by
  obtain ⟨u1, v1, rfl, h1, u2, v2, rfl, h2, u3, v3, rfl, h3, u4, v4, rfl, h4, u5, v5, rfl, h5, rfl⟩ := h
  simp only [List.mem_append, not_or] at hcm
  rcases h4 with ⟨p1, q1, rfl, k1, p2, q2, rfl, k2, rfl⟩ | rfl
  · rcases h5 with ⟨a1, b1, rfl, g1, a2, b2, rfl, g2, rfl⟩ | rfl
    · simp only [List.mem_append, not_or] at hcm
      have := dot_of hcm.2.2.2.2.1.1 g1
      subst this
      left
      refine ⟨u1, _, rfl, h1, u2, _, rfl, h2, u3, _, rfl, h3, p1 ++ (p2 ++ (['.'] ++ a2)), [], by simp,
        Or.inl ⟨p1, _, rfl, k1, p2, _, rfl, k2, ['.'] ++ a2, [], by simp,
          Or.inl ⟨['.'], a2, rfl, lang_ch.mpr rfl, g2⟩, rfl⟩, rfl⟩
    · left
      refine ⟨u1, _, rfl, h1, u2, _, rfl, h2, u3, _, rfl, h3, p1 ++ p2, [], by simp,
        Or.inl ⟨p1, _, rfl, k1, p2, [], by simp, k2, [], [], rfl, Or.inr rfl, rfl⟩, rfl⟩
  · rcases h5 with ⟨a1, b1, rfl, g1, a2, b2, rfl, g2, rfl⟩ | rfl
    · simp only [List.mem_append, not_or] at hcm
      have := dot_of hcm.2.2.2.2.1.1 g1
      subst this
      right
      exact ⟨u1, _, rfl, h1, u2, _, rfl, h2, u3, ['.'] ++ a2, by simp, h3, ['.'], _, rfl, lang_ch.mpr rfl,
        a2, [], by simp, g2, rfl⟩
    · left
      exact ⟨u1, _, rfl, h1, u2, _, rfl, h2, u3, [], by simp, h3, [], [], rfl, Or.inr rfl, rfl⟩

theorem comma_head {w : List Char} {P : Char → Bool} (hP : P ',' = false) {r : Rx} {a b : List Char}
    (ha : r.Lang a) (ho : r.over P = true) (hlen : r.fixedLen = some 2 ∨ r.fixedLen = some 10)
    (hw : w = a ++ b) (ht : ',' ∉ w.tail) : ',' ∉ w := by
  subst hw
  have hmem := Rx.over_lang ho ha
  cases a with
  | nil =>
    exfalso
    rcases hlen with h | h <;> (have := Rx.fixedLen_lang h ha; simp at this)
  | cons x xs =>
    simp only [List.cons_append, List.tail_cons] at ht
    simp only [List.cons_append, List.mem_cons, not_or]
    refine ⟨?_, ht⟩
    rintro rfl
    have := hmem ',' (by simp)
    rw [hP] at this
    simp at this

theorem sign_of {s : List Char} (h : IsSign s) : Toml.sign.Lang s := by
  rcases h with rfl | rfl | rfl
  · exact Or.inr rfl
  · exact Or.inl ⟨'+', rfl, by decide⟩
  · exact Or.inl ⟨'-', rfl, by decide⟩

end Tombi
